import Verif.Lemmas.GenModule
import Verif.Lemmas.GenSample
import Verif.Lemmas.TyEq
/-!
# C47, C48, C49: the schema compiler
-/
namespace Verif.Props

open Verif Spec

/-! ## C47: constraints -/

/-- The bounds of a constraint are determined. -/
theorem C47_determined {S : Int → Prop} {lo hi lo' hi' : Option Int} (h : Hull S lo hi) (h' : Hull S lo' hi') :
    lo = lo' ∧ hi = hi' := by
  obtain ⟨_, h1, h2⟩ := h
  obtain ⟨_, h1', h2'⟩ := h'
  constructor
  · cases lo with
    | none =>
      cases lo' with
      | none => rfl
      | some l =>
        obtain ⟨z, hz, hlt⟩ := h1 l
        have := h1'.2 z hz
        omega
    | some l =>
      cases lo' with
      | none =>
        obtain ⟨z, hz, hlt⟩ := h1' l
        have := h1.2 z hz
        omega
      | some l' =>
        have e1 := h1.2 _ h1'.1
        have e2 := h1'.2 _ h1.1
        rw [show l = l' by omega]
  · cases hi with
    | none =>
      cases hi' with
      | none => rfl
      | some l =>
        obtain ⟨z, hz, hlt⟩ := h2 l
        have := h2'.2 z hz
        omega
    | some l =>
      cases hi' with
      | none =>
        obtain ⟨z, hz, hlt⟩ := h2' l
        have := h2.2 z hz
        omega
      | some l' =>
        have e1 := h2.2 _ h2'.1
        have e2 := h2'.2 _ h2.1
        rw [show l = l' by omega]

/-- The class generated for `INTEGER (constraint)` has the bounds and the marker of the constraint.  Missing: the
constraints that are not `Ascending` (findings F36-F39, F49). -/
theorem C47_range_partial {env : List (String × PyObj)} {ν : List (String × Ty × Val)} {n : Notation}
    {lo hi : Option Int} {ext : Bool} {base : Ty} (hbase : env.lookup "IntegerType" = some (.cls base))
    (hν : ∀ s T v, ν.lookup s = some (T, v) → env.lookup (pyName s) = some (.val T v))
    (ha : Ascending ν n) (hr : RangeOf ν n lo hi ext) (ctx : Ctx) (name : String) :
    ∃ code, classOf ctx name (.simple .integer (some (.value n))) = .ok code ∧
      loadCode env code = .ok (.integer (.valueRange lo hi ext)) := by
  obtain ⟨c, h1, h2, h3, h4⟩ := range_ok hν ha hr
  refine ⟨.simple name .integer (some c), ?_, ?_⟩
  · simp only [classOf, constraintOf, Con.tuple, h1]; rfl
  · simp only [loadCode, Simple.cls, classNamed, hbase, h2, h3, h4, bind, Except.bind, pure, Except.pure]

/-- The same for `(SIZE(constraint))`.  Missing: the constraints that are not `AscendingSize` (in addition F40, F41). -/
theorem C47_size_partial {env : List (String × PyObj)} {ν : List (String × Ty × Val)} {con : Con} {s : SizeC}
    {T elem : Ty} {c' : SizeC} {e : TObj}
    (hbase : ∀ k : Simple, ∃ base, env.lookup k.cls = some (.cls base))
    (hseq : env.lookup "SequenceOfType" = some (.cls (.seqOf c' elem)))
    (he : env.lookup (pyName e.cls) = some (.cls T))
    (hν : ∀ s T v, ν.lookup s = some (T, v) → env.lookup (pyName s) = some (.val T v))
    (ha : AscendingSize ν con) (hs : SizeOf ν con s) (ctx : Ctx) (name : String) :
    (∃ code, classOf ctx name (.simple .octetString (some con)) = .ok code ∧ loadCode env code = .ok (.octetString s)) ∧
    (∃ code, classOf ctx name (.simple .bitString (some con)) = .ok code ∧ loadCode env code = .ok (.bitString s)) ∧
    ∃ code, classOf ctx name (.seqOf (some con) e) = .ok code ∧ loadCode env code = .ok (.seqOf s T) := by
  obtain ⟨c, p, h1, h2, h3, h4⟩ := size_ok hν ha hs
  refine ⟨⟨.simple name .octetString (some c), ?_, ?_⟩, ⟨.simple name .bitString (some c), ?_, ?_⟩,
    ⟨.seqOf name (some c) (mangle e.cls), ?_, ?_⟩⟩
  · simp only [classOf, constraintOf, h1]; rfl
  · obtain ⟨b, hb⟩ := hbase .octetString
    simp only [loadCode, classNamed, hb, h2, h3, h4, bind, Except.bind, pure, Except.pure]
  · simp only [classOf, constraintOf, h1]; rfl
  · obtain ⟨b, hb⟩ := hbase .bitString
    simp only [loadCode, classNamed, hb, h2, h3, h4, bind, Except.bind, pure, Except.pure]
  · simp only [classOf, constraintOf, h1]; rfl
  · simp only [loadCode, classNamed, hseq, mangle_eq, he, h2, h4, bind, Except.bind, pure, Except.pure]

/-- `INTEGER (0..top, ...)` with `top INTEGER ::= 7`; `OCTET STRING (SIZE(1..top))` -/
example : let ν : List (String × Ty × Val) := [("top", .integer .noConstraint, .int 7)]
    Ascending ν ⟨[[.range (.num 0) false (.ref "top") false]], true, []⟩ ∧
    RangeOf ν ⟨[[.range (.num 0) false (.ref "top") false]], true, []⟩ (some 0) (some 7) true ∧
    AscendingSize ν (.size ⟨[[.range (.num 1) false (.ref "top") false]], false, []⟩ false) ∧
    SizeOf ν (.size ⟨[[.range (.num 1) false (.ref "top") false]], false, []⟩ false) ⟨false, some 1, some 7⟩ := by
  have h : ∀ s, (End.num 0 = .ref s ∨ End.ref "top" = .ref s) ∨ End.num 1 = .ref s → '-' ∉ s.toList := by
    rintro s ((h | h) | h)
    · cases h
    · cases h; decide
    · cases h
  refine ⟨ascending_one _ .num (.ref rfl) (by decide) fun s hs => h s (.inl hs), rangeOf_one _ .num (.ref rfl) (by decide),
    ascendingSize_one (a := 1) (b := 7) _ .num (.ref rfl) (by decide) fun s hs => h s ?_,
    sizeOf_one (a := 1) (b := 7) _ _ .num (.ref rfl) (by decide)⟩
  rcases hs with hs | hs
  · exact .inr hs
  · exact .inl (.inr hs)

/-! ## C48: modules -/

/-- A generated module can be imported, and in it every name stands for the type or value that the schema declares; there
are no other names than those and the classes of the library.  Missing: schemas that are not `RegularAssign` (findings
F36-F52). -/
theorem C48_compiled_partial {as : List Assign} {τ : List (String × Ty)} {ν : List (String × Ty × Val)} (hn : Names as)
    (h : Declares (RegularAssign as) as τ ν) :
    ∃ st, compile as = .ok st ∧
      (∀ n T, τ.lookup n = some T → st.env.lookup (pyName n) = some (.cls T)) ∧
      (∀ n T v, ν.lookup n = some (T, v) → st.env.lookup (pyName n) = some (.val T v)) ∧
      (∀ x o, header.lookup x = some o → st.env.lookup x = some o) ∧
      ∀ x o, st.env.lookup x = some o → header.lookup x = some o ∨ (∃ n ∈ typeNames as, x = pyName n) ∨
        ∃ n ∈ valueNames as, x = pyName n := by
  obtain ⟨st, h1, hi⟩ := compile_ok hn h
  exact ⟨⟨st.env⟩, h1, fun n T hT => (hi.types n T hT).2, fun n T v hv => (hi.values n T v hv).2, hi.builtin, hi.only⟩

/-- `τ` and `ν` are about all names that are assigned. -/
theorem C48_all {Q : List (String × Ty) → List (String × Ty × Val) → Assign → Prop} {as : List Assign}
    {τ : List (String × Ty)} {ν : List (String × Ty × Val)} (h : Declares Q as τ ν) :
    (τ.map Prod.fst).reverse = typeNames as ∧ (ν.map Prod.fst).reverse = valueNames as := by
  induction h with
  | nil => exact ⟨rfl, rfl⟩
  | type _ _ _ ih =>
    rw [typeNames_append, valueNames_append, ← ih.1, ← ih.2]
    simp [typeNames, valueNames]
  | value _ _ _ _ ih =>
    rw [typeNames_append, valueNames_append, ← ih.1, ← ih.2]
    simp [typeNames, valueNames]
  | constant _ _ _ _ ih =>
    rw [typeNames_append, valueNames_append, ← ih.1, ← ih.2]
    simp [typeNames, valueNames]

/-- ```
top INTEGER ::= 7
A ::= INTEGER (0..top)
five A ::= 5
Msg-1 ::= SEQUENCE {
  x-y A DEFAULT five,
  f BOOLEAN DEFAULT TRUE,
  n INTEGER (1..3, ...) OPTIONAL,
  ...,
  l SEQUENCE OF A,
  [[ g OCTET STRING (SIZE(1..4)) OPTIONAL ]] }
B ::= Msg-1
L ::= SEQUENCE OF A
``` -/
def sampleModule : List Assign :=
  [.value "top" .integer (.num 7),
   .type "A" (.simple .integer (some (.value ⟨[[.range (.num 0) false (.ref "top") false]], false, []⟩))),
   .constant "five" "A" (.num 5),
   .type "Msg-1" (.sequence
     (.comp "x-y" (.ref "A") (.default (.word "five"))
     (.comp "f" (.simple .boolean none) (.default (.word "TRUE"))
     (.comp "n" (.simple .integer (some (.value ⟨[[.range (.num 1) false (.num 3) false]], true, []⟩))) .optional
     (.marker
     (.comp "l" (.seqOf none (.ref "A")) .mandatory
     (.group (.cons "g" (.simple .octetString (some (.size ⟨[[.range (.num 1) false (.num 4) false]], false, []⟩ false)))
       .optional .nil) .nil))))))),
   .type "B" (.ref "Msg-1"),
   .type "L" (.seqOf none (.ref "A"))]

def sampleA : Ty := .integer (.valueRange (some 0) (some 7) false)

def sampleMsg : Ty := .sequence true
  (.cons "x-y" (.default (.int 5)) sampleA (.cons "f" (.default (.bool true)) .boolean
    (.cons "n" .optional (.integer (.valueRange (some 1) (some 3) true)) .nil)))
  (.cons "l" .mandatory (.seqOf ⟨false, some 0, none⟩ sampleA) .nil)
  (.cons (.cons "g" .optional (.octetString ⟨false, some 1, some 4⟩) .nil) .nil)

def sampleTypes : List (String × Ty) := [("L", .seqOf ⟨false, some 0, none⟩ sampleA), ("B", sampleMsg), ("Msg-1", sampleMsg), ("A", sampleA)]

def sampleValues : List (String × Ty × Val) := [("five", sampleA, .int 5), ("top", .integer .noConstraint, .int 7)]

theorem sampleModule_names : Names sampleModule := by
  refine ⟨⟨?_, ?_, by decide⟩, by decide, ?_⟩
  · intro n hn
    have : n ∈ ["A", "Msg-1", "B", "L"] := hn
    simp only [List.mem_cons, List.not_mem_nil, or_false] at this
    rcases this with rfl | rfl | rfl | rfl <;> exact upper_of (by decide) (by decide)
  · intro n hn
    have : n ∈ ["top", "five"] := hn
    simp only [List.mem_cons, List.not_mem_nil, or_false] at this
    rcases this with rfl | rfl <;> exact lower_of (by decide) (by decide)
  · intro n hn
    have : n ∈ ["A", "Msg-1", "B", "L", "top", "five"] := List.mem_append.2 hn
    rw [← mangle_eq]
    simp only [List.mem_cons, List.not_mem_nil, or_false] at this
    rcases this with rfl | rfl | rfl | rfl | rfl | rfl <;> decide +kernel

theorem sampleModule_declares : Declares (RegularAssign sampleModule) sampleModule sampleTypes sampleValues := by
  have numNum : ∀ (a b : Int) s, (End.num a = .ref s ∨ End.num b = .ref s) → '-' ∉ s.toList := by
    rintro a b s (h | h) <;> cases h
  refine Declares.type (as := sampleModule.take 5) (n := "L") ?_ ⟨by simp, .inr ⟨_, rfl⟩⟩ (.sequenceOf (.ref rfl))
  refine Declares.type (as := sampleModule.take 4) (n := "B") (T := sampleMsg) ?_ ?_ (.ref rfl)
  · refine Declares.type (as := sampleModule.take 3) (n := "Msg-1") (T := sampleMsg) ?_ ?_ ?_
    · refine Declares.constant (as := sampleModule.take 2) (n := "five") (T := sampleA) ?_ ?_ rfl
        (.int (.inr ⟨by rintro l ⟨⟩; decide, by rintro l ⟨⟩; decide⟩))
      · refine Declares.type (as := sampleModule.take 1) (n := "A") (T := sampleA) ?_ ?_ ?_
        · exact Declares.value (as := []) .nil .num .integer (.int trivial)
        · show Regular _ _ _
          rw [Regular]
          refine ascending_one _ .num (.ref rfl) (by decide) ?_
          rintro s (h | h)
          · cases h
          · cases h; decide
        · exact .range (rangeOf_one _ .num (.ref rfl) (by decide))
      · exact ⟨.integer, _, List.mem_cons_of_mem _ (List.mem_cons_self ..), .num⟩
    · show Regular _ _ _
      rw [Regular]
      refine ⟨?_, ⟨?_, ?_, by decide, by decide, by decide⟩, ?_⟩
      · simp only [RegularItems, RegularComps, Regular]
        refine ⟨⟨trivial, ?_⟩, ⟨trivial, ?_⟩, ⟨?_, by simp⟩, ⟨⟨by simp, .inr ⟨_, rfl⟩⟩, by simp⟩, ⟨⟨?_, by simp⟩, trivial⟩, trivial⟩
        · rintro l ⟨⟩
          refine .constant (l := .num 5) ?_ (by decide) ?_
          · simp [sampleModule]
          · rw [show pyName = mangle from funext fun s => (mangle_eq s).symm]
            decide +kernel
        · rintro l ⟨⟩
          exact .direct .tt
        · exact ascending_one _ .num .num (by decide) (numNum _ _)
        · exact ascendingSize_one (a := 1) (b := 4) _ .num .num (by decide) (numNum _ _)
      · decide
      · intro c hc
        simp only [itemList, compList, declared, List.mem_cons, List.mem_append, List.not_mem_nil, or_false] at hc
        rcases hc with rfl | rfl | rfl | rfl | rfl <;> exact lower_of (by decide) (by decide)
      · intro c hc
        simp only [itemList, compList, declared, List.mem_cons, List.mem_append, List.not_mem_nil, or_false] at hc
        rw [← mangle_eq]
        rcases hc with rfl | rfl | rfl | rfl | rfl
        · exact .inr (.inl ⟨_, rfl⟩)
        · exact .inl ⟨_, rfl⟩
        all_goals exact .inr (.inr (by decide +kernel))
    · refine .sequence ?_ ?_ ?_
      · exact .default (.ref rfl) (.intRef rfl (.inr ⟨by rintro l ⟨⟩; decide, by rintro l ⟨⟩; decide⟩))
          (.default .boolean .tt (.optional (.range (rangeOf_one _ .num .num (by decide))) .nil))
      · exact .mandatory (.sequenceOf (.ref rfl)) .nil
      · exact .cons (.optional (.octetStringSize (sizeOf_one (a := 1) (b := 4) _ _ .num .num (by decide))) .nil) .nil
  · exact trivial

example : Names sampleModule ∧ Declares (RegularAssign sampleModule) sampleModule sampleTypes sampleValues ∧
    compiledTo sampleModule "Msg_1" = .ok (some (.cls sampleMsg)) ∧
    compiledTo sampleModule "five" = .ok (some (.val sampleA (.int 5))) :=
  ⟨sampleModule_names, sampleModule_declares, by decide +kernel, by decide +kernel⟩

/-! ## C49: names -/

example : LowerName "max-Size" ∧ LowerName "max-size" ∧ UpperName "Max-Size" ∧ pyName "max-Size" = "max_Size" :=
  ⟨lower_of (by decide) (by decide), lower_of (by decide) (by decide), upper_of (by decide) (by decide),
    by rw [← mangle_eq]; decide⟩

/-- Different names of a schema become different names of the module; names of types and values are never confused. -/
theorem C49_distinct {s t : String} (hs : Word s) (ht : Word t) (h : pyName s = pyName t) : s = t := pyName_inj hs ht h

theorem C49_kinds {s t : String} (hs : LowerName s) (ht : UpperName t) : pyName s ≠ pyName t := lower_ne_upper hs ht

/-- The names are those `fill_template` uses, and have no hyphen. -/
theorem C49_hyphen (s : String) : mangle s = pyName s ∧ '-' ∉ (pyName s).toList := by
  refine ⟨mangle_eq s, ?_⟩
  rw [pyName_toList]
  intro h
  obtain ⟨c, _, hc⟩ := List.mem_map.1 h
  by_cases he : c = '-'
  · rw [if_pos he] at hc; exact absurd hc (by decide)
  · rw [if_neg he] at hc; exact he hc

end Verif.Props
