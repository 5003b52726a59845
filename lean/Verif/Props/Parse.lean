import Verif.Lemmas.Comments
import Verif.Lemmas.ParseTabs
import Verif.Lemmas.Plain
import Verif.Props.Compiler
import Verif.Props.Module
/-!
# C52, C53: the text of a schema
-/
namespace Verif.Props

open Verif Spec Parse

/-! ## C52 the parser -/

/-- However a module is laid out, the parser finds its assignments, in their order and with everything that is in them;
of a constraint it keeps the ends.  Missing: texts outside of `WritableAssign` and `moduleItems`, e.g. intersections of
three, two words of `OCTET STRING` with something else than one space between them, tags, constraints of referenced
types, `IMPORTS` (findings F60-F70). -/
theorem C52_parsed_partial {name : String} {tags : Bool} {as : List Assign} {text : List Char} (hn : UpperName name ∧ Ends name)
    (ha : ∀ a ∈ as, WritableAssign a) (h : Written name tags as text) : parseModule text = .ok (as.map plainAssign) :=
  parseModule_written hn ha h

/-- Two modules that are written in the same way are the same, but for constraints with the same ends. -/
theorem C52_unambiguous_partial {name name' : String} {tags tags' : Bool} {as as' : List Assign} {text : List Char}
    (hn : UpperName name ∧ Ends name) (hn' : UpperName name' ∧ Ends name') (ha : ∀ a ∈ as, WritableAssign a)
    (ha' : ∀ a ∈ as', WritableAssign a) (h : Written name tags as text) (h' : Written name' tags' as' text) :
    as.map plainAssign = as'.map plainAssign :=
  Except.ok.inj ((parseModule_written hn ha h).symm.trans (parseModule_written hn' ha' h'))

/-- The constraint that is kept has the ends and the marker of the one that was written. -/
theorem C52_constraint (c : Con) : (plainCon c).tuple = c.tuple := plainCon_tuple c

/-! ## C53 from the text to the module -/

/-- The text of a module with comments: what is left of its lines is the module. -/
def Commented (name : String) (tags : Bool) (as : List Assign) (text : List Char) : Prop :=
  ∃ ls ss, Lines text ls ∧ ss.length = ls.length ∧ (∀ p ∈ ls.zip ss, Uncommented p.1 p.2) ∧
    Written name tags as (ss.map (· ++ ['\n'])).flatten

theorem removed {text : List Char} {ls ss : List (List Char)} (hl : Lines text ls) (hlen : ss.length = ls.length)
    (hu : ∀ p ∈ ls.zip ss, Uncommented p.1 p.2) : removeComments text = (ss.map (· ++ ['\n'])).flatten := by
  rw [removeComments_eq, lines_eq hl]
  clear hl
  congr 2
  induction ls generalizing ss with
  | nil => rw [List.length_eq_zero_iff.1 hlen]; rfl
  | cons l ls ih =>
    cases ss with
    | nil => cases hlen
    | cons s ss =>
      rw [List.map_cons, ih (by simpa using hlen) fun p hp => hu p (List.mem_cons_of_mem _ hp),
        uncommented_unique (stripComment_spec l) (hu (l, s) (List.mem_cons_self ..))]

/-- Compiling the text of a module gives what compiling its assignments gives, or fails with the same exception. -/
theorem C53_text_partial {name : String} {tags : Bool} {as : List Assign} {text : List Char} (hn : UpperName name ∧ Ends name)
    (ha : ∀ a ∈ as, WritableAssign a) (h : Commented name tags as text) :
    (∀ st, compileText text = .ok st ↔ compileModule as = .ok st) ∧
      ∀ e, compileText text = .error e ↔ ∃ x, e = .raised x ∧ compileModule as = .error x := by
  obtain ⟨ls, ss, hl, hlen, hu, hw⟩ := h
  simp only [compileText, removed hl hlen hu, C52_parsed_partial hn ha hw, bind, Except.bind, compileModule_plain]
  cases compileModule as <;> simp [pure, Except.pure, eq_comm]

/-- The layout and the comments of a module do not matter, nor does its name. -/
theorem C53_layout_partial {name name' : String} {tags tags' : Bool} {as : List Assign} {text text' : List Char}
    (hn : UpperName name ∧ Ends name) (hn' : UpperName name' ∧ Ends name') (ha : ∀ a ∈ as, WritableAssign a)
    (h : Commented name tags as text) (h' : Commented name' tags' as text') : compileText text = compileText text' := by
  have h1 := C53_text_partial hn ha h
  have h2 := C53_text_partial hn' ha h'
  cases hc : compileText text with
  | ok st => exact ((h2.1 st).2 ((h1.1 st).1 hc)).symm
  | error e => exact ((h2.2 e).2 ((h1.2 e).1 hc)).symm

/-- The module that the text is compiled to: every name stands for what the schema declares and nothing else is defined. -/
def CompiledText (as : List Assign) (text : List Char) (τ : List (String × Ty)) (ν : List (String × Ty × Val)) : Prop :=
  ∃ st, compileText text = .ok st ∧
    (∀ n T, τ.lookup n = some T → st.env.lookup (pyName n) = some (.cls T)) ∧
    (∀ n T v, ν.lookup n = some (T, v) → st.env.lookup (pyName n) = some (.val T v)) ∧
    ∀ x o, st.env.lookup x = some o → header.lookup x = some o ∨ (∃ n ∈ typeNames as, x = pyName n) ∨
      ∃ n ∈ valueNames as, x = pyName n

/-- The text of a schema is compiled to what the schema declares.  Missing: what is missing in `C50_compiled_partial` and
`C52_parsed_partial`. -/
theorem C53_compiled_partial {name : String} {tags : Bool} {as : List Assign} {text : List Char} {τ : List (String × Ty)}
    {ν : List (String × Ty × Val)} (hm : UpperName name ∧ Ends name) (ha : ∀ a ∈ as, WritableAssign a)
    (h : Commented name tags as text) (hn : Names as) (hs : Solves as τ ν) (hr : ∀ a ∈ as, RegularAssign as τ ν a)
    (ho : Sortable as) (hlt : componentCount as < 100) : CompiledText as text τ ν := by
  obtain ⟨-, st, hst, h1, h2, -, h3⟩ := C50_compiled_partial hn hs hr ho hlt
  exact ⟨st, ((C53_text_partial hm ha h).1 st).2 hst, h1, h2, h3⟩

/-- Sender and receiver have different texts of the same schema: another layout, other comments, another order of the
assignments.  What one encodes the other decodes. -/
theorem C53_exchange_partial {name name' : String} {tags tags' : Bool} {as as' : List Assign} {text text' : List Char}
    {τ : List (String × Ty)} {ν : List (String × Ty × Val)} (hm : UpperName name ∧ Ends name) (hm' : UpperName name' ∧ Ends name')
    (ha : ∀ a ∈ as, WritableAssign a) (h : Commented name tags as text) (h' : Commented name' tags' as' text')
    (hn : Names as) (hs : Solves as τ ν) (hr : ∀ a ∈ as, RegularAssign as τ ν a) (hp : as'.Perm as) (ho : Sortable as)
    (ho' : Sortable as') (hlt : componentCount as < 100) :
    ∃ st st', compileText text = .ok st ∧ compileText text' = .ok st' ∧ ∀ n ∈ typeNames as, ∃ T T',
      st.env.lookup (pyName n) = some (.cls T) ∧ st'.env.lookup (pyName n) = some (.cls T') ∧
      ∀ v bs extra, returnable v = true → safe T v = true → encode T v = .ok bs → decode T' (bs ++ extra) = .ok (received T v) := by
  obtain ⟨st, st', h1, h2, h3⟩ := C50_exchange_partial hn hs hr ho ho' hlt hp
  exact ⟨st, st', ((C53_text_partial hm ha h).1 st).2 h1,
    ((C53_text_partial hm' (fun a hm => ha a (hp.mem_iff.1 hm)) h').1 st').2 h2, h3⟩

/-! ## an example -/

/-- `Laid`, decided for texts in which white space is only between items. -/
def laidIn : List String → List Char → Bool
  | [], s => s.isEmpty
  | l :: ls, s =>
    let r := (s.drop l.toList.length).dropWhile isWs
    !(s.head?.any isWs) && l.toList.isPrefixOf s &&
      (((s.drop l.toList.length).head?.any isWs) ||
        !((l.toList.getLast?.any Char.isAlphanum) && r.head?.any fun c => c.isAlphanum || c == '-' || c == '–')) &&
      laidIn ls r

theorem laid_of {ls : List String} {s : List Char} (h : laidIn ls s = true) : Laid ls s := by
  induction ls generalizing s with
  | nil => simpa [laidIn, Laid] using h
  | cons l ls ih =>
    simp only [laidIn, Bool.and_eq_true, Bool.not_eq_true', Bool.or_eq_true] at h
    obtain ⟨⟨⟨h1, h2⟩, h3⟩, h4⟩ := h
    refine ⟨fun c hc hb => ?_, (s.drop l.toList.length).takeWhile isWs, (s.drop l.toList.length).dropWhile isWs, ?_, ?_, ?_, ih h4⟩
    · rw [hc] at h1
      have := isWs_iff.2 hb
      simp only [Option.any_some] at h1
      rw [this] at h1; cases h1
    · rw [List.takeWhile_append_dropWhile]
      obtain ⟨t, rfl⟩ := List.isPrefixOf_iff_prefix.1 h2
      simp
    · intro c hc
      exact isWs_iff.1 (List.all_eq_true.1 (List.all_takeWhile ..) c hc)
    · rintro hw ⟨⟨c, h5, h6⟩, d, h7, h8⟩
      have hno : (s.drop l.toList.length).head?.any isWs = false := by
        cases hd : s.drop l.toList.length with
        | nil => rfl
        | cons a r =>
          rw [hd, List.takeWhile_cons] at hw
          simp only [List.head?_cons, Option.any_some]
          cases ha : isWs a with
          | false => rfl
          | true => rw [ha] at hw; cases hw
      rw [hno, h5, h7] at h3
      have : (d.isAlphanum || d == '-' || d == '–') = true := by
        rcases h8 with h8 | rfl | rfl
        · simp [h8]
        · simp
        · simp
      rw [Option.any_some, Option.any_some, h6, this] at h3
      simp at h3

theorem commented_of {name : String} {tags : Bool} {as : List Assign} {text : List Char}
    (h : laidIn (moduleItems name tags as) ((removeComments text).dropWhile isWs) = true) : Commented name tags as text := by
  obtain ⟨ls, ss, h1, h2, h3, h4⟩ := C34_lines text
  refine ⟨ls, ss, h1, h2, h3, (removeComments text).takeWhile isWs, (removeComments text).dropWhile isWs, ?_, ?_, laid_of h⟩
  · rw [List.takeWhile_append_dropWhile, h4]
  · intro c hc
    exact isWs_iff.1 (List.all_eq_true.1 (List.all_takeWhile ..) c hc)

def sampleText : List Char :=
  ("-- a message, and what it needs\n" ++
   "Sample DEFINITIONS AUTOMATIC TAGS ::= BEGIN\n" ++
   "top INTEGER ::= 7 -- may grow\r\n" ++
   "A::=INTEGER(0..top)\n" ++
   "five A ::= 5\n" ++
   "Msg-1 ::= SEQUENCE {\n" ++
   "\tx-y A DEFAULT five,\n" ++
   "\tf BOOLEAN DEFAULT TRUE, n INTEGER (1..3, ...) OPTIONAL,\n" ++
   "\t...,\n" ++
   "\tl SEQUENCE OF A, -- version 2\n" ++
   "\t[[ g OCTET STRING (SIZE(1..4)) OPTIONAL ]] }\n" ++
   "B ::= Msg-1 L ::=\n" ++
   "  SEQUENCE OF A\n" ++
   "END").toList

/-- All of it on one line, and the other way round. -/
def sampleText' : List Char :=
  ("Other DEFINITIONS::=BEGIN L::=SEQUENCE OF A B::=Msg-1 Msg-1::=SEQUENCE{x-y A DEFAULT five,f BOOLEAN DEFAULT TRUE," ++
   "n INTEGER(1..3,...)OPTIONAL,...,l SEQUENCE OF A,[[g OCTET STRING(SIZE(1..4))OPTIONAL]]}five A::=5 A::=INTEGER(0..top)" ++
   "top INTEGER::=7 END").toList

theorem sampleText_commented : Commented "Sample" true sampleModule sampleText := commented_of (by decide +kernel)

theorem sampleText'_commented : Commented "Other" false sampleReversed sampleText' := commented_of (by decide +kernel)

theorem sampleModule_writable : ∀ a ∈ sampleModule, WritableAssign a := by
  have lo : ∀ {s : String}, s ∈ ["top", "five", "x-y", "f", "n", "l", "g"] → ValueName s := by
    intro s hs
    simp only [List.mem_cons, List.not_mem_nil, or_false] at hs
    rcases hs with rfl | rfl | rfl | rfl | rfl | rfl | rfl <;> exact ⟨lower_of (by decide) (by decide), by unfold Ends; decide⟩
  have up : ∀ {s : String}, s ∈ ["A", "Msg-1", "B", "L"] → TypeName s := by
    intro s hs
    simp only [List.mem_cons, List.not_mem_nil, or_false] at hs
    rcases hs with rfl | rfl | rfl | rfl <;> exact ⟨upper_of (by decide) (by decide), by unfold Ends; decide, by decide⟩
  have range : ∀ (a b : End) (m : Bool), WritableValue a → WritableValue b → WritableNotation ⟨[[.range a false b false]], m, []⟩ := by
    intro a b m h h'
    refine ⟨⟨by simp, ?_⟩, fun h => absurd rfl h⟩
    intro i hi
    rw [List.mem_singleton.1 hi]
    refine ⟨by simp, by simp, ?_⟩
    intro e he
    rw [List.mem_singleton.1 he]
    exact ⟨.inl h, .inl h'⟩
  intro a ha
  simp only [sampleModule, List.mem_cons, List.not_mem_nil, or_false] at ha
  rcases ha with rfl | rfl | rfl | rfl | rfl | rfl
  · exact ⟨lo (by decide), trivial⟩
  · refine ⟨up (by decide), ?_⟩
    unfold Writable
    exact range _ _ _ trivial (lo (by decide))
  · exact ⟨lo (by decide), up (by decide), trivial⟩
  · refine ⟨up (by decide), ?_⟩
    simp only [Writable, WritableItems, WritableComps, WritablePres, WritableLit, WritableCon, Shape]
    exact ⟨⟨by simp, trivial⟩, ⟨lo (by decide), up (by decide), trivial, .inl (lo (by decide))⟩,
      ⟨lo (by decide), trivial, trivial, .inr (.inl trivial)⟩, ⟨lo (by decide), range _ _ _ trivial trivial, trivial⟩,
      ⟨lo (by decide), up (by decide), trivial⟩, ⟨⟨lo (by decide), range _ _ _ trivial trivial, trivial⟩, trivial⟩, trivial⟩
  · refine ⟨up (by decide), ?_⟩
    unfold Writable
    exact up (by decide)
  · refine ⟨up (by decide), ?_⟩
    simp only [Writable]
    exact up (by decide)

/-- The name `x` in the module compiled from the text. -/
def compiledText (text : List Char) (x : String) : Except PErr (Option PyObj) := do
  return (← compileText text).env.lookup x

example : (UpperName "Sample" ∧ Ends "Sample") ∧ (UpperName "Other" ∧ Ends "Other") ∧ (∀ a ∈ sampleModule, WritableAssign a) ∧
    Commented "Sample" true sampleModule sampleText ∧ Commented "Other" false sampleReversed sampleText' ∧
    Names sampleModule ∧ Solves sampleModule sampleTypes sampleValues ∧
    (∀ a ∈ sampleModule, RegularAssign sampleModule sampleTypes sampleValues a) ∧ Sortable sampleModule ∧
    Sortable sampleReversed ∧ componentCount sampleModule < 100 ∧ sampleReversed.Perm sampleModule ∧
    CompiledText sampleModule sampleText sampleTypes sampleValues := by
  have h1 : UpperName "Sample" ∧ Ends "Sample" := ⟨upper_of (by decide) (by decide), by unfold Ends; decide⟩
  have h2 : UpperName "Other" ∧ Ends "Other" := ⟨upper_of (by decide) (by decide), by unfold Ends; decide⟩
  exact ⟨h1, h2, sampleModule_writable, sampleText_commented, sampleText'_commented, sampleModule_names, sampleModule_solves,
    sampleModule_regular, sample_sortable (.refl _), sample_sortable sample_perm, by decide, sample_perm,
    C53_compiled_partial h1 sampleModule_writable sampleText_commented sampleModule_names sampleModule_solves
      sampleModule_regular (sample_sortable (.refl _)) (by decide)⟩

end Verif.Props
