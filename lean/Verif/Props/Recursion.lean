import Verif.Lemmas.Recursion
import Verif.Lemmas.SortBody
import Verif.Props.Text
/-!
# C59: types that contain themselves
-/
namespace Verif.Props

open Verif Spec

/-- The names in a list of assignments are names, and no type is assigned twice. -/
structure WellNamed (as : List Assign) : Prop where
  distinct : (typeNames as).Nodup
  types : ∀ n ∈ typeNames as, UpperName n
  values : ∀ n ∈ valueNames as, LowerName n
  components : ∀ n t, .type n t ∈ as → Worded t

/-- If a generated module can be imported, no type of the schema contains itself, directly or through other types.  `hl`: no
type has the name of a class of the library.  Missing: types that contain themselves inside an element type that is written
in place inside another one, for which this is false (finding F85). -/
theorem C59_recursion_partial {as : List Assign} {st : Loaded} (hn : WellNamed as) (hl : ∀ n ∈ typeNames as, n ∉ header.map Prod.fst)
    (h : compile as = .ok st) (a : String) : ¬ Contains as a a :=
  Recursion.no_recursion hn.distinct hn.types hn.values hl hn.components h a

theorem contains_mem {as bs : List Assign} (h : ∀ a ∈ as, a ∈ bs) {a b : String} (hc : Contains as a b) : Contains bs a b := by
  induction hc with
  | direct h1 h2 => exact .direct (h _ h1) h2
  | through _ _ h1 h2 => exact .through h1 h2

/-- The same for assignments in any order. -/
theorem C59_sorted_partial {as : List Assign} {st : Loaded} (hn : WellNamed as) (hl : ∀ n ∈ typeNames as, n ∉ header.map Prod.fst)
    (h : compileModule as = .ok st) (a : String) : ¬ Contains as a a := by
  have hp : (moduleBody as).1.Perm as := C31_perm Assign.node (hn.distinct.sublist (component_names as))
  have ht : (typeNames (moduleBody as).1).Perm (typeNames as) := hp.filterMap _
  have hv : (valueNames (moduleBody as).1).Perm (valueNames as) := hp.filterMap _
  intro hc
  exact C59_recursion_partial ⟨ht.nodup_iff.2 hn.distinct, fun n hx => hn.types n (ht.mem_iff.1 hx),
    fun n hx => hn.values n (hv.mem_iff.1 hx), fun n t hx => hn.components n t (hp.mem_iff.1 hx)⟩
    (fun n hx => hl n (ht.mem_iff.1 hx)) h a (contains_mem (fun a ha => hp.mem_iff.2 ha) hc)

/-- The same for the text of a schema: that names are names is what the parser takes care of. -/
theorem C59_text_partial {text : List Char} {as : List Assign} {st : Loaded} (hc : '–' ∉ text)
    (ha : Parse.parseModule (removeComments text) = .ok as) (hd : (typeNames as).Nodup)
    (hl : ∀ n ∈ typeNames as, n ∉ header.map Prod.fst) (h : Parse.compileText text = .ok st) (a : String) : ¬ Contains as a a := by
  have hf := Parse.parse_fine (clean_comments hc) ha
  refine C59_sorted_partial (st := st) ⟨hd, fun n hn => ?_, fun n hn => ?_, fun n t hn => ?_⟩ hl ?_ a
  · obtain ⟨t, ht⟩ := typeNames_mem.1 hn
    cases hf _ ht
    assumption
  · obtain ⟨x, hx, e⟩ := List.mem_filterMap.1 hn
    cases hf x hx with
    | assignType => cases e
    | assignValue => cases e; assumption
    | assignConstant => cases e; assumption
  · cases hf _ hn
    assumption
  · unfold Parse.compileText at h
    simp only [bind, Except.bind, ha] at h
    split at h
    · next hm => cases h; exact hm
    · cases h

/-! ## examples -/

/-- Three types, each with the next one in it. -/
def chain : List Assign :=
  [.type "A" (.sequence (.comp "b" (.ref "B") .optional .nil)),
   .type "B" (.choice (.comp "c" (.sequence (.marker (.group (.cons "d" (.ref "C") .mandatory .nil) .nil))) .mandatory .nil)),
   .type "C" (.seqOf none (.simple .boolean none))]

/-- The same with a reference back to the first. -/
def cycle : List Assign :=
  [.type "A" (.sequence (.comp "b" (.ref "B") .optional .nil)),
   .type "B" (.choice (.comp "c" (.sequence (.marker (.group (.cons "d" (.ref "C") .mandatory .nil) .nil))) .mandatory .nil)),
   .type "C" (.seqOf none (.ref "A"))]

/-- A tree: `T ::= SEQUENCE { name OCTET STRING, below SEQUENCE OF SEQUENCE { weight INTEGER, tree T OPTIONAL } }` -/
def tree : List Assign :=
  [.type "T" (.sequence (.comp "name" (.simple .octetString none) .mandatory
    (.comp "below" (.seqOf none (.sequence (.comp "weight" (.simple .integer none) .mandatory (.comp "tree" (.ref "T") .optional .nil))))
      .mandatory .nil)))]

theorem chain_named {e : TObj} (he : Worded e) : WellNamed
    [.type "A" (.sequence (.comp "b" (.ref "B") .optional .nil)),
     .type "B" (.choice (.comp "c" (.sequence (.marker (.group (.cons "d" (.ref "C") .mandatory .nil) .nil))) .mandatory .nil)),
     .type "C" (.seqOf none e)] := by
  have hb : LowerName "b" := lower_of (by decide) (by decide)
  have hc : LowerName "c" := lower_of (by decide) (by decide)
  have hd : LowerName "d" := lower_of (by decide) (by decide)
  refine ⟨(by decide : ["A", "B", "C"].Nodup), fun n hn => ?_, fun n hn => (nomatch hn), fun n t hn => ?_⟩
  · have : ∀ n ∈ ["A", "B", "C"], UpperName n := by
      intro n hn
      simp only [List.mem_cons, List.not_mem_nil, or_false] at hn
      rcases hn with rfl | rfl | rfl <;> exact upper_of (by decide) (by decide)
    exact this n hn
  · simp only [List.mem_cons, List.not_mem_nil, or_false, Assign.type.injEq] at hn
    rcases hn with ⟨_, rfl⟩ | ⟨_, rfl⟩ | ⟨_, rfl⟩
    · simp only [Worded, WordedItems, WordedPres]; exact ⟨⟨hb, trivial, trivial⟩, trivial⟩
    · simp only [Worded, WordedItems, WordedComps, WordedPres]; exact ⟨⟨hc, ⟨⟨⟨hd, trivial, trivial⟩, trivial⟩, trivial⟩, trivial⟩, trivial⟩
    · rw [Worded]; exact he

example : WellNamed chain ∧ (∀ n ∈ typeNames chain, n ∉ header.map Prod.fst) ∧ Contains chain "A" "C" ∧
    (compile chain.reverse).isOk = true ∧ (compileModule chain).isOk = true := by
  refine ⟨chain_named trivial, by decide, .through (b := "B") (.direct (List.mem_cons_self ..) (by decide +kernel))
    (.direct (List.mem_cons_of_mem _ (List.mem_cons_self ..)) (by decide +kernel)), ?_, ?_⟩
  · decide +kernel
  · decide +kernel

example : WellNamed cycle ∧ (∀ n ∈ typeNames cycle, n ∉ header.map Prod.fst) ∧ Contains cycle "A" "A" := by
  refine ⟨chain_named trivial, by decide, .through (b := "B") (.direct (List.mem_cons_self ..) (by decide +kernel))
    (.through (b := "C") (.direct (List.mem_cons_of_mem _ (List.mem_cons_self ..)) (by decide +kernel))
      (.direct (List.mem_cons_of_mem _ (List.mem_cons_of_mem _ (List.mem_cons_self ..))) (by decide +kernel)))⟩

example : WellNamed tree ∧ (∀ n ∈ typeNames tree, n ∉ header.map Prod.fst) ∧ Contains tree "T" "T" := by
  refine ⟨⟨by decide, fun n hn => ?_, fun n hn => (nomatch hn), fun n t hn => ?_⟩, by decide,
    .direct (List.mem_cons_self ..) (by decide +kernel)⟩
  · rw [List.mem_singleton.1 hn]
    exact upper_of (by decide) (by decide)
  · cases List.mem_singleton.1 hn
    have h : ∀ n ∈ ["name", "below", "weight", "tree"], LowerName n := by
      intro n hn
      simp only [List.mem_cons, List.not_mem_nil, or_false] at hn
      rcases hn with rfl | rfl | rfl | rfl <;> exact lower_of (by decide) (by decide)
    simp only [Worded, WordedItems, WordedPres]
    exact ⟨⟨h _ (by decide), trivial, trivial⟩, ⟨h _ (by decide), ⟨⟨h _ (by decide), trivial, trivial⟩,
      ⟨h _ (by decide), trivial, trivial⟩, trivial⟩, trivial⟩, trivial⟩

example : ∃ as st, '–' ∉ sampleText ∧ Parse.parseModule (removeComments sampleText) = .ok as ∧ (typeNames as).Nodup ∧
    (∀ n ∈ typeNames as, n ∉ header.map Prod.fst) ∧ Parse.compileText sampleText = .ok st := by
  have h1 : UpperName "Sample" ∧ Ends "Sample" := ⟨upper_of (by decide) (by decide), by unfold Ends; decide⟩
  obtain ⟨st, hst, _⟩ := C53_compiled_partial h1 sampleModule_writable sampleText_commented sampleModule_names sampleModule_solves
      sampleModule_regular (sample_sortable (.refl _)) (by decide)
  have he : (Parse.parseModule (removeComments sampleText)).toOption.map typeNames = some ["A", "Msg-1", "B", "L"] := by
    decide +kernel
  cases ha : Parse.parseModule (removeComments sampleText) with
  | error e => rw [ha] at he; cases he
  | ok as =>
    rw [ha] at he
    have he : typeNames as = ["A", "Msg-1", "B", "L"] := Option.some.inj he
    refine ⟨as, st, by decide +kernel, rfl, ?_, ?_, hst⟩ <;> rw [he] <;> decide

end Verif.Props
