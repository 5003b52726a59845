import Verif.Lemmas.SortBody
import Verif.Props.Compound
import Verif.Props.Generate
/-!
# C50: the schema compiler as a whole
-/
namespace Verif.Props

open Verif Spec

/-- What compiling a module gives: no warning, and a module that can be imported in which every name stands for what the
schema declares and nothing else is defined. -/
def Compiled (as : List Assign) (τ : List (String × Ty)) (ν : List (String × Ty × Val)) : Prop :=
  (moduleBody as).2 = false ∧ ∃ st, compileModule as = .ok st ∧
    (∀ n T, τ.lookup n = some T → st.env.lookup (pyName n) = some (.cls T)) ∧
    (∀ n T v, ν.lookup n = some (T, v) → st.env.lookup (pyName n) = some (.val T v)) ∧
    (∀ x o, header.lookup x = some o → st.env.lookup x = some o) ∧
    ∀ x o, st.env.lookup x = some o → header.lookup x = some o ∨ (∃ n ∈ typeNames as, x = pyName n) ∨
      ∃ n ∈ valueNames as, x = pyName n

/-- A schema is compiled to what it declares, in whatever order its assignments come.  Missing: schemas that are not
`RegularAssign` (findings F36-F52) or not `Sortable` (F31, F57, F58); 100 types with components or more (F30). -/
theorem C50_compiled_partial {as : List Assign} {τ : List (String × Ty)} {ν : List (String × Ty × Val)} (hn : Names as)
    (hs : Solves as τ ν) (hr : ∀ a ∈ as, RegularAssign as τ ν a) (ho : Sortable as) (hlt : componentCount as < 100) :
    Compiled as τ ν := by
  have hp := moduleBody_perm hn
  have hmem : SameMembers as (moduleBody as).1 := fun a => hp.mem_iff.symm
  have hT : ∀ n, n ∈ typeNames (moduleBody as).1 ↔ n ∈ typeNames as := fun n => (hp.filterMap _).mem_iff
  have hV : ∀ n, n ∈ valueNames (moduleBody as).1 ↔ n ∈ valueNames as := fun n => (hp.filterMap _).mem_iff
  have hn' : Names (moduleBody as).1 :=
    { types := fun n h => hn.types n ((hT n).1 h)
      values := fun n h => hn.values n ((hV n).1 h)
      distinct := ⟨(hp.filterMap _).nodup_iff.2 hn.distinct.1, (hp.filterMap _).nodup_iff.2 hn.distinct.2⟩
      library := fun n h => hn.library n ((hT n).1 h)
      python := fun n h => hn.python n (h.imp (hT n).1 (hV n).1) }
  obtain ⟨τ', ν', hd, ht, hv⟩ := declares_of_order hn'.distinct (hs.perm hp) (by
    intro a ha
    have := hr a (hp.mem_iff.1 ha)
    cases a with
    | type n t => exact regular_same hmem t (fun _ _ => rfl) this
    | value n k l => exact literalFor_same hmem this
    | constant n m l =>
      obtain ⟨k, c, h1, h2⟩ := this
      exact ⟨k, c, (hmem _).1 h1, literalFor_same hmem h2⟩) (body_usedAfter hn hs hr ho hlt)
  obtain ⟨st, h1, h2, h3, h4, h5⟩ := C48_compiled_partial hn' hd
  refine ⟨(moduleBody_order hn hs hr hlt).1, st, h1, fun n T h => h2 n T (by rw [ht]; exact h),
    fun n T v h => h3 n T v (by rw [hv]; exact h), h4, fun x o h => ?_⟩
  rcases h5 x o h with h | ⟨n, h, he⟩ | ⟨n, h, he⟩
  · exact .inl h
  · exact .inr (.inl ⟨n, (hT n).1 h, he⟩)
  · exact .inr (.inr ⟨n, (hV n).1 h, he⟩)

/-- What such a schema declares is determined by the schema. -/
theorem C50_determined_partial {as : List Assign} {τ τ' : List (String × Ty)} {ν ν' : List (String × Ty × Val)}
    (hn : Names as) (ho : Sortable as) (hlt : componentCount as < 100) (hs : Solves as τ ν) (hs' : Solves as τ' ν')
    (hr : ∀ a ∈ as, RegularAssign as τ ν a) (hr' : ∀ a ∈ as, RegularAssign as τ' ν' a) :
    (∀ n, τ.lookup n = τ'.lookup n) ∧ ∀ n, ν.lookup n = ν'.lookup n := by
  obtain ⟨_, st, h1, h2, h3, _⟩ := C50_compiled_partial hn hs hr ho hlt
  obtain ⟨_, st', h1', h2', h3', _⟩ := C50_compiled_partial hn hs' hr' ho hlt
  rw [h1] at h1'
  cases h1'
  have tdef : ∀ {σ : List (String × Ty)} {μ : List (String × Ty × Val)}, Solves as σ μ → ∀ n, n ∈ typeNames as →
      ∃ T, σ.lookup n = some T := by
    intro σ μ hs n hn
    obtain ⟨t, ht⟩ := typeNames_mem.1 hn
    obtain ⟨T, h, _⟩ := hs.type ht
    exact ⟨T, h⟩
  have vdef : ∀ {σ : List (String × Ty)} {μ : List (String × Ty × Val)}, Solves as σ μ → ∀ n, n ∈ valueNames as →
      ∃ T v, μ.lookup n = some (T, v) := by
    intro σ μ hs n hn
    rcases value_name hn with ⟨k, l, h⟩ | ⟨m, l, h⟩
    · obtain ⟨T, v, h, _⟩ := hs.value h
      exact ⟨T, v, h⟩
    · obtain ⟨T, v, h, _⟩ := hs.constant h
      exact ⟨T, v, h⟩
  constructor
  · intro n
    by_cases hn : n ∈ typeNames as
    · obtain ⟨T, hT⟩ := tdef hs n hn
      obtain ⟨T', hT'⟩ := tdef hs' n hn
      have := (h2 n T hT).symm.trans (h2' n T' hT')
      cases this
      rw [hT, hT']
    · have : ∀ {σ : List (String × Ty)} {μ : List (String × Ty × Val)}, Solves as σ μ → σ.lookup n = none := by
        intro σ μ hs
        cases hl : σ.lookup n with
        | none => rfl
        | some T => exact absurd (hs.types hl) hn
      rw [this hs, this hs']
  · intro n
    by_cases hn : n ∈ valueNames as
    · obtain ⟨T, v, hT⟩ := vdef hs n hn
      obtain ⟨T', v', hT'⟩ := vdef hs' n hn
      have := (h3 n T v hT).symm.trans (h3' n T' v' hT')
      cases this
      rw [hT, hT']
    · have : ∀ {σ : List (String × Ty)} {μ : List (String × Ty × Val)}, Solves as σ μ → μ.lookup n = none := by
        intro σ μ hs
        cases hl : μ.lookup n with
        | none => rfl
        | some T => exact absurd (hs.values hl) hn
      rw [this hs, this hs']

/-- Two modules with the same assignments in different orders are compiled to the same classes and values. -/
theorem C50_order_partial {as as' : List Assign} {τ : List (String × Ty)} {ν : List (String × Ty × Val)} (hn : Names as)
    (hs : Solves as τ ν) (hr : ∀ a ∈ as, RegularAssign as τ ν a) (ho : Sortable as) (ho' : Sortable as')
    (hlt : componentCount as < 100) (hp : as'.Perm as) :
    ∃ st st', compileModule as = .ok st ∧ compileModule as' = .ok st' ∧ ∀ x, st.env.lookup x = st'.env.lookup x := by
  have hmem : SameMembers as as' := fun a => hp.mem_iff.symm
  have hT : ∀ n, n ∈ typeNames as' ↔ n ∈ typeNames as := fun n => (hp.filterMap _).mem_iff
  have hV : ∀ n, n ∈ valueNames as' ↔ n ∈ valueNames as := fun n => (hp.filterMap _).mem_iff
  have hn' : Names as' :=
    { types := fun n h => hn.types n ((hT n).1 h)
      values := fun n h => hn.values n ((hV n).1 h)
      distinct := ⟨(hp.filterMap _).nodup_iff.2 hn.distinct.1, (hp.filterMap _).nodup_iff.2 hn.distinct.2⟩
      library := fun n h => hn.library n ((hT n).1 h)
      python := fun n h => hn.python n (h.imp (hT n).1 (hV n).1) }
  have hr' : ∀ a ∈ as', RegularAssign as' τ ν a := by
    intro a ha
    have := hr a (hp.mem_iff.1 ha)
    cases a with
    | type n t => exact regular_same hmem t (fun _ _ => rfl) this
    | value n k l => exact literalFor_same hmem this
    | constant n m l =>
      obtain ⟨k, c, h1, h2⟩ := this
      exact ⟨k, c, (hmem _).1 h1, literalFor_same hmem h2⟩
  have hlt' : componentCount as' < 100 := by
    have : componentCount as' = componentCount as := (hp.filter _).length_eq
    omega
  obtain ⟨_, st, h1, h2, h3, h4, h5⟩ := C50_compiled_partial hn hs hr ho hlt
  obtain ⟨_, st', h1', h2', h3', h4', h5'⟩ := C50_compiled_partial hn' (hs.perm hp) hr' ho' hlt'
  refine ⟨st, st', h1, h1', fun x => ?_⟩
  have known : ∀ n, (n ∈ typeNames as → ∃ o, st.env.lookup (pyName n) = some o ∧ st'.env.lookup (pyName n) = some o) ∧
      (n ∈ valueNames as → ∃ o, st.env.lookup (pyName n) = some o ∧ st'.env.lookup (pyName n) = some o) := by
    intro n
    constructor
    · intro hm
      obtain ⟨t, ht⟩ := typeNames_mem.1 hm
      obtain ⟨T, h, _⟩ := hs.type ht
      exact ⟨_, h2 n T h, h2' n T h⟩
    · intro hm
      rcases value_name hm with ⟨k, l, h⟩ | ⟨m, l, h⟩
      · obtain ⟨T, v, h, _⟩ := hs.value h
        exact ⟨_, h3 n T v h, h3' n T v h⟩
      · obtain ⟨T, v, h, _⟩ := hs.constant h
        exact ⟨_, h3 n T v h, h3' n T v h⟩
  cases hx : st.env.lookup x with
  | some o =>
    rcases h5 x o hx with h | ⟨n, h, rfl⟩ | ⟨n, h, rfl⟩
    · exact (h4' x o h).symm
    · obtain ⟨o', e1, e2⟩ := (known n).1 h
      rw [e2, ← e1, hx]
    · obtain ⟨o', e1, e2⟩ := (known n).2 h
      rw [e2, ← e1, hx]
  | none =>
    cases hx' : st'.env.lookup x with
    | none => rfl
    | some o =>
      exfalso
      rcases h5' x o hx' with h | ⟨n, h, rfl⟩ | ⟨n, h, rfl⟩
      · rw [h4 x o h] at hx; cases hx
      · obtain ⟨o', e1, _⟩ := (known n).1 ((hT n).1 h)
        rw [e1] at hx; cases hx
      · obtain ⟨o', e1, _⟩ := (known n).2 ((hV n).1 h)
        rw [e1] at hx; cases hx

/-- Sender and receiver that have compiled the same schema understand each other: what is encoded with the class of one
module is decoded with the class of the other. -/
theorem C50_exchange_partial {as as' : List Assign} {τ : List (String × Ty)} {ν : List (String × Ty × Val)} (hn : Names as)
    (hs : Solves as τ ν) (hr : ∀ a ∈ as, RegularAssign as τ ν a) (ho : Sortable as) (ho' : Sortable as')
    (hlt : componentCount as < 100) (hp : as'.Perm as) :
    ∃ st st', compileModule as = .ok st ∧ compileModule as' = .ok st' ∧ ∀ n ∈ typeNames as, ∃ T T',
      st.env.lookup (pyName n) = some (.cls T) ∧ st'.env.lookup (pyName n) = some (.cls T') ∧
      ∀ v bs extra, returnable v = true → safe T v = true → encode T v = .ok bs → decode T' (bs ++ extra) = .ok (received T v) := by
  obtain ⟨st, st', h1, h2, h3⟩ := C50_order_partial hn hs hr ho ho' hlt hp
  refine ⟨st, st', h1, h2, fun n hm => ?_⟩
  obtain ⟨_, st'', e1, e2, _⟩ := C50_compiled_partial hn hs hr ho hlt
  rw [h1] at e1
  cases e1
  obtain ⟨t, ht⟩ := typeNames_mem.1 hm
  obtain ⟨T, hT, _⟩ := hs.type ht
  exact ⟨T, T, e2 n T hT, by rw [← h3]; exact e2 n T hT, fun v bs extra hn h he => C10_accepted_partial hn h he extra⟩

/-! ## an example -/

/-- `sampleModule` back to front: nothing is assigned before it is used. -/
def sampleReversed : List Assign := sampleModule.reverse

theorem sample_perm : sampleReversed.Perm sampleModule := List.reverse_perm _

theorem sampleReversed_mem {a : Assign} (h : a ∈ sampleModule) : a ∈ sampleModule.take 1 ∨ a ∈ (sampleModule.drop 1).take 1 ∨
    a ∈ (sampleModule.drop 2).take 1 ∨ a ∈ (sampleModule.drop 3).take 1 ∨ a ∈ (sampleModule.drop 4).take 1 ∨
    a ∈ (sampleModule.drop 5).take 1 := by
  simpa [sampleModule] using h

theorem sampleModule_solves : Solves sampleModule sampleTypes sampleValues where
  type {n t} h := by
    have h := sampleReversed_mem h
    simp only [sampleModule, List.drop, List.take, List.mem_singleton, Assign.type.injEq, reduceCtorEq, false_or, or_false] at h
    rcases h with ⟨rfl, rfl⟩ | ⟨rfl, rfl⟩ | ⟨rfl, rfl⟩ | ⟨rfl, rfl⟩
    · exact ⟨sampleA, rfl, .range (rangeOf_one _ .num (.ref rfl) (by decide))⟩
    · refine ⟨sampleMsg, rfl, .sequence ?_ ?_ ?_⟩
      · exact .default (.ref rfl) (.intRef rfl (.inr ⟨by rintro l ⟨⟩; decide, by rintro l ⟨⟩; decide⟩))
          (.default .boolean .tt (.optional (.range (rangeOf_one _ .num .num (by decide))) .nil))
      · exact .mandatory (.sequenceOf (.ref rfl)) .nil
      · exact .cons (.optional (.octetStringSize (sizeOf_one (a := 1) (b := 4) _ _ .num .num (by decide))) .nil) .nil
    · exact ⟨sampleMsg, rfl, .ref rfl⟩
    · exact ⟨_, rfl, .sequenceOf (.ref rfl)⟩
  value {n k l} h := by
    have h := sampleReversed_mem h
    simp only [sampleModule, List.drop, List.take, List.mem_singleton, Assign.value.injEq, reduceCtorEq, or_false] at h
    obtain ⟨rfl, rfl, rfl⟩ := h
    exact ⟨_, _, rfl, .integer, .int trivial⟩
  constant {n m l} h := by
    have h := sampleReversed_mem h
    simp only [sampleModule, List.drop, List.take, List.mem_singleton, Assign.constant.injEq, reduceCtorEq, false_or,
      or_false] at h
    obtain ⟨rfl, rfl, rfl⟩ := h
    exact ⟨sampleA, .int 5, rfl, rfl, .int (.inr ⟨by rintro l ⟨⟩; decide, by rintro l ⟨⟩; decide⟩)⟩
  types {n T} h := by
    have : n ∈ sampleTypes.map Prod.fst := List.mem_map.2 ⟨_, mem_of_lookup h, rfl⟩
    simp only [sampleTypes, List.map_cons, List.map_nil, List.mem_cons, List.not_mem_nil, or_false] at this
    rcases this with rfl | rfl | rfl | rfl <;> decide
  values {n T} h := by
    have : n ∈ sampleValues.map Prod.fst := List.mem_map.2 ⟨_, mem_of_lookup h, rfl⟩
    simp only [sampleValues, List.map_cons, List.map_nil, List.mem_cons, List.not_mem_nil, or_false] at this
    rcases this with rfl | rfl <;> decide

theorem sampleModule_regular : ∀ a ∈ sampleModule, RegularAssign sampleModule sampleTypes sampleValues a := by
  intro a h
  have numNum : ∀ (a b : Int) s, (End.num a = .ref s ∨ End.num b = .ref s) → '-' ∉ s.toList := by
    rintro a b s (h | h) <;> cases h
  have h := sampleReversed_mem h
  simp only [sampleModule, List.drop, List.take, List.mem_singleton] at h
  rcases h with rfl | rfl | rfl | rfl | rfl | rfl
  · exact .num
  · show Regular _ _ _
    rw [Regular]
    refine ascending_one _ .num (.ref rfl) (by decide) ?_
    rintro s (h | h)
    · cases h
    · cases h; decide
  · exact ⟨.integer, _, List.mem_cons_of_mem _ (List.mem_cons_self ..), .num⟩
  · show Regular _ _ _
    rw [Regular]
    refine ⟨?_, ⟨?_, ?_, by decide, by decide, by decide⟩, ?_⟩
    · simp only [RegularItems, RegularComps, Regular]
      refine ⟨⟨trivial, ?_⟩, ⟨trivial, ?_⟩, ⟨?_, by simp⟩, ⟨⟨by simp, .inr ⟨_, rfl⟩⟩, by simp⟩, ⟨⟨?_, by simp⟩, trivial⟩, trivial⟩
      · rintro l ⟨⟩
        refine .constant (l := .num 5) ?_ (by decide) ?_
        · simp [sampleModule]
        · rw [show pyName = mangle from funext fun s => (mangle_eq s).symm]
          decide +kernel
      · rintro l ⟨⟩
        exact .direct .tt
      · exact ascending_one _ .num .num (by decide) (numNum _ _)
      · exact ascendingSize_one (a := 1) (b := 4) _ .num .num (by decide) (numNum _ _)
    · decide
    · intro c hc
      simp only [itemList, compList, declared, List.mem_cons, List.mem_append, List.not_mem_nil, or_false] at hc
      rcases hc with rfl | rfl | rfl | rfl | rfl <;> exact lower_of (by decide) (by decide)
    · intro c hc
      simp only [itemList, compList, declared, List.mem_cons, List.mem_append, List.not_mem_nil, or_false] at hc
      rw [← mangle_eq]
      rcases hc with rfl | rfl | rfl | rfl | rfl
      · exact .inr (.inl ⟨_, rfl⟩)
      · exact .inl ⟨_, rfl⟩
      all_goals exact .inr (.inr (by decide +kernel))
  · exact trivial
  · exact ⟨by simp, .inr ⟨_, rfl⟩⟩

theorem sample_sortable {as : List Assign} (hp : as.Perm sampleModule) : Sortable as where
  values {n k l s} h hl _ := by
    have h := sampleReversed_mem (hp.mem_iff.1 h)
    simp only [sampleModule, List.drop, List.take, List.mem_singleton, Assign.value.injEq, reduceCtorEq, or_false] at h
    obtain ⟨rfl, rfl, rfl⟩ := h
    cases hl
  plain {n t s} h hf hv _ := by
    have h := sampleReversed_mem (hp.mem_iff.1 h)
    simp only [sampleModule, List.drop, List.take, List.mem_singleton, Assign.type.injEq, reduceCtorEq, false_or, or_false] at h
    rcases h with ⟨rfl, rfl⟩ | ⟨rfl, rfl⟩ | ⟨rfl, rfl⟩ | ⟨rfl, rfl⟩
    · have : s = "top" := by simpa [valuesIn, conNames, notationNames, elemNames, endNames] using hv
      subst this
      exact ⟨.integer, .num 7, hp.mem_iff.2 (List.mem_cons_self ..)⟩
    all_goals exact hf.elim
  aliases {n m t} h h' := by
    have h := sampleReversed_mem (hp.mem_iff.1 h)
    have h' := sampleReversed_mem (hp.mem_iff.1 h')
    simp only [sampleModule, List.drop, List.take, List.mem_singleton, Assign.type.injEq, reduceCtorEq, false_or, or_false,
      and_false, TObj.ref.injEq] at h h'
    obtain ⟨rfl, rfl⟩ := h
    rcases h' with ⟨h, _⟩ | ⟨_, rfl⟩ | ⟨h, _⟩ | ⟨h, _⟩
    · exact absurd h (by decide)
    · exact .inl (by simp)
    · exact absurd h (by decide)
    · exact absurd h (by decide)
  constants {n m l s} h hl _ := by
    have h := sampleReversed_mem (hp.mem_iff.1 h)
    simp only [sampleModule, List.drop, List.take, List.mem_singleton, Assign.constant.injEq, reduceCtorEq, false_or,
      or_false] at h
    obtain ⟨rfl, rfl, rfl⟩ := h
    cases hl
  components {n t m t'} h hf hr hm h' := by
    have h := sampleReversed_mem (hp.mem_iff.1 h)
    simp only [sampleModule, List.drop, List.take, List.mem_singleton, Assign.type.injEq, reduceCtorEq, false_or, or_false] at h
    have hA : FlatName as "A" := .type (t := .simple .integer _) (hp.mem_iff.2 (List.mem_cons_of_mem _ (List.mem_cons_self ..))) trivial
    have : m = "A" := by
      rcases h with ⟨rfl, rfl⟩ | ⟨rfl, rfl⟩ | ⟨rfl, rfl⟩ | ⟨rfl, rfl⟩
      · exact absurd trivial hf
      · simpa [typesIn, typesInItems, typesInComps] using hm
      · exact absurd rfl (hr _)
      · simpa [typesIn] using hm
    exact .inr (this ▸ hA)

/-- The name `x` in the module compiled from `as`. -/
def compiledModule (as : List Assign) (x : String) : Except GenErr (Option PyObj) := do
  return (← compileModule as).env.lookup x

example : Names sampleModule ∧ Solves sampleModule sampleTypes sampleValues ∧
    (∀ a ∈ sampleModule, RegularAssign sampleModule sampleTypes sampleValues a) ∧ Sortable sampleModule ∧
    Sortable sampleReversed ∧ componentCount sampleModule < 100 ∧ sampleReversed.Perm sampleModule ∧
    compiledModule sampleReversed "Msg_1" = .ok (some (.cls sampleMsg)) ∧
    compiledModule sampleReversed "five" = .ok (some (.val sampleA (.int 5))) :=
  ⟨sampleModule_names, sampleModule_solves, sampleModule_regular, sample_sortable (.refl _), sample_sortable sample_perm,
    by decide, sample_perm, by decide +kernel, by decide +kernel⟩

/-- The sorting is needed: `B ::= A` cannot come before `A`. -/
example : compiledTo [.type "B" (.ref "A"), .type "A" (.simple .integer none)] "B" = .error .nameError ∧
    compiledModule [.type "B" (.ref "A"), .type "A" (.simple .integer none)] "B" =
      .ok (some (.cls (.integer .noConstraint))) := by decide +kernel

end Verif.Props
