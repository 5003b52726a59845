import Verif.Lemmas.Uses
import Verif.Lemmas.Acyclic
/-!
# Assignments in an order in which nothing is used before it is assigned
-/
namespace Verif
open Spec

/-! ## positions in a list -/

section
variable {α : Type}

theorem before_append {l m : List α} {a b : α} (ha : a ∈ l) (hb : b ∈ m) : Before (l ++ m) a b :=
  (List.singleton_sublist.2 ha).append (List.singleton_sublist.2 hb)

theorem before_total : ∀ {l : List α} {a b : α}, a ∈ l → b ∈ l → a ≠ b → Before l a b ∨ Before l b a
  | x :: l, a, b, ha, hb, hne => by
    rcases List.mem_cons.1 ha with rfl | ha' <;> rcases List.mem_cons.1 hb with hb' | hb'
    · exact absurd hb'.symm hne
    · exact .inl ((List.singleton_sublist.2 hb').cons₂ a)
    · subst hb'; exact .inr ((List.singleton_sublist.2 ha').cons₂ b)
    · exact (before_total ha' hb' hne).imp (fun h => h.cons x) (fun h => h.cons x)

theorem before_split {pre post : List α} {a b : α} (hn : (pre ++ b :: post).Nodup) (h : Before (pre ++ b :: post) a b) :
    a ∈ pre := by
  obtain ⟨l, m, h1, h2, h3⟩ := List.append_sublist_iff.1 (show ([a] ++ [b]).Sublist _ from h)
  clear h
  induction pre generalizing l m with
  | nil =>
    exfalso
    rw [List.nil_append] at h1
    cases l with
    | nil => simp at h2
    | cons x l =>
      rw [List.cons_append, List.cons.injEq] at h1
      obtain ⟨rfl, rfl⟩ := h1
      rw [List.nil_append, List.nodup_cons] at hn
      exact hn.1 (List.mem_append_right _ (List.singleton_sublist.1 h3))
  | cons x pre ih =>
    cases l with
    | nil => simp at h2
    | cons y l =>
      rw [List.cons_append, List.cons_append, List.cons.injEq] at h1
      obtain ⟨rfl, h1⟩ := h1
      rcases List.mem_cons.1 (List.singleton_sublist.1 h2) with rfl | h
      · exact List.mem_cons_self ..
      · rw [List.cons_append, List.nodup_cons] at hn
        exact List.mem_cons_of_mem _ (ih hn.2 l m h1 (List.singleton_sublist.2 h) h3)

theorem before_asymm {l : List α} {a b : α} (hn : l.Nodup) (h : Before l a b) : ¬ Before l b a := by
  intro h'
  have hb : b ∈ l := h.subset (by simp)
  obtain ⟨pre, post, rfl⟩ := List.append_of_mem hb
  have ha := before_split hn h
  obtain ⟨pre, mid, rfl⟩ := List.append_of_mem ha
  rw [List.append_assoc, List.cons_append] at hn h'
  have := before_split hn h'
  rw [List.nodup_append] at hn
  exact hn.2.2 b this b (by simp) rfl

theorem before_filter {l : List α} {a b : α} {p : α → Bool} (h : Before l a b) (ha : p a = true) (hb : p b = true) :
    Before (l.filter p) a b := by
  have := List.Sublist.filter p h
  rwa [List.filter_cons_of_pos ha, List.filter_cons_of_pos hb, List.filter_nil] at this

end

/-! ## dependencies -/

/-- The type names an assignment uses. -/
def usedTypes : Assign → List String
  | .type _ t => typesIn t
  | .value _ _ _ => []
  | .constant _ m _ => [m]

/-- The value names an assignment may use. -/
def usedValues : Assign → List String
  | .type _ t => valuesIn t
  | .value _ _ l => litNames l
  | .constant _ _ l => litNames l

/-- Nothing is used before it is assigned. -/
structure UsedAfter (body : List Assign) : Prop where
  types : ∀ {a n t}, a ∈ body → n ∈ usedTypes a → .type n t ∈ body → Before body (.type n t) a
  values : ∀ {a s}, a ∈ body → s ∈ usedValues a → s ∈ valueNames body → ∃ b, s ∈ valueNames [b] ∧ Before body b a

theorem Spec.Solves.perm {as body : List Assign} {τ : List (String × Ty)} {ν : List (String × Ty × Val)} (h : Solves as τ ν)
    (hp : body.Perm as) : Solves body τ ν where
  type hm := h.type (hp.mem_iff.1 hm)
  value hm := h.value (hp.mem_iff.1 hm)
  constant hm := h.constant (hp.mem_iff.1 hm)
  types hl := (hp.filterMap _).mem_iff.2 (h.types hl)
  values hl := (hp.filterMap _).mem_iff.2 (h.values hl)

theorem assign_nodup : ∀ {as : List Assign}, (typeNames as).Nodup → (valueNames as).Nodup → as.Nodup
  | [], _, _ => List.nodup_nil
  | a :: as, h1, h2 => by
    have e1 := typeNames_append [a] as
    have e2 := valueNames_append [a] as
    rw [List.singleton_append] at e1 e2
    rw [e1, List.nodup_append] at h1
    rw [e2, List.nodup_append] at h2
    rw [List.nodup_cons]
    refine ⟨fun hm => ?_, assign_nodup h1.2.1 h2.2.1⟩
    cases a with
    | type n t => exact h1.2.2 n (by simp [typeNames]) n (typeNames_mem.2 ⟨t, hm⟩) rfl
    | value n k l => exact h2.2.2 n (by simp [valueNames]) n (List.mem_filterMap.2 ⟨_, hm, rfl⟩) rfl
    | constant n m l => exact h2.2.2 n (by simp [valueNames]) n (List.mem_filterMap.2 ⟨_, hm, rfl⟩) rfl

theorem lookup_same_cons {α : Type} {l l' : List (String × α)} {n m : String} {x : α} (h : l.lookup n = some x)
    (hm : m = n ∨ l'.lookup m = l.lookup m) : ((n, x) :: l').lookup m = l.lookup m := by
  rw [List.lookup_cons]
  cases hb : m == n with
  | true => rw [eq_of_beq hb, h]
  | false => exact hm.resolve_left (ne_of_beq_false hb)

/-- An order in which nothing is used before it is assigned is an order of declaration. -/
theorem declares_of_order {body : List Assign} {τ : List (String × Ty)} {ν : List (String × Ty × Val)}
    (hn : (typeNames body).Nodup ∧ (valueNames body).Nodup) (hs : Solves body τ ν)
    (hr : ∀ a ∈ body, RegularAssign body τ ν a) (ho : UsedAfter body) :
    ∃ τ' ν', Declares (RegularAssign body) body τ' ν' ∧ (∀ n, τ'.lookup n = τ.lookup n) ∧
      ∀ n, ν'.lookup n = ν.lookup n := by
  have hnd : body.Nodup := assign_nodup hn.1 hn.2
  have key : ∀ (rest pre : List Assign), body = pre ++ rest → ∀ τ' ν', Declares (RegularAssign body) pre τ' ν' →
      (∀ n, n ∈ typeNames pre ∨ n ∉ typeNames body → τ'.lookup n = τ.lookup n) →
      (∀ n, n ∈ valueNames pre ∨ n ∉ valueNames body → ν'.lookup n = ν.lookup n) →
      ∃ τ' ν', Declares (RegularAssign body) body τ' ν' ∧ (∀ n, τ'.lookup n = τ.lookup n) ∧
        ∀ n, ν'.lookup n = ν.lookup n := by
    intro rest
    induction rest with
    | nil =>
      intro pre he τ' ν' hd ht hv
      rw [List.append_nil] at he
      rw [← he] at hd ht hv
      exact ⟨τ', ν', hd, fun n => ht n (Decidable.em _), fun n => hv n (Decidable.em _)⟩
    | cons a rest ih =>
      intro pre he τ' ν' hd ht hv
      have ha : a ∈ body := by rw [he]; simp
      have he' : body = (pre ++ [a]) ++ rest := by rw [he]; simp
      have usesT : SameOn τ τ' (usedTypes a) := by
        intro n hu
        refine ht n ?_
        by_cases hb : n ∈ typeNames body
        · obtain ⟨t, hmem⟩ := typeNames_mem.1 hb
          have := ho.types ha hu hmem
          rw [he] at this hnd
          exact .inl (typeNames_mem.2 ⟨t, before_split hnd this⟩)
        · exact .inr hb
      have usesV : SameOn ν ν' (usedValues a) := by
        intro n hu
        refine hv n ?_
        by_cases hb : n ∈ valueNames body
        · obtain ⟨b, hmem, hbef⟩ := ho.values ha hu hb
          rw [he] at hbef hnd
          obtain ⟨pre1, pre2, rfl⟩ := List.append_of_mem (before_split hnd hbef)
          left
          rw [show pre1 ++ b :: pre2 = pre1 ++ [b] ++ pre2 by simp, valueNames_append, valueNames_append]
          exact List.mem_append_left _ (List.mem_append_right _ hmem)
        · exact .inr hb
      cases a with
      | type n t =>
        obtain ⟨T, h1, h2⟩ := hs.type ha
        refine ih (pre ++ [.type n t]) he' _ _ (.type hd ?_ (means_same h2 usesT usesV)) ?_ ?_
        · exact regular_same (fun _ => Iff.rfl) t usesV (hr _ ha)
        · intro m hm
          refine lookup_same_cons h1 ?_
          rcases hm with hm | hm
          · rw [typeNames_append, List.mem_append] at hm
            rcases hm with hm | hm
            · exact .inr (ht m (.inl hm))
            · exact .inl (by simpa [typeNames] using hm)
          · exact .inr (ht m (.inr hm))
        · intro m hm
          refine hv m (hm.imp (fun h => ?_) (fun h => h))
          rw [valueNames_append, List.mem_append] at h
          simpa [valueNames] using h
      | value n k l =>
        obtain ⟨T, v, h1, h2, h3⟩ := hs.value ha
        refine ih (pre ++ [.value n k l]) he' _ _ (.value hd (hr _ ha)
          (means_same h2 (fun _ h => by simp [typesIn] at h) (fun _ h => by simp [valuesIn, conNames] at h))
          (litIs_same usesV h3)) ?_ ?_
        · intro m hm
          refine ht m (hm.imp (fun h => ?_) (fun h => h))
          rw [typeNames_append, List.mem_append] at h
          simpa [typeNames] using h
        · intro m hm
          refine lookup_same_cons h1 ?_
          rcases hm with hm | hm
          · rw [valueNames_append, List.mem_append] at hm
            rcases hm with hm | hm
            · exact .inr (hv m (.inl hm))
            · exact .inl (by simpa [valueNames] using hm)
          · exact .inr (hv m (.inr hm))
      | constant n k l =>
        obtain ⟨T, v, h1, h2, h3⟩ := hs.constant ha
        refine ih (pre ++ [.constant n k l]) he' _ _ (.constant hd (hr _ ha)
          (by rw [usesT k (by simp [usedTypes])]; exact h2) (litIs_same usesV h3)) ?_ ?_
        · intro m hm
          refine ht m (hm.imp (fun h => ?_) (fun h => h))
          rw [typeNames_append, List.mem_append] at h
          simpa [typeNames] using h
        · intro m hm
          refine lookup_same_cons h1 ?_
          rcases hm with hm | hm
          · rw [valueNames_append, List.mem_append] at hm
            rcases hm with hm | hm
            · exact .inr (hv m (.inl hm))
            · exact .inl (by simpa [valueNames] using hm)
          · exact .inr (hv m (.inr hm))
  refine key body [] rfl [] [] .nil ?_ ?_
  · rintro n (h | h)
    · simp [typeNames] at h
    · cases hl : τ.lookup n with
      | none => rfl
      | some T => exact absurd (hs.types hl) h
  · rintro n (h | h)
    · simp [valueNames] at h
    · cases hl : ν.lookup n with
      | none => rfl
      | some T => exact absurd (hs.values hl) h

end Verif
