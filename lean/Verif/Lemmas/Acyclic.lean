import Verif.Lemmas.Sorting
/-!
# Reference graphs without cycles have floors
-/
namespace Verif
open Spec

section
variable {α : Type} {ref : α → String} {refs : α → List String}

theorem Reaches.trans {comps : List α} {a b c : String} (h1 : Reaches ref refs comps a b)
    (h2 : Reaches ref refs comps b c) : Reaches ref refs comps a c := by
  induction h2 with
  | direct h => exact .step h1 h
  | step _ h ih => exact .step ih h

open Classical in
/-- The number of types that reach `s`. -/
noncomputable def above (ref : α → String) (refs : α → List String) (comps : List α) (s : String) : Nat :=
  ((comps.map ref).filter fun t => decide (Reaches ref refs comps t s)).length

theorem filter_lt {β : Type} {p q : β → Bool} : ∀ {l : List β}, (∀ x, p x = true → q x = true) →
    (∃ x ∈ l, p x = false ∧ q x = true) → (l.filter p).length < (l.filter q).length
  | [], _, h => by simp at h
  | a :: l, hpq, h => by
    have hle : (l.filter p).length ≤ (l.filter q).length := by
      clear h
      induction l with
      | nil => simp
      | cons b l ih =>
        simp only [List.filter_cons]
        cases hp : p b with
        | true => simp only [hpq b hp, if_true, List.length_cons]; omega
        | false =>
          simp only [Bool.false_eq_true, if_false]
          split
          · simp only [List.length_cons]; omega
          · exact ih
    obtain ⟨x, hx, h1, h2⟩ := h
    simp only [List.filter_cons]
    rcases List.mem_cons.1 hx with rfl | hx
    · simp only [h1, h2, Bool.false_eq_true, if_false, if_true, List.length_cons]; omega
    · have := filter_lt hpq ⟨x, hx, h1, h2⟩
      cases hp : p a with
      | true => simp only [hpq a hp, if_true, List.length_cons]; omega
      | false =>
        simp only [Bool.false_eq_true, if_false]
        split
        · simp only [List.length_cons]; omega
        · exact this

theorem acyclic_chains {comps : List α} (h : Acyclic ref refs comps) :
    ChainsBelow ref refs comps.length comps := by
  refine ⟨above ref refs comps, fun s hs => ?_, fun a b hab => ?_⟩
  · have := filter_lt (l := comps.map ref) (p := fun t => @decide (Reaches ref refs comps t s) (Classical.propDecidable _))
      (q := fun _ => true) (fun _ _ => rfl) ⟨s, hs, by simpa using h s, rfl⟩
    have ht : (comps.map ref).filter (fun _ => true) = comps.map ref := List.filter_eq_self.2 fun _ _ => rfl
    rw [ht, List.length_map] at this
    exact this
  · refine filter_lt (fun t ht => ?_) ⟨a, ?_, ?_, ?_⟩
    · simp only [decide_eq_true_eq] at ht ⊢
      exact .step ht hab
    · obtain ⟨_, _, c, hc, rfl, _⟩ := hab
      exact List.mem_map_of_mem hc
    · simpa using h a
    · simpa using Reaches.direct hab

end

/-! ## aliases -/

section
variable {α : Type} (ref : α → String) (p : α → Bool)

theorem additionalSort_sublist : ∀ (types comps : List α), comps.Sublist (additionalSort ref types comps).2
  | [], comps => by simp [additionalSort]
  | t :: types, comps => by
    rw [additionalSort]
    split
    · exact additionalSort_sublist types comps
    · rename_i i _
      refine List.Sublist.trans ?_ (additionalSort_sublist types _)
      conv => lhs; rw [← List.take_append_drop (i + 1) comps]
      exact List.Sublist.append_left (List.sublist_cons_self ..) _

theorem additionalSort_perm : ∀ (types comps : List α),
    ((additionalSort ref types comps).1 ++ (additionalSort ref types comps).2).Perm (types ++ comps)
  | [], comps => by simp [additionalSort]
  | t :: types, comps => by
    rw [additionalSort]
    split
    · exact (additionalSort_perm types comps).cons t
    · rename_i i _
      refine (additionalSort_perm types _).trans ?_
      rw [List.cons_append]
      refine (List.Perm.append_left types List.perm_middle).trans ?_
      rw [List.take_append_drop]
      exact List.perm_middle

/-- The components in the result are those given, in the given order. -/
theorem additionalSort_filter : ∀ (types comps : List α), (∀ t ∈ types, p t = false) →
    (additionalSort ref types comps).2.filter p = comps.filter p
  | [], comps, _ => by simp [additionalSort]
  | t :: types, comps, h => by
    rw [additionalSort]
    split
    · exact additionalSort_filter types comps fun t ht => h t (List.mem_cons_of_mem _ ht)
    · rename_i i _
      rw [additionalSort_filter types _ fun t ht => h t (List.mem_cons_of_mem _ ht), List.filter_append,
        List.filter_cons, h t (by simp)]
      simp only [Bool.false_eq_true, if_false]
      rw [← List.filter_append, List.take_append_drop]

theorem additionalSort_defined : ∀ (types comps : List α), (∀ t ∈ types, p t = false) →
    ∀ t ∈ (additionalSort ref types comps).1, p t = false
  | [], comps, _ => by simp [additionalSort]
  | t :: types, comps, h => by
    have ih := fun c => additionalSort_defined types c fun t ht => h t (List.mem_cons_of_mem _ ht)
    rw [additionalSort]
    split
    · intro u hu
      rcases List.mem_cons.1 hu with rfl | hu
      · exact h _ (by simp)
      · exact ih _ u hu
    · exact ih _

/-- `b` comes before `t` in the list. -/
def Before (l : List α) (b t : α) : Prop := [b, t].Sublist l

/-- An alias comes behind the type it names. -/
theorem additionalSort_after : ∀ (types comps : List α) {t b : α}, (comps.map ref).Nodup →
    t ∈ types → b ∈ comps → ref b = ref t →
    Before (additionalSort ref types comps).2 b t := by
  have key : ∀ (types comps : List α) {t b : α}, t ∈ types → b ∈ comps →
      ref b = ref t →
      (∀ (i : Nat) (c : α), comps[i]? = some c → ref c = ref b →
        (∀ (j : Nat) (d : α), j < i → comps[j]? = some d → ref d ≠ ref b) → c = b) →
      Before (additionalSort ref types comps).2 b t := by
    intro types
    induction types with
    | nil => intro comps t b ht; simp at ht
    | cons u types ih =>
      intro comps t b ht hb he hfirst
      rw [additionalSort]
      cases hf : (comps.map ref).findIdx? (· == ref u) with
      | none =>
        rw [List.findIdx?_eq_none_iff] at hf
        rcases List.mem_cons.1 ht with rfl | ht
        · exfalso
          have := hf _ (List.mem_map_of_mem hb)
          simp [he] at this
        · exact ih comps ht hb he hfirst
      | some i =>
        have hf' := hf
        rw [List.findIdx?_eq_some_iff_getElem] at hf'
        obtain ⟨hi, h2, h3⟩ := hf'
        have hi' : i < comps.length := by simpa using hi
        have hr : ref comps[i] = ref u := by simpa using h2
        have hg : comps[i]? = some comps[i] := List.getElem?_eq_getElem hi'
        have hsub : comps.Sublist (comps.take (i + 1) ++ u :: comps.drop (i + 1)) := by
          conv => lhs; rw [← List.take_append_drop (i + 1) comps]
          exact List.Sublist.append_left (List.sublist_cons_self ..) _
        rcases List.mem_cons.1 ht with rfl | ht
        · -- the alias is inserted now
          have hb' : comps[i] = b := by
            refine hfirst i _ hg (by rw [hr, he]) (fun j d hj hd hde => ?_)
            have hj' : j < comps.length := by omega
            rw [List.getElem?_eq_getElem hj'] at hd
            simp only [Option.some.injEq] at hd
            have := h3 j hj
            simp [hd, hde, he] at this
          refine List.Sublist.trans ?_ (additionalSort_sublist ref types _)
          have hm : b ∈ comps.take (i + 1) := by
            rw [List.mem_take_iff_getElem]
            exact ⟨i, by omega, hb'⟩
          exact List.Sublist.append (List.singleton_sublist.2 hm)
            (List.singleton_sublist.2 (by simp) : [t].Sublist _)
        · refine ih _ ht (hsub.subset hb) he ?_
          intro k c hk hc hkfirst
          by_cases hki : k < i + 1
          · rw [List.getElem?_append_left (by simp; omega), List.getElem?_take_of_lt hki] at hk
            refine hfirst k c hk hc (fun j d hj hd => hkfirst j d hj ?_)
            rw [List.getElem?_append_left (by simp; omega), List.getElem?_take_of_lt (by omega)]
            exact hd
          · -- the first with that name cannot be behind the insertion unless it is an original one
            have hlen : (comps.take (i + 1)).length = i + 1 := by simp; omega
            rw [List.getElem?_append_right (by omega), hlen] at hk
            by_cases hku : k = i + 1
            · exfalso
              subst hku
              simp only [Nat.sub_self, List.getElem?_cons_zero, Option.some.injEq] at hk
              refine hkfirst i comps[i] (by omega) ?_ (by rw [hr, hk, hc])
              rw [List.getElem?_append_left (by omega), List.getElem?_take_of_lt (by omega)]
              exact hg
            · obtain ⟨k', rfl⟩ : ∃ k', k = i + 2 + k' := ⟨k - (i + 2), by omega⟩
              rw [show i + 2 + k' - (i + 1) = k' + 1 by omega, List.getElem?_cons_succ, List.getElem?_drop] at hk
              refine hfirst (i + 1 + k') c hk hc (fun j d hj hd => ?_)
              by_cases hji : j < i + 1
              · refine hkfirst j d (by omega) ?_
                rw [List.getElem?_append_left (by omega), List.getElem?_take_of_lt hji]
                exact hd
              · refine hkfirst (j + 1) d (by omega) ?_
                rw [List.getElem?_append_right (by omega), hlen,
                  show j + 1 - (i + 1) = (j - (i + 1)) + 1 by omega, List.getElem?_cons_succ, List.getElem?_drop,
                  show i + 1 + (j - (i + 1)) = j by omega]
                exact hd
  intro types comps t b hn ht hb he
  refine key types comps ht hb he ?_
  intro i c hi hc _
  exact map_inj_of_nodup hn (List.mem_of_getElem? hi) hb hc

/-- The types left over keep their order. -/
theorem additionalSort_left : ∀ (types comps : List α), (additionalSort ref types comps).1.Sublist types
  | [], comps => by simp [additionalSort]
  | t :: types, comps => by
    rw [additionalSort]
    split
    · exact (additionalSort_left types comps).cons₂ t
    · exact (additionalSort_left types _).cons t

/-- They are not aliases of components. -/
theorem additionalSort_rest : ∀ (types comps : List α), ∀ t ∈ (additionalSort ref types comps).1, ref t ∉ comps.map ref
  | [], comps => by simp [additionalSort]
  | t :: types, comps => by
    rw [additionalSort]
    split
    · rename_i h
      intro u hu
      rcases List.mem_cons.1 hu with rfl | hu
      · rw [List.findIdx?_eq_none_iff] at h
        intro hm
        simpa using h _ hm
      · exact additionalSort_rest types comps u hu
    · intro u hu hm
      refine additionalSort_rest types _ u hu ?_
      rw [List.map_append, List.map_cons, List.mem_append, List.mem_cons]
      rename_i i _ 
      rw [← List.take_append_drop (i + 1) comps, List.map_append, List.mem_append] at hm
      exact hm.imp id .inr

end

end Verif
