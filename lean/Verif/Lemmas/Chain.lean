import Verif.Lemmas.Acyclic
/-!
# A chain of references that takes one pass per link
-/
namespace Verif
open Spec

section
variable {α : Type} {ref : α → String} {refs : α → List String}

/-- `n` types, each of which refers to the next one. -/
structure Chain (ref : α → String) (refs : α → List String) (node : Nat → α) (n : Nat) : Prop where
  inj : ∀ {i j}, ref (node i) = ref (node j) → i = j
  next : ∀ i, refs (node i) = [ref (node (i + 1))]

/-- The types of a chain, in some order in which every type from the `k`th on comes before the next one. -/
structure Unordered (ref : α → String) (node : Nat → α) (n k : Nat) (comps : List α) : Prop where
  mem : ∀ c, c ∈ comps ↔ ∃ i < n, c = node i
  nodup : (comps.map ref).Nodup
  before : ∀ j, k ≤ j → j + 1 < n → [node j, node (j + 1)].Sublist comps

variable {node : Nat → α} {n : Nat}

/-- What holds after the components `pre` have been looked at. -/
structure ChainInv (ref : α → String) (node : Nat → α) (n k : Nat) (pre : List α) (st : PassState α) : Prop where
  done : ∀ c ∈ pre, ref c ∈ st.newRefs
  pulled : ∀ j, k ≤ j → j + 1 < n → node j ∈ pre → ref (node (j + 1)) ∈ st.newRefs
  late : ∀ j, k ≤ j → j + 1 < n → ref (node (j + 1)) ∈ st.newRefs → node j ∈ pre
  order : ∀ j, k + 1 ≤ j → j + 1 < n → ref (node (j + 1)) ∈ st.newRefs →
    [node j, node (j + 1)].Sublist st.newComps

/-- Two elements cannot be in both orders. -/
theorem two_orders {x y : α} : ∀ {l : List α}, l.Nodup → [x, y].Sublist l → [y, x].Sublist l → False := by
  intro l
  induction l with
  | nil => intro _ h1 _; cases h1
  | cons a l ih =>
    intro hl h1 h2
    rw [List.nodup_cons] at hl
    cases h1 with
    | cons _ h1 =>
      cases h2 with
      | cons _ h2 => exact ih hl.2 h1 h2
      | cons_cons _ h2 => exact hl.1 (h1.subset (by simp))
    | cons_cons _ h1 =>
      cases h2 with
      | cons _ h2 => exact hl.1 (h2.subset (by simp))
      | cons_cons _ h2 => exact hl.1 (h1.subset (by simp))

theorem mem_of_inv {comps : List α} {st : PassState α} (hn : (comps.map ref).Nodup) (hi : PassInv comps ref st) {c : α}
    (hc : c ∈ comps) (h : ref c ∈ st.newRefs) : c ∈ st.newComps := by
  rw [hi.names, List.mem_map] at h
  obtain ⟨d, hd, he⟩ := h
  rw [← map_inj_of_nodup hn (hi.mem d hd) hc he]
  exact hd

theorem chain_place {k : Nat} {comps pre post : List α} {i : Nat} (hc : Chain ref refs node n)
    (hu : Unordered ref node n k comps) (he : comps = pre ++ node i :: post) {st : PassState α}
    (hi : PassInv comps ref st) (h : ChainInv ref node n k pre st) :
    ChainInv ref node n k (pre ++ [node i]) (place ref refs comps st (node i, pre.length)) := by
  have hin : i < n := by
    obtain ⟨j, hj, he'⟩ := (hu.mem (node i)).1 (by simp [he])
    rw [hc.inj (congrArg ref he')]; exact hj
  -- what has been looked at comes first
  have hpre : ∀ j, k ≤ j → j + 1 = i → node j ∈ pre := by
    intro j hj hji
    have hs := hu.before j hj (by omega)
    have hx : node j ∈ comps := (hu.mem _).2 ⟨j, by omega, rfl⟩
    rw [he] at hx
    rcases List.mem_append.1 hx with hx | hx
    · exact hx
    · exfalso
      rcases List.mem_cons.1 hx with hx | hx
      · have := hc.inj (congrArg ref hx); omega
      · rw [hji] at hs
        have hsub : [node i, node j].Sublist comps := by
          rw [he]
          exact (List.Sublist.cons_cons _ (List.singleton_sublist.2 hx)).trans (List.sublist_append_right ..)
        have hnd := nodup_of_map hu.nodup
        exact two_orders hnd hs hsub
  have hinv := pull_inv (idx := pre.length) (s := ref (node (i + 1))) hi
  have h1 : ChainInv ref node n k pre st → PassInv comps ref (pull ref comps pre.length st (ref (node (i + 1)))) →
      (∀ c ∈ pre, ref c ∈ (pull ref comps pre.length st (ref (node (i + 1)))).newRefs) ∧
      (∀ j, k ≤ j → j + 1 < n → node j ∈ pre ++ [node i] →
        ref (node (j + 1)) ∈ (pull ref comps pre.length st (ref (node (i + 1)))).newRefs) ∧
      (∀ j, k ≤ j → j + 1 < n → ref (node (j + 1)) ∈ (pull ref comps pre.length st (ref (node (i + 1)))).newRefs →
        node j ∈ pre ++ [node i]) ∧
      (∀ j, k + 1 ≤ j → j + 1 < n →
        ref (node (j + 1)) ∈ (pull ref comps pre.length st (ref (node (i + 1)))).newRefs →
        [node j, node (j + 1)].Sublist (pull ref comps pre.length st (ref (node (i + 1)))).newComps) := by
    intro h _
    rcases pull_cases (ref := ref) comps pre.length st (ref (node (i + 1))) with
      ⟨p1, p2⟩ | ⟨q, d, hd, hr, hlt, _, hnew, p1⟩
    · rw [p1]
      refine ⟨h.done, fun j hj hj1 hm => ?_, fun j hj hj1 hm => ?_, h.order⟩
      · rcases List.mem_append.1 hm with hm | hm
        · exact h.pulled j hj hj1 hm
        · have hji : j = i := hc.inj (congrArg ref (by simpa using hm))
          subst hji
          rcases p2 with p2 | p2 | p2 | ⟨q, d, hd, hr, hq⟩
          · exact p2
          · exact absurd (List.mem_map_of_mem ((hu.mem _).2 ⟨j + 1, hj1, rfl⟩)) p2
          · exact hi.moved _ p2
          · rcases Nat.lt_or_eq_of_le hq with hq | rfl
            · rw [he, List.getElem?_append_left hq] at hd
              rw [← hr]
              exact h.done d (List.mem_of_getElem? hd)
            · rw [he] at hd
              simp only [List.getElem?_append_right (Nat.le_refl _), Nat.sub_self, List.getElem?_cons_zero,
                Option.some.injEq] at hd
              rw [← hd] at hr
              have := hc.inj hr
              omega
      · exact List.mem_append_left _ (h.late j hj hj1 hm)
    · have hdn : d = node (i + 1) ∧ i + 1 < n := by
        obtain ⟨m, hm, rfl⟩ := (hu.mem d).1 (List.mem_of_getElem? hd)
        have := hc.inj hr
        subst this
        exact ⟨rfl, hm⟩
      obtain ⟨rfl, hi1⟩ := hdn
      rw [p1]
      refine ⟨fun c hcp => List.mem_append_left _ (h.done c hcp), fun j hj hj1 hm => ?_, fun j hj hj1 hm => ?_,
        fun j hj hj1 hm => ?_⟩
      · rcases List.mem_append.1 hm with hm | hm
        · exact List.mem_append_left _ (h.pulled j hj hj1 hm)
        · have hji : j = i := hc.inj (congrArg ref (by simpa using hm))
          subst hji
          simp
      · rcases List.mem_append.1 hm with hm | hm
        · exact List.mem_append_left _ (h.late j hj hj1 hm)
        · have hji : j + 1 = i + 1 := hc.inj (by simpa using hm)
          have : j = i := by omega
          subst this
          simp
      · rcases List.mem_append.1 hm with hm | hm
        · exact (h.order j hj hj1 hm).trans (List.sublist_append_left ..)
        · have hji : j + 1 = i + 1 := hc.inj (by simpa using hm)
          have : j = i := by omega
          subst this
          have hj' : node (j - 1) ∈ pre := hpre (j - 1) (by omega) (by omega)
          have h2 := h.pulled (j - 1) (by omega) (by omega) hj'
          rw [show j - 1 + 1 = j by omega] at h2
          have h3 := mem_of_inv hu.nodup hi ((hu.mem _).2 ⟨j, hin, rfl⟩) h2
          exact List.Sublist.append (List.singleton_sublist.2 h3) (List.Sublist.refl [node (j + 1)])
  obtain ⟨a1, a2, a3, a4⟩ := h1 h hinv
  have hpl : place ref refs comps st (node i, pre.length) =
      (if (pull ref comps pre.length st (ref (node (i + 1)))).newRefs.contains (ref (node i)) then
        pull ref comps pre.length st (ref (node (i + 1)))
       else { pull ref comps pre.length st (ref (node (i + 1))) with
        newRefs := (pull ref comps pre.length st (ref (node (i + 1)))).newRefs ++ [ref (node i)],
        newComps := (pull ref comps pre.length st (ref (node (i + 1)))).newComps ++ [node i] }) := by
    simp only [place, hc.next, List.foldl_cons, List.foldl_nil]
  have hself : k + 1 ≤ i → ref (node i) ∈ st.newRefs := by
    intro hk
    have h2 := h.pulled (i - 1) (by omega) (by omega) (hpre (i - 1) (by omega) (by omega))
    rwa [show i - 1 + 1 = i by omega] at h2
  rw [hpl]
  split
  · rename_i hm
    refine ⟨fun c hcp => ?_, a2, a3, a4⟩
    rcases List.mem_append.1 hcp with hcp | hcp
    · exact a1 c hcp
    · simp only [List.mem_singleton] at hcp
      subst hcp
      simpa using hm
  · rename_i hm
    have hik : i ≤ k := by
      by_cases hik : i ≤ k
      · exact hik
      · exact absurd (by simpa using pull_mono (hself (by omega))) hm
    refine ⟨fun c hcp => ?_, fun j hj hj1 hmj => List.mem_append_left _ (a2 j hj hj1 hmj), fun j hj hj1 hmj => ?_,
      fun j hj hj1 hmj => ?_⟩
    · rcases List.mem_append.1 hcp with hcp | hcp
      · exact List.mem_append_left _ (a1 c hcp)
      · simp only [List.mem_singleton] at hcp
        subst hcp
        simp
    · rcases List.mem_append.1 hmj with hmj | hmj
      · exact a3 j hj hj1 hmj
      · have : j + 1 = i := hc.inj (by simpa using hmj)
        omega
    · rcases List.mem_append.1 hmj with hmj | hmj
      · exact (a4 j hj hj1 hmj).trans (List.sublist_append_left ..)
      · have : j + 1 = i := hc.inj (by simpa using hmj)
        omega

theorem chain_places {k : Nat} {comps : List α} (hc : Chain ref refs node n)
    (hu : Unordered ref node n k comps) : ∀ (post pre : List α) {st : PassState α}, comps = pre ++ post →
    PassInv comps ref st → ChainInv ref node n k pre st →
    ChainInv ref node n k comps ((post.zipIdx pre.length).foldl (place ref refs comps) st)
  | [], pre, st, he, _, h => by simpa [he] using h
  | c :: post, pre, st, he, hi, h => by
    obtain ⟨i, _, rfl⟩ := (hu.mem c).1 (by simp [he])
    rw [List.zipIdx_cons, List.foldl_cons]
    have := chain_places hc hu post (pre ++ [node i]) (by simp [he])
      (place_inv (refs := refs) (c := (node i, pre.length)) hi (by simp [he])) (chain_place hc hu he hi h)
    simpa using this

theorem chain_pass {k : Nat} {comps : List α} (hc : Chain ref refs node n) (hu : Unordered ref node n k comps) :
    Unordered ref node n (k + 1) (sortPass ref refs comps).newComps := by
  have h := chain_places hc hu comps [] rfl (passInv_init comps)
    ⟨by simp, fun j _ _ h => by simp at h, fun j _ _ h => by simp at h, fun j _ _ h => by simp at h⟩
  have hp := sortPass_perm (refs := refs) hu.nodup
  refine ⟨fun c => hp.mem_iff.trans (hu.mem c), sortPass_nodup comps, fun j hj hj1 => ?_⟩
  exact h.order j hj hj1 (h.done _ ((hu.mem _).2 ⟨j + 1, hj1, rfl⟩))

/-- The loop gives up although one more round would have been enough. -/
theorem chain_loop (hc : Chain ref refs node n) : ∀ (m k : Nat) {comps : List α}, Unordered ref node n k comps →
    m + k ≤ n → (sortLoop ref refs m false comps).2 = true := by
  intro m
  induction m with
  | zero => intro k comps _ _; rw [sortLoop]
  | succ m ih =>
    intro k comps hu hm
    rw [sortLoop]
    have hu' := chain_pass hc hu
    cases m with
    | zero => rw [sortLoop]
    | succ m =>
      cases hs : (sortPass ref refs comps).allSorted with
      | false => exact ih (k + 1) hu' (by omega)
      | true =>
        exfalso
        have h1 := (sortPass_sorted hu.nodup hs).2
        have h2 := List.pairwise_iff_forall_sublist.1 h1 (hu.before k (Nat.le_refl _) (by omega))
        rw [hc.next] at h2
        simp at h2

theorem sortLoop_low {floor : String → Nat} : ∀ (m k : Nat) {comps : List α}, (comps.map ref).Nodup →
    Low ref refs floor k comps → (∀ a b, RefersTo ref refs comps a b → floor a < floor b) →
    (sortLoop ref refs m false comps).2 = true → Low ref refs floor (k + m) (sortLoop ref refs m false comps).1 := by
  intro m
  induction m with
  | zero => intro k comps _ hl _ _; rw [sortLoop]; exact hl
  | succ m ih =>
    intro k comps hn hl hf hw
    rw [sortLoop] at hw ⊢
    have hp := sortPass_perm (refs := refs) hn
    have hmap : ∀ s, s ∈ (sortPass ref refs comps).newComps.map ref ↔ s ∈ comps.map ref := fun s =>
      (hp.map ref).mem_iff
    cases hs : (sortPass ref refs comps).allSorted with
    | false =>
      rw [hs] at hw
      have := ih (k + 1) (sortPass_nodup comps) (sortPass_low hl hf) (by
        rintro a b ⟨h1, h3, c, hc, h4, h5⟩
        exact hf a b ⟨h1, (hmap b).1 h3, c, hp.mem_iff.1 hc, h4, h5⟩) hw
      rwa [show k + 1 + m = k + (m + 1) by omega] at this
    | true =>
      rw [hs] at hw
      cases m with
      | zero => rw [sortLoop]; exact sortPass_low hl hf
      | succ m => rw [sortLoop] at hw; simp at hw

end

end Verif
