import Verif.SpecModule
/-!
# Lemmas about `sort_components`
-/
namespace Verif
open Spec

section
variable {α : Type} {ref : α → String} {refs : α → List String}

theorem map_inj_of_nodup {β γ : Type} {f : β → γ} : ∀ {l : List β} {a b : β}, (l.map f).Nodup → a ∈ l → b ∈ l →
    f a = f b → a = b
  | [], _, _, _, ha, _, _ => by simp at ha
  | c :: l, a, b, hn, ha, hb, h => by
    simp only [List.map_cons, List.nodup_cons, List.mem_map, not_exists, not_and] at hn
    rcases List.mem_cons.1 ha with rfl | ha' <;> rcases List.mem_cons.1 hb with rfl | hb'
    · rfl
    · exact absurd h.symm (hn.1 b hb')
    · exact absurd h (hn.1 a ha')
    · exact map_inj_of_nodup hn.2 ha' hb' h

theorem nodup_of_map {β γ : Type} {f : β → γ} {l : List β} (h : (l.map f).Nodup) : l.Nodup := by
  induction l with
  | nil => simp
  | cons a l ih =>
    simp only [List.map_cons, List.nodup_cons] at h ⊢
    exact ⟨fun ha => h.1 (List.mem_map_of_mem ha), ih h.2⟩

/-- What holds of the local variables at any time. -/
structure PassInv (comps : List α) (ref : α → String) (st : PassState α) : Prop where
  names : st.newRefs = st.newComps.map ref
  nodup : st.newRefs.Nodup
  mem : ∀ c ∈ st.newComps, c ∈ comps
  moved : ∀ s ∈ st.moved, s ∈ st.newRefs

theorem pull_cases (comps : List α) (idx : Nat) (st : PassState α) (s : String) :
    (pull ref comps idx st s = st ∧
      (s ∈ st.newRefs ∨ s ∉ comps.map ref ∨ s ∈ st.moved ∨ ∃ i c, comps[i]? = some c ∧ ref c = s ∧ i ≤ idx)) ∨
    ∃ i c, comps[i]? = some c ∧ ref c = s ∧ idx < i ∧ (∀ j c', j < i → comps[j]? = some c' → ref c' ≠ s) ∧
      s ∉ st.newRefs ∧
      pull ref comps idx st s = ⟨st.newRefs ++ [s], st.newComps ++ [c], st.moved ++ [s], false⟩ := by
  unfold pull
  by_cases h1 : st.newRefs.contains s = true
  · left
    rw [if_pos h1]
    exact ⟨rfl, .inl (by simpa using h1)⟩
  · rw [if_neg h1]
    cases hf : (comps.map ref).findIdx? (· == s) with
    | none =>
      left
      refine ⟨rfl, .inr (.inl ?_)⟩
      rw [List.findIdx?_eq_none_iff] at hf
      intro hs
      simpa using hf s hs
    | some i =>
      rw [List.findIdx?_eq_some_iff_getElem] at hf
      obtain ⟨hi, h2, h3⟩ := hf
      have hi' : i < comps.length := by simpa using hi
      have hg : comps[i]? = some comps[i] := List.getElem?_eq_getElem hi'
      have hr : ref comps[i] = s := by simpa using h2
      by_cases h4 : (decide (i > idx) && !st.moved.contains s) = true
      · right
        simp only [Bool.and_eq_true, decide_eq_true_eq] at h4
        refine ⟨i, comps[i], hg, hr, h4.1, ?_, by simpa using h1, ?_⟩
        · intro j c' hj hc he
          have hj' : j < comps.length := by omega
          have := h3 j hj
          rw [List.getElem?_eq_getElem hj'] at hc
          simp only [Option.some.injEq] at hc
          simp [hc, he] at this
        · simp only [hg, Option.toList_some]
          rw [if_pos (by simpa using h4)]
      · left
        simp only [if_neg h4, true_and]
        simp only [Bool.and_eq_true, decide_eq_true_eq, not_and, Bool.not_eq_true', Bool.not_eq_false] at h4
        by_cases h5 : i > idx
        · exact .inr (.inr (.inl (by simpa using h4 h5)))
        · exact .inr (.inr (.inr ⟨i, _, hg, hr, by omega⟩))

theorem pull_inv {comps : List α} {idx : Nat} {st : PassState α} {s : String} (h : PassInv comps ref st) :
    PassInv comps ref (pull ref comps idx st s) := by
  rcases pull_cases (ref := ref) comps idx st s with ⟨h1, _⟩ | ⟨i, c, hc, hr, _, _, hs, h1⟩
  · rwa [h1]
  · rw [h1]
    refine ⟨by simp [h.names, hr], ?_, ?_, ?_⟩
    · have := h.nodup
      simp only [List.nodup_append, this, true_and]
      refine ⟨by simp, fun a ha b hb => ?_⟩
      simp only [List.mem_singleton] at hb
      subst hb
      rintro rfl
      exact hs ha
    · intro c' hc'
      simp only [List.mem_append, List.mem_singleton] at hc'
      rcases hc' with hc' | rfl
      · exact h.mem c' hc'
      · exact List.mem_of_getElem? hc
    · intro t ht
      simp only [List.mem_append, List.mem_singleton] at ht ⊢
      exact ht.imp (h.moved t) id

theorem pull_mono {comps : List α} {idx : Nat} {st : PassState α} {s t : String} (h : t ∈ st.newRefs) :
    t ∈ (pull ref comps idx st s).newRefs := by
  rcases pull_cases (ref := ref) comps idx st s with ⟨h1, _⟩ | ⟨i, c, _, _, _, _, _, h1⟩ <;> rw [h1]
  · exact h
  · simp [h]

theorem pulls_inv {comps : List α} {idx : Nat} : ∀ (l : List String) {st : PassState α}, PassInv comps ref st →
    PassInv comps ref (l.foldl (pull ref comps idx) st)
  | [], _, h => h
  | _ :: l, _, h => pulls_inv l (pull_inv h)

theorem pulls_mono {comps : List α} {idx : Nat} : ∀ (l : List String) {st : PassState α} {t : String},
    t ∈ st.newRefs → t ∈ (l.foldl (pull ref comps idx) st).newRefs
  | [], _, _, h => h
  | _ :: l, _, _, h => pulls_mono l (pull_mono h)

theorem place_inv {comps : List α} {st : PassState α} {c : α × Nat} (h : PassInv comps ref st) (hc : c.1 ∈ comps) :
    PassInv comps ref (place ref refs comps st c) := by
  have h1 := pulls_inv (idx := c.2) (refs c.1) h
  simp only [place]
  generalize (refs c.1).foldl (pull ref comps c.2) st = st' at h1
  by_cases hm : st'.newRefs.contains (ref c.1) = true
  · rwa [if_pos hm]
  · rw [if_neg hm]
    refine ⟨by simp [h1.names], ?_, ?_, ?_⟩
    · have := h1.nodup
      simp only [List.nodup_append, this, true_and]
      refine ⟨by simp, fun a ha b hb => ?_⟩
      simp only [List.mem_singleton] at hb
      subst hb
      rintro rfl
      exact hm (by simpa using ha)
    · intro c' hc'
      simp only [List.mem_append, List.mem_singleton] at hc'
      rcases hc' with hc' | rfl
      · exact h1.mem c' hc'
      · exact hc
    · intro t ht
      simp only [List.mem_append]
      exact .inl (h1.moved t ht)

theorem place_mem {comps : List α} {st : PassState α} {c : α × Nat} :
    ref c.1 ∈ (place ref refs comps st c).newRefs := by
  simp only [place]
  generalize (refs c.1).foldl (pull ref comps c.2) st = st'
  by_cases hm : st'.newRefs.contains (ref c.1) = true
  · rw [if_pos hm]; simpa using hm
  · rw [if_neg hm]; simp

theorem place_mono {comps : List α} {st : PassState α} {c : α × Nat} {t : String} (h : t ∈ st.newRefs) :
    t ∈ (place ref refs comps st c).newRefs := by
  have h1 := pulls_mono (ref := ref) (comps := comps) (idx := c.2) (refs c.1) h
  simp only [place]
  generalize (refs c.1).foldl (pull ref comps c.2) st = st' at h1
  by_cases hm : st'.newRefs.contains (ref c.1) = true
  · rwa [if_pos hm]
  · rw [if_neg hm]; simp [h1]

theorem places_inv {comps : List α} : ∀ (l : List (α × Nat)) {st : PassState α}, PassInv comps ref st →
    (∀ c ∈ l, c.1 ∈ comps) → PassInv comps ref (l.foldl (place ref refs comps) st) ∧
      (∀ t ∈ st.newRefs, t ∈ (l.foldl (place ref refs comps) st).newRefs) ∧
      ∀ c ∈ l, ref c.1 ∈ (l.foldl (place ref refs comps) st).newRefs
  | [], _, h, _ => ⟨h, fun _ ht => ht, by simp⟩
  | c :: l, st, h, hl => by
    obtain ⟨h1, h2, h3⟩ := places_inv l (place_inv (refs := refs) h (hl c (by simp)))
      (fun c' hc' => hl c' (List.mem_cons_of_mem _ hc'))
    refine ⟨h1, fun t ht => h2 t (place_mono ht), fun c' hc' => ?_⟩
    rcases List.mem_cons.1 hc' with rfl | hc'
    · exact h2 _ place_mem
    · exact h3 c' hc'

theorem passInv_init (comps : List α) : PassInv comps ref ⟨[], [], [], true⟩ :=
  ⟨rfl, List.nodup_nil, by simp, by simp⟩

theorem sortPass_nodup (comps : List α) : ((sortPass ref refs comps).newComps.map ref).Nodup := by
  have := (places_inv (ref := ref) (refs := refs) comps.zipIdx (passInv_init comps)
    (fun c hc => (List.mem_zipIdx' hc).2 ▸ List.getElem_mem _)).1
  unfold sortPass
  rw [← this.names]
  exact this.nodup

/-- A pass permutes the components. -/
theorem sortPass_perm {comps : List α} (h : (comps.map ref).Nodup) :
    (sortPass ref refs comps).newComps.Perm comps := by
  obtain ⟨h1, _, h3⟩ := places_inv (ref := ref) (refs := refs) comps.zipIdx (passInv_init comps)
    (fun c hc => (List.mem_zipIdx' hc).2 ▸ List.getElem_mem _)
  have hn : (sortPass ref refs comps).newComps.Nodup := nodup_of_map (sortPass_nodup comps)
  rw [List.perm_ext_iff_of_nodup hn (nodup_of_map h)]
  intro c
  refine ⟨h1.mem c, fun hc => ?_⟩
  obtain ⟨i, hi, rfl⟩ := List.getElem_of_mem hc
  have := h3 (comps[i], i) (List.mem_zipIdx_iff_getElem?.2 (List.getElem?_eq_getElem hi))
  rw [h1.names, List.mem_map] at this
  obtain ⟨c', hc', hr⟩ := this
  have := map_inj_of_nodup h (h1.mem c' hc') (List.getElem_mem hi) hr
  rw [← this]
  exact hc'

theorem sortLoop_perm {comps : List α} : ∀ (n : Nat) (b : Bool), (comps.map ref).Nodup →
    (sortLoop ref refs n b comps).1.Perm comps := by
  intro n
  induction n generalizing comps with
  | zero => intro b _; rw [sortLoop]
  | succ n ih =>
    intro b h
    cases b with
    | true => rw [sortLoop]
    | false =>
      rw [sortLoop]
      exact (ih _ (sortPass_nodup comps)).trans (sortPass_perm h)

/-! ## the last pass -/

theorem pull_sorted {comps : List α} {idx : Nat} {st : PassState α} {s : String}
    (h : (pull ref comps idx st s).allSorted = true) :
    pull ref comps idx st s = st ∧
      (s ∈ st.newRefs ∨ s ∉ comps.map ref ∨ s ∈ st.moved ∨ ∃ i c, comps[i]? = some c ∧ ref c = s ∧ i ≤ idx) := by
  rcases pull_cases (ref := ref) comps idx st s with h1 | ⟨i, c, _, _, _, _, _, h1⟩
  · exact h1
  · rw [h1] at h; simp at h

theorem pulls_sorted {comps : List α} {idx : Nat} : ∀ (l : List String) {st : PassState α},
    (l.foldl (pull ref comps idx) st).allSorted = true →
    l.foldl (pull ref comps idx) st = st ∧ ∀ s ∈ l,
      (s ∈ st.newRefs ∨ s ∉ comps.map ref ∨ s ∈ st.moved ∨ ∃ i c, comps[i]? = some c ∧ ref c = s ∧ i ≤ idx)
  | [], _, _ => ⟨rfl, by simp⟩
  | s :: l, st, h => by
    rw [List.foldl_cons] at h ⊢
    obtain ⟨h1, h2⟩ := pulls_sorted l h
    rw [h1] at h
    obtain ⟨h3, h4⟩ := pull_sorted h
    rw [h3] at h1 h2 ⊢
    refine ⟨h1, fun t ht => ?_⟩
    rcases List.mem_cons.1 ht with rfl | ht
    · exact h4
    · exact h2 t ht

theorem pulls_flag {comps : List α} {idx : Nat} : ∀ (l : List String) {st : PassState α},
    (l.foldl (pull ref comps idx) st).allSorted = true → st.allSorted = true
  | [], _, h => h
  | s :: l, st, h => by
    have := pulls_flag l h
    rw [(pull_sorted this).1] at this
    exact this

theorem place_flag {comps : List α} {st : PassState α} {c : α × Nat}
    (h : (place ref refs comps st c).allSorted = true) :
    ((refs c.1).foldl (pull ref comps c.2) st).allSorted = true := by
  simp only [place] at h
  split at h <;> exact h

theorem places_flag {comps : List α} : ∀ (l : List (α × Nat)) {st : PassState α},
    (l.foldl (place ref refs comps) st).allSorted = true → st.allSorted = true
  | [], _, h => h
  | _ :: l, _, h => pulls_flag _ (place_flag (places_flag l h))

theorem places_sorted {comps : List α} (hn : (comps.map ref).Nodup) : ∀ (post pre : List α),
    comps = pre ++ post →
    ((post.zipIdx pre.length).foldl (place ref refs comps) ⟨pre.map ref, pre, [], true⟩).allSorted = true →
    ((post.zipIdx pre.length).foldl (place ref refs comps) ⟨pre.map ref, pre, [], true⟩).newComps = comps ∧
      InOrder ref refs post
  | [], pre, hc, _ => ⟨by simp [hc], List.Pairwise.nil⟩
  | c :: post, pre, hc, h => by
    rw [List.zipIdx_cons, List.foldl_cons] at h ⊢
    have hp := place_flag (places_flag _ h)
    obtain ⟨h1, h2⟩ := pulls_sorted _ hp
    have hnew : ref c ∉ pre.map ref := by
      rw [hc, List.map_append, List.map_cons, List.nodup_append] at hn
      intro hm
      exact hn.2.2 _ hm _ (by simp) rfl
    have hpl : place ref refs comps ⟨pre.map ref, pre, [], true⟩ (c, pre.length) =
        ⟨(pre ++ [c]).map ref, pre ++ [c], [], true⟩ := by
      simp only [place]
      rw [h1, if_neg (by simpa using hnew)]
      simp
    rw [hpl] at h ⊢
    have := places_sorted hn post (pre ++ [c]) (by simp [hc]) (by simpa using h)
    refine ⟨by simpa using this.1, ?_⟩
    refine List.Pairwise.cons (fun b hb hr => ?_) this.2
    rcases h2 _ hr with h3 | h3 | h3 | ⟨i, d, hd, hrd, hi⟩
    · rw [hc, List.map_append, List.map_cons, List.nodup_append] at hn
      exact hn.2.2 _ h3 _ (List.mem_cons_of_mem _ (List.mem_map_of_mem hb)) rfl
    · exact h3 (List.mem_map_of_mem (by simp [hc, hb]))
    · simp at h3
    · simp only at hi
      have hnd : ((pre ++ [c]).map ref ++ post.map ref).Nodup := by rw [hc] at hn; simpa using hn
      rw [List.nodup_append] at hnd
      refine hnd.2.2 (ref d) ?_ (ref b) (List.mem_map_of_mem hb) hrd
      rw [hc, show pre ++ c :: post = (pre ++ [c]) ++ post by simp,
        List.getElem?_append_left (by simp; omega)] at hd
      exact List.mem_map_of_mem (List.mem_of_getElem? hd)

theorem sortPass_sorted {comps : List α} (hn : (comps.map ref).Nodup)
    (h : (sortPass ref refs comps).allSorted = true) :
    (sortPass ref refs comps).newComps = comps ∧ InOrder ref refs comps :=
  places_sorted hn comps [] rfl h

theorem sortLoop_sorted {comps : List α} : ∀ (n : Nat) (b : Bool), (comps.map ref).Nodup →
    (b = true → InOrder ref refs comps) → (sortLoop ref refs n b comps).2 = false →
    InOrder ref refs (sortLoop ref refs n b comps).1 := by
  intro n
  induction n generalizing comps with
  | zero => intro b _ _ h; simp [sortLoop] at h
  | succ n ih =>
    intro b hn hb h
    cases b with
    | true => rw [sortLoop]; exact hb rfl
    | false =>
      rw [sortLoop] at h ⊢
      refine ih _ (sortPass_nodup comps) (fun hs => ?_) h
      obtain ⟨h1, h2⟩ := sortPass_sorted hn hs
      rw [h1]
      exact h2

/-! ## components in order stay as they are -/

theorem pulls_ordered {comps : List α} {pre post : List α} {c : α} (hc : comps = pre ++ c :: post) :
    ∀ (l : List String), (∀ b ∈ post, ref b ∉ l) →
    l.foldl (pull ref comps pre.length) ⟨pre.map ref, pre, [], true⟩ = ⟨pre.map ref, pre, [], true⟩
  | [], _ => rfl
  | s :: l, h => by
    rw [List.foldl_cons]
    have : pull ref comps pre.length ⟨pre.map ref, pre, [], true⟩ s = ⟨pre.map ref, pre, [], true⟩ := by
      rcases pull_cases (ref := ref) comps pre.length ⟨pre.map ref, pre, [], true⟩ s with
        ⟨h1, _⟩ | ⟨i, d, hd, hr, hi, _⟩
      · exact h1
      · exfalso
        rw [hc, show pre ++ c :: post = (pre ++ [c]) ++ post by simp,
          List.getElem?_append_right (by simp; omega)] at hd
        exact h d (List.mem_of_getElem? hd) (by simp [hr])
    rw [this]
    exact pulls_ordered hc l (fun b hb hm => h b hb (List.mem_cons_of_mem _ hm))

theorem places_ordered {comps : List α} (hn : (comps.map ref).Nodup) : ∀ (post pre : List α),
    comps = pre ++ post → InOrder ref refs post →
    (post.zipIdx pre.length).foldl (place ref refs comps) ⟨pre.map ref, pre, [], true⟩ =
      ⟨comps.map ref, comps, [], true⟩
  | [], pre, hc, _ => by simp [hc]
  | c :: post, pre, hc, h => by
    have hnew : ref c ∉ pre.map ref := by
      rw [hc, List.map_append, List.map_cons, List.nodup_append] at hn
      intro hm
      exact hn.2.2 _ hm _ (by simp) rfl
    rw [InOrder, List.pairwise_cons] at h
    have hpl : place ref refs comps ⟨pre.map ref, pre, [], true⟩ (c, pre.length) =
        ⟨(pre ++ [c]).map ref, pre ++ [c], [], true⟩ := by
      simp only [place]
      rw [pulls_ordered hc _ h.1, if_neg (by simpa using hnew)]
      simp
    rw [List.zipIdx_cons, List.foldl_cons, hpl]
    have := places_ordered hn post (pre ++ [c]) (by simp [hc]) h.2
    simpa using this

theorem sortPass_ordered {comps : List α} (hn : (comps.map ref).Nodup) (h : InOrder ref refs comps) :
    sortPass ref refs comps = ⟨comps.map ref, comps, [], true⟩ := places_ordered hn comps [] rfl h

/-! ## how many passes it takes -/

/-- Whoever comes before what it refers to lives on floor `k` or above. -/
def Low (ref : α → String) (refs : α → List String) (floor : String → Nat) (k : Nat) (comps : List α) : Prop :=
  comps.Pairwise fun a b => ref b ∈ refs a → k ≤ floor (ref a)

/-- Each component placed so far lives above floor `k`, or what it refers to has been placed before. -/
def Settled (ref : α → String) (refs : α → List String) (floor : String → Nat) (k : Nat) (comps new : List α) :
    Prop :=
  ∀ xs a ys, new = xs ++ a :: ys →
    k < floor (ref a) ∨ ∀ s ∈ refs a, s ∈ comps.map ref → s ∈ (xs ++ [a]).map ref

theorem Settled.snoc {floor : String → Nat} {k : Nat} {comps new : List α} {a : α}
    (h : Settled ref refs floor k comps new)
    (ha : k < floor (ref a) ∨ ∀ s ∈ refs a, s ∈ comps.map ref → s ∈ (new ++ [a]).map ref) :
    Settled ref refs floor k comps (new ++ [a]) := by
  intro xs b ys he
  rcases List.eq_nil_or_concat ys with rfl | ⟨zs, z, rfl⟩
  · obtain ⟨rfl, h2⟩ := List.append_inj' he rfl
    simp only [List.cons.injEq, and_true] at h2
    subst h2
    exact ha
  · rw [List.concat_eq_append, ← List.cons_append, ← List.append_assoc] at he
    obtain ⟨h1, _⟩ := List.append_inj' he rfl
    exact h xs b zs h1

theorem low_at {floor : String → Nat} {k : Nat} {comps : List α} (h : Low ref refs floor k comps) {i j : Nat}
    {a b : α} (hij : i < j) (ha : comps[i]? = some a) (hb : comps[j]? = some b) (hr : ref b ∈ refs a) :
    k ≤ floor (ref a) := by
  obtain ⟨hi, rfl⟩ := List.getElem?_eq_some_iff.1 ha
  obtain ⟨hj, rfl⟩ := List.getElem?_eq_some_iff.1 hb
  exact List.pairwise_iff_getElem.1 h i j hi hj hij hr

theorem pulls_settled {floor : String → Nat} {k : Nat} {comps : List α} (hl : Low ref refs floor k comps)
    (hf : ∀ a b, RefersTo ref refs comps a b → floor a < floor b) {idx : Nat} {c : α}
    (hc : comps[idx]? = some c) : ∀ (l : List String) {st : PassState α}, (∀ s ∈ l, s ∈ refs c) →
    PassInv comps ref st → Settled ref refs floor k comps st.newComps →
    (∀ j d, j < idx → comps[j]? = some d → ref d ∈ st.newRefs) →
    Settled ref refs floor k comps (l.foldl (pull ref comps idx) st).newComps ∧
      ∀ s ∈ l, s ∈ comps.map ref → s ∈ (l.foldl (pull ref comps idx) st).newRefs ∨ s = ref c
  | [], st, _, _, h, _ => ⟨h, by simp⟩
  | s :: l, st, hs, hi, h, hp => by
    rw [List.foldl_cons]
    have h1 : Settled ref refs floor k comps (pull ref comps idx st s).newComps ∧
        (s ∈ comps.map ref → s ∈ (pull ref comps idx st s).newRefs ∨ s = ref c) := by
      rcases pull_cases (ref := ref) comps idx st s with ⟨h1, h2⟩ | ⟨i, d, hd, hr, hlt, hfirst, hnew, h1⟩
      · rw [h1]
        refine ⟨h, fun hm => ?_⟩
        rcases h2 with h2 | h2 | h2 | ⟨i, d, hd, hr, hle⟩
        · exact .inl h2
        · exact absurd hm h2
        · exact .inl (hi.moved s h2)
        · rcases Nat.lt_or_eq_of_le hle with hlt | rfl
          · left; rw [← hr]; exact hp i d hlt hd
          · right
            rw [hc] at hd
            simp only [Option.some.injEq] at hd
            rw [← hr, hd]
      · rw [h1]
        refine ⟨h.snoc (.inl ?_), fun _ => .inl (by simp)⟩
        have hk := low_at hl hlt hc hd (hr ▸ hs s (by simp))
        have hne : ref c ≠ s := hfirst idx c hlt hc
        have := hf (ref c) s ⟨hne, hr ▸ List.mem_map_of_mem (List.mem_of_getElem? hd),
          c, List.mem_of_getElem? hc, rfl, hs s (by simp)⟩
        rw [hr]
        omega
    obtain ⟨h2, h3⟩ := pulls_settled hl hf hc l (fun t ht => hs t (List.mem_cons_of_mem _ ht))
      (pull_inv (idx := idx) (s := s) hi) h1.1 (fun j d hj hd => pull_mono (hp j d hj hd))
    refine ⟨h2, fun t ht hm => ?_⟩
    rcases List.mem_cons.1 ht with rfl | ht
    · exact (h1.2 hm).imp (pulls_mono l) id
    · exact h3 t ht hm

theorem place_settled {floor : String → Nat} {k : Nat} {comps : List α} (hl : Low ref refs floor k comps)
    (hf : ∀ a b, RefersTo ref refs comps a b → floor a < floor b) {idx : Nat} {c : α}
    (hc : comps[idx]? = some c) {st : PassState α} (hi : PassInv comps ref st)
    (h : Settled ref refs floor k comps st.newComps)
    (hp : ∀ j d, j < idx → comps[j]? = some d → ref d ∈ st.newRefs) :
    Settled ref refs floor k comps (place ref refs comps st (c, idx)).newComps := by
  obtain ⟨h1, h2⟩ := pulls_settled hl hf hc (refs c) (fun _ hs => hs) hi h hp
  have h3 := pulls_inv (idx := idx) (refs c) hi
  simp only [place]
  generalize (refs c).foldl (pull ref comps idx) st = st' at h1 h2 h3
  split
  · exact h1
  · refine h1.snoc (.inr fun s hs hm => ?_)
    rw [List.map_append, List.mem_append]
    rcases h2 s hs hm with h4 | h4
    · left; rw [← h3.names]; exact h4
    · right; simp [h4]

theorem places_settled {floor : String → Nat} {k : Nat} {comps : List α} (hl : Low ref refs floor k comps)
    (hf : ∀ a b, RefersTo ref refs comps a b → floor a < floor b) : ∀ (post pre : List α) {st : PassState α},
    comps = pre ++ post → PassInv comps ref st → Settled ref refs floor k comps st.newComps →
    (∀ j d, j < pre.length → comps[j]? = some d → ref d ∈ st.newRefs) →
    Settled ref refs floor k comps ((post.zipIdx pre.length).foldl (place ref refs comps) st).newComps
  | [], pre, st, _, _, h, _ => h
  | c :: post, pre, st, hc, hi, h, hp => by
    rw [List.zipIdx_cons, List.foldl_cons]
    have hg : comps[pre.length]? = some c := by rw [hc]; simp
    have := places_settled hl hf post (pre ++ [c]) (by simp [hc])
      (place_inv (refs := refs) (c := (c, pre.length)) hi (by simp [hc]))
      (place_settled hl hf hg hi h hp) (fun j d hj hd => by
        simp only [List.length_append, List.length_singleton] at hj
        rcases Nat.lt_or_eq_of_le (Nat.lt_succ_iff.1 hj) with hj | rfl
        · exact place_mono (hp j d hj hd)
        · rw [hg] at hd
          simp only [Option.some.injEq] at hd
          rw [← hd]
          exact place_mem)
    simpa using this

theorem pairwise_of_splits {β : Type} {R : β → β → Prop} : ∀ {l : List β},
    (∀ xs a ys, l = xs ++ a :: ys → ∀ b ∈ ys, R a b) → l.Pairwise R
  | [], _ => .nil
  | a :: l, h => .cons (h [] a l rfl) (pairwise_of_splits fun xs b ys he => h (a :: xs) b ys (by simp [he]))

/-- After each pass, the violations have moved up one floor. -/
theorem sortPass_low {floor : String → Nat} {k : Nat} {comps : List α} (hl : Low ref refs floor k comps)
    (hf : ∀ a b, RefersTo ref refs comps a b → floor a < floor b) :
    Low ref refs floor (k + 1) (sortPass ref refs comps).newComps := by
  have h := places_settled hl hf comps [] rfl (passInv_init comps)
    (fun xs a ys he => by simp at he) (fun j d hj => by simp at hj)
  have hn := sortPass_nodup (ref := ref) (refs := refs) comps
  have hm := (places_inv (ref := ref) (refs := refs) comps.zipIdx (passInv_init comps)
    (fun c hc => (List.mem_zipIdx' hc).2 ▸ List.getElem_mem _)).1.mem
  refine pairwise_of_splits fun xs a ys he b hb hr => ?_
  rcases h xs a ys he with h1 | h1
  · exact h1
  · exfalso
    have hb' : b ∈ comps := hm b (by
      have : b ∈ (sortPass ref refs comps).newComps := by rw [he]; simp [hb]
      exact this)
    have := h1 _ hr (List.mem_map_of_mem hb')
    rw [he, show xs ++ a :: ys = (xs ++ [a]) ++ ys by simp, List.map_append, List.nodup_append] at hn
    exact hn.2.2 _ this _ (List.mem_map_of_mem hb) rfl

theorem sortLoop_quiet {floor : String → Nat} {m : Nat} : ∀ (n k : Nat) (comps : List α), m + 1 ≤ n + k →
    (comps.map ref).Nodup → (∀ s ∈ comps.map ref, floor s < m) →
    (∀ a b, RefersTo ref refs comps a b → floor a < floor b) → Low ref refs floor k comps → 2 ≤ n →
    (sortLoop ref refs n false comps).2 = false := by
  intro n
  induction n with
  | zero => intro k comps _ _ _ _ _ h; omega
  | succ n ih =>
    intro k comps hk hn hb hf hl h2
    rw [sortLoop]
    cases hs : (sortPass ref refs comps).allSorted with
    | true =>
      obtain ⟨n, rfl⟩ : ∃ m, n = m + 1 := ⟨n - 1, by omega⟩
      rw [sortLoop]
    | false =>
      have hp := sortPass_perm (refs := refs) hn
      have hmap : ∀ s, s ∈ (sortPass ref refs comps).newComps.map ref ↔ s ∈ comps.map ref := fun s =>
        (hp.map ref).mem_iff
      refine ih (k + 1) _ (by omega) (sortPass_nodup comps) (fun s hs => hb s ((hmap s).1 hs)) ?_
        (sortPass_low hl hf) ?_
      · rintro a b ⟨h1, h3, c, hc, h4, h5⟩
        exact hf a b ⟨h1, (hmap b).1 h3, c, hp.mem_iff.1 hc, h4, h5⟩
      · by_cases h3 : 2 ≤ n
        · exact h3
        · exfalso
          have : InOrder ref refs comps := by
            refine pairwise_of_splits fun xs a ys he b hbm hr => ?_
            have hka : k ≤ floor (ref a) := by
              rw [Low, he, List.pairwise_append, List.pairwise_cons] at hl
              exact hl.2.1.1 b hbm hr
            have ha : a ∈ comps := by simp [he]
            have hbm' : b ∈ comps := by simp [he, hbm]
            have hne : ref a ≠ ref b := by
              rw [he, List.map_append, List.nodup_append, List.map_cons, List.nodup_cons] at hn
              intro heq
              exact hn.2.1.1 (heq ▸ List.mem_map_of_mem hbm)
            have h5 := hf (ref a) (ref b) ⟨hne, List.mem_map_of_mem hbm', a, ha, rfl, hr⟩
            have h6 := hb (ref b) (List.mem_map_of_mem hbm')
            omega
          rw [sortPass_ordered hn this] at hs
          simp at hs

end

end Verif
