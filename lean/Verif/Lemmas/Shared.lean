import Verif.SpecShared
import Verif.Lemmas.LookingSame
/-!
# Objects that share parts: what filling in components does
-/
namespace Verif.Shared

open Spec

/-! ## Components by index -/

theorem compOf_lt : ∀ {f : Fields} {i : Nat} {p : Kind × Ty}, compOf f i = some p → i < f.length
  | .nil, _, _, h => by simp [compOf] at h
  | .cons _ _ _ _, 0, _, _ => by simp [Fields.length]
  | .cons _ _ _ r, i + 1, _, h => by
    simp only [compOf] at h
    have := compOf_lt h
    simp only [Fields.length]
    omega

theorem compOf_some : ∀ {f : Fields} {i : Nat}, i < f.length → ∃ k t, compOf f i = some (k, t)
  | .nil, _, h => by simp [Fields.length] at h
  | .cons _ k t _, 0, _ => ⟨k, t, rfl⟩
  | .cons _ _ _ r, i + 1, h => by
    simp only [Fields.length] at h
    simpa only [compOf] using compOf_some (f := r) (i := i) (by omega)

theorem compOfG_lt : ∀ {g : Groups} {i : Nat} {p : Kind × Ty}, compOfG g i = some p → i < g.size
  | .nil, _, _, h => by simp [compOfG] at h
  | .cons f g, i, p, h => by
    simp only [compOfG] at h
    simp only [Groups.size]
    by_cases c : i < f.length
    · omega
    · rw [if_neg c] at h
      have := compOfG_lt h
      omega

theorem partAt_lt {r a : Fields} {g : Groups} {i : Nat} {p : Kind × Ty} (h : partAt r a g i = some p) :
    i < r.length + a.length + g.size := by
  unfold partAt at h
  by_cases c : i < r.length
  · omega
  · rw [if_neg c] at h
    by_cases d : i < r.length + a.length
    · omega
    · rw [if_neg d] at h
      have := compOfG_lt h
      omega

theorem partAt_root {r a : Fields} {g : Groups} {i : Nat} {p : Kind × Ty} (h : compOf r i = some p) : partAt r a g i = some p := by
  unfold partAt
  rw [if_pos (compOf_lt h)]
  exact h

theorem partAt_add {r a : Fields} {g : Groups} {i : Nat} {p : Kind × Ty} (h : compOf a i = some p) :
    partAt r a g (r.length + i) = some p := by
  have := compOf_lt h
  unfold partAt
  rw [if_neg (by omega), if_pos (by omega), Nat.add_sub_cancel_left]
  exact h

theorem partAt_group {r a : Fields} {g : Groups} {i : Nat} {p : Kind × Ty} (h : compOfG g i = some p) :
    partAt r a g (r.length + a.length + i) = some p := by
  unfold partAt
  rw [if_neg (by omega), if_neg (by omega), Nat.add_sub_cancel_left]
  exact h

theorem likeFields_at : ∀ {f : Fields} {ss us : List (Option Obj)}, LikeFields f ss us → ∀ i k t, compOf f i = some (k, t) →
    Like t (instantiate k t (slot ss i)) (instantiate k t (slot us i))
  | .nil, _, _, _, _, _, _, h => by simp [compOf] at h
  | .cons _ k t r, ss, us, l, 0, k', t', h => by
    simp only [compOf, Option.some.injEq, Prod.mk.injEq] at h
    obtain ⟨rfl, rfl⟩ := h
    rw [slot_zero, slot_zero]
    exact l.1
  | .cons _ k t r, ss, us, l, i + 1, k', t', h => by
    rw [← slot_tail, ← slot_tail]
    exact likeFields_at l.2 i k' t' h

theorem likeFields_of : ∀ {f : Fields} {ss us : List (Option Obj)}, (∀ i k t, compOf f i = some (k, t) →
    Like t (instantiate k t (slot ss i)) (instantiate k t (slot us i))) → LikeFields f ss us
  | .nil, _, _, _ => trivial
  | .cons _ k t r, ss, us, l => by
    refine ⟨?_, likeFields_of fun i k' t' h => ?_⟩
    · rw [← slot_zero, ← slot_zero]
      exact l 0 k t rfl
    · rw [slot_tail, slot_tail]
      exact l (i + 1) k' t' h

theorem likeGroups_at : ∀ {g : Groups} {ss us : List (Option Obj)}, LikeGroups g ss us → ∀ i k t, compOfG g i = some (k, t) →
    Like t (instantiate k t (slot ss i)) (instantiate k t (slot us i))
  | .nil, _, _, _, _, _, _, h => by simp [compOfG] at h
  | .cons f g, ss, us, l, i, k, t, h => by
    simp only [compOfG] at h
    by_cases c : i < f.length
    · rw [if_pos c] at h
      exact likeFields_at l.1 i k t h
    · rw [if_neg c] at h
      have := likeGroups_at l.2 _ k t h
      rw [slot_drop, slot_drop, show f.length + (i - f.length) = i by omega] at this
      exact this

theorem likeGroups_of : ∀ {g : Groups} {ss us : List (Option Obj)}, (∀ i k t, compOfG g i = some (k, t) →
    Like t (instantiate k t (slot ss i)) (instantiate k t (slot us i))) → LikeGroups g ss us
  | .nil, _, _, _ => trivial
  | .cons f g, ss, us, l => by
    refine ⟨likeFields_of fun i k t h => l i k t ?_, likeGroups_of fun i k t h => ?_⟩
    · simp only [compOfG, if_pos (compOf_lt h), h]
    · rw [slot_drop, slot_drop]
      refine l (f.length + i) k t ?_
      simp only [compOfG]
      rw [if_neg (by omega), Nat.add_sub_cancel_left]
      exact h

/-- Component by component. -/
theorem likeSeq_at {e : Bool} {r a : Fields} {g : Groups} {s u : Option (List (Option Obj))}
    (l : Like (.sequence e r a g) (.seq s) (.seq u)) (i : Nat) (k : Kind) (t : Ty) (h : partAt r a g i = some (k, t)) :
    Like t (instantiate k t (slot (s.getD []) i)) (instantiate k t (slot (u.getD []) i)) := by
  simp only [Like] at l
  obtain ⟨l1, l2, l3⟩ := l
  unfold partAt at h
  by_cases c : i < r.length
  · rw [if_pos c] at h
    exact likeFields_at l1 i k t h
  · rw [if_neg c] at h
    by_cases d : i < r.length + a.length
    · rw [if_pos d] at h
      have := likeFields_at l2 _ k t h
      rw [slot_drop, slot_drop, show r.length + (i - r.length) = i by omega] at this
      exact this
    · rw [if_neg d] at h
      have := likeGroups_at l3 _ k t h
      rw [slot_drop, slot_drop, show r.length + a.length + (i - (r.length + a.length)) = i by omega] at this
      exact this

theorem likeSeq_of {e : Bool} {r a : Fields} {g : Groups} {s u : Option (List (Option Obj))}
    (l : ∀ i k t, partAt r a g i = some (k, t) →
      Like t (instantiate k t (slot (s.getD []) i)) (instantiate k t (slot (u.getD []) i))) :
    Like (.sequence e r a g) (.seq s) (.seq u) := by
  simp only [Like]
  refine ⟨likeFields_of fun i k t h => l i k t (partAt_root h), likeFields_of fun i k t h => ?_,
    likeGroups_of fun i k t h => ?_⟩
  · rw [slot_drop, slot_drop]
    exact l _ k t (partAt_add h)
  · rw [slot_drop, slot_drop]
    exact l _ k t (partAt_group h)

/-! ## Trees -/

theorem place_tail (ss : List (Option Nat)) (i : Nat) : place ss.tail i = place ss (i + 1) := by
  simp [place, List.getElem?_tail]

theorem place_drop (n : Nat) (ss : List (Option Nat)) (i : Nat) : place (ss.drop n) i = place ss (n + i) := by
  simp [place, List.getElem?_drop]

theorem place_set (ss : List (Option Nat)) (i j : Nat) (s : Option Nat) (hi : i < ss.length) :
    place (ss.set i s) j = if i = j then s else place ss j := by
  simp only [place, List.getElem?_set]
  by_cases c : i = j
  · subst c; simp [hi]
  · simp [c]

theorem place_none (n i : Nat) : place (List.replicate n none) i = none := by
  simp only [place, List.getElem?_replicate]
  split <;> rfl

theorem treeSlots_length : ∀ (f : Fields) (h : Store) (ss : List (Option Nat)), (treeSlots f h ss).length = f.length
  | .nil, _, _ => by simp [treeSlots, Fields.length]
  | .cons _ _ _ r, h, ss => by simp only [treeSlots, Fields.length, List.length_cons, treeSlots_length r]

theorem slot_treeSlots : ∀ {f : Fields} {h : Store} {ss : List (Option Nat)} {i : Nat} {k : Kind} {t : Ty},
    compOf f i = some (k, t) → slot (treeSlots f h ss) i = (place ss i).map (treeOf t h)
  | .nil, _, _, _, _, _, h => by simp [compOf] at h
  | .cons _ k t r, h, ss, 0, k', t', e => by
    simp only [compOf, Option.some.injEq, Prod.mk.injEq] at e
    obtain ⟨rfl, rfl⟩ := e
    simp [treeSlots, slot]
  | .cons _ k t r, h, ss, i + 1, k', t', e => by
    simp only [compOf] at e
    have := slot_treeSlots (h := h) (ss := ss.tail) e
    rw [place_tail] at this
    rw [← this]
    simp [treeSlots, slot]

theorem slot_treeSlotsG : ∀ {g : Groups} {h : Store} {ss : List (Option Nat)} {i : Nat} {k : Kind} {t : Ty},
    compOfG g i = some (k, t) → slot (treeSlotsG g h ss) i = (place ss i).map (treeOf t h)
  | .nil, _, _, _, _, _, h => by simp [compOfG] at h
  | .cons f g, h, ss, i, k, t, e => by
    simp only [compOfG] at e
    simp only [treeSlotsG]
    by_cases c : i < f.length
    · rw [if_pos c] at e
      rw [slot_left _ (by rw [treeSlots_length]; exact c)]
      exact slot_treeSlots e
    · rw [if_neg c] at e
      have := slot_treeSlotsG (h := h) (ss := ss.drop f.length) e
      rw [place_drop, show f.length + (i - f.length) = i by omega] at this
      rw [← this]
      have := slot_right (xs := treeSlots f h ss) (treeSlotsG g h (ss.drop f.length)) (i - f.length)
      rw [treeSlots_length, show f.length + (i - f.length) = i by omega] at this
      exact this

/-- The components written out. -/
def parts (r a : Fields) (g : Groups) (h : Store) (ss : List (Option Nat)) : List (Option Obj) :=
  treeSlots r h ss ++ (treeSlots a h (ss.drop r.length) ++ treeSlotsG g h (ss.drop (r.length + a.length)))

theorem slot_parts {r a : Fields} {g : Groups} {h : Store} {ss : List (Option Nat)} {i : Nat} {k : Kind} {t : Ty}
    (e : partAt r a g i = some (k, t)) : slot (parts r a g h ss) i = (place ss i).map (treeOf t h) := by
  unfold partAt at e
  unfold parts
  by_cases c : i < r.length
  · rw [if_pos c] at e
    rw [slot_left _ (by rw [treeSlots_length]; exact c)]
    exact slot_treeSlots e
  · rw [if_neg c] at e
    have r1 := slot_right (xs := treeSlots r h ss)
      (treeSlots a h (ss.drop r.length) ++ treeSlotsG g h (ss.drop (r.length + a.length))) (i - r.length)
    rw [treeSlots_length, show r.length + (i - r.length) = i by omega] at r1
    rw [r1]
    by_cases d : i < r.length + a.length
    · rw [if_pos d] at e
      rw [slot_left _ (by rw [treeSlots_length]; omega), slot_treeSlots e, place_drop,
        show r.length + (i - r.length) = i by omega]
    · rw [if_neg d] at e
      have r2 := slot_right (xs := treeSlots a h (ss.drop r.length)) (treeSlotsG g h (ss.drop (r.length + a.length)))
        (i - (r.length + a.length))
      rw [treeSlots_length, show a.length + (i - (r.length + a.length)) = i - r.length by omega] at r2
      rw [r2, slot_treeSlotsG e, place_drop, show r.length + a.length + (i - (r.length + a.length)) = i by omega]

theorem slot_treeSeq {r a : Fields} {g : Groups} {h : Store} {s : Option (List (Option Nat))} {n i : Nat} {k : Kind} {t : Ty}
    (e : partAt r a g i = some (k, t)) :
    slot ((s.map (parts r a g h)).getD []) i = (place (places n s) i).map (treeOf t h) := by
  cases s with
  | none => simp [places, place_none, slot]
  | some ss => simpa [places] using slot_parts e

theorem tree_seq {e : Bool} {r a : Fields} {g : Groups} {h : Store} {x : Nat} {s : Option (List (Option Nat))}
    (b : bodyAt h x = some (.seq s)) : treeOf (.sequence e r a g) h x = .seq (s.map (parts r a g h)) := by
  simp only [treeOf, b]
  rfl

/-- Alternatives by index. -/
theorem treeAlt_at : ∀ {f : Fields} {i : Nat} {k : Kind} {t : Ty}, compOf f i = some (k, t) → ∀ (h : Store) (x : Nat),
    treeAlt f i h x = treeOf t h x
  | .nil, _, _, _, h => by simp [compOf] at h
  | .cons _ k t r, 0, k', t', e => by
    simp only [compOf, Option.some.injEq, Prod.mk.injEq] at e
    obtain ⟨rfl, rfl⟩ := e
    intro h x
    simp only [treeAlt]
  | .cons _ k t r, i + 1, k', t', e => by
    intro h x
    simp only [treeAlt]
    simp only [compOf] at e
    exact treeAlt_at (f := r) e h x

theorem treeAltG_at : ∀ {g : Groups} {i : Nat} {k : Kind} {t : Ty}, compOfG g i = some (k, t) → ∀ (h : Store) (x : Nat),
    treeAltG g i h x = treeOf t h x
  | .nil, _, _, _, h => by simp [compOfG] at h
  | .cons f g, i, k, t, e => by
    intro h x
    simp only [compOfG] at e
    simp only [treeAltG]
    by_cases c : i < f.length
    · rw [if_pos c] at e ⊢
      exact treeAlt_at e h x
    · rw [if_neg c] at e ⊢
      exact treeAltG_at e h x

theorem likeAlt_at : ∀ {f : Fields} {i : Nat} {k : Kind} {t : Ty}, compOf f i = some (k, t) → ∀ (o o' : Obj),
    LikeAlt f i o o' = Like t o o'
  | .nil, _, _, _, h => by simp [compOf] at h
  | .cons _ k t r, 0, k', t', e => by
    simp only [compOf, Option.some.injEq, Prod.mk.injEq] at e
    obtain ⟨rfl, rfl⟩ := e
    intro o o'
    simp only [LikeAlt]
  | .cons _ k t r, i + 1, k', t', e => by
    intro o o'
    simp only [LikeAlt]
    simp only [compOf] at e
    exact likeAlt_at (f := r) e o o'

theorem likeAltG_at : ∀ {g : Groups} {i : Nat} {k : Kind} {t : Ty}, compOfG g i = some (k, t) → ∀ (o o' : Obj),
    LikeAltG g i o o' = Like t o o'
  | .nil, _, _, _, h => by simp [compOfG] at h
  | .cons f g, i, k, t, e => by
    intro o o'
    simp only [compOfG] at e
    simp only [LikeAltG]
    by_cases c : i < f.length
    · rw [if_pos c] at e ⊢
      exact likeAlt_at e o o'
    · rw [if_neg c] at e ⊢
      exact likeAltG_at e o o'

theorem tree_choice {e : Bool} {r a : Fields} {g : Groups} {h : Store} {x pos y : Nat} {k : Kind} {t : Ty}
    (b : bodyAt h x = some (.choice (some (pos, y)))) (p : partAt r a g pos = some (k, t)) :
    treeOf (.choice e r a g) h x = .choice (some (pos, treeOf t h y)) := by
  unfold partAt at p
  simp only [treeOf, b]
  by_cases c : pos < r.length
  · rw [if_pos c] at p ⊢
    rw [treeAlt_at p]
  · rw [if_neg c] at p ⊢
    by_cases d : pos < r.length + a.length
    · rw [if_pos d] at p ⊢
      rw [treeAlt_at p]
    · rw [if_neg d] at p ⊢
      rw [treeAltG_at p]

theorem like_choice_of {e : Bool} {r a : Fields} {g : Groups} {pos : Nat} {k : Kind} {t : Ty} {o o' : Obj}
    (p : partAt r a g pos = some (k, t)) (l : Like t o o') :
    Like (.choice e r a g) (.choice (some (pos, o))) (.choice (some (pos, o'))) := by
  unfold partAt at p
  simp only [Like]
  refine ⟨trivial, ?_⟩
  by_cases c : pos < r.length
  · rw [if_pos c] at p ⊢
    rw [likeAlt_at p]; exact l
  · rw [if_neg c] at p ⊢
    by_cases d : pos < r.length + a.length
    · rw [if_pos d] at p ⊢
      rw [likeAlt_at p]; exact l
    · rw [if_neg d] at p ⊢
      rw [likeAltG_at p]; exact l

theorem tree_leaf {t : Ty} (c : isConstructed t = false) (h : Store) (x : Nat) :
    treeOf t h x = match bodyAt h x with | some (.leaf v) => .leaf v | _ => .leaf none := by
  cases t <;> first | rfl | cases c

end Verif.Shared
