import Verif.Lemmas.Size
/-!
# How much the decoder can return, type by type
-/
namespace Verif

open Spec

theorem Cost.le_add_left (a b : Cost) : Cost.le a (a.add b) := by
  unfold Cost.le Cost.add; dsimp only; omega

theorem Cost.le_add_right (a b : Cost) : Cost.le b (a.add b) := by
  unfold Cost.le Cost.add; dsimp only; omega

theorem Cost.le_alt_left (a b : Cost) : Cost.le a (a.alt b) := by
  unfold Cost.le Cost.alt; dsimp only; omega

theorem Cost.le_alt_right (a b : Cost) : Cost.le b (a.alt b) := by
  unfold Cost.le Cost.alt; dsimp only; omega

theorem Cost.le.trans {a b c : Cost} (h : Cost.le a b) (h' : Cost.le b c) : Cost.le a c := by
  unfold Cost.le at *; omega

theorem Cost.le.more {a b : Cost} (h : Cost.le a b) (n : Nat) : Cost.le (a.more n) (b.more n) := by
  unfold Cost.le at *; unfold Cost.more; dsimp only; omega

theorem Bound.map {α β : Type} {m : Dec α} {s1 : α → Nat} {s : β → Nat} {k : Cost} {g : α → β} {n : Nat} (h : Bound m s1 k)
    (hg : ∀ a, s (g a) ≤ n + s1 a) : Bound (m >>= fun a => Pure.pure (g a)) s (k.more n) := by
  have := Bound.bind (P := fun _ => True) (n1 := k.fixed) (n2 := n) (s1 := s1) (s := s) (f := fun a => Pure.pure (g a)) (Ensures.trivial m)
    h (fun a _ => Bound.pure (hg a) _ _) (fun a => Tame.pure _)
  unfold Cost.more
  rw [Nat.add_comm n]
  exact this

/-- One after the other. -/
theorem Bound.both {α β γ : Type} {m : Dec α} {m' : Dec β} {s1 : α → Nat} {s2 : β → Nat} {s : γ → Nat} {k k' : Cost} {g : α → β → γ} {n : Nat}
    (h : Bound m s1 k) (h' : Bound m' s2 k') (hg : ∀ a b, s (g a b) ≤ n + s1 a + s2 b) :
    Bound (m >>= fun a => m' >>= fun b => Pure.pure (g a b)) s ((k.more n).add k') := by
  have h1 : Bound m s1 ⟨k.fixed, max k.perBit k'.perBit, max k.short k'.short⟩ := h.mono (by unfold Cost.le; dsimp only; omega)
  have h2 : Bound m' s2 ⟨k'.fixed, max k.perBit k'.perBit, max k.short k'.short⟩ := h'.mono (by unfold Cost.le; dsimp only; omega)
  have := Bound.bind (P := fun _ => True) (n1 := k.fixed) (n2 := k'.fixed + n) (s1 := s1) (s := s)
    (f := fun a => m' >>= fun b => Pure.pure (g a b)) (Ensures.trivial m)
    h1 (fun a _ => by
      have := h2.map (s := s) (g := g a) (n := n + s1 a) (hg a)
      refine this.mono ?_
      unfold Cost.le Cost.more; dsimp only; omega) (fun a => Tame.bind h'.toTame fun _ => Tame.pure _)
  refine this.mono ?_
  unfold Cost.le Cost.more Cost.add; dsimp only; omega

theorem slots_append : ∀ a b : List (Option Val), slots (a ++ b) = slots a + slots b
  | [], b => by simp [slots]
  | none :: a, b => by simp only [List.cons_append, slots, slots_append a b]; omega
  | some _ :: a, b => by simp only [List.cons_append, slots, slots_append a b]; omega

theorem slots_none : ∀ n, slots (List.replicate n none) = n
  | 0 => rfl
  | n + 1 => by rw [List.replicate_succ, slots, slots_none n]; omega

theorem length_le_costAll : ∀ f : Fields, f.length ≤ (costAll f).fixed
  | .nil => by simp [Fields.length]
  | .cons _ _ t r => by
    have := length_le_costAll r
    simp only [Fields.length, costAll, Cost.add, Cost.more]; omega

theorem length_le_costAdds : ∀ f : Fields, f.length ≤ (costAdds f).fixed
  | .nil => by simp [Fields.length]
  | .cons _ _ t r => by
    have := length_le_costAdds r
    simp only [Fields.length, costAdds, Cost.add, Cost.more]; omega

theorem length_le_opened (f : Fields) : f.length ≤ ((costAll f).opened).fixed := by
  have := length_le_costAll f
  unfold Cost.opened; dsimp only; omega

theorem size_le_costGroups : ∀ g : Groups, g.size ≤ (costGroups g).fixed
  | .nil => by simp [Groups.size]
  | .cons f r => by
    have := size_le_costGroups r
    have := length_le_opened f
    simp only [Groups.size, costGroups, Cost.add]; omega

mutual
theorem bound_ty : ∀ t : Ty, Bound (decTy t) weight (cost t)
  | .boolean => by
    unfold decTy decodeBoolean
    exact Bound.after (Tame.next _ _) fun _ => Bound.pure (by simp [weight]) _ _
  | .integer c => by unfold decTy; exact bound_integer c
  | .enumerated e r a => by unfold decTy; exact bound_enumerated e r a
  | .bitString c => by unfold decTy; exact bound_bitstring c
  | .octetString c => by unfold decTy; exact bound_octetstring c
  | .seqOf c t => by
    have ht := bound_ty t
    unfold decTy cost
    dsimp only
    by_cases hb : needsBit t = true
    · rw [if_pos hb]
      refine Bound.after (tame_seqOfCount c) fun n => ?_
      exact (bound_repeat_bit ht (eats_ty t hb) n.toNat).map (n := 1) fun vs => by simp [weight]
    · rw [if_neg hb]
      refine Bound.afterP (tame_seqOfCount c) (ensures_countLe c) (fun n hn => ?_) fun n => ?_
      · refine ((bound_repeat ht n.toNat).map (n := 1) (s := weight) (g := Val.seqOf) fun vs => by simp [weight]).mono ?_
        have := Nat.mul_le_mul_right (cost t).fixed hn
        unfold Cost.le Cost.more; dsimp only; omega
      · exact Tame.bind (tame_repeat ht.toTame _) fun _ => Tame.pure _
  | .choice e r a g => by
    have hr := bound_alt r
    have ha := bound_alt a
    have hg := bound_altG g
    unfold decTy cost
    have root : ∀ (m : Dec Val), (m = if r.length = 1 then decAlt r 0 >>= fun v => Pure.pure (Val.choice 0 v) else
        decodeConstrainedFromFieldList (some 0) (some ((r.length : Int) - 1)) >>= fun i =>
          decAlt r i.toNat >>= fun v => Pure.pure (Val.choice i.toNat v)) →
        Bound m weight (((costAlt r).alt ((costAlt a).alt (costAltG g)).opened).more 1) := by
      rintro m rfl
      refine Bound.mono ?_ ((Cost.le_alt_left _ _).more 1)
      refine Bound.ite (fun _ => (hr 0).map fun v => by simp [weight]) fun _ => ?_
      exact Bound.after (tame_cwnField _ _) fun i => (hr _).map fun v => by simp [weight]
    refine Bound.ite (fun _ => root _ rfl) fun _ => ?_
    refine Bound.after (Tame.next _ _) fun e => Bound.ite (fun _ => root _ rfl) fun _ => ?_
    refine Bound.after (tame_small _) fun i => Bound.ite (fun _ => Bound.raise _) fun _ => ?_
    refine Bound.mono ?_ ((Cost.le_alt_right _ _).more 1)
    refine (bound_open (s := weight) (k := (costAlt a).alt (costAltG g)) ?_).map fun v => by simp [weight]
    exact Bound.ite (fun _ => (ha _).mono (Cost.le_alt_left _ _)) fun _ => (hg _).mono (Cost.le_alt_right _ _)
  | .sequence e r a g => by
    have hr := bound_root r
    have ha := bound_adds a
    have hg := bound_groups g
    unfold decTy cost
    dsimp only
    refine (fun key => Bound.ite (fun _ => Bound.after (Tame.next _ _) key) fun _ => Bound.after (Tame.pure _) key) (fun e => ?_)
    refine Bound.after (tame_optionalBits _) fun o => ?_
    refine (Bound.bind (P := fun _ => True) (n1 := (costAll r).fixed) (s1 := slots)
      (n2 := 1 + ((costAdds a).add (costGroups g)).fixed)
      (b := ((costAll r).add ((costAdds a).add (costGroups g))).perBit)
      (x := ((costAll r).add ((costAdds a).add (costGroups g))).short)
      (Ensures.trivial _) ((hr o).mono ?_) (fun rv _ => ?_) fun rv => ?_).mono ?_
    · unfold Cost.le Cost.add; dsimp only; omega
    · refine Bound.ite (fun _ => ?_) fun _ => ?_
      · refine Bound.after (tame_extensionBits _) fun bits => ?_
        refine (Bound.both (n := 1 + slots rv) (ha _) (hg _) fun x y => ?_).mono ?_
        · simp only [weight, slots_append]; omega
        · unfold Cost.le Cost.add Cost.more; dsimp only; omega
      · refine Bound.pure ?_ _ _
        have := length_le_costAdds a
        have := size_le_costGroups g
        simp only [weight, slots_append, slots_none, Cost.add]; omega
    · have hr := tame_root r
      have ha := tame_adds a
      have hg := tame_groups g
      repeat' first
        | with_reducible exact hr _ | with_reducible exact ha _ | with_reducible exact hg _ | tame_step
    · unfold Cost.le Cost.add Cost.more; dsimp only; omega
theorem bound_alt : ∀ (r : Fields) (i : Nat), Bound (decAlt r i) weight (costAlt r)
  | .nil, _ => by unfold decAlt; exact Bound.raise _
  | .cons _ _ t _, 0 => by unfold decAlt costAlt; exact (bound_ty t).mono (Cost.le_alt_left _ _)
  | .cons _ _ _ r, i + 1 => by unfold decAlt costAlt; exact (bound_alt r i).mono (Cost.le_alt_right _ _)
theorem bound_altG : ∀ (r : Groups) (i : Nat), Bound (decAltG r i) weight (costAltG r)
  | .nil, _ => by unfold decAltG; exact Bound.raise _
  | .cons f g, i => by
    unfold decAltG costAltG
    exact Bound.ite (fun _ => (bound_alt f i).mono (Cost.le_alt_left _ _)) fun _ => (bound_altG g _).mono (Cost.le_alt_right _ _)
theorem bound_root : ∀ (r : Fields) (o : Bits), Bound (decRoot r o) slots (costAll r)
  | .nil, _ => by unfold decRoot costAll; exact Bound.pure (by simp [slots]) _ _
  | .cons _ k t r, o => by
    have ht := bound_ty t
    have hr := bound_root r
    have hs : ∀ o, Bound (decTy t >>= fun v => decRoot r o >>= fun vs => (Pure.pure (some v :: vs) : Dec (List (Option Val)))) slots
        (((cost t).more 1).add (costAll r)) := fun o => ht.both (hr o) fun v vs => by simp [slots]
    have hn : ∀ o, Bound (decRoot r o >>= fun vs => (Pure.pure (none :: vs) : Dec (List (Option Val)))) slots
        (((cost t).more 1).add (costAll r)) := fun o =>
      ((hr o).map (n := 1) (s := slots) (g := fun vs => none :: vs) fun vs => by simp [slots]).mono (by unfold Cost.le Cost.add Cost.more; dsimp only; omega)
    unfold decRoot costAll
    split
    · exact hs o
    · split
      · exact Bound.raise _
      · exact Bound.ite (fun _ => hs _) fun _ => hn _
theorem bound_adds : ∀ (r : Fields) (o : Bits), Bound (decAdds r o) slots (costAdds r)
  | .nil, _ => by unfold decAdds costAdds; exact Bound.pure (by simp [slots]) _ _
  | .cons _ k t r, o => by
    have ht := bound_open (bound_ty t)
    have hr := bound_adds r
    have hn : ∀ o, Bound (decAdds r o >>= fun vs => (Pure.pure (none :: vs) : Dec (List (Option Val)))) slots
        (((cost t).opened.more 1).add (costAdds r)) := fun o =>
      ((hr o).map (n := 1) (s := slots) (g := fun vs => none :: vs) fun vs => by simp [slots]).mono (by unfold Cost.le Cost.add Cost.more; dsimp only; omega)
    unfold decAdds costAdds
    split
    · exact hn _
    · exact Bound.ite (fun _ => ht.both (hr _) fun v vs => by simp [slots]) fun _ => hn _
theorem bound_groups : ∀ (r : Groups) (o : Bits), Bound (decGroups r o) slots (costGroups r)
  | .nil, _ => by unfold decGroups costGroups; exact Bound.pure (by simp [slots]) _ _
  | .cons f r, o => by
    have hf : Bound (decodeOptionalBits f.optionalCount >>= fun o => decRoot f o) slots (costAll f) :=
      Bound.after (tame_optionalBits _) fun o => bound_root f o
    have ht := bound_open hf
    have hr := bound_groups r
    have hn : ∀ o, Bound (decGroups r o >>= fun vs => (Pure.pure (List.replicate f.length none ++ vs) : Dec (List (Option Val)))) slots
        (((costAll f).opened).add (costGroups r)) := fun o =>
      ((hr o).map (n := f.length) (s := slots) (g := fun vs => List.replicate f.length none ++ vs) fun vs => by
        simp [slots_append, slots_none]).mono (by
        have := length_le_opened f
        unfold Cost.le Cost.add Cost.more; dsimp only; omega)
    unfold decGroups costGroups
    split
    · exact hn _
    · refine Bound.ite (fun _ => ?_) fun _ => hn _
      exact (ht.both (n := 0) (hr _) fun v vs => by simp [slots_append]).mono (by unfold Cost.le Cost.add Cost.more; dsimp only; omega)
end

end Verif
