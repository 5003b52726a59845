import Verif.SpecLooking
import Verif.Lemmas.Object
/-!
# Objects that differ only in components nobody has set
-/
namespace Verif

open Spec

/-- The component at an index. -/
def slot (ss : List (Option Obj)) (i : Nat) : Option Obj := ss[i]?.getD none

mutual
/-- The same but for components that were asked for. -/
def Like : Ty → Obj → Obj → Prop
  | .seqOf _ t, .list es, .list es' => es.isSome = es'.isSome ∧ AllPairs (Like t) (es.getD []) (es'.getD [])
  | .choice _ r a g, .choice (some (pos, o)), .choice (some (pos', o')) =>
    pos = pos' ∧
      (if pos < r.length then LikeAlt r pos o o'
       else if pos < r.length + a.length then LikeAlt a (pos - r.length) o o'
       else LikeAltG g (pos - (r.length + a.length)) o o')
  | .sequence _ r a g, .seq s, .seq s' =>
    LikeFields r (s.getD []) (s'.getD []) ∧ LikeFields a ((s.getD []).drop r.length) ((s'.getD []).drop r.length) ∧
      LikeGroups g ((s.getD []).drop (r.length + a.length)) ((s'.getD []).drop (r.length + a.length))
  | _, o, o' => o = o'
def LikeAlt : Fields → Nat → Obj → Obj → Prop
  | .nil, _, o, o' => o = o'
  | .cons _ _ t _, 0, o, o' => Like t o o'
  | .cons _ _ _ r, p + 1, o, o' => LikeAlt r p o o'
def LikeAltG : Groups → Nat → Obj → Obj → Prop
  | .nil, _, o, o' => o = o'
  | .cons f g, p, o, o' => if p < f.length then LikeAlt f p o o' else LikeAltG g (p - f.length) o o'
def LikeFields : Fields → List (Option Obj) → List (Option Obj) → Prop
  | .nil, _, _ => True
  | .cons _ k t r, ss, ss' =>
    Like t (instantiate k t (ss.head?.getD none)) (instantiate k t (ss'.head?.getD none)) ∧ LikeFields r ss.tail ss'.tail
def LikeGroups : Groups → List (Option Obj) → List (Option Obj) → Prop
  | .nil, _, _ => True
  | .cons f g, ss, ss' => LikeFields f ss ss' ∧ LikeGroups g (ss.drop f.length) (ss'.drop f.length)
end

theorem slot_zero (ss : List (Option Obj)) : slot ss 0 = ss.head?.getD none := by cases ss <;> rfl

theorem slot_tail (ss : List (Option Obj)) (i : Nat) : slot ss.tail i = slot ss (i + 1) := by
  simp [slot, List.getElem?_tail]

theorem slot_drop (n : Nat) (ss : List (Option Obj)) (i : Nat) : slot (ss.drop n) i = slot ss (n + i) := by
  simp [slot, List.getElem?_drop]

theorem slot_take {n : Nat} (ss : List (Option Obj)) {i : Nat} (h : i < n) : slot (ss.take n) i = slot ss i := by
  simp [slot, List.getElem?_take, h]

theorem slot_left {xs : List (Option Obj)} (ys : List (Option Obj)) {i : Nat} (h : i < xs.length) :
    slot (xs ++ ys) i = slot xs i := by simp [slot, List.getElem?_append_left h]

theorem slot_right {xs : List (Option Obj)} (ys : List (Option Obj)) (i : Nat) :
    slot (xs ++ ys) (xs.length + i) = slot ys i := by
  simp only [slot]
  rw [List.getElem?_append_right (Nat.le_add_right _ _), Nat.add_sub_cancel_left]

theorem slot_slotsOf (n : Nat) (s : Option (List (Option Obj))) (i : Nat) : slot (slotsOf n s) i = slot (s.getD []) i := by
  have rep : slot (List.replicate n none) i = none := by
    simp only [slot, List.getElem?_replicate]
    split <;> rfl
  match s with
  | none => simpa [slotsOf, slot] using rep
  | some [] => simpa [slotsOf, slot] using rep
  | some (_ :: _) => rfl

theorem likeFields_congr : ∀ {f : Fields} {ss ss' us us' : List (Option Obj)}, (∀ i, i < f.length → slot ss i = slot us i) →
    (∀ i, i < f.length → slot ss' i = slot us' i) → LikeFields f ss ss' → LikeFields f us us'
  | .nil, _, _, _, _, _, _, _ => trivial
  | .cons _ k t r, ss, ss', us, us', a, b, h => by
    simp only [LikeFields] at h ⊢
    have a0 := a 0 (by simp [Fields.length])
    have b0 := b 0 (by simp [Fields.length])
    simp only [slot_zero] at a0 b0
    rw [← a0, ← b0]
    refine ⟨h.1, likeFields_congr (fun i l => ?_) (fun i l => ?_) h.2⟩
    · rw [slot_tail, slot_tail]; exact a _ (by simp [Fields.length]; omega)
    · rw [slot_tail, slot_tail]; exact b _ (by simp [Fields.length]; omega)

theorem likeGroups_congr : ∀ {g : Groups} {ss ss' us us' : List (Option Obj)}, (∀ i, i < g.size → slot ss i = slot us i) →
    (∀ i, i < g.size → slot ss' i = slot us' i) → LikeGroups g ss ss' → LikeGroups g us us'
  | .nil, _, _, _, _, _, _, _ => trivial
  | .cons f g, ss, ss', us, us', a, b, h => by
    simp only [LikeGroups] at h ⊢
    simp only [Groups.size] at a b
    refine ⟨likeFields_congr (fun i l => a i (by omega)) (fun i l => b i (by omega)) h.1,
      likeGroups_congr (fun i l => ?_) (fun i l => ?_) h.2⟩
    · rw [slot_drop, slot_drop]; exact a _ (by omega)
    · rw [slot_drop, slot_drop]; exact b _ (by omega)

/-! ## An equivalence -/

theorem pairs_refl {p : α → α → Prop} (h : ∀ x, p x x) : ∀ l, AllPairs p l l
  | [] => trivial
  | x :: xs => ⟨h x, pairs_refl h xs⟩

theorem pairs_symm {p : α → α → Prop} (h : ∀ x y, p x y → p y x) : ∀ l m, AllPairs p l m → AllPairs p m l
  | [], [], _ => trivial
  | x :: xs, y :: ys, a => ⟨h x y a.1, pairs_symm h xs ys a.2⟩
  | [], _ :: _, a => a
  | _ :: _, [], a => a

theorem pairs_trans {p : α → α → Prop} (h : ∀ x y z, p x y → p y z → p x z) :
    ∀ l m n, AllPairs p l m → AllPairs p m n → AllPairs p l n
  | [], [], [], _, _ => trivial
  | x :: xs, y :: ys, z :: zs, a, b => ⟨h x y z a.1 b.1, pairs_trans h xs ys zs a.2 b.2⟩
  | [], _ :: _, _, a, _ => nomatch a
  | _ :: _, [], _, a, _ => nomatch a
  | [], [], _ :: _, _, b => nomatch b
  | _ :: _, _ :: _, [], _, b => nomatch b

mutual
theorem like_refl : ∀ (t : Ty) (o : Obj), Like t o o
  | .boolean, _ => by simp only [Like]
  | .integer _, _ => by simp only [Like]
  | .enumerated _ _ _, _ => by simp only [Like]
  | .bitString _, _ => by simp only [Like]
  | .octetString _, _ => by simp only [Like]
  | .seqOf _ t, o => by
    cases o <;> simp only [Like]
    exact ⟨trivial, pairs_refl (like_refl t) _⟩
  | .choice _ r a g, o => by
    match o with
    | .leaf _ => simp only [Like]
    | .list _ => simp only [Like]
    | .seq _ => simp only [Like]
    | .choice none => simp only [Like]
    | .choice (some (pos, o)) =>
      simp only [Like]
      refine ⟨trivial, ?_⟩
      split
      · exact likeAlt_refl r _ o
      · split
        · exact likeAlt_refl a _ o
        · exact likeAltG_refl g _ o
  | .sequence _ r a g, o => by
    cases o <;> simp only [Like]
    exact ⟨likeFields_refl r _, likeFields_refl a _, likeGroups_refl g _⟩
theorem likeAlt_refl : ∀ (f : Fields) (p : Nat) (o : Obj), LikeAlt f p o o
  | .nil, _, _ => rfl
  | .cons _ _ t _, 0, o => like_refl t o
  | .cons _ _ _ r, p + 1, o => likeAlt_refl r p o
theorem likeAltG_refl : ∀ (g : Groups) (p : Nat) (o : Obj), LikeAltG g p o o
  | .nil, _, _ => rfl
  | .cons f g, p, o => by
    simp only [LikeAltG]
    split
    · exact likeAlt_refl f p o
    · exact likeAltG_refl g _ o
theorem likeFields_refl : ∀ (f : Fields) (ss : List (Option Obj)), LikeFields f ss ss
  | .nil, _ => trivial
  | .cons _ k t r, ss => ⟨like_refl t _, likeFields_refl r _⟩
theorem likeGroups_refl : ∀ (g : Groups) (ss : List (Option Obj)), LikeGroups g ss ss
  | .nil, _ => trivial
  | .cons f g, ss => ⟨likeFields_refl f _, likeGroups_refl g _⟩
end

mutual
theorem like_symm : ∀ (t : Ty) (o o' : Obj), Like t o o' → Like t o' o
  | .boolean, _, _, h => by simp only [Like] at h ⊢; exact h.symm
  | .integer _, _, _, h => by simp only [Like] at h ⊢; exact h.symm
  | .enumerated _ _ _, _, _, h => by simp only [Like] at h ⊢; exact h.symm
  | .bitString _, _, _, h => by simp only [Like] at h ⊢; exact h.symm
  | .octetString _, _, _, h => by simp only [Like] at h ⊢; exact h.symm
  | .seqOf _ t, o, o', h => by
    cases o <;> cases o' <;> simp only [Like] at h ⊢ <;> first | exact h.symm | skip
    exact ⟨h.1.symm, pairs_symm (like_symm t) _ _ h.2⟩
  | .choice _ r a g, .choice (some (pos, o)), .choice (some (pos', o')), h => by
    simp only [Like] at h ⊢
    obtain ⟨rfl, h⟩ := h
    refine ⟨rfl, ?_⟩
    by_cases c : pos < r.length
    · rw [if_pos c] at h ⊢; exact likeAlt_symm r _ o o' h
    · rw [if_neg c] at h ⊢
      by_cases d : pos < r.length + a.length
      · rw [if_pos d] at h ⊢; exact likeAlt_symm a _ o o' h
      · rw [if_neg d] at h ⊢; exact likeAltG_symm g _ o o' h
  | .choice _ _ _ _, .choice (some _), .choice none, h => by simp only [Like] at h ⊢; exact h.symm
  | .choice _ _ _ _, .choice (some _), .leaf _, h => by simp only [Like] at h ⊢; exact h.symm
  | .choice _ _ _ _, .choice (some _), .list _, h => by simp only [Like] at h ⊢; exact h.symm
  | .choice _ _ _ _, .choice (some _), .seq _, h => by simp only [Like] at h ⊢; exact h.symm
  | .choice _ _ _ _, .choice none, _, h => by simp only [Like] at h ⊢; exact h.symm
  | .choice _ _ _ _, .leaf _, _, h => by simp only [Like] at h ⊢; exact h.symm
  | .choice _ _ _ _, .list _, _, h => by simp only [Like] at h ⊢; exact h.symm
  | .choice _ _ _ _, .seq _, _, h => by simp only [Like] at h ⊢; exact h.symm
  | .sequence _ r a g, o, o', h => by
    cases o <;> cases o' <;> simp only [Like] at h ⊢ <;> first | exact h.symm | skip
    exact ⟨likeFields_symm r _ _ h.1, likeFields_symm a _ _ h.2.1, likeGroups_symm g _ _ h.2.2⟩
theorem likeAlt_symm : ∀ (f : Fields) (p : Nat) (o o' : Obj), LikeAlt f p o o' → LikeAlt f p o' o
  | .nil, _, _, _, h => Eq.symm h
  | .cons _ _ t _, 0, o, o', h => like_symm t o o' h
  | .cons _ _ _ r, p + 1, o, o', h => likeAlt_symm r p o o' h
theorem likeAltG_symm : ∀ (g : Groups) (p : Nat) (o o' : Obj), LikeAltG g p o o' → LikeAltG g p o' o
  | .nil, _, _, _, h => Eq.symm h
  | .cons f g, p, o, o', h => by
    simp only [LikeAltG] at h ⊢
    by_cases c : p < f.length
    · rw [if_pos c] at h ⊢; exact likeAlt_symm f p o o' h
    · rw [if_neg c] at h ⊢; exact likeAltG_symm g _ o o' h
theorem likeFields_symm : ∀ (f : Fields) (ss ss' : List (Option Obj)), LikeFields f ss ss' → LikeFields f ss' ss
  | .nil, _, _, _ => trivial
  | .cons _ k t r, ss, ss', h => ⟨like_symm t _ _ h.1, likeFields_symm r _ _ h.2⟩
theorem likeGroups_symm : ∀ (g : Groups) (ss ss' : List (Option Obj)), LikeGroups g ss ss' → LikeGroups g ss' ss
  | .nil, _, _, _ => trivial
  | .cons f g, ss, ss', h => ⟨likeFields_symm f _ _ h.1, likeGroups_symm g _ _ h.2⟩
end

/-- The shapes that are compared part by part. -/
def parted : Ty → Obj → Bool
  | .seqOf _ _, .list _ => true
  | .choice _ _ _ _, .choice (some _) => true
  | .sequence _ _ _ _, .seq _ => true
  | _, _ => false

theorem like_other {t : Ty} {o o' : Obj} (h : parted t o = false) (l : Like t o o') : o = o' := by
  cases t with
  | seqOf _ _ => cases o <;> cases o' <;> simp only [Like] at l <;> first | exact l | cases h
  | choice _ _ _ _ =>
    match o, o', h, l with
    | .choice none, _, _, l => simpa only [Like] using l
    | .leaf _, _, _, l => simpa only [Like] using l
    | .list _, _, _, l => simpa only [Like] using l
    | .seq _, _, _, l => simpa only [Like] using l
  | sequence _ _ _ _ => cases o <;> cases o' <;> simp only [Like] at l <;> first | exact l | cases h
  | _ => simpa only [Like] using l

theorem like_list {c : SizeC} {t : Ty} {es : Option (List Obj)} {o' : Obj} (l : Like (.seqOf c t) (.list es) o') :
    ∃ es', o' = .list es' ∧ es.isSome = es'.isSome ∧ AllPairs (Like t) (es.getD []) (es'.getD []) := by
  match o', l with
  | .leaf _, l => simp only [Like] at l; cases l
  | .choice _, l => simp only [Like] at l; cases l
  | .seq _, l => simp only [Like] at l; cases l
  | .list es', l => simp only [Like] at l; exact ⟨es', rfl, l⟩

theorem like_choice {e : Bool} {r a : Fields} {g : Groups} {pos : Nat} {o o' : Obj}
    (l : Like (.choice e r a g) (.choice (some (pos, o))) o') : ∃ o'', o' = .choice (some (pos, o'')) ∧
      (if pos < r.length then LikeAlt r pos o o''
       else if pos < r.length + a.length then LikeAlt a (pos - r.length) o o''
       else LikeAltG g (pos - (r.length + a.length)) o o'') := by
  match o', l with
  | .leaf _, l => simp only [Like] at l; cases l
  | .list _, l => simp only [Like] at l; cases l
  | .seq _, l => simp only [Like] at l; cases l
  | .choice none, l => simp only [Like] at l; cases l
  | .choice (some (p, o'')), l =>
    simp only [Like] at l
    obtain ⟨rfl, l⟩ := l
    exact ⟨o'', rfl, l⟩

theorem like_seq {e : Bool} {r a : Fields} {g : Groups} {s : Option (List (Option Obj))} {o' : Obj}
    (l : Like (.sequence e r a g) (.seq s) o') : ∃ s', o' = .seq s' ∧
      LikeFields r (s.getD []) (s'.getD []) ∧ LikeFields a ((s.getD []).drop r.length) ((s'.getD []).drop r.length) ∧
        LikeGroups g ((s.getD []).drop (r.length + a.length)) ((s'.getD []).drop (r.length + a.length)) := by
  match o', l with
  | .leaf _, l => simp only [Like] at l; cases l
  | .choice _, l => simp only [Like] at l; cases l
  | .list _, l => simp only [Like] at l; cases l
  | .seq s', l => simp only [Like] at l; exact ⟨s', rfl, l⟩

mutual
theorem like_trans : ∀ (t : Ty) (o o' o'' : Obj), Like t o o' → Like t o' o'' → Like t o o''
  | .boolean, _, _, _, h, h' => by rw [like_other rfl h]; exact h'
  | .integer _, _, _, _, h, h' => by rw [like_other rfl h]; exact h'
  | .enumerated _ _ _, _, _, _, h, h' => by rw [like_other rfl h]; exact h'
  | .bitString _, _, _, _, h, h' => by rw [like_other rfl h]; exact h'
  | .octetString _, _, _, _, h, h' => by rw [like_other rfl h]; exact h'
  | .seqOf c t, o, o', o'', h, h' => by
    cases hp : parted (.seqOf c t) o with
    | false => rw [like_other hp h]; exact h'
    | true =>
      cases o <;> first | cases hp | skip
      obtain ⟨es', rfl, e1, e2⟩ := like_list h
      obtain ⟨es'', rfl, f1, f2⟩ := like_list h'
      simp only [Like]
      exact ⟨e1.trans f1, pairs_trans (like_trans t) _ _ _ e2 f2⟩
  | .choice e r a g, o, o', o'', h, h' => by
    cases hp : parted (.choice e r a g) o with
    | false => rw [like_other hp h]; exact h'
    | true =>
      match o, hp with
      | .choice (some (pos, o)), _ =>
        obtain ⟨o1, rfl, e1⟩ := like_choice h
        obtain ⟨o2, rfl, e2⟩ := like_choice h'
        simp only [Like]
        refine ⟨trivial, ?_⟩
        by_cases c : pos < r.length
        · rw [if_pos c] at e1 e2 ⊢; exact likeAlt_trans r _ o _ _ e1 e2
        · rw [if_neg c] at e1 e2 ⊢
          by_cases d : pos < r.length + a.length
          · rw [if_pos d] at e1 e2 ⊢; exact likeAlt_trans a _ o _ _ e1 e2
          · rw [if_neg d] at e1 e2 ⊢; exact likeAltG_trans g _ o _ _ e1 e2
  | .sequence e r a g, o, o', o'', h, h' => by
    cases hp : parted (.sequence e r a g) o with
    | false => rw [like_other hp h]; exact h'
    | true =>
      cases o <;> first | cases hp | skip
      obtain ⟨s', rfl, e1, e2, e3⟩ := like_seq h
      obtain ⟨s'', rfl, f1, f2, f3⟩ := like_seq h'
      simp only [Like]
      exact ⟨likeFields_trans r _ _ _ e1 f1, likeFields_trans a _ _ _ e2 f2, likeGroups_trans g _ _ _ e3 f3⟩
theorem likeAlt_trans : ∀ (f : Fields) (p : Nat) (o o' o'' : Obj), LikeAlt f p o o' → LikeAlt f p o' o'' → LikeAlt f p o o''
  | .nil, _, _, _, _, h, h' => Eq.trans h h'
  | .cons _ _ t _, 0, o, o', o'', h, h' => like_trans t o o' o'' h h'
  | .cons _ _ _ r, p + 1, o, o', o'', h, h' => likeAlt_trans r p o o' o'' h h'
theorem likeAltG_trans : ∀ (g : Groups) (p : Nat) (o o' o'' : Obj), LikeAltG g p o o' → LikeAltG g p o' o'' →
    LikeAltG g p o o''
  | .nil, _, _, _, _, h, h' => Eq.trans h h'
  | .cons f g, p, o, o', o'', h, h' => by
    simp only [LikeAltG] at h h' ⊢
    by_cases c : p < f.length
    · rw [if_pos c] at h h' ⊢; exact likeAlt_trans f p o _ _ h h'
    · rw [if_neg c] at h h' ⊢; exact likeAltG_trans g _ o _ _ h h'
theorem likeFields_trans : ∀ (f : Fields) (ss ss' ss'' : List (Option Obj)), LikeFields f ss ss' → LikeFields f ss' ss'' →
    LikeFields f ss ss''
  | .nil, _, _, _, _, _ => trivial
  | .cons _ k t r, ss, ss', ss'', h, h' => ⟨like_trans t _ _ _ h.1 h'.1, likeFields_trans r _ _ _ h.2 h'.2⟩
theorem likeGroups_trans : ∀ (g : Groups) (ss ss' ss'' : List (Option Obj)), LikeGroups g ss ss' → LikeGroups g ss' ss'' →
    LikeGroups g ss ss''
  | .nil, _, _, _, _, _ => trivial
  | .cons f g, ss, ss', ss'', h, h' => ⟨likeFields_trans f _ _ _ h.1 h'.1, likeGroups_trans g _ _ _ h.2 h'.2⟩
end

end Verif
