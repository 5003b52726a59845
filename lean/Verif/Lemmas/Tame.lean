import Verif.Lemmas.Cursor
/-!
# What every reading function does to the reader, on any input
-/
namespace Verif

/-- Bits consumed so far. -/
def PerBytes.pos (p : PerBytes) : Nat := p.offset.currOctets * 8 + p.offset.currBits

/-- The same reader over a longer input. -/
def PerBytes.extend (p : PerBytes) (x : Bits) : PerBytes := { p with binaryString := p.binaryString ++ x }

theorem PerBytes.extend_pos (p : PerBytes) (x : Bits) : (p.extend x).pos = p.pos := rfl

/-- The input is left alone, the position moves forward and stays well formed, and what is read does not
depend on data behind the final position. -/
structure Tame {α : Type} (m : Dec α) : Prop where
  run : ∀ p a p', p.offset.currBits < 8 → m p = .ok (a, p') →
    p'.binaryString = p.binaryString ∧ p'.offset.currBits < 8 ∧ p.pos ≤ p'.pos ∧
    ∀ x, p'.pos ≤ p.binaryString.length → m (p.extend x) = .ok (a, p'.extend x)

theorem Tame.pure {α : Type} (a : α) : Tame (Pure.pure a : Dec α) := by
  constructor; intro p a' p' hb h
  cases h
  exact ⟨rfl, hb, Nat.le_refl _, fun _ _ => rfl⟩

theorem Tame.raise {α : Type} (e : Err) : Tame (Verif.raise e : Dec α) := by
  constructor; intro p a' p' hb h; cases h

theorem Tame.liftE {α : Type} (e : Except Err α) : Tame (Verif.liftE e) := by
  constructor; intro p a p' hb h
  unfold Verif.liftE at h ⊢
  cases e with
  | error e => cases h
  | ok b => cases h; exact ⟨rfl, hb, Nat.le_refl _, fun _ _ => rfl⟩

/-- Running a sequence of two steps. -/
theorem bind_eq_ok {α β : Type} {m : Dec α} {f : α → Dec β} {p p' : PerBytes} {b : β}
    (h : (m >>= f) p = .ok (b, p')) : ∃ a p1, m p = .ok (a, p1) ∧ f a p1 = .ok (b, p') := by
  have h : StateT.bind m f p = .ok (b, p') := h
  unfold StateT.bind at h
  cases hm : m p with
  | error e => rw [hm] at h; cases h
  | ok r => rw [hm] at h; exact ⟨r.1, r.2, rfl, h⟩

theorem bind_of_ok {α β : Type} {m : Dec α} {f : α → Dec β} {p p1 : PerBytes} {a : α} {r : Except Err (β × PerBytes)}
    (h1 : m p = .ok (a, p1)) (h2 : f a p1 = r) : (m >>= f) p = r := by
  show StateT.bind m f p = _
  unfold StateT.bind
  rw [h1]; exact h2

theorem Tame.bind {α β : Type} {m : Dec α} {f : α → Dec β} (hm : Tame m) (hf : ∀ a, Tame (f a)) :
    Tame (m >>= f) := by
  constructor; intro p b p' hb h
  obtain ⟨a, p1, e1, e2⟩ := bind_eq_ok h
  obtain ⟨s1, b1, l1, x1⟩ := hm.run p a p1 hb e1
  obtain ⟨s2, b2, l2, x2⟩ := (hf a).run p1 b p' b1 e2
  refine ⟨by rw [s2, s1], b2, Nat.le_trans l1 l2, fun x hx => ?_⟩
  exact bind_of_ok (x1 x (Nat.le_trans l2 hx)) (x2 x (by rw [s1]; exact hx))

theorem Tame.ite {α : Type} {c : Prop} [Decidable c] {a b : Dec α} (ha : Tame a) (hb : Tame b) :
    Tame (if c then a else b) := by
  split <;> assumption

theorem Tame.next (size : BitSize) (align : Bool) : Tame (Verif.next size align) := by
  constructor; intro p a p' hb h
  have hat : At p p.pos (p.binaryString.drop p.pos) := ⟨hb, rfl, rfl⟩
  have hatx : ∀ x, At (p.extend x) p.pos ((p.extend x).binaryString.drop p.pos) := fun x => ⟨hb, rfl, rfl⟩
  obtain ⟨h1, h2⟩ := next_eq hat size align
  rw [h] at h2
  have hp' : p' = { p with offset := (if align then p.offset.align else p.offset).add size } := by
    by_cases hn : size.octets * 8 + size.bits = 0
    · rw [if_pos hn] at h2; cases h2; rfl
    · rw [if_neg hn] at h2
      by_cases hl : p.binaryString.length ≤ alignPos align p.pos
      · rw [if_pos hl] at h2; cases h2
      · rw [if_neg hl] at h2; cases h2; rfl
  rw [← hp'] at h1
  have hpos : p'.pos = alignPos align p.pos + (size.octets * 8 + size.bits) := h1.pos_eq
  refine ⟨by rw [hp'], h1.bits_lt, by rw [hpos, alignPos]; omega, fun x hx => ?_⟩
  obtain ⟨_, h3⟩ := next_eq (hatx x) size align
  rw [h3]
  have e : ({ (p.extend x) with offset := (if align then (p.extend x).offset.align else (p.extend x).offset).add size }
      : PerBytes) = p'.extend x := by rw [hp']; rfl
  rw [e]
  by_cases hn : size.octets * 8 + size.bits = 0
  · rw [if_pos hn] at h2 ⊢; cases h2; rfl
  · rw [if_neg hn] at h2 ⊢
    by_cases hl : p.binaryString.length ≤ alignPos align p.pos
    · rw [if_pos hl] at h2; cases h2
    · rw [if_neg hl] at h2
      cases h2
      have hl' : ¬ (p.extend x).binaryString.length ≤ alignPos align p.pos := by
        simp only [PerBytes.extend, List.length_append]; omega
      rw [if_neg hl']
      have : ((p.extend x).binaryString.drop (alignPos align p.pos)).take (size.octets * 8 + size.bits)
          = (p.binaryString.drop (alignPos align p.pos)).take (size.octets * 8 + size.bits) := by
        show (List.drop _ (p.binaryString ++ x)).take _ = _
        rw [List.drop_append_of_le_length (by omega), List.take_append_of_le_length]
        rw [List.length_drop]; omega
      rw [this]

/-- One step of `tame`; each lemma below adds a case. -/
syntax "tame_step" : tactic
macro_rules | `(tactic| tame_step) => `(tactic| split)
macro_rules | `(tactic| tame_step) => `(tactic| with_reducible refine Tame.bind ?_ ?_)
macro_rules | `(tactic| tame_step) => `(tactic| with_reducible refine Tame.ite ?_ ?_)
macro_rules | `(tactic| tame_step) => `(tactic| with_reducible assumption)
macro_rules | `(tactic| tame_step) => `(tactic| with_reducible exact Tame.pure _)
macro_rules | `(tactic| tame_step) => `(tactic| with_reducible exact Tame.raise _)
macro_rules | `(tactic| tame_step) => `(tactic| with_reducible exact Tame.liftE _)
macro_rules | `(tactic| tame_step) => `(tactic| with_reducible exact Tame.next _ _)
macro_rules | `(tactic| tame_step) => `(tactic| intro _)

/-- Proves `Tame` by following the structure of the reading function. -/
macro "tame" : tactic => `(tactic| repeat' tame_step)

theorem tame_nonNeg (s : Option BitSize) (a m : Bool) : Tame (decodeNonNegativeBinaryInteger s a m) := by
  unfold decodeNonNegativeBinaryInteger; tame
macro_rules | `(tactic| tame_step) => `(tactic| with_reducible exact tame_nonNeg _ _ _)

theorem tame_cwn (l u : Option Int) : Tame (decodeConstrainedWholeNumber l u) := by
  unfold decodeConstrainedWholeNumber
  tame
macro_rules | `(tactic| tame_step) => `(tactic| with_reducible exact tame_cwn _ _)

theorem tame_lenDet (a b : Bool) (l u : Option Int) : Tame (decodeLengthDeterminant a b l u) := by
  unfold decodeLengthDeterminant
  tame
macro_rules | `(tactic| tame_step) => `(tactic| with_reducible exact tame_lenDet _ _ _ _)

theorem tame_cwnField (l u : Option Int) : Tame (decodeConstrainedFromFieldList l u) := by
  unfold decodeConstrainedFromFieldList
  tame
macro_rules | `(tactic| tame_step) => `(tactic| with_reducible exact tame_cwnField _ _)

theorem tame_semi (l : Int) : Tame (decodeSemiConstrainedFromFieldList l) := by
  unfold decodeSemiConstrainedFromFieldList
  tame
macro_rules | `(tactic| tame_step) => `(tactic| with_reducible exact tame_semi _)

theorem tame_small (l : Int) : Tame (decodeNormallySmall l) := by
  unfold decodeNormallySmall
  tame
macro_rules | `(tactic| tame_step) => `(tactic| with_reducible exact tame_small _)

theorem tame_unconstrained : Tame decodeUnconstrainedWholeNumber := by
  unfold decodeUnconstrainedWholeNumber; tame
macro_rules | `(tactic| tame_step) => `(tactic| with_reducible exact tame_unconstrained)

theorem tame_openType {α : Type} (m : Dec α) : Tame (decodeOpenTypeField m) := by
  unfold decodeOpenTypeField
  tame
macro_rules | `(tactic| tame_step) => `(tactic| with_reducible exact tame_openType _)

theorem tame_boolean : Tame decodeBoolean := by unfold decodeBoolean; tame
macro_rules | `(tactic| tame_step) => `(tactic| with_reducible exact tame_boolean)

theorem tame_integer (c : Constr) : Tame (decodeInteger c) := by
  unfold decodeInteger
  tame
macro_rules | `(tactic| tame_step) => `(tactic| with_reducible exact tame_integer _)

theorem tame_enumerated (e : Bool) (r a : List (String × Int)) : Tame (decodeEnumerated e r a) := by
  unfold decodeEnumerated
  tame
macro_rules | `(tactic| tame_step) => `(tactic| with_reducible exact tame_enumerated _ _ _)

theorem tame_bitstringRoot (c : SizeC) : Tame (decodeBitstringRoot c) := by
  unfold decodeBitstringRoot
  tame
macro_rules | `(tactic| tame_step) => `(tactic| with_reducible exact tame_bitstringRoot _)

theorem tame_bitstring (c : SizeC) : Tame (decodeBitstring c) := by
  unfold decodeBitstring
  tame
macro_rules | `(tactic| tame_step) => `(tactic| with_reducible exact tame_bitstring _)

theorem tame_octetstringRoot (c : SizeC) : Tame (decodeOctetstringRoot c) := by
  unfold decodeOctetstringRoot
  tame
macro_rules | `(tactic| tame_step) => `(tactic| with_reducible exact tame_octetstringRoot _)

theorem tame_octetstring (c : SizeC) : Tame (decodeOctetstring c) := by
  unfold decodeOctetstring
  tame
macro_rules | `(tactic| tame_step) => `(tactic| with_reducible exact tame_octetstring _)

theorem tame_seqOfCount (c : SizeC) : Tame (decodeSequenceOfCount c) := by
  unfold decodeSequenceOfCount
  tame
macro_rules | `(tactic| tame_step) => `(tactic| with_reducible exact tame_seqOfCount _)

theorem tame_repeat {α : Type} {m : Dec α} (h : Tame m) : ∀ n, Tame (repeatDec n m)
  | 0 => Tame.pure _
  | n + 1 => by
    have := tame_repeat h n
    unfold repeatDec; tame

theorem tame_optionalBits (n : Nat) : Tame (decodeOptionalBits n) := by
  unfold decodeOptionalBits; tame
macro_rules | `(tactic| tame_step) => `(tactic| with_reducible exact tame_optionalBits _)

theorem tame_extensionBits (n : Nat) : Tame (decodeExtensionBits n) := by
  unfold decodeExtensionBits
  tame
macro_rules | `(tactic| tame_step) => `(tactic| with_reducible exact tame_extensionBits _)

mutual
theorem tame_ty : ∀ t : Ty, Tame (decTy t)
  | .boolean => by unfold decTy; exact tame_boolean
  | .integer c => by unfold decTy; exact tame_integer c
  | .enumerated e r a => by unfold decTy; exact tame_enumerated e r a
  | .bitString c => by unfold decTy; exact tame_bitstring c
  | .octetString c => by unfold decTy; exact tame_octetstring c
  | .seqOf c t => by
    have ht := tame_ty t
    unfold decTy
    repeat' first | with_reducible exact tame_repeat ht _ | tame_step
  | .choice e r a g => by
    have hr := tame_alt r
    unfold decTy
    repeat' first | with_reducible exact hr _ | tame_step
  | .sequence e r a g => by
    have hr := tame_root r
    have ha := tame_adds a
    have hg := tame_groups g
    unfold decTy
    repeat' first
      | with_reducible exact hr _ | with_reducible exact ha _ | with_reducible exact hg _ | tame_step
theorem tame_alt : ∀ (r : Fields) (i : Nat), Tame (decAlt r i)
  | .nil, _ => by unfold decAlt; exact Tame.raise _
  | .cons _ _ t _, 0 => by unfold decAlt; exact tame_ty t
  | .cons _ _ _ r, i + 1 => by unfold decAlt; exact tame_alt r i
theorem tame_root : ∀ (r : Fields) (o : Bits), Tame (decRoot r o)
  | .nil, _ => by unfold decRoot; exact Tame.pure _
  | .cons _ k t r, o => by
    have ht := tame_ty t
    have hr := tame_root r
    unfold decRoot
    repeat' first | with_reducible exact hr _ | tame_step
theorem tame_adds : ∀ (r : Fields) (o : Bits), Tame (decAdds r o)
  | .nil, _ => by unfold decAdds; exact Tame.pure _
  | .cons _ k t r, o => by
    have hr := tame_adds r
    unfold decAdds
    repeat' first | with_reducible exact hr _ | tame_step
theorem tame_groups : ∀ (r : Groups) (o : Bits), Tame (decGroups r o)
  | .nil, _ => by unfold decGroups; exact Tame.pure _
  | .cons f r, o => by
    have hr := tame_groups r
    unfold decGroups
    repeat' first | with_reducible exact hr _ | tame_step
end

end Verif
