import Verif.Lemmas.Cursor
/-!
# What is read depends only on what follows and on the place in the octet
-/
namespace Verif

/-- Two runs of a reader that stood at `n` and at `k`: the same exception, or the same result and the same number of bits. -/
def SameRun {α : Type} (n k : Nat) : Except Err (α × PerBytes) → Except Err (α × PerBytes) → Prop
  | .error e, .error e' => e = e'
  | .ok (a, p), .ok (b, q) => a = b ∧ ∃ j s, At p (n + j) s ∧ At q (k + j) s
  | _, _ => False

/-- Reading the same bits from the same place of another octet goes the same way. -/
structure Moved {α : Type} (m : Dec α) : Prop where
  run : ∀ p q n k s, At p n s → At q k s → n % 8 = k % 8 → SameRun n k (m p) (m q)

theorem Moved.pure {α : Type} (a : α) : Moved (Pure.pure a : Dec α) :=
  ⟨fun _ _ _ _ s hp hq _ => ⟨rfl, 0, s, hp, hq⟩⟩

theorem Moved.raise {α : Type} (e : Err) : Moved (Verif.raise e : Dec α) := ⟨fun _ _ _ _ _ _ _ _ => rfl⟩

theorem Moved.liftE {α : Type} (e : Except Err α) : Moved (Verif.liftE e) := by
  constructor; intro p q n k s hp hq _
  cases e with
  | error e => exact rfl
  | ok b => exact ⟨rfl, 0, s, hp, hq⟩

theorem Moved.bind {α β : Type} {m : Dec α} {f : α → Dec β} (hm : Moved m) (hf : ∀ a, Moved (f a)) : Moved (m >>= f) := by
  constructor; intro p q n k s hp hq hnk
  have h := hm.run p q n k s hp hq hnk
  show SameRun n k (StateT.bind m f p) (StateT.bind m f q)
  unfold StateT.bind
  cases e1 : m p with
  | error e =>
    cases e2 : m q with
    | error e' => rw [e1, e2] at h; exact h
    | ok r => rw [e1, e2] at h; exact h.elim
  | ok r =>
    cases e2 : m q with
    | error e' => rw [e1, e2] at h; exact h.elim
    | ok r' =>
      rw [e1, e2] at h
      obtain ⟨a, p1⟩ := r
      obtain ⟨b, q1⟩ := r'
      obtain ⟨rfl, j, s1, a1, a2⟩ := h
      have h2 := (hf a).run p1 q1 (n + j) (k + j) s1 a1 a2 (by omega)
      show SameRun n k (f a p1) (f a q1)
      revert h2
      cases f a p1 with
      | error e => cases f a q1 with
        | error e' => exact id
        | ok r => exact id
      | ok r => cases f a q1 with
        | error e' => exact id
        | ok r' =>
          rintro ⟨h3, j', s2, a3, a4⟩
          exact ⟨h3, j + j', s2, by rw [← Nat.add_assoc]; exact a3, by rw [← Nat.add_assoc]; exact a4⟩

theorem Moved.ite {α : Type} {c : Prop} [Decidable c] {a b : Dec α} (ha : Moved a) (hb : Moved b) :
    Moved (if c then a else b) := by
  split <;> assumption

theorem Moved.next (size : BitSize) (align : Bool) : Moved (Verif.next size align) := by
  constructor; intro p q n k s hp hq hnk
  obtain ⟨a1, e1⟩ := next_eq hp size align
  obtain ⟨a2, e2⟩ := next_eq hq size align
  have hpad : (padTo align n).length = (padTo align k).length := by
    cases align
    · rfl
    · simp only [padTo_true_length, padLen, hnk]
  rw [e1, e2]
  have hd : ∀ {r : PerBytes} {i : Nat}, At r i s → ∀ d, r.binaryString.drop (i + d) = s.drop d := by
    intro r i h d
    rw [← h.rem_eq, List.drop_drop]
  have hl : ∀ {r : PerBytes} {i : Nat}, At r i s → ∀ d, r.binaryString.length ≤ i + d ↔ s.length ≤ d := by
    intro r i h d
    rw [← h.rem_eq, List.length_drop]
    omega
  have fin : ∃ j s', At { p with offset := (if align then p.offset.align else p.offset).add size } (n + j) s' ∧
      At { q with offset := (if align then q.offset.align else q.offset).add size } (k + j) s' := by
    refine ⟨(padTo align n).length + (size.octets * 8 + size.bits), s.drop ((padTo align n).length + (size.octets * 8 + size.bits)), ?_, ?_⟩
    · have := a1
      simp only [alignPos] at this
      rw [Nat.add_assoc, Nat.add_sub_cancel_left] at this
      exact this
    · have := a2
      simp only [alignPos] at this
      rw [Nat.add_assoc, Nat.add_sub_cancel_left, ← hpad] at this
      exact this
  by_cases h0 : size.octets * 8 + size.bits = 0
  · rw [if_pos h0, if_pos h0]
    exact ⟨rfl, fin⟩
  · rw [if_neg h0, if_neg h0]
    simp only [alignPos, hl hp, hl hq, hd hp, hd hq, hpad]
    split
    · exact rfl
    · exact ⟨rfl, fin⟩

/-- One step of `moved`; each lemma below adds a case. -/
syntax "moved_step" : tactic
macro_rules | `(tactic| moved_step) => `(tactic| split)
macro_rules | `(tactic| moved_step) => `(tactic| with_reducible refine Moved.bind ?_ ?_)
macro_rules | `(tactic| moved_step) => `(tactic| with_reducible refine Moved.ite ?_ ?_)
macro_rules | `(tactic| moved_step) => `(tactic| with_reducible assumption)
macro_rules | `(tactic| moved_step) => `(tactic| with_reducible exact Moved.pure _)
macro_rules | `(tactic| moved_step) => `(tactic| with_reducible exact Moved.raise _)
macro_rules | `(tactic| moved_step) => `(tactic| with_reducible exact Moved.liftE _)
macro_rules | `(tactic| moved_step) => `(tactic| with_reducible exact Moved.next _ _)
macro_rules | `(tactic| moved_step) => `(tactic| intro _)

/-- Proves `Moved` by following the structure of the reading function. -/
macro "moved" : tactic => `(tactic| repeat' moved_step)

theorem moved_nonNeg (s : Option BitSize) (a m : Bool) : Moved (decodeNonNegativeBinaryInteger s a m) := by
  unfold decodeNonNegativeBinaryInteger; moved
macro_rules | `(tactic| moved_step) => `(tactic| with_reducible exact moved_nonNeg _ _ _)

theorem moved_cwn (l u : Option Int) : Moved (decodeConstrainedWholeNumber l u) := by
  unfold decodeConstrainedWholeNumber
  moved
macro_rules | `(tactic| moved_step) => `(tactic| with_reducible exact moved_cwn _ _)

theorem moved_lenDet (a b : Bool) (l u : Option Int) : Moved (decodeLengthDeterminant a b l u) := by
  unfold decodeLengthDeterminant
  moved
macro_rules | `(tactic| moved_step) => `(tactic| with_reducible exact moved_lenDet _ _ _ _)

theorem moved_cwnField (l u : Option Int) : Moved (decodeConstrainedFromFieldList l u) := by
  unfold decodeConstrainedFromFieldList
  moved
macro_rules | `(tactic| moved_step) => `(tactic| with_reducible exact moved_cwnField _ _)

theorem moved_semi (l : Int) : Moved (decodeSemiConstrainedFromFieldList l) := by
  unfold decodeSemiConstrainedFromFieldList
  moved
macro_rules | `(tactic| moved_step) => `(tactic| with_reducible exact moved_semi _)

theorem moved_small (l : Int) : Moved (decodeNormallySmall l) := by
  unfold decodeNormallySmall
  moved
macro_rules | `(tactic| moved_step) => `(tactic| with_reducible exact moved_small _)

theorem moved_unconstrained : Moved decodeUnconstrainedWholeNumber := by
  unfold decodeUnconstrainedWholeNumber; moved
macro_rules | `(tactic| moved_step) => `(tactic| with_reducible exact moved_unconstrained)

theorem moved_openType {α : Type} (m : Dec α) : Moved (decodeOpenTypeField m) := by
  unfold decodeOpenTypeField
  moved
macro_rules | `(tactic| moved_step) => `(tactic| with_reducible exact moved_openType _)

theorem moved_boolean : Moved decodeBoolean := by unfold decodeBoolean; moved
macro_rules | `(tactic| moved_step) => `(tactic| with_reducible exact moved_boolean)

theorem moved_integer (c : Constr) : Moved (decodeInteger c) := by
  unfold decodeInteger
  moved
macro_rules | `(tactic| moved_step) => `(tactic| with_reducible exact moved_integer _)

theorem moved_enumerated (e : Bool) (r a : List (String × Int)) : Moved (decodeEnumerated e r a) := by
  unfold decodeEnumerated
  moved
macro_rules | `(tactic| moved_step) => `(tactic| with_reducible exact moved_enumerated _ _ _)

theorem moved_bitstringRoot (c : SizeC) : Moved (decodeBitstringRoot c) := by
  unfold decodeBitstringRoot
  moved
macro_rules | `(tactic| moved_step) => `(tactic| with_reducible exact moved_bitstringRoot _)

theorem moved_bitstring (c : SizeC) : Moved (decodeBitstring c) := by
  unfold decodeBitstring
  moved
macro_rules | `(tactic| moved_step) => `(tactic| with_reducible exact moved_bitstring _)

theorem moved_octetstringRoot (c : SizeC) : Moved (decodeOctetstringRoot c) := by
  unfold decodeOctetstringRoot
  moved
macro_rules | `(tactic| moved_step) => `(tactic| with_reducible exact moved_octetstringRoot _)

theorem moved_octetstring (c : SizeC) : Moved (decodeOctetstring c) := by
  unfold decodeOctetstring
  moved
macro_rules | `(tactic| moved_step) => `(tactic| with_reducible exact moved_octetstring _)

theorem moved_seqOfCount (c : SizeC) : Moved (decodeSequenceOfCount c) := by
  unfold decodeSequenceOfCount
  moved
macro_rules | `(tactic| moved_step) => `(tactic| with_reducible exact moved_seqOfCount _)

theorem moved_repeat {α : Type} {m : Dec α} (h : Moved m) : ∀ n, Moved (repeatDec n m)
  | 0 => Moved.pure _
  | n + 1 => by
    have := moved_repeat h n
    unfold repeatDec; moved

theorem moved_optionalBits (n : Nat) : Moved (decodeOptionalBits n) := by
  unfold decodeOptionalBits; moved
macro_rules | `(tactic| moved_step) => `(tactic| with_reducible exact moved_optionalBits _)

theorem moved_extensionBits (n : Nat) : Moved (decodeExtensionBits n) := by
  unfold decodeExtensionBits
  moved
macro_rules | `(tactic| moved_step) => `(tactic| with_reducible exact moved_extensionBits _)

mutual
theorem moved_ty : ∀ t : Ty, Moved (decTy t)
  | .boolean => by unfold decTy; exact moved_boolean
  | .integer c => by unfold decTy; exact moved_integer c
  | .enumerated e r a => by unfold decTy; exact moved_enumerated e r a
  | .bitString c => by unfold decTy; exact moved_bitstring c
  | .octetString c => by unfold decTy; exact moved_octetstring c
  | .seqOf c t => by
    have ht := moved_ty t
    unfold decTy
    repeat' first | with_reducible exact moved_repeat ht _ | moved_step
  | .choice e r a g => by
    have hr := moved_alt r
    unfold decTy
    repeat' first | with_reducible exact hr _ | moved_step
  | .sequence e r a g => by
    have hr := moved_root r
    have ha := moved_adds a
    have hg := moved_groups g
    unfold decTy
    repeat' first
      | with_reducible exact hr _ | with_reducible exact ha _ | with_reducible exact hg _ | moved_step
theorem moved_alt : ∀ (r : Fields) (i : Nat), Moved (decAlt r i)
  | .nil, _ => by unfold decAlt; exact Moved.raise _
  | .cons _ _ t _, 0 => by unfold decAlt; exact moved_ty t
  | .cons _ _ _ r, i + 1 => by unfold decAlt; exact moved_alt r i
theorem moved_root : ∀ (r : Fields) (o : Bits), Moved (decRoot r o)
  | .nil, _ => by unfold decRoot; exact Moved.pure _
  | .cons _ k t r, o => by
    have ht := moved_ty t
    have hr := moved_root r
    unfold decRoot
    repeat' first | with_reducible exact hr _ | moved_step
theorem moved_adds : ∀ (r : Fields) (o : Bits), Moved (decAdds r o)
  | .nil, _ => by unfold decAdds; exact Moved.pure _
  | .cons _ k t r, o => by
    have hr := moved_adds r
    unfold decAdds
    repeat' first | with_reducible exact hr _ | moved_step
theorem moved_groups : ∀ (r : Groups) (o : Bits), Moved (decGroups r o)
  | .nil, _ => by unfold decGroups; exact Moved.pure _
  | .cons f r, o => by
    have hr := moved_groups r
    unfold decGroups
    repeat' first | with_reducible exact hr _ | moved_step
end

end Verif
