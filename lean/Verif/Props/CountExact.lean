import Verif.Props.Schema
/-!
# C15: exactly which sizes of a SEQUENCE OF are respected by whatever is received
-/
namespace Verif

theorem booleans_read : ∀ (b : Bits) (pos : Nat), Reads (repeatDec b.length (decTy .boolean)) pos b (b.map Val.bool)
  | [], pos => Reads.pure _ _
  | x :: b, pos => by
    have h1 : Reads (decTy .boolean) pos [x] (.bool x) := by
      simp only [decTy]
      unfold decodeBoolean
      refine Reads.map (Reads.bit pos x) fun pos => ?_
      cases x <;> exact Reads.pure _ _
    show Reads (repeatDec (b.length + 1) _) pos ([x] ++ b) (Val.bool x :: b.map Val.bool)
    unfold repeatDec
    exact h1.bind ((booleans_read b _).map fun _ => Reads.pure _ _)

/-- Whatever number a count field holds, a list of that many booleans can be received. -/
theorem count_received {c : SizeC} {w : Bits} {n : Nat} (h : Reads (decodeSequenceOfCount c) 0 w n) {bs : List UInt8}
    (hne : bs ≠ []) {rest : Bits} (hb : bytesToBits bs = w ++ rest) (hl : n ≤ rest.length) :
    ∃ vs, decode (.seqOf c .boolean) bs = .ok (.seqOf vs) ∧ vs.length = n := by
  have hr : Reads (decTy (.seqOf c .boolean)) 0 (w ++ rest.take n) (.seqOf ((rest.take n).map Val.bool)) := by
    simp only [decTy]
    refine h.bind ?_
    have := booleans_read (rest.take n) (0 + w.length)
    rw [List.length_take, Nat.min_eq_left hl] at this
    exact Reads.map (by simpa only [decTy, Int.toNat_natCast] using this) fun _ => Reads.pure _ _
  obtain ⟨p', e, _⟩ := hr ⟨Offset.init 0 0, bytesToBits bs⟩ (rest.drop n) (by
    rw [List.append_assoc, List.take_append_drop, ← hb]
    exact At.init _)
  exact ⟨_, decode_ok_of hne rfl e, by rw [List.length_map, List.length_take, Nat.min_eq_left hl]⟩

/-- The count field of a SIZE with up to 255 numbers, all ones. -/
theorem count_small {l u : Nat} (h : l < u) (hr : u - l + 1 ≤ 255) :
    ∃ k, u - l + 1 ≤ 2 ^ k ∧ k ≤ 8 ∧
      Reads (decodeSequenceOfCount ⟨false, some l, some u⟩) 0 (List.replicate k true) ((l + (2 ^ k - 1) : Nat) : Int) := by
  obtain ⟨k, e, k0, k1, k2⟩ := getBitFieldSize_small (r := (u : Int) - l + 1) (by omega) (by omega)
  have e1 : (2 : Int) ^ k = ((2 ^ k : Nat) : Int) := by simp
  have e2 : (2 : Int) ^ (k - 1) = ((2 ^ (k - 1) : Nat) : Int) := by simp
  rw [e1] at k1
  rw [e2] at k2
  refine ⟨k, ?_, ?_, ?_⟩
  · omega
  · rcases Nat.lt_or_ge 8 k with h8 | h8
    · have := Nat.pow_le_pow_right (n := 2) (by omega) (show 8 ≤ k - 1 by omega)
      omega
    · exact h8
  · unfold decodeSequenceOfCount
    simp only [Bool.false_eq_true, if_false]
    rw [if_neg (by omega), if_pos (by omega)]
    unfold decodeLengthDeterminant
    simp only [Bool.false_eq_true, if_false, if_true]
    unfold decodeConstrainedWholeNumber
    refine Reads.bind_nil (Reads.liftE (a := (u : Int)) rfl 0) ?_
    refine Reads.bind_nil (Reads.liftE (a := (l : Int)) rfl 0) ?_
    dsimp only
    unfold integerRange
    rw [if_neg (by omega), if_pos (by omega), e]
    have := Reads.nonNeg ⟨0, k⟩ false 0 (List.replicate k true) (by simp) (by simp)
    rw [bitsToNat_replicate_true] at this
    refine this.map fun _ => ?_
    have hc : (l : Int) + ((2 ^ k - 1 : Nat) : Int) = ((l + (2 ^ k - 1) : Nat) : Int) := by simp
    rw [hc]
    exact Reads.pure _ _

/-- The count field of a SIZE with 257 to 65536 numbers, all ones. -/
theorem count_medium {l u : Nat} (h1 : 257 ≤ u - l + 1) (h2 : u - l + 1 ≤ 65536) :
    Reads (decodeSequenceOfCount ⟨false, some l, some u⟩) 0 (List.replicate 16 true) ((l + 65535 : Nat) : Int) := by
  unfold decodeSequenceOfCount
  simp only [Bool.false_eq_true, if_false]
  rw [if_neg (by omega), if_pos (by omega)]
  unfold decodeLengthDeterminant
  simp only [Bool.false_eq_true, if_false, if_true]
  unfold decodeConstrainedWholeNumber
  refine Reads.bind_nil (Reads.liftE (a := (u : Int)) rfl 0) ?_
  refine Reads.bind_nil (Reads.liftE (a := (l : Int)) rfl 0) ?_
  dsimp only
  unfold integerRange
  rw [if_neg (by omega), if_neg (by omega), if_neg (by omega), if_pos (by omega),
    getBitFieldSize_medium (r := (u : Int) - l + 1) (by omega) (by omega)]
  refine Reads.bind_nil (Reads.align_aligned rfl) ?_
  have := Reads.nonNeg ⟨2, 0⟩ true 0 (List.replicate 16 true) (by simp) (by simp)
  rw [bitsToNat_replicate_true] at this
  refine this.map fun _ => ?_
  have hc : (l : Int) + ((2 ^ 16 - 1 : Nat) : Int) = ((l + 65535 : Nat) : Int) := by simp
  rw [hc]
  exact Reads.pure _ _

namespace Props
open Verif

/-- C15, exactly, for SEQUENCE (SIZE(l..u)) OF BOOLEAN with at most 65536 sizes: every list that can be received has a length
within the bounds if and only if the numbers from `l` to `u` fill their field (F21). -/
theorem C15_exact {l u : Nat} (h : l < u) (h64 : u - l + 1 ≤ 65536) :
    (∀ bs w, decode (.seqOf ⟨false, some l, some u⟩ .boolean) bs = .ok w →
      Spec.conforms (.seqOf ⟨false, some l, some u⟩ .boolean) w = true) ↔
    (∃ k, k ≤ 7 ∧ u - l + 1 = 2 ^ k) ∨ u - l + 1 = 256 ∨ u - l + 1 = 65536 := by
  have violated : ∀ {w : Bits} {n : Nat} {bs : List UInt8} {rest : Bits},
      Reads (decodeSequenceOfCount ⟨false, some l, some u⟩) 0 w n → bs ≠ [] → bytesToBits bs = w ++ rest →
      n ≤ rest.length → u < n → ¬ ∀ bs w, decode (.seqOf ⟨false, some l, some u⟩ .boolean) bs = .ok w →
        Spec.conforms (.seqOf ⟨false, some l, some u⟩ .boolean) w = true := by
    intro w n bs rest hr hne hb hl hu hall
    obtain ⟨vs, e, hv⟩ := count_received hr hne hb hl
    have := hall _ _ e
    simp only [Spec.conforms, Spec.hasShape, SizeC.test, Bool.and_eq_true, hv] at this
    simp at this
    omega
  constructor
  · intro hall
    by_cases hs : u - l + 1 ≤ 255
    · obtain ⟨k, k1, k8, hk⟩ := count_small h hs
      by_cases he : u - l + 1 = 2 ^ k
      · refine .inl ⟨k, ?_, he⟩
        rcases Nat.lt_or_ge 7 k with h7 | h7
        · have := Nat.pow_le_pow_right (n := 2) (by omega) (show 8 ≤ k by omega)
          omega
        · exact h7
      · refine absurd hall (violated hk (bs := 255 :: List.replicate (l + (2 ^ k - 1)) 0)
          (rest := List.replicate (8 - k) true ++ bytesToBits (List.replicate (l + (2 ^ k - 1)) 0)) (by simp) ?_ ?_ (by omega))
        · rw [bytesToBits_cons, ← List.append_assoc, List.replicate_append_replicate, show k + (8 - k) = 8 by omega]
          rfl
        · rw [List.length_append, bytesToBits_length, List.length_replicate, List.length_replicate]
          omega
    · by_cases h6 : u - l + 1 = 256
      · exact .inr (.inl h6)
      · by_cases h7 : u - l + 1 = 65536
        · exact .inr (.inr h7)
        · refine absurd hall (violated (count_medium (by omega) h64) (bs := 255 :: 255 :: List.replicate (l + 65535) 0)
            (rest := bytesToBits (List.replicate (l + 65535) 0)) (by simp) ?_ ?_ (by omega))
          · rw [bytesToBits_cons, bytesToBits_cons, ← List.append_assoc]
            rfl
          · rw [bytesToBits_length, List.length_replicate]
            omega
  · intro hr bs w hd
    refine C15_conforms_tight_partial ?_ hd
    have hroom : Spec.room (u - l + 1) = u - l + 1 := by
      rcases hr with ⟨k, hk, e⟩ | e | e
      · rw [e]
        have : k = 0 ∨ k = 1 ∨ k = 2 ∨ k = 3 ∨ k = 4 ∨ k = 5 ∨ k = 6 ∨ k = 7 := by omega
        rcases this with rfl | rfl | rfl | rfl | rfl | rfl | rfl | rfl <;> decide +kernel
      · rw [e]; decide +kernel
      · rw [e]; decide +kernel
    simp only [Spec.allTight, Spec.tight, hroom]
    simp [h]

/-- SIZE(1..4) fills its field of two bits; SIZE(1..5) does not fill three. -/
example : (∀ bs w, decode (.seqOf ⟨false, some 1, some 4⟩ .boolean) bs = .ok w →
      Spec.conforms (.seqOf ⟨false, some 1, some 4⟩ .boolean) w = true) ∧
    ¬ ∀ bs w, decode (.seqOf ⟨false, some 1, some 5⟩ .boolean) bs = .ok w →
      Spec.conforms (.seqOf ⟨false, some 1, some 5⟩ .boolean) w = true := by
  constructor
  · exact (C15_exact (by omega) (by omega)).2 (.inl ⟨2, by omega, rfl⟩)
  · rw [C15_exact (by omega) (by omega)]
    rintro (⟨k, hk, e⟩ | e | e)
    · have : k = 0 ∨ k = 1 ∨ k = 2 ∨ k = 3 ∨ k = 4 ∨ k = 5 ∨ k = 6 ∨ k = 7 := by omega
      rcases this with rfl | rfl | rfl | rfl | rfl | rfl | rfl | rfl <;> simp at e
    · omega
    · omega

end Props
end Verif
