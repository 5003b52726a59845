import Verif.Lemmas.Message
import Verif.Lemmas.Tame
/-!
# The decoder on arbitrary input
-/
namespace Verif

theorem roundUp8_eq (n : Nat) : Spec.roundUp8 n = n + padLen n := by
  unfold Spec.roundUp8 padLen; omega

theorem alignPos_eq (a : Bool) (n : Nat) : alignPos a n = if a then Spec.roundUp8 n else n := by
  cases a
  · rfl
  · rw [alignPos_true, roundUp8_eq]; rfl

theorem octetsToBits_eq (bs : List UInt8) : Spec.octetsToBits bs = bytesToBits bs := by
  unfold Spec.octetsToBits bytesToBits
  congr 1
  funext b
  simp only [natToBits, Nat.testBit_eq_decide_div_mod_eq]
  rfl

/-- A successful read, described. -/
theorem next_inv {p p' : PerBytes} {pos : Nat} {rem : Bits} (h : At p pos rem) {size : BitSize} {align : Bool}
    {v : Nat} (hn : next size align p = .ok (v, p')) :
    let start := alignPos align pos
    let n := size.octets * 8 + size.bits
    At p' (start + n) (rem.drop (start + n - pos)) ∧ v = bitsToNat ((rem.drop (start - pos)).take n) ∧
      (n = 0 ∨ start < p.binaryString.length) ∧ p'.binaryString = p.binaryString := by
  intro start n
  obtain ⟨h1, h2⟩ := next_eq h size align
  rw [h2] at hn
  have hs : pos ≤ start := by simp only [start, alignPos]; omega
  have hd : rem.drop (start - pos) = p.binaryString.drop start := by
    rw [← h.rem_eq, List.drop_drop]; congr 1; omega
  by_cases h0 : n = 0
  · rw [if_pos h0] at hn
    cases hn
    exact ⟨h1, by rw [h0]; rfl, .inl h0, rfl⟩
  · rw [if_neg h0] at hn
    by_cases hl : p.binaryString.length ≤ start
    · rw [if_pos hl] at hn; cases hn
    · rw [if_neg hl] at hn
      cases hn
      exact ⟨h1, by rw [hd], .inr (by omega), rfl⟩

/-- A read that wants bits and starts at or behind the end raises. -/
theorem next_error {p : PerBytes} {pos : Nat} {rem : Bits} (h : At p pos rem) {size : BitSize} {align : Bool}
    (h0 : size.octets * 8 + size.bits ≠ 0) (hl : p.binaryString.length ≤ alignPos align pos) :
    next size align p = .error .valueError := by
  rw [(next_eq h size align).2, if_neg h0, if_pos hl]

theorem layout_emit : ∀ {fs : List BitField} {w : Bits}, Spec.Layout fs w → w = emit 0 fs := by
  intro fs w h
  induction h with
  | nil => rfl
  | plain h ih => rw [emit_append, ← ih, emit_single]; simp [padTo_false]
  | @aligned fs w v k h hk hm ih =>
    rw [emit_append, ← ih, emit_single]
    have : k = padLen w.length := by unfold padLen; omega
    simp [padTo, this]

theorem emit_layout (fs : List BitField) : Spec.Layout fs (emit 0 fs) := by
  suffices ∀ gs, Spec.Layout gs (emit 0 gs) → Spec.Layout (gs ++ fs) (emit 0 (gs ++ fs)) by
    simpa using this [] .nil
  induction fs with
  | nil => intro gs h; simpa using h
  | cons f fs ih =>
    intro gs h
    have := ih (gs ++ [f]) ?_
    · simpa using this
    · rw [emit_append, emit_single]
      obtain ⟨a, v⟩ := f
      cases a
      · exact .plain h
      · simp only [padTo, if_true]
        rw [← List.append_assoc]
        refine .aligned h (padLen_lt _) ?_
        rw [Nat.zero_add]; exact add_padLen_mod _

theorem nonNeg_inv {p p' : PerBytes} {pos : Nat} {rem : Bits} (h : At p pos rem) {s : BitSize} {align : Bool}
    {v : Nat} (hr : decodeNonNegativeBinaryInteger (some s) align false p = .ok (v, p')) :
    v = bitsToNat (rem.take (s.octets * 8 + s.bits)) ∧
      At p' (alignPos align (pos + (s.octets * 8 + s.bits)))
        (rem.drop (alignPos align (pos + (s.octets * 8 + s.bits)) - pos)) ∧
      p'.binaryString = p.binaryString := by
  unfold decodeNonNegativeBinaryInteger at hr
  simp only [Bool.false_eq_true, if_false] at hr
  obtain ⟨s', p1, e1, hr⟩ := bind_eq_ok hr
  cases e1
  obtain ⟨d, p2, e2, hr⟩ := bind_eq_ok hr
  obtain ⟨a1, v1, _, s1⟩ := next_inv h e2
  simp only [alignPos_false, Nat.sub_self, List.drop_zero] at a1 v1
  cases align with
  | false =>
    simp only [Bool.false_eq_true, if_false] at hr
    cases hr
    exact ⟨v1, a1, s1⟩
  | true =>
    simp only [if_true] at hr
    obtain ⟨d', p3, e3, hr⟩ := bind_eq_ok hr
    cases hr
    obtain ⟨a2, _, _, s2⟩ := next_inv a1 e3
    simp only [Nat.zero_mul, Nat.add_zero, List.drop_drop] at a2
    refine ⟨v1, ?_, by rw [s2, s1]⟩
    have e : pos + (s.octets * 8 + s.bits) - pos + (alignPos true (pos + (s.octets * 8 + s.bits)) -
      (pos + (s.octets * 8 + s.bits))) = alignPos true (pos + (s.octets * 8 + s.bits)) - pos := by
      simp only [alignPos]; omega
    rwa [e] at a2

theorem bit_of_next {rem : Bits} {b : Bool} {s : Bits} (h : rem = b :: s) :
    bitsToNat (rem.take 1) = b.toNat := by
  subst h; simp [bitsToNat]

/-- An unconstrained length determinant that was read is the one announced at the next octet boundary, and
the reader stands right behind it. -/
theorem lenDet_inv {p p' : PerBytes} {pos : Nat} {rem : Bits} (h : At p pos rem) {lb ub : Option Int} {n : Int}
    (hr : decodeLengthDeterminant false false lb ub p = .ok (n, p')) :
    ∃ k l, Spec.announced (rem.drop (Spec.roundUp8 pos - pos)) = some (k, l) ∧ n = (l : Int) ∧ k % 8 = 0 ∧
      At p' (Spec.roundUp8 pos + k) (rem.drop (Spec.roundUp8 pos + k - pos)) ∧
      p'.binaryString = p.binaryString := by
  unfold decodeLengthDeterminant at hr
  simp only [Bool.false_eq_true, if_false] at hr
  obtain ⟨_, p1, e1, hr⟩ := bind_eq_ok hr
  obtain ⟨a1, _, _, s1⟩ := next_inv h e1
  simp only [Nat.zero_mul, Nat.add_zero, alignPos_eq, if_true] at a1
  have hup : pos ≤ Spec.roundUp8 pos := by rw [roundUp8_eq]; omega
  have hmod : Spec.roundUp8 pos % 8 = 0 := by unfold Spec.roundUp8; omega
  generalize Spec.roundUp8 pos = q at *
  generalize hr0 : rem.drop (q - pos) = rem' at *
  obtain ⟨x, p2, e2, hr⟩ := bind_eq_ok hr
  obtain ⟨a2, v2, l2, s2⟩ := next_inv a1 e2
  simp only [alignPos_false, Nat.zero_mul, Nat.zero_add, Nat.sub_self, List.drop_zero, Nat.add_sub_cancel_left] at a2 v2 l2
  have key : ∀ j, rem.drop (q + j - pos) = rem'.drop j := by
    intro j; rw [← hr0, List.drop_drop]; congr 1; omega
  have hne : rem' ≠ [] := by
    rw [← a1.rem_eq]
    intro h0
    have := congrArg List.length h0
    simp at this; omega
  obtain ⟨b, s, hbs⟩ := List.exists_cons_of_ne_nil hne
  rw [bit_of_next hbs] at v2
  rw [hbs, List.drop_one, List.tail_cons] at a2
  cases b with
  | false =>
    simp only [v2, Bool.toNat_false, if_true] at hr
    obtain ⟨m, p3, e3, hr⟩ := bind_eq_ok hr
    cases hr
    obtain ⟨v3, a3, s3⟩ := nonNeg_inv a2 e3
    refine ⟨8, bitsToNat (s.take 7), by rw [hbs, Spec.announced, number_eq], by rw [v3]; rfl, rfl, ?_, by rw [s3, s2, s1]⟩
    rw [key]
    have : alignPos true (q + 1 + 7) = q + 8 := by
      rw [alignPos_true]; unfold padLen; omega
    simp only [Nat.zero_mul, Nat.zero_add] at a3
    rw [this, show q + 8 - (q + 1) = 7 by omega] at a3
    rw [hbs]; exact a3
  | true =>
    simp only [v2, Bool.toNat_true, if_neg (show ¬ (1 : Nat) = 0 by decide)] at hr
    obtain ⟨y, p3, e3, hr⟩ := bind_eq_ok hr
    obtain ⟨a3, v3, l3, s3⟩ := next_inv a2 e3
    simp only [alignPos_false, Nat.zero_mul, Nat.zero_add, Nat.sub_self, List.drop_zero, Nat.add_sub_cancel_left] at a3 v3 l3
    have hne2 : s ≠ [] := by
      rw [← a2.rem_eq]
      intro h0
      have := congrArg List.length h0
      simp at this; omega
    obtain ⟨b2, s', hbs2⟩ := List.exists_cons_of_ne_nil hne2
    rw [bit_of_next hbs2] at v3
    rw [hbs2, List.drop_one, List.tail_cons] at a3
    cases b2 with
    | true =>
      simp only [v3, Bool.toNat_true, if_neg (show ¬ (1 : Nat) = 0 by decide)] at hr
      cases hr
    | false =>
      simp only [v3, Bool.toNat_false, if_true] at hr
      obtain ⟨m, p4, e4, hr⟩ := bind_eq_ok hr
      cases hr
      obtain ⟨v4, a4, s4⟩ := nonNeg_inv a3 e4
      refine ⟨16, bitsToNat (s'.take 14), by rw [hbs, hbs2, Spec.announced, number_eq], by rw [v4]; rfl, rfl, ?_,
        by rw [s4, s3, s2, s1]⟩
      rw [key]
      have : alignPos true (q + 1 + 1 + 14) = q + 16 := by
        rw [alignPos_true]; unfold padLen; omega
      simp only [show 1 * 8 + 6 = 14 from rfl] at a4
      rw [this, show q + 16 - (q + 1 + 1) = 14 by omega] at a4
      rw [hbs, hbs2]; exact a4

end Verif
