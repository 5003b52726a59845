import Verif.Lemmas.Stream
/-!
# Widths of whole numbers
-/
namespace Verif

theorem leastBits_log2 {m : Nat} (h : 1 ≤ m) : Spec.LeastBits (m.log2 + 1) m :=
  ⟨Nat.lt_log2_self, fun _ hj => (Nat.log2_lt (by omega)).2 hj⟩

theorem leastOctets_log2 (m : Nat) : Spec.LeastOctets (m.log2 / 8 + 1) m := by
  refine ⟨by omega, Nat.lt_of_lt_of_le Nat.lt_log2_self (Nat.pow_le_pow_right (by omega) (by omega)), fun j h1 hj => ?_⟩
  by_cases h0 : m = 0
  · subst h0; simp; omega
  · have := (Nat.log2_lt h0).2 hj
    omega

theorem leastOctets_range {r : Int} (h : 65536 ≤ r) : Spec.LeastOctets (getRangeOctetLen r) r.toNat := by
  obtain ⟨a, b, c⟩ := getRangeOctetLen_spec (r := r) (by omega)
  rw [int_lt_two_pow (by omega), Nat.mul_comm] at a
  refine ⟨by omega, a, fun j h1 hj => ?_⟩
  rcases Nat.lt_or_ge 3 (getRangeOctetLen r) with h4 | h4
  · have c' : ¬ r < 2 ^ ((getRangeOctetLen r - 1) * 8) := by have := c h4; omega
    rw [int_lt_two_pow (by omega)] at c'
    rcases Nat.lt_or_ge j (getRangeOctetLen r) with hlt | hge
    · exact absurd (Nat.lt_of_lt_of_le hj (Nat.pow_le_pow_right (by omega) (by omega))) c'
    · exact hge
  · rcases Nat.lt_or_ge j 3 with hlt | hge
    · have : (2 : Nat) ^ (8 * j) ≤ 2 ^ 16 := Nat.pow_le_pow_right (by omega) (by omega)
      omega
    · omega

/-- The field written for a number of at most 65536 possible ones. -/
theorem fieldFor_cwn {n lb ub : Int} (h1 : lb ≤ n) (h2 : n ≤ ub) (hr : ub - lb + 1 ≤ 65536) :
    Spec.FieldFor (ub - lb + 1).toNat (n - lb).toNat
      ⟨decide (256 ≤ ub - lb + 1), natToBits (cwnWidth (ub - lb + 1).toNat) (n - lb).toNat⟩ := by
  generalize hR : (ub - lb + 1).toNat = r
  have hw : (n - lb).toNat < 2 ^ cwnWidth r := by
    unfold cwnWidth
    split
    · simp; omega
    · split
      · have := @Nat.lt_log2_self (r - 1); omega
      · split
        · simp; omega
        · simp; omega
  refine ⟨?_, fun h => ?_, fun a b => ⟨?_, ?_⟩, fun a => ⟨?_, ?_⟩, fun a b => ⟨?_, ?_⟩⟩
  · rw [number_eq]; exact bitsToNat_natToBits_of_lt hw
  · subst h
    have : ¬ 256 ≤ ub - lb + 1 := by omega
    simp [this, cwnWidth, natToBits]
  · have : ¬ 256 ≤ ub - lb + 1 := by omega
    simp [this]
  · simp only [natToBits_length]
    rw [cwnWidth, if_neg (by omega), if_pos b]
    exact leastBits_log2 (by omega)
  · simp; omega
  · simp only [natToBits_length]
    rw [cwnWidth, if_neg (by omega), if_neg (by omega), if_pos (by omega)]
  · simp; omega
  · simp only [natToBits_length]
    rw [cwnWidth, if_neg (by omega), if_neg (by omega), if_neg (by omega)]

theorem encodeCwn_large {n lb ub : Int} (h1 : lb ≤ n) (hr : 65536 < ub - lb + 1) :
    encodeConstrainedWholeNumber n (some lb) (some ub) = .ok ⟨true, minOctets (n - lb).toNat⟩ := by
  unfold encodeConstrainedWholeNumber
  simp only [needInt, bind, Except.bind]
  rw [if_neg (by omega), if_neg (by omega), if_neg (by omega), if_neg (by omega)]
  exact encodeNN_min (by omega) _ _

end Verif
