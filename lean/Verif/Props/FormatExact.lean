import Verif.Props.Format
/-!
# C18, C19: exactly which unconstrained INTEGERs have a length octet, and which lengths are refused
-/
namespace Verif

theorem number_lt : ∀ w : Bits, Spec.number w < 2 ^ w.length
  | [] => by simp [Spec.number]
  | b :: s => by
    have := number_lt s
    rw [Spec.number, List.length_cons, Nat.pow_succ]
    split <;> omega

/-- Two's complement of `n + 1` bits holds the values from `-2^n` to `2^n - 1`. -/
theorem twosValue_range (b : Bool) (s : Bits) :
    -(2 ^ s.length) ≤ Spec.twosValue (b :: s) ∧ Spec.twosValue (b :: s) < 2 ^ s.length := by
  have h := number_lt s
  have e : ((2 ^ s.length : Nat) : Int) = 2 ^ s.length := by simp [Int.natCast_pow]
  have e' : (2 : Int) ^ (s.length + 1) = 2 * 2 ^ s.length := by rw [Int.pow_succ]; omega
  have h' : ((Spec.number s : Nat) : Int) < 2 ^ s.length := by rw [← e]; exact Int.ofNat_lt.2 h
  unfold Spec.twosValue
  rw [Spec.number, List.length_cons, e']
  cases b with
  | false => simp; omega
  | true =>
    simp only [if_true, List.head?_cons]
    rw [Int.natCast_add, e]
    omega

theorem twosFits_mono {k m : Nat} {z : Int} (hkm : k ≤ m) (h : Spec.twosFits k z = true) : Spec.twosFits m z = true := by
  simp only [Spec.twosFits, Bool.and_eq_true, decide_eq_true_eq] at h ⊢
  have e : ∀ n : Nat, ((2 ^ n : Nat) : Int) = 2 ^ n := fun n => by simp [Int.natCast_pow]
  have : (2 : Int) ^ (8 * k - 1) ≤ 2 ^ (8 * m - 1) := by
    rw [← e, ← e]
    exact Int.ofNat_le.2 (Nat.pow_le_pow_right (by omega) (by omega))
  omega

theorem twosFits_of_value {k : Nat} {w : Bits} (hw : w.length = 8 * k) (hk : 1 ≤ k) :
    Spec.twosFits k (Spec.twosValue w) = true := by
  cases w with
  | nil => simp at hw; omega
  | cons b s =>
    have := twosValue_range b s
    rw [List.length_cons] at hw
    simp only [Spec.twosFits, Bool.and_eq_true, decide_eq_true_eq]
    rw [show 8 * k - 1 = s.length by omega]
    exact this

namespace Props
open Verif

/-- C18, exactly: an INTEGER without lower bound is written as one aligned octet L and L octets of two's complement if and
only if 255 octets can hold it (F6); L is then minimal (`C18_unconstrained_partial`). -/
theorem C18_exact {c : Constr} (hext : c.ext = false) (hlo : c.lower = none) (z : Int) :
    (∃ len w, encTy (.integer c) (.int z) = .ok [⟨true, len ++ w⟩] ∧ len.length = 8 ∧
      w.length = 8 * Spec.number len ∧ Spec.twosValue w = z) ↔ -(2 ^ 2039) ≤ z ∧ z < 2 ^ 2039 := by
  have hfit : Spec.twosFits 255 z = true ↔ -(2 ^ 2039) ≤ z ∧ z < 2 ^ 2039 := by
    simp only [Spec.twosFits, Bool.and_eq_true, decide_eq_true_eq]
  rw [← hfit]
  constructor
  · rintro ⟨len, w, _, h1, h2, h3⟩
    have hl := number_lt len
    rw [h1] at hl
    by_cases h0 : Spec.number len = 0
    · rw [h0, Nat.mul_zero, List.length_eq_zero_iff] at h2
      rw [← h3, h2]
      decide +kernel
    · have := twosFits_of_value h2 (by omega)
      rw [h3] at this
      exact twosFits_mono (by omega) this
  · intro h
    obtain ⟨n, len, w, e, h1, h2, h3, h4, _, h6⟩ := C18_unconstrained_partial hext hlo z
    exact ⟨len, w, e, h4 (h6 255 (by omega) h), by rw [h3]; exact h1, h2⟩

/-- The first value beyond; the last one within has 255 octets. -/
example : ¬ ∃ len w, encTy (.integer .noConstraint) (.int (2 ^ 2039)) = .ok [⟨true, len ++ w⟩] ∧ len.length = 8 ∧
    w.length = 8 * Spec.number len ∧ Spec.twosValue w = 2 ^ 2039 := by
  rw [C18_exact rfl rfl]
  omega
example : ∃ len w, encTy (.integer .noConstraint) (.int (-(2 ^ 2039))) = .ok [⟨true, len ++ w⟩] ∧ len.length = 8 ∧
    w.length = 8 * Spec.number len ∧ Spec.twosValue w = -(2 ^ 2039) :=
  (C18_exact rfl rfl _).2 ⟨Int.le_refl _, by decide +kernel⟩

/-- C19, exactly: of all lengths, those above 16384 are refused; 16384 itself is written in 17 bits (F5). -/
theorem C19_exact {n : Int} (h0 : 0 ≤ n) (lb ub : Option Int) :
    ((∃ e, encodeLengthDeterminant false false n lb ub = .error e) ↔ 16384 < n) ∧
    ((∃ w, encodeLengthDeterminant false false n lb ub = .ok [⟨true, w⟩] ∧
        ((w.length = 8 ∧ w.head? = some false ∧ Spec.number w = n) ∨
          (w.length = 16 ∧ w.take 2 = [true, false] ∧ Spec.number (w.drop 2) = n))) ↔ n < 16384) := by
  have h16 : encodeLengthDeterminant false false 16384 lb ub = .ok [⟨true, [true, false] ++ natToBits 15 16384⟩] := by
    unfold encodeLengthDeterminant
    simp only [Bool.false_eq_true, if_false]
    rw [if_neg (by omega), if_pos (by omega)]
    decide +kernel
  rcases Int.lt_trichotomy n 16384 with h | h | h
  · by_cases h127 : n ≤ 127
    · obtain ⟨w, e, h1, h2⟩ := C19_short h0 h127 lb ub
      rw [e]
      refine ⟨⟨fun ⟨_, h⟩ => (nomatch h), fun h => by omega⟩, ⟨fun _ => h, fun _ => ⟨_, rfl, .inl ⟨by simp [h1], rfl, ?_⟩⟩⟩⟩
      simp [Spec.number, h2]
    · obtain ⟨w, e, h1, h2⟩ := C19_long (by omega) h lb ub
      rw [e]
      exact ⟨⟨fun ⟨_, h⟩ => (nomatch h), fun h => by omega⟩,
        ⟨fun _ => h, fun _ => ⟨_, rfl, .inr ⟨by simp [h1], rfl, h2⟩⟩⟩⟩
  · subst h
    rw [h16]
    refine ⟨⟨fun ⟨_, h⟩ => (nomatch h), fun h => by omega⟩, ⟨fun ⟨w, e, hw⟩ => ?_, fun h => by omega⟩⟩
    cases e
    rcases hw with ⟨hw, _⟩ | ⟨hw, _⟩ <;> simp [natToBits_length] at hw
  · rw [C19_refused_partial h lb ub]
    exact ⟨⟨fun _ => h, fun _ => ⟨_, rfl⟩⟩, ⟨fun ⟨_, e, _⟩ => (nomatch e), fun h' => by omega⟩⟩

example : (∃ e, encodeLengthDeterminant false false 16384 none none = .error e) = False ∧
    encodeLengthDeterminant false false 16383 none none = .ok [⟨true, [true, false] ++ natToBits 14 16383⟩] :=
  ⟨eq_false fun h => absurd ((C19_exact (by omega) none none).1.1 h) (by omega), by decide +kernel⟩

end Props
end Verif
