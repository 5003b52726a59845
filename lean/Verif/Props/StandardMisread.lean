import Verif.Props.Standard
import Verif.Props.StandardExact
import Verif.Props.Exact
import Verif.Props.FormatExact
import Verif.Lemmas.X691Exact
import Verif.Lemmas.Conforms
/-!
# C46: exactly which unconstrained INTEGERs are read back from the encoding of the standard
-/
namespace Verif
open X691

theorem twosComp_fits {v len : Nat} {z : Int} (hv : v < 2 ^ (8 * len)) (hz : twosComp v (8 * len) = .ok z) :
    Spec.twosFits len z = true := by
  unfold twosComp at hz
  split at hz
  · cases hz
  have h8 : 8 * len ≠ 0 := ‹_›
  have hpow : (2 : Nat) ^ (8 * len) = 2 * 2 ^ (8 * len - 1) := by
    rw [← Nat.pow_succ']; congr 1; omega
  have ht := testBit_top (v := v) (k := 8 * len - 1) (by rw [show 8 * len - 1 + 1 = 8 * len by omega]; exact hv)
  have e : ((2 ^ (8 * len - 1) : Nat) : Int) = (2 : Int) ^ (8 * len - 1) := by norm_cast
  have h0 := Nat.two_pow_pos (8 * len - 1)
  split at hz
  · rename_i h
    rw [and_two_pow_ne_zero, ht, decide_eq_true_eq] at h
    cases hz
    rw [Nat.one_shiftLeft]
    simp only [Spec.twosFits, Bool.and_eq_true, decide_eq_true_eq]
    constructor <;> omega
  · rename_i h
    rw [and_two_pow_ne_zero, ht, decide_eq_true_eq] at h
    cases hz
    simp only [Spec.twosFits, Bool.and_eq_true, decide_eq_true_eq]
    constructor <;> omega

/-- What `decode_unconstrained_whole_number` returns fits in as many octets as the first octet says. -/
theorem unconstrained_first {p p' : PerBytes} {o rest : Bits} {z : Int} (hat : At p 0 (o ++ rest)) (ho : o.length = 8)
    (h : decodeUnconstrainedWholeNumber p = .ok (z, p')) : Spec.twosFits (bitsToNat o) z = true := by
  unfold decodeUnconstrainedWholeNumber at h
  simp only [bind, StateT.bind, Except.bind] at h
  cases h1 : next ⟨1, 0⟩ true p with
  | error e => rw [h1] at h; cases h
  | ok r =>
    obtain ⟨len, p1⟩ := r
    rw [h1] at h
    simp only at h
    obtain ⟨_, hlen, _⟩ := next_inv hat h1
    cases h2 : next ⟨len, 0⟩ false p1 with
    | error e => rw [h2] at h; cases h
    | ok r =>
      obtain ⟨v, p2⟩ := r
      rw [h2] at h
      simp only at h
      have hv := (ensures_next ⟨len, 0⟩ false).run _ _ _ h2
      have he : len = bitsToNat o := by
        rw [hlen]
        congr 1
        show List.take 8 (List.drop 0 (o ++ rest)) = o
        rw [List.drop_zero, ← ho, List.take_left]
      subst he
      cases hz : twosComp v (8 * bitsToNat o) with
      | error e => rw [hz] at h; cases h
      | ok z' =>
        rw [hz] at h
        cases h
        exact twosComp_fits (by simpa [Nat.mul_comm] using hv) hz

theorem bin_fourteen (n : Nat) : ∃ w : Bits, w.length = 8 ∧ bin 14 n = bin 6 (n / 256) ++ w := by
  refine ⟨bin 8 n, (bitsToNat_bin 8 n).1, ?_⟩
  simp only [bin, Nat.div_div_eq_div_mul, List.append_assoc, List.nil_append]

theorem zfill_pyBin_ne (n v : Nat) : zfill n (pyBin v) ≠ [] := by
  intro h
  have := congrArg List.length h
  rw [zfill_length, pyBin_length] at this
  simp only [List.length_nil] at this
  omega

theorem mkBits_ne {c : SizeC} {b : Bits} (hb : b ≠ []) : Ensures (liftE (mkBits c b)) (fun v => v ≠ .bits []) :=
  Ensures.liftE fun a ha e => by
    subst e
    unfold mkBits at ha
    split at ha <;> cases ha
    exact hb rfl

/-- What is read as a BIT STRING has at least the digit of `0`. -/
theorem ensures_not_empty {c : SizeC} (hu : c.upper ≠ some 0) : Ensures (decTy (.bitString c)) (fun v => v ≠ .bits []) := by
  have hroot : Ensures (decodeBitstringRoot c) (fun v => v ≠ .bits []) := by
    unfold decodeBitstringRoot
    rw [if_neg hu]
    refine Ensures.ite (fun hf => ?_) fun _ => ?_
    · obtain ⟨n, hn⟩ := Option.ne_none_iff_exists'.1 hf.1
      have hn0 : n ≠ 0 := by
        rintro rfl
        exact hu (hf.2 ▸ hn)
      simp only [hn, Option.getD_some]
      refine Ensures.ite (fun _ => ?_) fun _ => Ensures.ite (fun _ => ?_) fun _ => Ensures.raise _
      · exact Ensures.bind' fun v => mkBits_ne (zfill_pyBin_ne _ _)
      · refine Ensures.bind' fun _ => Ensures.bind' fun v => mkBits_ne ?_
        intro h
        rw [List.take_eq_nil_iff] at h
        exact h.elim hn0 (zfill_pyBin_ne _ _)
    · split
      · exact Ensures.ite (fun _ => Ensures.bind' fun _ => Ensures.bind' fun _ => mkBits_ne (zfill_pyBin_ne _ _))
          fun _ => Ensures.bind' fun _ => Ensures.bind' fun _ => mkBits_ne (zfill_pyBin_ne _ _)
      · exact Ensures.bind' fun _ => Ensures.bind' fun _ => mkBits_ne (zfill_pyBin_ne _ _)
  rw [decTy]
  unfold decodeBitstring
  refine Ensures.ite (fun _ => Ensures.bind' fun e => Ensures.ite (fun _ => hroot) fun _ => ?_) fun _ => hroot
  exact Ensures.bind' fun _ => Ensures.bind' fun _ => Ensures.bind' fun _ => Ensures.bind' fun _ =>
    mkBits_ne (zfill_pyBin_ne _ _)

/-- Every message of the standard is a whole number of octets. -/
theorem message_octets (t : Ty) (v : Val) : ∃ bs, Spec.octetsToBits bs = X691.message t v := by
  obtain ⟨bs, h⟩ := exists_bytes (X691.message t v) (by
    unfold X691.message complete
    split
    · rfl
    · rw [List.length_append, List.length_replicate]; omega)
  exact ⟨bs, by rw [octetsToBits_eq, h]⟩

namespace Props
open Verif

/-- C46, the other side: an unconstrained INTEGER of more than 128 octets (and less than 16K) is never read back from the
encoding of the standard, whatever follows: the decoder takes the first octet of the two-octet length for the length
(F6). -/
theorem C46_misread {c : Constr} (hext : c.ext = false) (hlo : c.lower = none) {z : Int}
    (h : Spec.twosFits 128 z = false) (h' : Spec.twosFits 16383 z = true) {bs : List UInt8}
    (hb : Spec.octetsToBits bs = X691.message (.integer c) (.int z)) (extra : List UInt8) :
    decode (.integer c) (bs ++ extra) ≠ .ok (.int z) := by
  intro hd
  have l1 := leastTwosOctets_gt (by omega) h
  have l2 := twosFits_leastTwosOctets (by omega) h'
  have hval : X691.value (.integer c) (.int z) = unconstrained z := by
    simp [X691.value, X691.integer, X691.integerRoot, hext, hlo]
  obtain ⟨content, hc, _, hcon⟩ := unconstrained_field z
  have ha := unconstrained_at (z := z) (by omega) 0
  rw [hcon] at ha
  obtain ⟨w, hw, e14⟩ := bin_fourteen (leastTwosOctets z)
  have l6 := bitsToNat_bin 6 (leastTwosOctets z / 256)
  generalize ho : [true, false] ++ bin 6 (leastTwosOctets z / 256) = o at *
  have lo : o.length = 8 := by rw [← ho, List.length_append, l6.1]; rfl
  have hm : ∃ rest, bytesToBits (bs ++ extra) = o ++ rest := by
    rw [bytesToBits_append, ← octetsToBits_eq, hb]
    unfold X691.message complete
    have ha' : unconstrained z 0 = o ++ (w ++ content) := by
      rw [ha, e14, ← ho]
      simp
    have hn : o ++ (w ++ content) ≠ [] := by
      intro e
      have := congrArg List.length e
      rw [List.length_append, lo] at this
      simp at this
    rw [hval, ha', if_neg hn, List.append_assoc, List.append_assoc]
    exact ⟨_, rfl⟩
  obtain ⟨rest, hm⟩ := hm
  have hne : bs ++ extra ≠ [] := by
    intro e
    rw [e] at hm
    have := congrArg List.length hm
    rw [List.length_append, lo] at this
    simp [bytesToBits] at this
    omega
  rw [decode_eq hne, hm] at hd
  have hat : At ⟨Offset.init 0 0, o ++ rest⟩ 0 (o ++ rest) := At.init _
  generalize (⟨Offset.init 0 0, o ++ rest⟩ : PerBytes) = p at hd hat
  have hfit : Spec.twosFits (bitsToNat o) z = true := by
    simp only [decTy, decodeInteger, hext, hlo, Bool.false_eq_true, if_false, bind, StateT.bind, Except.bind] at hd
    cases h1 : decodeUnconstrainedWholeNumber p with
    | error e => rw [h1] at hd; cases hd
    | ok r =>
      obtain ⟨z', p'⟩ := r
      have hf := unconstrained_first hat lo h1
      rw [h1] at hd
      simp only [liftE, mkInt] at hd
      by_cases ht : c.test z' = true
      · rw [if_pos ht] at hd
        simp [Except.map, Spec.returnable, pure, Except.pure] at hd
        rwa [hd] at hf
      · rw [if_neg ht] at hd
        cases hd
  have hlen : bitsToNat o = 128 + leastTwosOctets z / 256 := by
    rw [← ho, bitsToNat_append, l6.1, l6.2, Nat.mod_eq_of_lt (by omega)]
    rfl
  have := twosFits_leastTwosOctets (by omega) hfit
  omega

/-- C46, exactly, for an INTEGER without constraint: of the numbers below 16K octets that do not need exactly 128, those of
127 octets and less are read back from the encoding of the standard, and no other. -/
theorem C46_unconstrained_exact {z : Int} (h' : Spec.twosFits 16383 z = true)
    (h128 : Spec.twosFits 128 z = true → Spec.twosFits 127 z = true) {bs : List UInt8}
    (hb : Spec.octetsToBits bs = X691.message (.integer .noConstraint) (.int z)) (extra : List UInt8) :
    decode (.integer .noConstraint) (bs ++ extra) = .ok (.int z) ↔ Spec.twosFits 127 z = true := by
  constructor
  · intro hd
    cases h : Spec.twosFits 128 z with
    | true => exact h128 h
    | false => exact absurd hd (C46_misread rfl rfl h h' hb extra)
  · intro h
    have h255 : Spec.twosFits 255 z = true := twosFits_mono (by omega) h
    have hr : X691.regular (.integer .noConstraint) (.int z) = true := by
      show (true && true && Spec.twosFits 127 z) = true
      rw [h]
      rfl
    have hs : Spec.safe (.integer .noConstraint) (.int z) = true := by
      show (true && true && Spec.twosFits 255 z) = true
      rw [h255]
      rfl
    exact C46_decode_partial rfl hr hs (by simp [Spec.sendable]) hb extra

/-- 129 octets: the length 80 81 of the standard is taken for 128 octets, the first of them 81. -/
example : ∃ bs, Spec.octetsToBits bs = X691.message (.integer .noConstraint) (.int (2 ^ 1030)) ∧
    ∀ extra, decode (.integer .noConstraint) (bs ++ extra) ≠ .ok (.int (2 ^ 1030)) :=
  have ⟨bs, h⟩ := message_octets (.integer .noConstraint) (.int (2 ^ 1030))
  ⟨bs, h, C46_misread rfl rfl (by decide +kernel) (by decide +kernel) h⟩

/-- 127 octets, the last that are read back. -/
example : ∃ bs, Spec.octetsToBits bs = X691.message (.integer .noConstraint) (.int (-(2 ^ 1015))) ∧
    ∀ extra, decode (.integer .noConstraint) (bs ++ extra) = .ok (.int (-(2 ^ 1015))) :=
  have ⟨bs, h⟩ := message_octets (.integer .noConstraint) (.int (-(2 ^ 1015)))
  ⟨bs, h, fun extra =>
    (C46_unconstrained_exact (by decide +kernel) (fun _ => by decide +kernel) h extra).2 (by decide +kernel)⟩

/-- Why 128 octets are left out: behind the length 80 80 of the standard, 128 octets 80 are read back by chance, and
40 00 00 ... is not. -/
example : (match decode (.integer .noConstraint) (128 :: 128 :: List.replicate 128 128) with
    | .ok (.int z) => z == (Spec.number (Spec.octetsToBits (List.replicate 128 128)) : Int) - 2 ^ 1024
    | _ => false) = true ∧
    (match decode (.integer .noConstraint) (128 :: 128 :: 64 :: List.replicate 127 0) with
    | .ok (.int z) => z != 2 ^ 1022
    | _ => false) = true := by
  decide +kernel

/-! ## strings -/

/-- Two lists of octets with the same bits are the same. -/
theorem octets_unique {a b : List UInt8} (h : Spec.octetsToBits a = Spec.octetsToBits b) : a = b :=
  bytesToBits_inj (by rwa [octetsToBits_eq, octetsToBits_eq] at h)

/-- C46 for OCTET STRING, exactly: of the strings of up to 16383 octets that the encoder accepts, those are read back from
the encoding of the standard that survive alone (C05), and no other (F1, F2). -/
theorem C46_octet_string_exact {c : SizeC} {o bs bs' : List UInt8} (ht : c.test o.length = true)
    (hn : o.length ≤ 16383) (h64 : c.upper.all (· < 65536) = true) (ha : encode (.octetString c) (.octets o) = .ok bs')
    (hb : Spec.octetsToBits bs = X691.message (.octetString c) (.octets o)) :
    (∀ extra, decode (.octetString c) (bs ++ extra) = .ok (.octets o)) ↔ Spec.safeOctetsAlone c o = true := by
  have e : bs = bs' := octets_unique (by
    rw [hb, C45_octet_string_exact ht hn h64 ha]
    simp only [X691.message, X691.value])
  subst e
  rw [← C05_alone]
  constructor
  · exact fun h => ⟨bs, ha, h⟩
  · rintro ⟨bs', h1, h2⟩
    rw [ha] at h1
    cases h1
    exact h2

/-- C46 for BIT STRING, exactly: the same for the strings of 1 to 16383 bits (C04). -/
theorem C46_bit_string_exact {c : SizeC} {b : Bits} {bs bs' : List UInt8} (ht : c.test b.length = true) (h0 : b ≠ [])
    (hn : b.length ≤ 16383) (ha : encode (.bitString c) (.bits b) = .ok bs')
    (hb : Spec.octetsToBits bs = X691.message (.bitString c) (.bits b)) :
    (∀ extra, decode (.bitString c) (bs ++ extra) = .ok (.bits b)) ↔ Spec.safeBitsAlone c b = true := by
  have e : bs = bs' := octets_unique (by
    rw [hb, (C45_bit_string_exact ht hn ha).2 (.inl h0)]
    simp only [X691.message, X691.value])
  subst e
  rw [← C04_alone]
  constructor
  · exact fun h => ⟨bs, ha, h⟩
  · rintro ⟨bs', h1, h2⟩
    rw [ha] at h1
    cases h1
    exact h2

/-- The empty BIT STRING is read from no message at all, unless its size can only be zero (F3). -/
theorem C46_empty_bit_string {c : SizeC} (hu : c.upper ≠ some 0) (bs : List UInt8) :
    decode (.bitString c) bs ≠ .ok (.bits []) := by
  intro h
  by_cases hne : bs = []
  · subst hne
    cases h
  rw [decode_eq hne] at h
  cases hd : decTy (.bitString c) ⟨Offset.init 0 0, bytesToBits bs⟩ with
  | error e => rw [hd] at h; cases h
  | ok r =>
    rw [hd] at h
    have := (ensures_not_empty hu).run _ _ _ hd
    simp only [bind, Except.bind, pure, Except.pure] at h
    split at h
    · exact this (Except.ok.inj h)
    · cases h

example : X691.message (.bitString ⟨false, none, none⟩) (.bits []) = Spec.octetsToBits [0] ∧
    decode (.bitString ⟨false, none, none⟩) [0] = .ok (.bits [false]) := by
  constructor <;> decide +kernel

/-- F1: `01` with SIZE(1..5) is not read back. -/
example : ¬ ∀ extra, decode (.octetString ⟨false, some 1, some 5⟩) ([0x00, 0x01] ++ extra) = .ok (.octets [1]) := by
  rw [C46_octet_string_exact (bs' := [0x00, 0x01]) (by decide +kernel) (by decide) (by decide +kernel) (by decide +kernel)
    (by decide +kernel)]
  decide +kernel

example : ∀ extra, decode (.bitString ⟨true, some 1, some 2⟩) ([0x80, 0x03, 0xa0] ++ extra) = .ok (.bits [true, false, true]) :=
  (C46_bit_string_exact (bs' := [0x80, 0x03, 0xa0]) (by decide +kernel) (by decide) (by decide) (by decide +kernel)
    (by decide +kernel)).2 (by decide +kernel)

end Props
end Verif
