import Verif.Lemmas.Cursor
/-!
# Round trip of the numeric primitives of X.691 clause 11
-/
set_option linter.unusedSimpArgs false
namespace Verif

/-! ## bit field sizes -/

theorem getBitFieldSize_small {r : Int} (h1 : 2 ≤ r) (h2 : r ≤ 255) :
    ∃ w, getBitFieldSize r = some ⟨0, w⟩ ∧ 0 < w ∧ r ≤ 2 ^ w ∧ (2 : Int) ^ (w - 1) < r := by
  unfold getBitFieldSize
  by_cases c2 : r = 2
  · exact ⟨1, by rw [if_neg (by omega), if_pos c2], by omega, by simp; omega, by simp; omega⟩
  by_cases c3 : r ≤ 4
  · refine ⟨2, ?_, by omega, by simp; omega, by simp; omega⟩
    rw [if_neg (by omega), if_neg c2, if_pos (by omega)]
  by_cases c4 : r ≤ 8
  · refine ⟨3, ?_, by omega, by simp; omega, by simp; omega⟩
    rw [if_neg (by omega), if_neg c2, if_neg (by omega), if_pos (by omega)]
  by_cases c5 : r ≤ 16
  · refine ⟨4, ?_, by omega, by simp; omega, by simp; omega⟩
    rw [if_neg (by omega), if_neg c2, if_neg (by omega), if_neg (by omega), if_pos (by omega)]
  by_cases c6 : r ≤ 32
  · refine ⟨5, ?_, by omega, by simp; omega, by simp; omega⟩
    rw [if_neg (by omega), if_neg c2, if_neg (by omega), if_neg (by omega), if_neg (by omega),
      if_pos (by omega)]
  by_cases c7 : r ≤ 64
  · refine ⟨6, ?_, by omega, by simp; omega, by simp; omega⟩
    rw [if_neg (by omega), if_neg c2, if_neg (by omega), if_neg (by omega), if_neg (by omega),
      if_neg (by omega), if_pos (by omega)]
  by_cases c8 : r ≤ 128
  · refine ⟨7, ?_, by omega, by simp; omega, by simp; omega⟩
    rw [if_neg (by omega), if_neg c2, if_neg (by omega), if_neg (by omega), if_neg (by omega),
      if_neg (by omega), if_neg (by omega), if_pos (by omega)]
  · refine ⟨8, ?_, by omega, by simp; omega, by simp; omega⟩
    rw [if_neg (by omega), if_neg c2, if_neg (by omega), if_neg (by omega), if_neg (by omega),
      if_neg (by omega), if_neg (by omega), if_neg (by omega), if_pos (by omega)]

theorem getBitFieldSize_256 : getBitFieldSize 256 = some ⟨1, 0⟩ := by decide

theorem getBitFieldSize_medium {r : Int} (h1 : 257 ≤ r) (h2 : r ≤ 65536) :
    getBitFieldSize r = some ⟨2, 0⟩ := by
  unfold getBitFieldSize
  rw [if_neg (by omega), if_neg (by omega), if_neg (by omega), if_neg (by omega), if_neg (by omega),
      if_neg (by omega), if_neg (by omega), if_neg (by omega), if_neg (by omega), if_neg (by omega),
      if_pos (by omega)]

/-! ## non negative binary integers -/

/-- Rendering with the minimum number of octets, encoder.py:509-511. -/
def minOctets (n : Nat) : Bits :=
  if (pyBin n).length % 8 ≠ 0 then padBits (pyBin n).length ++ pyBin n else pyBin n

theorem minOctets_length (n : Nat) : (minOctets n).length = 8 * (n.log2 / 8 + 1) := by
  unfold minOctets padBits
  rw [pyBin_length]
  split
  · simp [pyBin_length]; omega
  · rw [pyBin_length]; omega

theorem bitsToNat_minOctets (n : Nat) : bitsToNat (minOctets n) = n := by
  unfold minOctets padBits
  split
  · rw [bitsToNat_append, bitsToNat_replicate_false, bitsToNat_pyBin]; simp
  · exact bitsToNat_pyBin n

theorem encodeNN_min {v : Int} (h : 0 ≤ v) (s : Option BitSize) (al : Bool) :
    encodeNonNegativeBinaryInteger v s al true = .ok ⟨al, minOctets v.toNat⟩ := by
  unfold encodeNonNegativeBinaryInteger minOctets
  rw [if_neg (by omega)]
  simp

theorem encodeNN_fixed {v : Int} (h : 0 ≤ v) {s : BitSize} (al : Bool) (hs : 0 < s.octets * 8 + s.bits)
    (hv : v.toNat < 2 ^ (s.octets * 8 + s.bits)) :
    encodeNonNegativeBinaryInteger v (some s) al false
      = .ok ⟨al, natToBits (s.octets * 8 + s.bits) v.toNat⟩ := by
  unfold encodeNonNegativeBinaryInteger
  rw [if_neg (by omega)]
  simp [zfill_pyBin hs hv]

theorem Reads.nonNeg (s : BitSize) (al : Bool) (pos : Nat) (w : Bits)
    (hw : w.length = s.octets * 8 + s.bits) (hal : al = true → (pos + w.length) % 8 = 0) :
    Reads (decodeNonNegativeBinaryInteger (some s) al false) pos w (bitsToNat w) := by
  unfold decodeNonNegativeBinaryInteger
  simp only [Bool.false_eq_true, if_false]
  refine Reads.bind_nil (Reads.liftE (a := s) rfl pos) ?_
  refine Reads.bind_pure (Reads.next_plain s pos w hw) ?_
  cases al
  · simp only [Bool.false_eq_true, if_false]
    exact Reads.pure _ _
  · simp only [if_true]
    exact Reads.bind_nil (Reads.align_aligned (hal rfl)) (Reads.pure _ _)

/-! ## constrained whole numbers -/

theorem emit_single (pos : Nat) (f : BitField) : emit pos [f] = padTo f.octetAlign pos ++ f.value := by
  simp [emit]

theorem emit_aligned_mod {f : BitField} (ha : f.octetAlign = true) (hv : f.value.length % 8 = 0)
    (pos : Nat) : (pos + (emit pos [f]).length) % 8 = 0 := by
  rw [emit_single, ha, List.length_append, padTo_true_length]
  have := add_padLen_mod pos
  omega

/-- Width of the field for a constrained whole number with the given number of values (X.691 11.5.7). -/
def cwnWidth (range : Nat) : Nat :=
  if range ≤ 1 then 0 else if range ≤ 255 then (range - 1).log2 + 1 else if range ≤ 256 then 8 else 16

theorem log2_bounds {r w : Nat} (h1 : 2 ≤ r) (h2 : r ≤ 2 ^ w) (h3 : 2 ^ (w - 1) < r) :
    (r - 1).log2 + 1 = w := by
  have hne : r - 1 ≠ 0 := by omega
  have a : (r - 1).log2 < w := (Nat.log2_lt hne).2 (by omega)
  have b : ¬ (r - 1).log2 < w - 1 := by
    rw [Nat.log2_lt hne]; omega
  omega

/-- The encoder's and decoder's treatment of a constrained whole number. -/
theorem cwn_roundtrip {n lb ub : Int} (h1 : lb ≤ n) (h2 : n ≤ ub) (hr : ub - lb + 1 ≤ 65536) :
    encodeConstrainedWholeNumber n (some lb) (some ub)
        = .ok ⟨decide (256 ≤ ub - lb + 1), natToBits (cwnWidth (ub - lb + 1).toNat) (n - lb).toNat⟩ ∧
      ∀ pos, Reads (decodeConstrainedWholeNumber (some lb) (some ub)) pos
        (emit pos [⟨decide (256 ≤ ub - lb + 1), natToBits (cwnWidth (ub - lb + 1).toNat) (n - lb).toNat⟩])
        (if lb = ub then 0 else n) := by
  have hlift : ∀ z : Int, needInt (some z) = .ok z := fun _ => rfl
  have hwlt : (n - lb).toNat < 2 ^ (cwnWidth (ub - lb + 1).toNat) := by
    unfold cwnWidth
    split
    · simp; omega
    · split
      · have := @Nat.lt_log2_self ((ub - lb + 1).toNat - 1)
        omega
      · split
        · simp; omega
        · simp; omega
  by_cases hc : lb = ub
  · subst hc
    have hn : n = lb := by omega
    subst hn
    have e1 : n - n + 1 = 1 := by omega
    have e2 : cwnWidth (Int.toNat 1) = 0 := rfl
    constructor
    · unfold encodeConstrainedWholeNumber
      simp only [hlift, bind, Except.bind, e1, if_true, e2]
      rfl
    · intro pos
      unfold decodeConstrainedWholeNumber integerRange
      refine Reads.bind_nil (Reads.liftE (hlift n) pos) (Reads.bind_nil (Reads.liftE (hlift n) pos) ?_)
      simp only [e1, e2, if_true]
      exact Reads.pure _ _
  · simp only [hc, if_false]
    have hne1 : ¬ (ub - lb + 1 = 1) := by omega
    by_cases h255 : ub - lb + 1 ≤ 255
    · obtain ⟨w, hs, hw0, hw1, hw2⟩ := getBitFieldSize_small (r := ub - lb + 1) (by omega) h255
      have hw : cwnWidth (ub - lb + 1).toNat = w := by
        unfold cwnWidth
        rw [if_neg (by omega), if_pos (by omega)]
        apply log2_bounds (by omega)
        · have : ((ub - lb + 1).toNat : Int) ≤ ((2 ^ w : Nat) : Int) := by
            rw [Int.natCast_pow]; simp; omega
          omega
        · have : (((2 ^ (w - 1)) : Nat) : Int) < ((ub - lb + 1).toNat : Int) := by
            rw [Int.natCast_pow]; simp; omega
          omega
      have hal : decide (256 ≤ ub - lb + 1) = false := by simp; omega
      rw [hw] at hwlt ⊢
      rw [hal]
      constructor
      · unfold encodeConstrainedWholeNumber
        simp only [hlift, bind, Except.bind, hne1, if_false, h255, if_true, hs]
        rw [encodeNN_fixed (by omega) false (by simp; omega) (by simpa using hwlt)]
        simp
      · intro pos
        unfold decodeConstrainedWholeNumber integerRange
        refine Reads.bind_nil (Reads.liftE (hlift _) pos) (Reads.bind_nil (Reads.liftE (hlift _) pos) ?_)
        simp only [hne1, if_false, h255, if_true, hs]
        rw [emit_single]
        simp only [padTo_false, List.nil_append]
        refine Reads.bind_pure (Reads.nonNeg ⟨0, w⟩ false pos (natToBits w (n - lb).toNat)
          (by simp [natToBits_length]) (by simp)) ?_
        refine (Reads.pure _ _).cast rfl ?_
        rw [bitsToNat_natToBits_of_lt hwlt]; omega
    · by_cases h256 : ub - lb + 1 = 256
      · have hw : cwnWidth (ub - lb + 1).toNat = 8 := by rw [h256]; rfl
        have hal : decide (256 ≤ ub - lb + 1) = true := by simp; omega
        rw [hw] at hwlt ⊢
        rw [hal]
        constructor
        · unfold encodeConstrainedWholeNumber
          simp only [hlift, bind, Except.bind, hne1, if_false, h255, h256, if_true, getBitFieldSize_256]
          rw [if_neg (by omega), if_neg (by omega)]
          rw [encodeNN_fixed (s := ⟨1, 0⟩) (by omega) true (by simp) hwlt]; rfl
        · intro pos
          unfold decodeConstrainedWholeNumber integerRange
          refine Reads.bind_nil (Reads.liftE (hlift _) pos) (Reads.bind_nil (Reads.liftE (hlift _) pos) ?_)
          simp only [hne1, if_false, h256, if_true, getBitFieldSize_256]
          rw [if_neg (by omega), if_neg (by omega)]
          rw [emit_single]
          refine Reads.bind (Reads.align pos) ?_
          refine Reads.bind_pure (Reads.nonNeg ⟨1, 0⟩ true _ (natToBits 8 (n - lb).toNat)
            (by simp [natToBits_length]) ?_) ?_
          · intro _
            rw [natToBits_length, padTo_true_length]
            have := add_padLen_mod pos; omega
          refine (Reads.pure _ _).cast rfl ?_
          rw [bitsToNat_natToBits_of_lt hwlt]; omega
      · have hw : cwnWidth (ub - lb + 1).toNat = 16 := by
          unfold cwnWidth
          rw [if_neg (by omega), if_neg (by omega), if_neg (by omega)]
        have hal : decide (256 ≤ ub - lb + 1) = true := by simp; omega
        have hs := getBitFieldSize_medium (r := ub - lb + 1) (by omega) hr
        have hmed : 257 ≤ ub - lb + 1 ∧ ub - lb + 1 ≤ 65536 := by omega
        rw [hw] at hwlt ⊢
        rw [hal]
        constructor
        · unfold encodeConstrainedWholeNumber
          simp only [hlift, bind, Except.bind, hne1, if_false, h255, h256, hmed, if_true, hs, and_self]
          rw [encodeNN_fixed (s := ⟨2, 0⟩) (by omega) true (by simp) hwlt]; rfl
        · intro pos
          unfold decodeConstrainedWholeNumber integerRange
          refine Reads.bind_nil (Reads.liftE (hlift _) pos) (Reads.bind_nil (Reads.liftE (hlift _) pos) ?_)
          simp only [hne1, if_false, h255, h256, hmed, if_true, hs, and_self]
          rw [emit_single]
          refine Reads.bind (Reads.align pos) ?_
          refine Reads.bind_pure (Reads.nonNeg ⟨2, 0⟩ true _ (natToBits 16 (n - lb).toNat)
            (by simp [natToBits_length]) ?_) ?_
          · intro _
            rw [natToBits_length, padTo_true_length]
            have := add_padLen_mod pos; omega
          refine (Reads.pure _ _).cast rfl ?_
          rw [bitsToNat_natToBits_of_lt hwlt]; omega

/-! ## length determinants -/

/-- Unconstrained length determinant, X.691 11.9.3.5-11.9.3.7, for lengths the codec handles. -/
theorem lenDet_roundtrip {n : Int} (h0 : 0 ≤ n) (h1 : n ≤ 16383) (lb ub : Option Int) :
    ∃ w : Bits, encodeLengthDeterminant false false n lb ub = .ok [⟨true, w⟩] ∧ w.length % 8 = 0 ∧
      w.length ≤ 16 ∧
      ∀ lb' ub' pos, Reads (decodeLengthDeterminant false false lb' ub') pos (padTo true pos ++ w) n := by
  by_cases h127 : n ≤ 127
  · have hlt : n.toNat < 2 ^ 7 := by simp; omega
    refine ⟨false :: natToBits 7 n.toNat, ?_, by simp [natToBits_length], by simp [natToBits_length], ?_⟩
    · unfold encodeLengthDeterminant
      simp only [Bool.false_eq_true, if_false, h127, if_true]
      rw [encodeNN_fixed (s := ⟨0, 7⟩) h0 true (by simp) hlt]
      rfl
    · intro lb' ub' pos
      unfold decodeLengthDeterminant
      simp only [Bool.false_eq_true, if_false]
      refine Reads.bind (Reads.align pos) ?_
      rw [show false :: natToBits 7 n.toNat = [false] ++ natToBits 7 n.toNat from rfl]
      refine Reads.bind (Reads.next_plain ⟨0, 1⟩ _ [false] rfl) ?_
      rw [if_pos (by decide)]
      refine Reads.bind_pure (Reads.nonNeg ⟨0, 7⟩ true _ (natToBits 7 n.toNat) (by simp [natToBits_length]) ?_) ?_
      · intro _
        rw [natToBits_length, padTo_true_length, List.length_singleton]
        have := add_padLen_mod pos; omega
      · refine (Reads.pure _ _).cast rfl ?_
        rw [bitsToNat_natToBits_of_lt hlt]; omega
  · have hlt : n.toNat < 2 ^ 14 := by simp; omega
    refine ⟨true :: false :: natToBits 14 n.toNat, ?_, by simp [natToBits_length], by simp [natToBits_length], ?_⟩
    · unfold encodeLengthDeterminant
      simp only [Bool.false_eq_true, if_false, h127]
      rw [if_pos (by omega), encodeNN_fixed (s := ⟨1, 6⟩) h0 true (by simp) hlt]
      rfl
    · intro lb' ub' pos
      unfold decodeLengthDeterminant
      simp only [Bool.false_eq_true, if_false]
      refine Reads.bind (Reads.align pos) ?_
      rw [show true :: false :: natToBits 14 n.toNat = [true] ++ ([false] ++ natToBits 14 n.toNat) from rfl]
      refine Reads.bind (Reads.next_plain ⟨0, 1⟩ _ [true] rfl) ?_
      rw [if_neg (by decide)]
      refine Reads.bind (Reads.next_plain ⟨0, 1⟩ _ [false] rfl) ?_
      rw [if_pos (by decide)]
      refine Reads.bind_pure (Reads.nonNeg ⟨1, 6⟩ true _ (natToBits 14 n.toNat) (by simp [natToBits_length]) ?_) ?_
      · intro _
        rw [natToBits_length, padTo_true_length, List.length_singleton, List.length_singleton]
        have := add_padLen_mod pos; omega
      · refine (Reads.pure _ _).cast rfl ?_
        rw [bitsToNat_natToBits_of_lt hlt]; omega

theorem lenDet_aligned (pos : Nat) {w : Bits} (h : w.length % 8 = 0) :
    (pos + (padTo true pos ++ w).length) % 8 = 0 := by
  rw [List.length_append, padTo_true_length]
  have := add_padLen_mod pos; omega

theorem emit_two (pos : Nat) (a b : BitField) :
    emit pos [a, b] = (padTo a.octetAlign pos ++ a.value) ++
      (padTo b.octetAlign (pos + (padTo a.octetAlign pos ++ a.value).length) ++ b.value) := by
  simp [emit]

/-- Normally small length, X.691 11.9.3.4, up to 64. -/
theorem normallySmallLen_roundtrip {n : Int} (h0 : 1 ≤ n) (h1 : n ≤ 64) (lb ub : Option Int) :
    encodeLengthDeterminant true false n lb ub
        = .ok [⟨false, [false]⟩, ⟨false, natToBits 6 (n - 1).toNat⟩] ∧
      ∀ lb' ub' pos, Reads (decodeLengthDeterminant true false lb' ub') pos
        (emit pos [⟨false, [false]⟩, ⟨false, natToBits 6 (n - 1).toNat⟩]) n := by
  have hlt : (n - 1).toNat < 2 ^ 6 := by simp; omega
  constructor
  · unfold encodeLengthDeterminant
    simp only [if_true, h1]
    rw [encodeNN_fixed (s := ⟨0, 6⟩) (by omega) false (by simp) hlt]
    rfl
  · intro lb' ub' pos
    rw [emit_two]
    simp only [padTo_false, List.nil_append]
    unfold decodeLengthDeterminant
    simp only [if_true]
    refine Reads.bind (Reads.next_plain ⟨0, 1⟩ _ [false] rfl) ?_
    rw [if_pos (by decide)]
    refine Reads.bind_pure (Reads.nonNeg ⟨0, 6⟩ false _ (natToBits 6 (n - 1).toNat) (by simp [natToBits_length]) (by simp)) ?_
    refine (Reads.pure _ _).cast rfl ?_
    rw [bitsToNat_natToBits_of_lt hlt]; omega

/-! ## numbers preceded by an unconstrained length -/

/-- Octets of the minimal rendering. -/
theorem minOctets_octets (n : Nat) : (minOctets n).length / 8 = n.log2 / 8 + 1 := by
  rw [minOctets_length]; omega

theorem semi_roundtrip {n lb : Int} (h0 : lb ≤ n) (h1 : (n - lb).toNat.log2 / 8 + 1 ≤ 16383) :
    ∃ w : Bits, encodeSemiConstrainedWholeNumber n lb = .ok ⟨true, minOctets (n - lb).toNat⟩ ∧
      encodeLengthDeterminant false false (((minOctets (n - lb).toNat).length / 8 : Nat) : Int) (some 1) none
        = .ok [⟨true, w⟩] ∧ w.length % 8 = 0 ∧
      ∀ pos, Reads (decodeSemiConstrainedFromFieldList lb) pos
        (emit pos [⟨true, w⟩, ⟨true, minOctets (n - lb).toNat⟩]) n := by
  have hk : (minOctets (n - lb).toNat).length / 8 = (n - lb).toNat.log2 / 8 + 1 := minOctets_octets _
  obtain ⟨w, he, h8, _, hr⟩ := lenDet_roundtrip (n := (((minOctets (n - lb).toNat).length / 8 : Nat) : Int))
    (by omega) (by omega) (some 1) none
  refine ⟨w, ?_, he, h8, ?_⟩
  · unfold encodeSemiConstrainedWholeNumber
    exact encodeNN_min (by omega) none true
  · intro pos
    rw [emit_two]
    simp only
    rw [padTo_aligned (pos := pos + _) (lenDet_aligned pos h8), List.nil_append]
    unfold decodeSemiConstrainedFromFieldList
    refine Reads.bind (hr (some 1) none pos) ?_
    refine Reads.bind_pure (Reads.next_plain _ _ (minOctets (n - lb).toNat) ?_) ?_
    · simp only [Int.toNat_natCast]
      rw [minOctets_length]; omega
    · refine (Reads.pure _ _).cast rfl ?_
      rw [bitsToNat_minOctets]; omega

/-- Normally small number, X.691 11.6. -/
theorem normallySmall_roundtrip {n : Nat} (h : n.log2 < 8 * 16383) :
    ∃ fs, encodeNormallySmall n 0 = .ok fs ∧
      ∀ pos, Reads (decodeNormallySmall 0) pos (emit pos fs) (n : Int) := by
  by_cases h63 : n ≤ 63
  · have hlt : (n : Int).toNat < 2 ^ 6 := by simp; omega
    refine ⟨[⟨false, [false]⟩, ⟨false, natToBits 6 n⟩], ?_, ?_⟩
    · unfold encodeNormallySmall
      rw [if_pos (by omega), encodeNN_fixed (s := ⟨0, 6⟩) (by omega) false (by simp) hlt]
      rfl
    · intro pos
      rw [emit_two]
      simp only [padTo_false, List.nil_append]
      unfold decodeNormallySmall
      refine Reads.bind (Reads.next_plain ⟨0, 1⟩ _ [false] rfl) ?_
      rw [if_pos (by decide)]
      refine Reads.bind_pure (Reads.nonNeg ⟨0, 6⟩ false _ (natToBits 6 n) (by simp [natToBits_length]) (by simp)) ?_
      refine (Reads.pure _ _).cast rfl ?_
      rw [bitsToNat_natToBits_of_lt (by simpa using hlt)]
  · have hlog : ((n : Int) - 0).toNat.log2 / 8 + 1 ≤ 16383 := by
      simp; omega
    obtain ⟨w, he, hl, h8, hr⟩ := semi_roundtrip (n := (n : Int)) (lb := 0) (by omega) hlog
    refine ⟨[⟨false, [true]⟩] ++ [⟨true, w⟩] ++ [⟨true, minOctets ((n : Int) - 0).toNat⟩], ?_, ?_⟩
    · unfold encodeNormallySmall
      rw [if_neg (by omega), he]
      simp only [bind, Except.bind]
      rw [hl]
      rfl
    · intro pos
      rw [List.append_assoc, emit_append, emit_single]
      simp only [padTo_false, List.nil_append, List.singleton_append]
      unfold decodeNormallySmall
      refine Reads.bind (Reads.next_plain ⟨0, 1⟩ _ [true] rfl) ?_
      rw [if_neg (by decide)]
      exact Reads.cast (Reads.bind (Reads.align _) (hr _)) (emit_align_split _ _ _).symm rfl

/-! ## constrained whole numbers of any range -/

theorem rangeOctetLenLoop_spec : ∀ (fuel m : Nat) (r : Int), 0 ≤ r → r < 2 ^ ((m + fuel) * 8) →
    r < 2 ^ (rangeOctetLenLoop fuel m r * 8) ∧ m ≤ rangeOctetLenLoop fuel m r ∧
      (m < rangeOctetLenLoop fuel m r → (2 : Int) ^ ((rangeOctetLenLoop fuel m r - 1) * 8) ≤ r)
  | 0, m, r, _, h2 => by
    simp only [rangeOctetLenLoop]
    exact ⟨by simpa using h2, by omega, by omega⟩
  | fuel + 1, m, r, h1, h2 => by
    rw [rangeOctetLenLoop]
    by_cases h : r < 2 ^ (m * 8)
    · rw [if_pos h]; exact ⟨h, by omega, by omega⟩
    · rw [if_neg h]
      obtain ⟨a, b, c⟩ := rangeOctetLenLoop_spec fuel (m + 1) r h1
        (by rw [show m + 1 + fuel = m + (fuel + 1) by omega]; exact h2)
      refine ⟨a, by omega, fun hlt => ?_⟩
      by_cases he : rangeOctetLenLoop fuel (m + 1) r = m + 1
      · rw [he]; simp only [Nat.add_sub_cancel]; omega
      · exact c (by omega)

theorem int_lt_two_pow {r : Int} (h : 0 ≤ r) (k : Nat) : r < 2 ^ k ↔ r.toNat < 2 ^ k := by
  have e : ((2 ^ k : Nat) : Int) = 2 ^ k := by simp [Int.natCast_pow]
  rw [← e]; omega

/-- `get_range_octet_len`: the least number of octets (at least three) in which the number fits. -/
theorem getRangeOctetLen_spec {r : Int} (h : 0 ≤ r) :
    r < 2 ^ (getRangeOctetLen r * 8) ∧ 3 ≤ getRangeOctetLen r ∧
      (3 < getRangeOctetLen r → (2 : Int) ^ ((getRangeOctetLen r - 1) * 8) ≤ r) := by
  unfold getRangeOctetLen
  apply rangeOctetLenLoop_spec _ _ _ h
  rw [int_lt_two_pow h]
  exact Nat.lt_of_lt_of_le Nat.lt_log2_self (Nat.pow_le_pow_right (by omega) (by omega))

theorem getRangeOctetLen_eq {r : Int} (h : 0 ≤ r) (h3 : 65536 ≤ r) :
    getRangeOctetLen r = r.toNat.log2 / 8 + 1 ∨ (getRangeOctetLen r = 3 ∧ r.toNat.log2 / 8 + 1 ≤ 3) := by
  obtain ⟨a, b, c⟩ := getRangeOctetLen_spec h
  have hne : r.toNat ≠ 0 := by omega
  rw [int_lt_two_pow h] at a
  have a' := (Nat.log2_lt hne).2 a
  by_cases h4 : 3 < getRangeOctetLen r
  · left
    have c' : ¬ r < 2 ^ ((getRangeOctetLen r - 1) * 8) := by have := c h4; omega
    rw [int_lt_two_pow h] at c'
    have : ¬ r.toNat.log2 < (getRangeOctetLen r - 1) * 8 := fun hh => c' ((Nat.log2_lt hne).1 hh)
    omega
  · right; omega

theorem log2_mono {a b : Nat} (h : a ≤ b) : a.log2 ≤ b.log2 := by
  by_cases ha : a = 0
  · subst ha; simp
  · have hb : b ≠ 0 := by omega
    have := (Nat.log2_lt ha).2 (Nat.lt_of_le_of_lt h (@Nat.lt_log2_self b))
    omega

/-- `create_field_list_for_constrained_whole_number` against
`decode_constrained_whole_number_from_field_list`, for ranges of any size below `2^(8*65536)`.
A range with a single value reads back as 0. -/
theorem fieldListConstrained_roundtrip {n lb ub : Int} (h1 : lb ≤ n) (h2 : n ≤ ub)
    (hr : (ub - lb).toNat.log2 < 524288) :
    ∃ fs, fieldListConstrained n (some lb) (some ub) = .ok fs ∧
      ∀ pos, Reads (decodeConstrainedFromFieldList (some lb) (some ub)) pos (emit pos fs)
        (if lb = ub then 0 else n) := by
  have hlift : ∀ z : Int, needInt (some z) = .ok z := fun _ => rfl
  by_cases hsm : ub - lb + 1 ≤ 65536
  · obtain ⟨he, hd⟩ := cwn_roundtrip h1 h2 hsm
    refine ⟨[⟨decide (256 ≤ ub - lb + 1), natToBits (cwnWidth (ub - lb + 1).toNat) (n - lb).toNat⟩], ?_, ?_⟩
    rotate_left
    · intro pos
      unfold decodeConstrainedFromFieldList integerRange
      refine Reads.bind_nil (Reads.liftE (hlift _) pos) (Reads.bind_nil (Reads.liftE (hlift _) pos) ?_)
      rw [if_pos hsm]
      exact hd pos
    · unfold fieldListConstrained integerRange
      simp only [hlift, he, bind, Except.bind, if_pos hsm]
      rfl
  · have hne : ¬ lb = ub := by omega
    simp only [hne, if_false]
    have hv : (0 : Int) ≤ n - lb := by omega
    obtain ⟨ga, gb, gc⟩ := getRangeOctetLen_spec (r := ub - lb) (by omega)
    have g1 := getRangeOctetLen_eq (r := ub - lb) (by omega) (by omega)
    have hk : (minOctets (n - lb).toNat).length / 8 = (n - lb).toNat.log2 / 8 + 1 := minOctets_octets _
    have hle : (n - lb).toNat.log2 ≤ (ub - lb).toNat.log2 := log2_mono (by omega)
    obtain ⟨le, ld⟩ := cwn_roundtrip (n := (((minOctets (n - lb).toNat).length / 8 : Nat) : Int))
      (lb := 1) (ub := (getRangeOctetLen (ub - lb) : Int)) (by omega) (by omega) (by omega)
    have hencf : encodeConstrainedWholeNumber n (some lb) (some ub) = .ok ⟨true, minOctets (n - lb).toNat⟩ := by
      unfold encodeConstrainedWholeNumber
      simp only [hlift, bind, Except.bind]
      rw [if_neg (by omega), if_neg (by omega), if_neg (by omega), if_neg (by omega)]
      exact encodeNN_min hv _ _
    have hne2 : ¬ (1 : Int) = (getRangeOctetLen (ub - lb) : Int) := by omega
    simp only [hne2, if_false] at ld
    generalize hf : (⟨decide (256 ≤ (getRangeOctetLen (ub - lb) : Int) - 1 + 1), _⟩ : BitField) = f at le ld
    refine ⟨[f] ++ [⟨true, minOctets (n - lb).toNat⟩], ?_, ?_⟩
    · unfold fieldListConstrained integerRange
      simp only [hlift, hencf, bind, Except.bind, if_neg hsm]
      unfold encodeLengthDeterminant
      simp only [Bool.false_eq_true, if_false, if_true, bind, Except.bind]
      rw [le]
      rfl
    · intro pos
      unfold decodeConstrainedFromFieldList integerRange
      refine Reads.bind_nil (Reads.liftE (hlift _) pos) (Reads.bind_nil (Reads.liftE (hlift _) pos) ?_)
      rw [if_neg hsm, emit_append]
      have ld' : Reads (decodeLengthDeterminant false true (some 1) (some (getRangeOctetLen (ub - lb) : Int)))
          pos (emit pos [f]) (((minOctets (n - lb).toNat).length / 8 : Nat) : Int) := by
        unfold decodeLengthDeterminant
        simp only [Bool.false_eq_true, if_false, if_true]
        exact ld pos
      refine Reads.bind ld' ?_
      refine Reads.cast ?_ (emit_single _ _).symm rfl
      refine Reads.bind_pure (Reads.next _ true _ (minOctets (n - lb).toNat) ?_) ?_
      · simp only [Int.toNat_natCast]
        rw [minOctets_length]; omega
      · refine (Reads.pure _ _).cast rfl ?_
        rw [bitsToNat_minOctets]; omega

/-! ## unconstrained whole numbers -/

theorem twosLenLoop_spec : ∀ (fuel m : Nat) (v : Int), 1 ≤ m →
    v < 2 ^ ((m + fuel) * 8 - 1) → -(2 ^ ((m + fuel) * 8 - 1)) ≤ v →
    v < 2 ^ (twosLenLoop fuel m v * 8 - 1) ∧ -(2 ^ (twosLenLoop fuel m v * 8 - 1)) ≤ v ∧
      m ≤ twosLenLoop fuel m v ∧
      (m < twosLenLoop fuel m v →
        (2 : Int) ^ ((twosLenLoop fuel m v - 1) * 8 - 1) ≤ v ∨
          v < -(2 ^ ((twosLenLoop fuel m v - 1) * 8 - 1)))
  | 0, m, v, _, h1, h2 => by
    simp only [twosLenLoop]
    exact ⟨by simpa using h1, by simpa using h2, by omega, by omega⟩
  | fuel + 1, m, v, hm, h1, h2 => by
    have hpos : (0 : Int) < 2 ^ (m * 8 - 1) := Int.pow_pos (by omega)
    have e : m + 1 + fuel = m + (fuel + 1) := by omega
    have ih := twosLenLoop_spec fuel (m + 1) v (by omega) (by rw [e]; exact h1) (by rw [e]; exact h2)
    have step : ∀ k, k = twosLenLoop fuel (m + 1) v →
        ((2 : Int) ^ (m * 8 - 1) ≤ v ∨ v < -(2 ^ (m * 8 - 1))) →
        v < 2 ^ (k * 8 - 1) ∧ -(2 ^ (k * 8 - 1)) ≤ v ∧ m ≤ k ∧
          (m < k → (2 : Int) ^ ((k - 1) * 8 - 1) ≤ v ∨ v < -(2 ^ ((k - 1) * 8 - 1))) := by
      intro k hk hout
      rw [← hk] at ih
      refine ⟨ih.1, ih.2.1, by omega, fun _ => ?_⟩
      by_cases he : k = m + 1
      · rw [he]; simpa using hout
      · exact ih.2.2.2 (by omega)
    rw [twosLenLoop]
    by_cases hv : v ≥ 0
    · rw [if_pos hv]
      by_cases h : v < 2 ^ (m * 8 - 1)
      · rw [if_pos h]; exact ⟨h, by omega, by omega, by omega⟩
      · rw [if_neg h]; exact step _ rfl (Or.inl (by omega))
    · rw [if_neg hv]
      by_cases h : v ≥ -(2 ^ (m * 8 - 1))
      · rw [if_pos h]; exact ⟨by omega, h, by omega, by omega⟩
      · rw [if_neg h]; exact step _ rfl (Or.inr (by omega))

theorem natAbs_bounds (v : Int) {k : Nat} (h : v.natAbs < 2 ^ k) :
    v < 2 ^ k ∧ -(2 ^ k) ≤ v := by
  have e : ((2 ^ k : Nat) : Int) = 2 ^ k := by simp [Int.natCast_pow]
  rw [← e]; omega

/-- `get_twos_complement_octet_len`: the least number of octets in which the number fits in two's
complement. -/
theorem getTwosComplementOctetLen_spec (v : Int) :
    v < 2 ^ (getTwosComplementOctetLen v * 8 - 1) ∧ -(2 ^ (getTwosComplementOctetLen v * 8 - 1)) ≤ v ∧
      1 ≤ getTwosComplementOctetLen v ∧
      (1 < getTwosComplementOctetLen v →
        (2 : Int) ^ ((getTwosComplementOctetLen v - 1) * 8 - 1) ≤ v ∨
          v < -(2 ^ ((getTwosComplementOctetLen v - 1) * 8 - 1))) := by
  unfold getTwosComplementOctetLen
  have h : v.natAbs < 2 ^ ((1 + (v.natAbs.log2 + 1)) * 8 - 1) :=
    Nat.lt_of_lt_of_le Nat.lt_log2_self (Nat.pow_le_pow_right (by omega) (by omega))
  obtain ⟨a, b⟩ := natAbs_bounds v h
  exact twosLenLoop_spec _ 1 v (by omega) a b

theorem xor_ones {x w : Nat} (h : x < 2 ^ w) : x ^^^ (2 ^ w - 1) = 2 ^ w - (x + 1) := by
  apply Nat.eq_of_testBit_eq
  intro i
  rw [Nat.testBit_xor, Nat.testBit_two_pow_sub_one, Nat.testBit_two_pow_sub_succ h]
  by_cases hi : i < w
  · simp [hi]
  · have : x.testBit i = false := Nat.testBit_lt_two_pow
      (Nat.lt_of_lt_of_le h (Nat.pow_le_pow_right (by omega) (by omega)))
    simp [hi, this]

/-- The two's complement rendering, for numbers that fit. -/
theorem encodeTwosComplement_eq {v : Int} {w : Nat} (hw : 1 ≤ w) (h1 : v < 2 ^ (w - 1))
    (h2 : -(2 ^ (w - 1)) ≤ v) :
    encodeTwosComplement v w = natToBits w (v % 2 ^ w).toNat := by
  have e2 : (2 : Int) ^ w = 2 * 2 ^ (w - 1) := by
    rw [show w = (w - 1) + 1 by omega, Int.pow_succ]; simp; omega
  have eN : ((2 ^ (w - 1) : Nat) : Int) = 2 ^ (w - 1) := by simp [Int.natCast_pow]
  have eN2 : 2 ^ w = 2 * 2 ^ (w - 1) := by
    rw [show w = (w - 1) + 1 by omega, Nat.pow_succ]; simp; omega
  have hp : 0 < 2 ^ (w - 1) := Nat.two_pow_pos _
  generalize hA : (2 : Int) ^ (w - 1) = A at *
  generalize hB : (2 ^ (w - 1) : Nat) = B at *
  unfold encodeTwosComplement
  by_cases h0 : v = 0
  · subst h0
    simp only [if_true]
    apply bitsToNat_inj
    · simp [natToBits_length]
    · rw [bitsToNat_replicate_false, bitsToNat_natToBits_of_lt]
      · simp
      · rw [eN2]; simp; omega
  · rw [if_neg h0]
    by_cases hv : v > 0
    · rw [if_pos hv, zfill_pyBin (by omega) (by rw [eN2]; omega)]
      congr 1
      rw [Int.emod_eq_of_lt (by omega) (by omega)]
    · rw [if_neg hv, bitsToNat_replicate_true, xor_ones (by rw [eN2]; omega)]
      have em : v % (2 ^ w : Int) = v + 2 ^ w := by
        rw [← Int.add_emod_right, Int.emod_eq_of_lt (by omega) (by omega)]
      rw [em]
      have er : (v + 2 ^ w).toNat = 2 ^ w - (v.natAbs - 1 + 1) := by rw [e2, eN2]; omega
      rw [er]
      have hge : ¬ (2 ^ w - (v.natAbs - 1 + 1)) < 2 ^ (w - 1) := by rw [eN2, hB]; omega
      have hlt : 2 ^ w - (v.natAbs - 1 + 1) < 2 ^ w := by rw [eN2]; omega
      have hne : 2 ^ w - (v.natAbs - 1 + 1) ≠ 0 := by rw [eN2]; omega
      have l1 : ¬ (2 ^ w - (v.natAbs - 1 + 1)).log2 < w - 1 := fun hh => hge ((Nat.log2_lt hne).1 hh)
      have l2 := (Nat.log2_lt hne).2 hlt
      unfold pyBin
      rw [show (2 ^ w - (v.natAbs - 1 + 1)).log2 + 1 = w by omega]

theorem and_two_pow_ne_zero (v k : Nat) : (v &&& 1 <<< k ≠ 0) ↔ v.testBit k = true := by
  rw [Nat.shiftLeft_eq, Nat.one_mul]
  constructor
  · intro h
    by_cases hb : v.testBit k = true
    · exact hb
    · exfalso; apply h
      apply Nat.eq_of_testBit_eq
      intro i
      rw [Nat.testBit_and, Nat.testBit_two_pow, Nat.zero_testBit]
      by_cases hi : k = i
      · subst hi; simp at hb; simp [hb]
      · simp [hi]
  · intro h h0
    have := congrArg (fun x => x.testBit k) h0
    simp [Nat.testBit_and, Nat.testBit_two_pow, h] at this

theorem testBit_top {v k : Nat} (h : v < 2 ^ (k + 1)) : v.testBit k = decide (2 ^ k ≤ v) := by
  rw [Nat.testBit_eq_decide_div_mod_eq]
  have hp : 0 < 2 ^ k := Nat.two_pow_pos _
  rw [Nat.pow_succ] at h
  by_cases hge : 2 ^ k ≤ v
  · have : v / 2 ^ k = 1 := by
      apply Nat.div_eq_of_lt_le <;> omega
    simp [this, hge]
  · have : v / 2 ^ k = 0 := Nat.div_eq_of_lt (by omega)
    simp [this, hge]

theorem twosComp_eq {v : Int} {w : Nat} (hw : 1 ≤ w) (h1 : v < 2 ^ (w - 1)) (h2 : -(2 ^ (w - 1)) ≤ v) :
    twosComp (v % 2 ^ w).toNat w = .ok v := by
  have e2 : (2 : Int) ^ w = 2 * 2 ^ (w - 1) := by
    rw [show w = (w - 1) + 1 by omega, Int.pow_succ]; simp; omega
  have eN : ((2 ^ (w - 1) : Nat) : Int) = 2 ^ (w - 1) := by simp [Int.natCast_pow]
  have eN2 : 2 ^ w = 2 * 2 ^ (w - 1) := by
    rw [show w = (w - 1) + 1 by omega, Nat.pow_succ]; simp; omega
  have eM : ((2 ^ w : Nat) : Int) = 2 ^ w := by simp [Int.natCast_pow]
  have hp : 0 < 2 ^ (w - 1) := Nat.two_pow_pos _
  have hlt : (v % 2 ^ w).toNat < 2 ^ (w - 1 + 1) := by
    rw [show w - 1 + 1 = w by omega]
    have := Int.emod_lt_of_pos v (show (0 : Int) < 2 ^ w by omega)
    omega
  unfold twosComp
  rw [if_neg (by omega), ]
  simp only [and_two_pow_ne_zero, testBit_top hlt, decide_eq_true_eq]
  by_cases hv : 0 ≤ v
  · have em : v % (2 ^ w : Int) = v := Int.emod_eq_of_lt hv (by omega)
    rw [em, if_neg (by omega)]
    congr 1; omega
  · have em : v % (2 ^ w : Int) = v + 2 ^ w := by
      rw [← Int.add_emod_right, Int.emod_eq_of_lt (by omega) (by omega)]
    rw [em, if_pos (by omega), Nat.shiftLeft_eq, Nat.one_mul]
    congr 1; omega

/-- Unconstrained whole numbers of at most 255 octets. -/
theorem unconstrained_roundtrip {v : Int} (h : getTwosComplementOctetLen v ≤ 255) (pos : Nat) :
    Reads decodeUnconstrainedWholeNumber pos (emit pos (fieldListUnconstrained v)) v := by
  obtain ⟨h1, h2, h3, _⟩ := getTwosComplementOctetLen_spec v
  unfold fieldListUnconstrained
  simp only
  generalize getTwosComplementOctetLen v = k at *
  have hcomm : k * 8 = 8 * k := by omega
  rw [hcomm] at h1 h2
  rw [emit_single, encodeTwosComplement_eq (by omega) h1 h2, zfill_pyBin (by omega) (by omega)]
  unfold decodeUnconstrainedWholeNumber
  dsimp only
  rw [← List.append_assoc]
  refine Reads.bind (Reads.next ⟨1, 0⟩ true pos (natToBits 8 k) (by simp [natToBits_length])) ?_
  rw [bitsToNat_natToBits_of_lt (by omega)]
  refine Reads.bind_pure (Reads.next_plain ⟨k, 0⟩ _ (natToBits (8 * k) (v % 2 ^ (8 * k)).toNat)
    (by simp [natToBits_length]; omega)) ?_
  refine Reads.liftE ?_ _
  rw [bitsToNat_natToBits_of_lt]
  · exact twosComp_eq (by omega) h1 h2
  · have hpz : (0 : Int) < 2 ^ (8 * k) := Int.pow_pos (by omega)
    have := Int.emod_lt_of_pos v hpz
    have eM : ((2 ^ (8 * k) : Nat) : Int) = 2 ^ (8 * k) := by simp [Int.natCast_pow]
    omega

end Verif
