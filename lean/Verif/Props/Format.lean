import Verif.Lemmas.Format
/-!
# C17, C18, C19: the formats of whole numbers and lengths
-/
namespace Verif.Props
open Verif

/-! ## C17 constrained whole numbers -/

/-- Every constrained whole number the encoder writes (INTEGER values, indices of CHOICE alternatives and of
enumeration items) has the format of X.691. -/
theorem C17_field_list {lb ub n : Int} (h1 : lb ≤ n) (h2 : n ≤ ub) :
    ∃ fs, fieldListConstrained n (some lb) (some ub) = .ok fs ∧ Spec.WholeNumber lb ub n fs := by
  rcases Int.lt_or_le 65536 (ub - lb + 1) with hr | hr
  · have hmin := leastOctets_log2 (n - lb).toNat
    have hmost := leastOctets_range (r := ub - lb) (by omega)
    have hk : (minOctets (n - lb).toNat).length / 8 = (n - lb).toNat.log2 / 8 + 1 := minOctets_octets _
    have hkK : (n - lb).toNat.log2 / 8 + 1 ≤ getRangeOctetLen (ub - lb) :=
      hmin.2.2 _ hmost.1 (Nat.lt_of_le_of_lt (by omega) hmost.2.1)
    have hlen : ∃ f, encodeConstrainedWholeNumber (((minOctets (n - lb).toNat).length / 8 : Nat) : Int) (some 1)
        (some (getRangeOctetLen (ub - lb) : Int)) = .ok f ∧
        Spec.FieldFor (getRangeOctetLen (ub - lb)) ((n - lb).toNat.log2 / 8 + 1 - 1) f := by
      rcases Nat.lt_or_ge 65536 (getRangeOctetLen (ub - lb)) with hK | hK
      · refine ⟨_, encodeCwn_large (by omega) (by omega), ?_⟩
        refine ⟨?_, fun h => by omega, fun _ h => by omega, fun h => by omega, fun _ h => by omega⟩
        rw [number_eq]
        simp only [bitsToNat_minOctets, hk]
        omega
      · refine ⟨_, (cwn_roundtrip (by omega) (by omega) (by omega)).1, ?_⟩
        have := fieldFor_cwn (n := (((minOctets (n - lb).toNat).length / 8 : Nat) : Int)) (lb := 1)
          (ub := (getRangeOctetLen (ub - lb) : Int)) (by omega) (by omega) (by omega)
        rw [hk] at this ⊢
        have e1 : ((getRangeOctetLen (ub - lb) : Int) - 1 + 1).toNat = getRangeOctetLen (ub - lb) := by omega
        have e2 : ((((n - lb).toNat.log2 / 8 + 1 : Nat) : Int) - 1).toNat = (n - lb).toNat.log2 / 8 + 1 - 1 := by omega
        rw [e1, e2] at this ⊢
        exact this
    obtain ⟨f, hf, hff⟩ := hlen
    refine ⟨[f] ++ [⟨true, minOctets (n - lb).toNat⟩], ?_, ?_⟩
    · unfold fieldListConstrained integerRange
      simp only [encodeCwn_large h1 hr, needInt, bind, Except.bind]
      rw [if_neg (by omega)]
      unfold encodeLengthDeterminant
      simp only [Bool.false_eq_true, if_false, if_true, bind, Except.bind]
      rw [hf]; rfl
    · exact .long hr hmost hmin hff rfl (minOctets_length _) (by rw [number_eq]; exact bitsToNat_minOctets _)
  · refine ⟨_, ?_, .short hr (fieldFor_cwn h1 h2 hr)⟩
    unfold fieldListConstrained integerRange
    simp only [needInt, (cwn_roundtrip h1 h2 hr).1, bind, Except.bind, if_pos hr]
    rfl

/-- A value n of INTEGER (lb..ub). -/
theorem C17_integer {lb ub n : Int} (h1 : lb ≤ n) (h2 : n ≤ ub) :
    ∃ fs, encTy (.integer (.valueRange (some lb) (some ub) false)) (.int n) = .ok fs ∧ Spec.WholeNumber lb ub n fs := by
  obtain ⟨fs, h, hw⟩ := C17_field_list h1 h2
  refine ⟨fs, ?_, hw⟩
  rw [encTy]
  exact h

/-- The description is precise: it determines the fields. -/
theorem C17_unique {lb ub n : Int} {fs fs' : List BitField} (hle : lb ≤ ub)
    (hlim : Spec.unsignedFits 65536 (ub - lb) = true)
    (h : Spec.WholeNumber lb ub n fs) (h' : Spec.WholeNumber lb ub n fs') : fs = fs' := by
  have hbits : ∀ {w w' : Bits}, w.length = w'.length → Spec.number w = Spec.number w' → w = w' := by
    intro w w' hl hn
    rw [number_eq, number_eq] at hn
    exact bitsToNat_inj hl hn
  have hff : ∀ {r m : Nat} {f f' : BitField}, 1 ≤ r → r ≤ 65536 → Spec.FieldFor r m f → Spec.FieldFor r m f' → f = f' := by
    intro r m f f' h1 h2 a b
    have key : f.octetAlign = f'.octetAlign ∧ f.value.length = f'.value.length := by
      rcases Nat.lt_or_ge r 2 with c | c
      · have e : r = 1 := by omega
        rw [a.single e, b.single e]; exact ⟨rfl, rfl⟩
      rcases Nat.lt_or_ge r 256 with d | d
      · obtain ⟨a1, a2⟩ := a.bits c (by omega)
        obtain ⟨b1, b2⟩ := b.bits c (by omega)
        have := a2.2 _ b2.1
        have := b2.2 _ a2.1
        exact ⟨by rw [a1, b1], by omega⟩
      rcases Nat.lt_or_ge r 257 with e | e
      · have e : r = 256 := by omega
        exact ⟨by rw [(a.octet e).1, (b.octet e).1], by rw [(a.octet e).2, (b.octet e).2]⟩
      · exact ⟨by rw [(a.twoOctets e h2).1, (b.twoOctets e h2).1], by rw [(a.twoOctets e h2).2, (b.twoOctets e h2).2]⟩
    obtain ⟨fa, fv⟩ := f
    obtain ⟨fa', fv'⟩ := f'
    simp only at key
    obtain ⟨k1, k2⟩ := key
    rw [k1, hbits k2 (a.contents.trans b.contents.symm)]
  have hlo : ∀ {k k' m : Nat}, Spec.LeastOctets k m → Spec.LeastOctets k' m → k = k' := by
    intro k k' m a b
    have := a.2.2 _ b.1 b.2.1
    have := b.2.2 _ a.1 a.2.1
    omega
  cases h with
  | short hr hf =>
    cases h' with
    | short _ hf' => rw [hff (by omega) (by omega) hf hf']
    | long hr' => omega
  | @long _ f most octets hr a1 a2 a3 a4 a5 a6 =>
    cases h' with
    | short hr' => omega
    | @long _ f' _ _ _ b1 b2 b3 b4 b5 b6 =>
      cases hlo a1 b1
      cases hlo a2 b2
      have hm : most ≤ 65536 := by
        have hfit : (ub - lb).toNat.log2 < 8 * 65536 := by simpa [Spec.unsignedFits] using hlim
        exact a1.2.2 65536 (by omega) ((Nat.log2_lt (by omega)).1 hfit)
      rw [hff a1.1 hm a3 b3]
      obtain ⟨fa, fv⟩ := f
      obtain ⟨fa', fv'⟩ := f'
      simp only at a4 b4 a5 b5 a6 b6
      rw [a4, b4, hbits (a5.trans b5.symm) (a6.trans b6.symm)]

example : (-3 : Int) ≤ 300000 ∧ (300000 : Int) ≤ 100000000 ∧ Spec.unsignedFits 65536 (100000000 - -3) = true := by
  decide +kernel
example : encTy (.integer (.valueRange (some (-3)) (some 100000000) false)) (.int 1000) =
    .ok [⟨false, [false, true]⟩, ⟨true, natToBits 16 1003⟩] := by decide +kernel
example : encTy (.integer (.valueRange (some 10) (some 14) false)) (.int 13) = .ok [⟨false, [false, true, true]⟩] := by
  decide +kernel

/-! ## C18 unconstrained integers -/

theorem twosValue_natToBits {v : Int} {w : Nat} (hw : 1 ≤ w) (h1 : v < 2 ^ (w - 1)) (h2 : -(2 ^ (w - 1)) ≤ v) :
    Spec.twosValue (natToBits w (v % 2 ^ w).toNat) = v := by
  obtain ⟨k, rfl⟩ : ∃ k, w = k + 1 := ⟨w - 1, by omega⟩
  simp only [Nat.add_sub_cancel] at h1 h2
  have e2 : (2 : Int) ^ (k + 1) = 2 * 2 ^ k := by rw [Int.pow_succ]; omega
  have hA : (0 : Int) < 2 ^ k := Int.pow_pos (by omega)
  have eN : ((2 ^ k : Nat) : Int) = 2 ^ k := by simp [Int.natCast_pow]
  have eN2 : 2 ^ (k + 1) = 2 * 2 ^ k := by rw [Nat.pow_succ]; omega
  unfold Spec.twosValue
  rw [number_eq, natToBits_length]
  have hm : (v % 2 ^ (k + 1)).toNat = (if 0 ≤ v then v else v + 2 ^ (k + 1)).toNat := by
    split
    · rw [Int.emod_eq_of_lt ‹_› (by omega)]
    · rw [← Int.add_emod_right, Int.emod_eq_of_lt (by omega) (by omega)]
  rw [hm]
  have hhead : (natToBits (k + 1) (if 0 ≤ v then v else v + 2 ^ (k + 1)).toNat).head? =
      some (decide (v < 0)) := by
    simp only [natToBits, List.head?_cons, Nat.testBit_eq_decide_div_mod_eq]
    congr 1
    rw [decide_eq_decide]
    split
    · rw [Nat.div_eq_of_lt (by omega)]; simp; omega
    · have : (v + 2 ^ (k + 1)).toNat / 2 ^ k = 1 := by
        apply Nat.div_eq_of_lt_le <;> omega
      rw [this]; simp; omega
  rw [hhead, bitsToNat_natToBits_of_lt (by split <;> omega)]
  by_cases hv : 0 ≤ v
  · have : ¬ v < 0 := by omega
    simp only [if_pos hv, this, decide_false]
    simp
    omega
  · have : v < 0 := by omega
    simp only [if_neg hv, this, decide_true, if_true]
    omega

/-- An INTEGER without lower bound: `octets` octets holding the two's complement of the value, preceded by
their number; no smaller number of octets can hold the value.  Missing: the number of octets occupies one
octet only up to 255 (F6; the second half of `Findings.C18_length_not_an_octet`). -/
theorem C18_unconstrained_partial {c : Constr} (hext : c.ext = false) (hlo : c.lower = none) (z : Int) :
    ∃ octets len w, encTy (.integer c) (.int z) = .ok [⟨true, len ++ w⟩] ∧
      w.length = 8 * octets ∧ Spec.twosValue w = z ∧
      Spec.number len = octets ∧ (octets ≤ 255 → len.length = 8) ∧
      1 ≤ octets ∧ ∀ k, 1 ≤ k → Spec.twosFits k z = true → octets ≤ k := by
  obtain ⟨h1, h2, h3, h4⟩ := getTwosComplementOctetLen_spec z
  rw [Nat.mul_comm] at h1 h2
  refine ⟨getTwosComplementOctetLen z, zfill 8 (pyBin (getTwosComplementOctetLen z)),
    encodeTwosComplement z (8 * getTwosComplementOctetLen z), ?_, ?_, ?_, ?_, ?_, h3, ?_⟩
  · rw [encTy, encodeInteger, if_neg (by rw [hext]; decide), hlo]
    rfl
  · rw [encodeTwosComplement_eq (by omega) h1 h2, natToBits_length]
  · rw [encodeTwosComplement_eq (by omega) h1 h2]
    exact twosValue_natToBits (by omega) h1 h2
  · rw [number_eq, bitsToNat_zfill, bitsToNat_pyBin]
  · intro h
    rw [zfill_pyBin (by omega) (by omega), natToBits_length]
  · intro k hk hf
    rcases Nat.lt_or_ge k (getTwosComplementOctetLen z) with hlt | hge
    · simp only [Spec.twosFits, Bool.and_eq_true, decide_eq_true_eq] at hf
      have hmono : (2 : Int) ^ (8 * k - 1) ≤ 2 ^ ((getTwosComplementOctetLen z - 1) * 8 - 1) := by
        have := Nat.pow_le_pow_right (n := 2) (by omega) (show 8 * k - 1 ≤ (getTwosComplementOctetLen z - 1) * 8 - 1 by omega)
        have e : ∀ m : Nat, ((2 ^ m : Nat) : Int) = 2 ^ m := fun m => by simp [Int.natCast_pow]
        rw [← e, ← e]
        exact Int.ofNat_le.2 this
      rcases h4 (by omega) with h | h <;> omega
    · exact hge

example : (Constr.noConstraint).ext = false ∧ (Constr.noConstraint).lower = none ∧
    encTy (.integer .noConstraint) (.int (-129)) = .ok [⟨true, natToBits 8 2 ++ natToBits 16 0xFF7F⟩] := by
  decide +kernel

/-! ## C19 length determinants -/

/-- Up to 127: eight aligned bits, the first one zero. -/
theorem C19_short {n : Int} (h0 : 0 ≤ n) (h1 : n ≤ 127) (lb ub : Option Int) :
    ∃ w, encodeLengthDeterminant false false n lb ub = .ok [⟨true, false :: w⟩] ∧ w.length = 7 ∧ Spec.number w = n := by
  have hlt : n.toNat < 2 ^ 7 := by simp; omega
  refine ⟨natToBits 7 n.toNat, ?_, natToBits_length _ _, ?_⟩
  · unfold encodeLengthDeterminant
    simp only [Bool.false_eq_true, if_false, h1, if_true]
    rw [encodeNN_fixed (s := ⟨0, 7⟩) h0 true (by simp) hlt]
    rfl
  · rw [number_eq, bitsToNat_natToBits_of_lt hlt]; omega

/-- Up to 16383: sixteen aligned bits, starting with 10. -/
theorem C19_long {n : Int} (h0 : 128 ≤ n) (h1 : n < 16384) (lb ub : Option Int) :
    ∃ w, encodeLengthDeterminant false false n lb ub = .ok [⟨true, true :: false :: w⟩] ∧ w.length = 14 ∧
      Spec.number w = n := by
  have hlt : n.toNat < 2 ^ 14 := by simp; omega
  refine ⟨natToBits 14 n.toNat, ?_, natToBits_length _ _, ?_⟩
  · unfold encodeLengthDeterminant
    simp only [Bool.false_eq_true, if_false]
    rw [if_neg (by omega), if_pos (by omega), encodeNN_fixed (s := ⟨1, 6⟩) (by omega) true (by simp) hlt]
    rfl
  · rw [number_eq, bitsToNat_natToBits_of_lt hlt]; omega

/-- Anything above 16384 is refused.  Missing: 16384 itself, see `Findings.C19_length_16384`. -/
theorem C19_refused_partial {n : Int} (h : 16384 < n) (lb ub : Option Int) :
    encodeLengthDeterminant false false n lb ub = .error .notImplemented := by
  unfold encodeLengthDeterminant
  simp only [Bool.false_eq_true, if_false]
  rw [if_neg (by omega), if_neg (by omega)]

/-- The decoder, anywhere in a message, reads back the length and stands behind it. -/
theorem C19_read_back {n : Int} (h0 : 0 ≤ n) (h1 : n < 16384) (lb ub : Option Int) :
    ∃ f, encodeLengthDeterminant false false n lb ub = .ok [f] ∧
      ∀ (before rest : Bits) (p : PerBytes) (lb' ub' : Option Int),
        Spec.ReaderAt p before.length ((appendField before f).drop before.length ++ rest) →
        ∃ p', decodeLengthDeterminant false false lb' ub' p = .ok (n, p') ∧
          Spec.ReaderAt p' (appendField before f).length rest := by
  obtain ⟨w, he, _, _, hr⟩ := lenDet_roundtrip h0 (by omega) lb ub
  refine ⟨_, he, fun before rest p lb' ub' hp => ?_⟩
  have e : appendField before ⟨true, w⟩ = before ++ (padTo true before.length ++ w) := by
    rw [appendField_eq]
  rw [e] at hp ⊢
  rw [List.drop_left, readerAt_iff] at hp
  obtain ⟨p', h1, h2⟩ := hr lb' ub' before.length p rest hp
  exact ⟨p', h1, by rw [readerAt_iff, List.length_append]; exact h2⟩

example : encodeLengthDeterminant false false 5 none none = .ok [⟨true, natToBits 8 5⟩] ∧
    encodeLengthDeterminant false false 300 none none = .ok [⟨true, natToBits 16 0x812C⟩] ∧
    encodeLengthDeterminant false false 16385 none none = .error .notImplemented := by decide +kernel

end Verif.Props
