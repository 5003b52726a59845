import Verif.SpecExtent
import Verif.Lemmas.X691
import Verif.Lemmas.Domain
/-!
# Lemmas for C61: how many bits the fields of a value take
-/
set_option linter.unusedSimpArgs false
namespace Verif
open Spec

/-- Bits that a list of fields takes at most; `al`: it starts at an octet boundary for sure. -/
def bitsFrom : Bool → List BitField → Nat
  | _, [] => 0
  | al, f :: fs =>
    (if f.octetAlign && !al then 7 else 0) + f.value.length +
      bitsFrom ((al || f.octetAlign) && f.value.length % 8 == 0) fs

theorem bitsFrom_false_ge : ∀ (al : Bool) (fs : List BitField), bitsFrom al fs ≤ bitsFrom false fs
  | _, [] => by simp [bitsFrom]
  | false, _ :: _ => Nat.le_refl _
  | true, f :: fs => by
    have h := bitsFrom_false_ge (f.value.length % 8 == 0) fs
    cases hf : f.octetAlign with
    | true => simp [bitsFrom, hf]
    | false => simp [bitsFrom, hf]; exact h

theorem bitsFrom_append : ∀ (al : Bool) (a b : List BitField), bitsFrom al (a ++ b) ≤ bitsFrom al a + bitsFrom false b
  | al, [], b => by simpa [bitsFrom] using bitsFrom_false_ge al b
  | al, f :: a, b => by
    have := bitsFrom_append ((al || f.octetAlign) && f.value.length % 8 == 0) a b
    simp only [List.cons_append, bitsFrom]
    omega

theorem foldl_extent : ∀ (fs : List BitField) (al : Bool) (acc : Bits), (al = true → acc.length % 8 = 0) →
    (fs.foldl appendField acc).length ≤ acc.length + bitsFrom al fs
  | [], _, _, _ => by simp [bitsFrom]
  | f :: fs, al, acc, h => by
    rw [List.foldl_cons]
    have hf : (appendField acc f).length ≤ acc.length + ((if f.octetAlign && !al then 7 else 0) + f.value.length) ∧
        ((al || f.octetAlign) = true → (appendField acc f).length % 8 = f.value.length % 8) := by
      unfold appendField padBits
      cases ha : f.octetAlign with
      | true =>
        simp only [if_true, Bool.true_and]
        split
        · rename_i h8
          have : al = false := by cases al with | false => rfl | true => exact (h8 (h rfl)).elim
          subst this
          simp [List.length_append]
          omega
        · rw [List.length_append]
          constructor
          · split <;> omega
          · intro; omega
      | false =>
        simp only [Bool.false_eq_true, if_false, Bool.false_and, List.length_append, Bool.or_false]
        exact ⟨by omega, fun hal => by have := h hal; omega⟩
    have := foldl_extent fs ((al || f.octetAlign) && f.value.length % 8 == 0) (appendField acc f) (fun hb => by
      rw [Bool.and_eq_true] at hb
      rw [hf.2 hb.1]
      simpa using hb.2)
    simp only [bitsFrom]
    omega

/-- The fields take at most `n` bits. -/
def Sized (fs : List BitField) (n : Nat) : Prop := bitsFrom false fs ≤ n

theorem Sized.nil (n : Nat) : Sized [] n := Nat.zero_le _

theorem Sized.mono {fs : List BitField} {m n : Nat} (h : Sized fs m) (hm : m ≤ n) : Sized fs n := Nat.le_trans h hm

theorem Sized.append {a b : List BitField} {m n : Nat} (ha : Sized a m) (hb : Sized b n) : Sized (a ++ b) (m + n) :=
  Nat.le_trans (bitsFrom_append false a b) (Nat.add_le_add ha hb)

theorem Sized.bits (b : Bits) : Sized [⟨false, b⟩] b.length := by simp [Sized, bitsFrom]

theorem Sized.field (al : Bool) (b : Bits) : Sized [⟨al, b⟩] (7 + b.length) := by
  cases al <;> simp [Sized, bitsFrom]

theorem Sized.cons {b : Bool} {a : List BitField} {n : Nat} (h : Sized a n) : Sized (⟨false, [b]⟩ :: a) (1 + n) :=
  Sized.append (a := [⟨false, [b]⟩]) (Sized.bits [b]) h

theorem complete_length (fs : List BitField) :
    (produceCompleteEncoding fs).length = 8 * octetsFor (fs.foldl appendField []).length := by
  unfold produceCompleteEncoding octetsFor padBits
  dsimp only
  generalize fs.foldl appendField [] = c
  split
  · rename_i h
    rw [List.length_append, List.length_replicate]
    simp at h
    rcases h with h | h
    · omega
    · subst h; simp
  · rename_i h
    simp at h
    have : c.length ≠ 0 := by simpa using h.2
    omega

theorem octetsFor_mono {a b : Nat} (h : a ≤ b) : octetsFor a ≤ octetsFor b := by unfold octetsFor; omega

theorem Sized.complete {fs : List BitField} {n : Nat} (h : Sized fs n) :
    (produceCompleteEncoding fs).length / 8 ≤ octetsFor n := by
  rw [complete_length]
  have := foldl_extent fs false [] (by simp)
  have := octetsFor_mono (a := (fs.foldl appendField []).length) (b := n) (by simp at this; exact Nat.le_trans this h)
  omega

/-! ## numbers -/

theorem nonNeg_shape {z : Int} {s : BitSize} {al : Bool} {f : BitField}
    (h : encodeNonNegativeBinaryInteger z (some s) al false = .ok f) :
    f.octetAlign = al ∧ f.value.length = max (s.octets * 8 + s.bits) (digits z.toNat) := by
  unfold encodeNonNegativeBinaryInteger at h
  split at h
  · cases h
  simp only [Bool.false_eq_true, if_false, Except.ok.injEq] at h
  subst h
  exact ⟨rfl, by rw [zfill_length, pyBin_length]; rfl⟩

theorem minimum_shape {z : Int} {s : Option BitSize} {al : Bool} {f : BitField}
    (h : encodeNonNegativeBinaryInteger z s al true = .ok f) :
    f.octetAlign = al ∧ f.value.length = 8 * octetsOf z.toNat := by
  unfold encodeNonNegativeBinaryInteger at h
  split at h
  · cases h
  simp only [if_true, Except.ok.injEq] at h
  subst h
  exact ⟨rfl, minOctets_length z.toNat⟩

theorem small_width {r : Int} {w : Nat} (h1 : 2 ≤ r) (hw : 0 < w) (ha : r ≤ 2 ^ w) (hb : (2 : Int) ^ (w - 1) < r) :
    w = digits (r - 1).toNat := by
  have e : ∀ k : Nat, ((2 ^ k : Nat) : Int) = 2 ^ k := fun k => by simp [Int.natCast_pow]
  rw [← e] at ha hb
  have hne : (r - 1).toNat ≠ 0 := by omega
  have a' : (r - 1).toNat < 2 ^ w := by omega
  have b' : ¬ (r - 1).toNat < 2 ^ (w - 1) := by omega
  rw [← Nat.log2_lt hne] at a' b'
  unfold digits
  omega

theorem cwn_shape {z l u : Int} {f : BitField} (h : encodeConstrainedWholeNumber z (some l) (some u) = .ok f) :
    Sized [f] (fieldBits l u z) ∧ (255 ≤ u - l → z ≤ u → f.octetAlign = true ∧ f.value.length % 8 = 0) := by
  replace h : (if u - l + 1 = 1 then pure ⟨false, []⟩ else
    if u - l + 1 ≤ 255 then encodeNonNegativeBinaryInteger (z - l) (getBitFieldSize (u - l + 1)) false false
    else if u - l + 1 = 256 then encodeNonNegativeBinaryInteger (z - l) (getBitFieldSize (u - l + 1)) true false
    else if 257 ≤ u - l + 1 ∧ u - l + 1 ≤ 65536 then
      encodeNonNegativeBinaryInteger (z - l) (getBitFieldSize (u - l + 1)) true false
    else encodeNonNegativeBinaryInteger (z - l) (getBitFieldSize (u - l + 1)) true true : Except Err BitField) = .ok f := h
  unfold fieldBits
  split at h
  · rename_i h1
    cases h
    exact ⟨Sized.bits [] |>.mono (Nat.zero_le _), fun h => by omega⟩
  rename_i h1
  rw [if_neg (by omega)]
  split at h
  · rename_i h2
    by_cases hlu : l < u
    · rw [if_pos (by omega)]
      obtain ⟨w, e1, e2, e3, e4⟩ := getBitFieldSize_small (r := u - l + 1) (by omega) h2
      rw [e1] at h
      obtain ⟨s1, s2⟩ := nonNeg_shape h
      have := small_width (by omega) e2 e3 e4
      rw [show u - l + 1 - 1 = u - l by omega] at this
      rw [this] at s2
      obtain ⟨al, v⟩ := f
      simp only at s1 s2
      subst s1
      exact ⟨(Sized.bits v).mono (by rw [s2]; simp), fun _ => by omega⟩
    · exfalso
      have : Done (encodeNonNegativeBinaryInteger (z - l) (getBitFieldSize (u - l + 1)) false false) := ⟨f, h⟩
      have hd : Done (encodeConstrainedWholeNumber z (some l) (some u)) := ⟨f, by
        show (if u - l + 1 = 1 then _ else _) = _
        rw [if_neg h1, if_pos h2]; exact h⟩
      rw [cwn_done, takesRange_iff] at hd
      omega
  rename_i h2
  rw [if_neg (by omega)]
  split at h
  · rename_i h3
    rw [if_pos (by omega)]
    rw [h3, getBitFieldSize_256] at h
    obtain ⟨s1, s2⟩ := nonNeg_shape h
    obtain ⟨al, v⟩ := f
    simp only at s1 s2
    subst s1
    refine ⟨(Sized.field true v).mono (by rw [s2]; simp), fun _ hz => ⟨rfl, ?_⟩⟩
    show v.length % 8 = 0
    have : digits (z - l).toNat ≤ 8 := by
      rw [digits, ← pyBin_length]; exact pyBin_length_le (by omega) (by omega)
    rw [s2]; simp; omega
  rename_i h3
  rw [if_neg (by omega)]
  split at h
  · rename_i h4
    rw [if_pos (by omega)]
    rw [getBitFieldSize_medium h4.1 h4.2] at h
    obtain ⟨s1, s2⟩ := nonNeg_shape h
    obtain ⟨al, v⟩ := f
    simp only at s1 s2
    subst s1
    refine ⟨(Sized.field true v).mono (by rw [s2]; simp), fun _ hz => ⟨rfl, ?_⟩⟩
    show v.length % 8 = 0
    have : digits (z - l).toNat ≤ 16 := by
      rw [digits, ← pyBin_length]; exact pyBin_length_le (by omega) (by omega)
    rw [s2]; simp; omega
  · rename_i h4
    rw [if_neg (by omega)]
    obtain ⟨s1, s2⟩ := minimum_shape h
    obtain ⟨al, v⟩ := f
    simp only at s1 s2
    subst s1
    refine ⟨(Sized.field true v).mono (by rw [s2]; exact Nat.le_refl _), fun _ hz => ⟨rfl, ?_⟩⟩
    show v.length % 8 = 0
    omega

theorem range_sized {z l u : Int} {fl : List BitField} (h : fieldListConstrained z (some l) (some u) = .ok fl) :
    Sized fl (rangeBits l u z) := by
  unfold fieldListConstrained at h
  obtain ⟨f, hf, h⟩ := Except.bind_eq_ok h
  have hs := (cwn_shape hf).1
  replace h : (if integerRange l u ≤ 65536 then pure [f] else
    encodeLengthDeterminant false true ((f.value.length / 8 : Nat) : Int) (some 1) (some (getRangeOctetLen (u - l))) >>=
      fun ld => pure (ld ++ [f]) : Except Err (List BitField)) = .ok fl := h
  unfold rangeBits
  unfold integerRange at h
  split at h
  · cases h
    rw [if_pos (by omega)]; exact hs
  · rename_i hr
    rw [if_neg (by omega)]
    obtain ⟨ld, hld, h⟩ := Except.bind_eq_ok h
    cases h
    refine Sized.append ?_ hs
    unfold encodeLengthDeterminant at hld
    simp only [Bool.false_eq_true, if_false, if_true] at hld
    obtain ⟨f', hf', hld⟩ := Except.bind_eq_ok hld
    cases hld
    have h8 : f.value.length = 8 * octetsOf (z - l).toNat := by
      replace hf : (if u - l + 1 = 1 then pure ⟨false, []⟩ else _ : Except Err BitField) = .ok f := hf
      rw [if_neg (by omega), if_neg (by omega), if_neg (by omega), if_neg (by omega)] at hf
      exact (minimum_shape hf).2
    have hk : getRangeOctetLen (u - l) = octetsOf (u - l).toNat := by
      rcases getRangeOctetLen_eq (r := u - l) (by omega) (by omega) with e | e
      · exact e
      · have : 16 ≤ (u - l).toNat.log2 := by rw [Nat.le_log2 (by omega)]; omega
        rw [e.1]; unfold octetsOf; omega
    have := (cwn_shape hf').1
    rwa [hk, h8, show 8 * octetsOf (z - l).toNat / 8 = octetsOf (z - l).toNat by omega] at this

/-- A length, alone and with what it counts. -/
theorem length_shape {n : Nat} {l u : Option Int} {ld : List BitField} (h : encodeLengthDeterminant false false n l u = .ok ld) :
    ∃ v, ld = [⟨true, v⟩] ∧ v.length = if n ≤ 127 then 8 else if n ≤ 16383 then 16 else 17 := by
  unfold encodeLengthDeterminant at h
  simp only [Bool.false_eq_true, if_false] at h
  split at h
  · rename_i h1
    obtain ⟨f, hf, h⟩ := Except.bind_eq_ok h
    cases h
    obtain ⟨s1, s2⟩ := nonNeg_shape hf
    refine ⟨[false] ++ f.value, by rw [s1], ?_⟩
    have : digits (n : Int).toNat ≤ 7 := by
      rw [digits, ← pyBin_length]; exact pyBin_length_le (by omega) (by omega)
    rw [List.length_append, s2, if_pos (by omega)]
    simp only [List.length_cons, List.length_nil]
    omega
  · rename_i h1
    split at h
    · rename_i h2
      obtain ⟨f, hf, h⟩ := Except.bind_eq_ok h
      cases h
      obtain ⟨s1, s2⟩ := nonNeg_shape hf
      refine ⟨[true, false] ++ f.value, by rw [s1], ?_⟩
      rw [List.length_append, s2, if_neg (by omega)]
      simp only [List.length_cons, List.length_nil]
      split
      · have : digits (n : Int).toNat ≤ 14 := by
          rw [digits, ← pyBin_length]; exact pyBin_length_le (by omega) (by omega)
        omega
      · have : n = 16384 := by omega
        subst this
        decide
    · cases h

theorem length_sized {n : Nat} {l u : Option Int} {ld : List BitField} (h : encodeLengthDeterminant false false n l u = .ok ld) :
    Sized ld (lengthBits n) := by
  obtain ⟨v, rfl, hv⟩ := length_shape h
  exact (Sized.field true v).mono (by rw [hv]; exact Nat.le_refl _)

theorem counted_sized {n : Nat} {l u : Option Int} {ld : List BitField} (h : encodeLengthDeterminant false false n l u = .ok ld)
    (al : Bool) (b : Bits) : Sized (ld ++ [⟨al, b⟩]) (countedBits n b.length) := by
  obtain ⟨v, rfl, hv⟩ := length_shape h
  have key : bitsFrom false [⟨true, v⟩, ⟨al, b⟩] ≤ 7 + (v.length + (if v.length % 8 = 0 then 0 else 7)) + b.length := by
    simp only [bitsFrom, Bool.or_true, Bool.true_and]
    by_cases h8 : v.length % 8 = 0 <;> cases al <;> simp [h8] <;> omega
  refine Nat.le_trans key ?_
  unfold countedBits
  rw [hv]
  split
  · simp
  · split <;> simp

theorem twos_sized (z : Int) : Sized (fieldListUnconstrained z) (twosBits z) := by
  have e : getTwosComplementOctetLen z = twosOctetsOf z := leastTwosOctets_eq z
  obtain ⟨h1, h2, h3, _⟩ := getTwosComplementOctetLen_spec z
  unfold fieldListUnconstrained twosBits
  dsimp only
  rw [e] at *
  generalize twosOctetsOf z = k at *
  rw [show k * 8 = 8 * k by omega] at h1 h2
  rw [encodeTwosComplement_eq (by omega) h1 h2]
  refine (Sized.field true _).mono ?_
  rw [List.length_append, zfill_length, natToBits_length, pyBin_length]
  unfold digits
  omega

theorem small_sized {n : Nat} {fl : List BitField} (h : encodeNormallySmall n 0 = .ok fl) : Sized fl (smallBits n) := by
  unfold encodeNormallySmall at h
  unfold smallBits
  split at h
  · rename_i hn
    rw [if_pos (by omega)]
    obtain ⟨f, hf, h⟩ := Except.bind_eq_ok h
    cases h
    obtain ⟨s1, s2⟩ := nonNeg_shape hf
    obtain ⟨al, v⟩ := f
    simp only at s1 s2
    subst s1
    refine (Sized.cons (Sized.bits v)).mono ?_
    have : digits (n : Int).toNat ≤ 6 := by
      rw [digits, ← pyBin_length]; exact pyBin_length_le (by omega) (by omega)
    rw [s2]; omega
  · rename_i hn
    rw [if_neg (by omega)]
    obtain ⟨f, hf, h⟩ := Except.bind_eq_ok h
    obtain ⟨ld, hld, h⟩ := Except.bind_eq_ok h
    cases h
    unfold encodeSemiConstrainedWholeNumber at hf
    obtain ⟨s1, s2⟩ := minimum_shape hf
    simp only [Int.sub_zero, Int.toNat_natCast] at s2
    have := counted_sized hld f.octetAlign f.value
    rw [s2, show 8 * octetsOf n / 8 = octetsOf n by omega] at this
    rw [List.append_assoc]
    exact Sized.cons this

/-! ## simple types -/

theorem int_sized {c : Constr} {z : Int} {fl : List BitField} (h : encodeInteger c z = .ok fl) : Sized fl (intBits c z) := by
  unfold encodeInteger at h
  unfold intBits markBits
  cases hx : c.ext with
  | true =>
    simp only [hx, if_true] at h
    cases hl : c.lower with
    | none => rw [hl] at h; cases h
    | some l =>
      rw [hl] at h
      have key : ∀ b, chainLe (some l) c.upper z = .ok b →
          (if b = true then fieldListConstrained z (some l) c.upper >>= fun fl => pure ([⟨false, [false]⟩] ++ fl)
            else pure ([⟨false, [true]⟩] ++ fieldListUnconstrained z) : Except Err (List BitField)) = .ok fl →
          Sized fl (1 + match c.upper with
            | some u => if !(decide (l ≤ z) && decide (z ≤ u)) then twosBits z else rangeBits l u z
            | none => twosBits z) := by
        intro b hb h
        unfold chainLe at hb
        simp only [needInt] at hb
        replace hb : (if l ≤ z then needInt c.upper >>= fun h => pure (decide (z ≤ h)) else pure false : Except Err Bool) = .ok b := hb
        split at hb
        · rename_i h1
          cases hu : c.upper with
          | none => rw [hu] at hb; cases hb
          | some u =>
            rw [hu] at hb h
            have hb : decide (z ≤ u) = b := Except.ok.inj hb
            subst hb
            dsimp only
            by_cases h2 : z ≤ u
            · simp only [h1, h2, decide_true, Bool.and_self, Bool.not_true, Bool.false_eq_true, if_false, if_true] at h ⊢
              obtain ⟨fl', h', e⟩ := Except.bind_eq_ok h
              cases e
              exact Sized.cons (range_sized h')
            · simp only [h1, h2, decide_true, decide_false, Bool.and_false, Bool.not_false, Bool.false_eq_true, if_false, if_true] at h ⊢
              cases h
              exact Sized.cons (twos_sized z)
        · rename_i h1
          cases hb
          simp only [Bool.false_eq_true, if_false] at h
          cases h
          refine (Sized.cons (twos_sized z)).mono ?_
          cases c.upper with
          | none => exact Nat.le_refl _
          | some u => simp [h1]
      obtain ⟨b, hb, h⟩ := Except.bind_eq_ok h
      have := key b hb h
      simp only [if_true, Bool.true_and]
      cases hu : c.upper with
      | none => rw [hu] at this; exact this
      | some u => rw [hu] at this; exact this
  | false =>
    simp only [hx, Bool.false_eq_true, if_false] at h
    cases hl : c.lower with
    | none =>
      rw [hl] at h
      cases h
      simpa using twos_sized z
    | some l =>
      cases hu : c.upper with
      | none =>
        rw [hl, hu] at h
        dsimp only at h
        obtain ⟨f, hf, h⟩ := Except.bind_eq_ok h
        obtain ⟨ld, hld, h⟩ := Except.bind_eq_ok h
        cases h
        unfold encodeSemiConstrainedWholeNumber at hf
        obtain ⟨s1, s2⟩ := minimum_shape hf
        have := counted_sized hld f.octetAlign f.value
        rw [s2, show 8 * octetsOf (z - l).toNat / 8 = octetsOf (z - l).toNat by omega] at this
        simpa using this
      | some u =>
        rw [hl, hu] at h
        dsimp only at h
        simpa using range_sized h

theorem enum_sized {ext : Bool} {root add : List (String × Int)} {z : Int} {fl : List BitField}
    (h : encodeEnumerated ext root add z = .ok fl) : Sized fl (enumBits ext root add z) := by
  unfold encodeEnumerated at h
  unfold enumBits markBits
  cases ext with
  | false =>
    simp only [Bool.not_false, if_true] at h
    simpa using range_sized h
  | true =>
    simp only [Bool.not_true, Bool.false_eq_true, if_false, if_true] at h ⊢
    by_cases hc : (root.map (·.2)).contains z = true
    · rw [if_pos hc] at h
      rw [if_pos hc]
      obtain ⟨fl', h', e⟩ := Except.bind_eq_ok h
      cases e
      exact Sized.cons (range_sized h')
    · rw [if_neg hc] at h
      rw [if_neg hc]
      rw [findIdx?_idxOf] at h
      by_cases hm : (add.map (·.2)).contains z = true
      · rw [if_pos hm] at h
        dsimp only at h
        obtain ⟨fl', h', e⟩ := Except.bind_eq_ok h
        cases e
        exact Sized.cons (small_sized h')
      · rw [if_neg hm] at h
        cases h

theorem withExt_sized {ext : Bool} {fl : List BitField} {n : Nat} (h : Sized fl n) :
    Sized (withExt (if ext then some ⟨false, [false]⟩ else none) fl) (markBits ext + n) := by
  cases ext with
  | false => simpa [withExt, markBits] using h
  | true => simpa [withExt, markBits] using Sized.cons (b := false) h

/-- A size field and the string behind it. -/
theorem field_string_sized {n l u : Nat} {ld : List BitField}
    (h : encodeLengthDeterminant false true (n : Int) (some (l : Int)) (some (u : Int)) = .ok ld) (hlu : l ≠ u) (b : Bits) :
    l < u ∧ Sized (ld ++ [⟨true, b⟩]) (fieldBits l u n + (if u - l < 255 ∨ u < n then 7 + b.length else b.length)) := by
  unfold encodeLengthDeterminant at h
  simp only [Bool.false_eq_true, if_false, if_true] at h
  obtain ⟨f, hf, h⟩ := Except.bind_eq_ok h
  cases h
  have hd : Done (encodeConstrainedWholeNumber (n : Int) (some (l : Int)) (some (u : Int))) := ⟨f, hf⟩
  rw [cwn_done, takesRange_iff] at hd
  refine ⟨by omega, ?_⟩
  obtain ⟨s1, s2⟩ := cwn_shape hf
  split
  · exact Sized.append s1 (Sized.field true b)
  · rename_i hc
    obtain ⟨a, e⟩ := s2 (by omega) (by omega)
    unfold Sized at *
    simp only [List.cons_append, List.nil_append, bitsFrom, a, e] at s1 ⊢
    simp at s1 ⊢
    omega

theorem octetBits_length (o : List UInt8) : (octetBits o).length = 8 * o.length := by
  unfold octetBits
  rw [octetBits_eq, bytesToBits_length]

/-- The part of a string behind the extension test. -/
theorem root_sized {wide : Bool} {c : SizeC} {n : Nat} {b : Bits} {fl : List BitField} {x : Except Err (List BitField)}
    (hin : ∀ l u, c.lower = some l → c.upper = some u → c.ext = true → l ≤ n ∧ n ≤ u)
    (hone : c.ext = true → c.lower ≠ none ∧ c.upper ≠ none)
    (hx : x = (if c.upper = some 0 then .ok []
      else if c.lower ≠ none ∧ c.lower = c.upper then
        if b.length ≤ 16 then .ok (withExt (if c.ext then some ⟨false, [false]⟩ else none) [⟨false, b⟩])
        else if n < 65536 then .ok (withExt (if c.ext then some ⟨false, [false]⟩ else none) [⟨true, b⟩])
        else .error .notImplemented
      else
        match c.upper with
        | some u =>
          if wide && decide (65536 ≤ u) then
            encodeLengthDeterminant false false n (some 0) none >>= fun ld =>
              pure (withExt (if c.ext then some ⟨false, [false]⟩ else none) (ld ++ [⟨true, b⟩]))
          else
            encodeLengthDeterminant false true n c.lowerZ c.upperZ >>= fun ld =>
              pure (withExt (if c.ext then some ⟨false, [false]⟩ else none) (ld ++ [⟨true, b⟩]))
        | none =>
          encodeLengthDeterminant false false n (some 0) none >>= fun ld =>
            pure (withExt (if c.ext then some ⟨false, [false]⟩ else none) (ld ++ [⟨true, b⟩]))))
    (h : x = .ok fl) : Sized fl (stringBits wide c n b.length) := by
  rw [hx] at h
  unfold stringBits
  by_cases h0 : c.upper = some 0
  · rw [if_pos h0] at h; cases h; exact Sized.nil _
  rw [if_neg h0] at h
  by_cases hf : c.lower ≠ none ∧ c.lower = c.upper
  · rw [if_pos hf] at h
    cases hl : c.lower with
    | none => exact (hf.1 hl).elim
    | some l =>
      have hu : c.upper = some l := by rw [← hf.2, hl]
      rw [hu]
      dsimp only
      have hun : unlimited wide c l l n = false := by
        unfold unlimited
        cases he : c.ext with
        | false => simp
        | true =>
          have := hin l l hl hu he
          simp [this.1, this.2]
      rw [hun]
      simp only [Bool.false_eq_true, if_false, if_true]
      split at h
      · rename_i hw
        cases h
        rw [if_pos hw]
        exact withExt_sized (Sized.bits b)
      · rename_i hw
        rw [if_neg hw]
        split at h
        · cases h
          exact withExt_sized (Sized.field true b)
        · cases h
  · rw [if_neg hf] at h
    cases hu : c.upper with
    | none =>
      rw [hu] at h
      dsimp only at h
      obtain ⟨ld, hld, h⟩ := Except.bind_eq_ok h
      cases h
      have := withExt_sized (ext := c.ext) (counted_sized hld true b)
      cases c.lower <;> exact this
    | some u =>
      rw [hu] at h
      dsimp only at h
      split at h
      · rename_i hw
        obtain ⟨ld, hld, h⟩ := Except.bind_eq_ok h
        cases h
        have hs := withExt_sized (ext := c.ext) (counted_sized hld true b)
        cases hl : c.lower with
        | none => exact hs
        | some l =>
          dsimp only
          have hne : l ≠ u := fun e => hf (by rw [hl, hu, e]; simp)
          have hun : unlimited wide c l u n = true := by
            unfold unlimited
            simp only [Bool.and_eq_true] at hw
            simp only [hw.1, hw.2, Bool.and_self, Bool.true_and, Bool.or_eq_true, decide_eq_true_eq]
            omega
          rw [hun]
          simpa using hs
      · rename_i hw
        obtain ⟨ld, hld, h⟩ := Except.bind_eq_ok h
        cases h
        cases hl : c.lower with
        | none =>
          have : c.lowerZ = none := by simp [SizeC.lowerZ, hl]
          rw [this] at hld
          unfold encodeLengthDeterminant at hld
          simp only [Bool.false_eq_true, if_false, if_true] at hld
          obtain ⟨f, hf, _⟩ := Except.bind_eq_ok hld
          have : c.upperZ = some (u : Int) := by simp [SizeC.upperZ, hu]
          rw [this] at hf
          cases hf
        | some l =>
          have e1 : c.lowerZ = some (l : Int) := by simp [SizeC.lowerZ, hl]
          have e2 : c.upperZ = some (u : Int) := by simp [SizeC.upperZ, hu]
          rw [e1, e2] at hld
          have hne : l ≠ u := fun e => hf (by rw [hl, hu, e]; simp)
          obtain ⟨hlt, hs⟩ := field_string_sized hld hne b
          dsimp only
          have hun : unlimited wide c l u n = false := by
            unfold unlimited
            cases he : c.ext with
            | false =>
              cases wide with
              | false => simp; omega
              | true => simp at hw; simp [show ¬ 65536 ≤ u by omega]; omega
            | true =>
              have := hin l u hl hu he
              cases wide with
              | false => simp [this.1, this.2]; omega
              | true => simp at hw; simp [this.1, this.2, show ¬ 65536 ≤ u by omega]; omega
          rw [hun]
          simp only [Bool.false_eq_true, if_false]
          rw [if_neg hne]
          exact withExt_sized hs

theorem chain_inv {c : SizeC} {n : Nat} {α : Type} {a b : Except Err α} {r : α}
    (h : (chainLe c.lowerZ c.upperZ (n : Int) >>= fun t => if t = true then a else b) = .ok r) :
    (∃ l u, c.lower = some l ∧ c.upper = some u ∧ l ≤ n ∧ n ≤ u ∧ a = .ok r) ∨
    (∃ l, c.lower = some l ∧ (∀ u, c.upper = some u → ¬ (l ≤ n ∧ n ≤ u)) ∧ b = .ok r) := by
  cases hl : c.lower with
  | none =>
    have : c.lowerZ = none := by simp [SizeC.lowerZ, hl]
    rw [this] at h; cases h
  | some l =>
    have e1 : c.lowerZ = some (l : Int) := by simp [SizeC.lowerZ, hl]
    rw [e1] at h
    unfold chainLe at h
    by_cases h1 : (l : Int) ≤ n
    · cases hu : c.upper with
      | none =>
        have : c.upperZ = none := by simp [SizeC.upperZ, hu]
        rw [this] at h
        simp only [needInt, bind, Except.bind, h1, if_true] at h
        cases h
      | some u =>
        have : c.upperZ = some (u : Int) := by simp [SizeC.upperZ, hu]
        rw [this] at h
        simp only [needInt, bind, Except.bind, h1, if_true, pure, Except.pure, decide_eq_true_eq] at h
        split at h
        · exact .inl ⟨l, u, rfl, rfl, by omega, by omega, h⟩
        · exact .inr ⟨l, rfl, fun u' e => by cases e; omega, h⟩
    · simp only [needInt, bind, Except.bind, h1, if_false, pure, Except.pure, Bool.false_eq_true] at h
      exact .inr ⟨l, rfl, fun u _ => by omega, h⟩

theorem outside_sized {wide : Bool} {c : SizeC} {n l : Nat} {b : Bits} {ld : List BitField} {x y : Option Int} {al : Bool}
    (he : c.ext = true) (hl : c.lower = some l) (ho : ∀ u, c.upper = some u → ¬ (l ≤ n ∧ n ≤ u))
    (h : encodeLengthDeterminant false false n x y = .ok ld) :
    Sized ([⟨false, [true]⟩] ++ ld ++ [⟨al, b⟩]) (stringBits wide c n b.length) := by
  have hs := Sized.cons (b := true) (counted_sized h al b)
  unfold stringBits markBits
  rw [he, hl]
  cases hu : c.upper with
  | none => exact hs
  | some u =>
    have hun : unlimited wide c l u n = true := by
      have := ho u hu
      unfold unlimited
      simp [he]
      omega
    simpa [hun] using hs

theorem bits_sized {c : SizeC} {b : Bits} {fl : List BitField} (h : encodeBitstring c b = .ok fl) :
    Sized fl (stringBits true c (max 1 b.length) (max 1 b.length)) := by
  have hb : (asBinary b).length = max 1 b.length := by
    unfold asBinary
    cases b with
    | nil => rfl
    | cons x b => simp
  unfold encodeBitstring at h
  dsimp only at h
  rw [← hb]
  generalize asBinary b = v at *
  have key : ∀ e, (c.ext = true → ∃ l u, c.lower = some l ∧ c.upper = some u ∧ l ≤ v.length ∧ v.length ≤ u) →
      e = (if c.ext then some ⟨false, [false]⟩ else none) → encodeBitstringRoot c v e = .ok fl →
      Sized fl (stringBits true c v.length v.length) := by
    intro e hin hee h
    refine root_sized (fun l u h1 h2 h3 => ?_) (fun h3 => ?_) ?_ h
    · obtain ⟨l', u', e1, e2, e3⟩ := hin h3
      rw [h1] at e1; rw [h2] at e2; cases e1; cases e2; exact e3
    · obtain ⟨l', u', e1, e2, e3⟩ := hin h3
      simp [e1, e2]
    · rw [← hee]
      unfold encodeBitstringRoot
      dsimp only
      split
      · rfl
      split
      · rfl
      cases c.upper with
      | none => rfl
      | some u =>
        dsimp only
        by_cases hu : u < 65536
        · simp [hu, show ¬ 65536 ≤ u by omega]
        · simp [hu, show 65536 ≤ u by omega]
  cases he : c.ext with
  | false =>
    simp only [he, Bool.false_eq_true, if_false] at h
    exact key none (fun h' => by rw [he] at h'; cases h') (by rw [he]; rfl) h
  | true =>
    simp only [he, if_true] at h
    rcases chain_inv h with ⟨l, u, e1, e2, e3, e4, e5⟩ | ⟨l, e1, e2, e3⟩
    · exact key _ (fun _ => ⟨l, u, e1, e2, e3, e4⟩) (by rw [he]; rfl) e5
    · obtain ⟨ld, hld, h⟩ := Except.bind_eq_ok e3
      cases h
      exact outside_sized he e1 e2 hld

theorem octets_sized {c : SizeC} {o : List UInt8} {fl : List BitField} (h : encodeOctetstring c o = .ok fl) :
    Sized fl (stringBits false c o.length (8 * o.length)) := by
  unfold encodeOctetstring at h
  have hb := octetBits_length o
  have hn : (octetBits o).length / 8 = o.length := by omega
  dsimp only at h
  rw [hn] at h
  rw [← hb]
  generalize octetBits o = v at *
  generalize o.length = n at *
  have key : ∀ e, (c.ext = true → ∃ l u, c.lower = some l ∧ c.upper = some u ∧ l ≤ n ∧ n ≤ u) →
      e = (if c.ext then some ⟨false, [false]⟩ else none) → encodeOctetstringRoot c v e = .ok fl →
      Sized fl (stringBits false c n v.length) := by
    intro e hin hee h
    refine root_sized (fun l u h1 h2 h3 => ?_) (fun h3 => ?_) ?_ h
    · obtain ⟨l', u', e1, e2, e3⟩ := hin h3
      rw [h1] at e1; rw [h2] at e2; cases e1; cases e2; exact e3
    · obtain ⟨l', u', e1, e2, e3⟩ := hin h3
      simp [e1, e2]
    · rw [← hee]
      unfold encodeOctetstringRoot
      dsimp only
      rw [hn]
      split
      · rfl
      split
      · by_cases h2 : n ≤ 2
        · simp [h2, show v.length ≤ 16 by omega]
        · simp [h2, show ¬ v.length ≤ 16 by omega]
      cases c.upper with
      | none => rfl
      | some u => simp
  cases he : c.ext with
  | false =>
    simp only [he, Bool.false_eq_true, if_false] at h
    exact key none (fun h' => by rw [he] at h'; cases h') (by rw [he]; rfl) h
  | true =>
    simp only [he, if_true] at h
    rcases chain_inv h with ⟨l, u, e1, e2, e3, e4, e5⟩ | ⟨l, e1, e2, e3⟩
    · exact key _ (fun _ => ⟨l, u, e1, e2, e3, e4⟩) (by rw [he]; rfl) e5
    · obtain ⟨ld, hld, h⟩ := Except.bind_eq_ok e3
      cases h
      exact outside_sized he e1 e2 hld

end Verif
