import Verif.Lemmas.X691
/-!
# Where the encoding of an INTEGER is not that of X.691
-/
namespace Verif
open X691

/-- An odd number does not divide a power of two. -/
theorem pow_odd {d N e : Nat} (hd : 2 ≤ d) : N * (2 ^ d - 1) ≠ 2 ^ e := by
  intro h
  have h1 : (2 ^ d - 1) ∣ 2 ^ e := ⟨N, by rw [← h, Nat.mul_comm]⟩
  have h4 : 4 ≤ 2 ^ d := Nat.pow_le_pow_right (n := 2) (by omega) hd
  have he : 2 ^ d = 2 * 2 ^ (d - 1) := by
    rw [show d = (d - 1) + 1 by omega, Nat.pow_succ]; simp [Nat.mul_comm]
  have odd : (2 ^ d - 1) % 2 = 1 := by omega
  have hc : Nat.Coprime (2 ^ d - 1) 2 := by
    have hg : Nat.gcd (2 ^ d - 1) 2 = 1 := by
      rw [Nat.gcd_comm, Nat.gcd_rec, odd]
      decide
    exact hg
  have := Nat.Coprime.eq_one_of_dvd (hc.pow_right e) h1
  omega

/-- From 128 octets on the raw length octet(s) of the encoder never give the bits of the standard. -/
theorem raw_length_differs {L : Nat} (h1 : 128 ≤ L) (h2 : L ≤ 16383) {content pad : Bits} (hc : content.length = 8 * L)
    (hp : pad = List.replicate ((8 - (zfill 8 (pyBin L) ++ content).length % 8) % 8) false) :
    (zfill 8 (pyBin L) ++ content) ++ pad ≠ ([true, false] ++ bin 14 L) ++ content := by
  intro h
  have hk : (pyBin L).length = L.log2 + 1 := pyBin_length L
  have hL : L ≠ 0 := by omega
  have hlen := congrArg List.length h
  have lz := zfill_length 8 (pyBin L)
  have lb : (bin 14 L).length = 14 := (bitsToNat_bin 14 L).1
  by_cases h3 : L ≤ 255
  · have : L.log2 < 8 := (Nat.log2_lt hL).2 (by omega)
    rw [hp] at hlen
    simp only [List.length_append, List.length_replicate, hc, lz, hk, lb, List.length_cons, List.length_nil] at hlen
    omega
  · have a1 : L.log2 < 14 := (Nat.log2_lt hL).2 (by omega)
    have a2 : ¬ L.log2 < 8 := by rw [Nat.log2_lt hL]; omega
    have hz : zfill 8 (pyBin L) = pyBin L := by
      unfold zfill
      rw [show 8 - (pyBin L).length = 0 by omega]
      rfl
    have hb : bin 14 L = List.replicate (14 - (L.log2 + 1)) false ++ pyBin L := by
      rw [bin_eq, ← zfill_pyBin (by omega) (by omega), zfill, hk]
    rw [hz] at h hp
    have hpad : pad = List.replicate (15 - L.log2) false := by
      rw [hp]
      congr 1
      simp only [List.length_append, hk, hc]
      omega
    have hN := congrArg bitsToNat h
    rw [hb, show ([true, false] ++ (List.replicate (14 - (L.log2 + 1)) false ++ pyBin L)) ++ content =
      (true :: List.replicate (14 - L.log2) false) ++ (pyBin L ++ content) by
        rw [show 14 - L.log2 = (14 - (L.log2 + 1)) + 1 by omega, List.replicate_succ]
        simp, hpad, bitsToNat_append, bitsToNat_append (true :: _), bitsToNat_cons, bitsToNat_replicate_false,
      bitsToNat_replicate_false, List.length_replicate, List.length_replicate] at hN
    generalize bitsToNat (pyBin L ++ content) = N at hN
    generalize (pyBin L ++ content).length = m at hN
    generalize hd : 15 - L.log2 = d at hN
    refine pow_odd (d := d) (N := N) (e := 14 - L.log2 + m) (by omega) ?_
    rw [Nat.mul_sub, Nat.mul_one, Nat.pow_add]
    simp only [Bool.toNat_true, Nat.one_mul, Nat.add_zero] at hN
    omega

/-- The field of an unconstrained number, with its length `L`. -/
theorem unconstrained_field (z : Int) : ∃ content : Bits, content.length = 8 * leastTwosOctets z ∧
    fieldListUnconstrained z = [⟨true, zfill 8 (pyBin (leastTwosOctets z)) ++ content⟩] ∧
    bin (8 * leastTwosOctets z) (z % 2 ^ (8 * leastTwosOctets z)).toNat = content := by
  obtain ⟨h1, h2, h3, _⟩ := getTwosComplementOctetLen_spec z
  unfold fieldListUnconstrained
  simp only
  rw [leastTwosOctets_eq] at *
  generalize leastTwosOctets z = k at *
  rw [show k * 8 = 8 * k by omega] at h1 h2
  rw [encodeTwosComplement_eq (by omega) h1 h2]
  exact ⟨_, natToBits_length _ _, rfl, bin_eq _ _⟩

/-- More than `k` octets are needed by what does not fit in `k`. -/
theorem leastTwosOctets_gt {k : Nat} {z : Int} (hk : 1 ≤ k) (h : Spec.twosFits k z = false) : k < leastTwosOctets z := by
  rcases Nat.lt_or_ge k (leastTwosOctets z) with h' | h'
  · exact h'
  · obtain ⟨h1, h2, h3, _⟩ := getTwosComplementOctetLen_spec z
    rw [leastTwosOctets_eq] at *
    have hp : (2 ^ (leastTwosOctets z * 8 - 1) : Nat) ≤ 2 ^ (8 * k - 1) := Nat.pow_le_pow_right (by omega) (by omega)
    have hp' : (2 : Int) ^ (leastTwosOctets z * 8 - 1) ≤ 2 ^ (8 * k - 1) := by exact_mod_cast hp
    simp only [Spec.twosFits, Bool.and_eq_false_iff, decide_eq_false_iff_not] at h
    omega

/-- The reference behind `e`, which is nothing or an extension bit, for lengths of 128 to 16383 octets. -/
theorem unconstrained_at {z : Int} (h1 : 128 ≤ leastTwosOctets z) (pos : Nat) :
    unconstrained z pos = List.replicate ((8 - pos % 8) % 8) false ++
      (([true, false] ++ bin 14 (leastTwosOctets z)) ++
        bin (8 * leastTwosOctets z) (z % 2 ^ (8 * leastTwosOctets z)).toNat) := by
  have lb : (bin 14 (leastTwosOctets z)).length = 14 := (bitsToNat_bin 14 _).1
  unfold unconstrained lengthOf
  rw [if_neg (by omega)]
  unfold andThen
  rw [aligned_at (w := bin _ _)]
  · unfold X691.aligned
    simp only [List.append_assoc]
  · simp only [X691.aligned, List.length_append, List.length_replicate, lb, List.length_cons, List.length_nil]
    omega

theorem complete_differs {fs : List BitField} {w : Writer} {P content : Bits} {L : Nat} (h1 : 128 ≤ L) (h2 : L ≤ 16383)
    (hc : content.length = 8 * L) (hP : P.length % 8 = 0) (he : emit 0 fs = P ++ (zfill 8 (pyBin L) ++ content))
    (hw : w 0 = P ++ (([true, false] ++ bin 14 L) ++ content)) : produceCompleteEncoding fs ≠ complete w := by
  intro heq
  have lb : (bin 14 L).length = 14 := (bitsToNat_bin 14 _).1
  have lz := zfill_length 8 (pyBin L)
  have hmod : (w 0).length % 8 = 0 := by
    rw [hw]
    simp only [List.length_append, lb, hc, List.length_cons, List.length_nil]
    omega
  have hne : w 0 ≠ [] := by
    rw [hw]
    intro e
    have := congrArg List.length e
    simp at this
  unfold complete at heq
  rw [if_neg hne, hmod, show (8 - 0) % 8 = 0 from rfl, List.replicate_zero, List.append_nil, hw,
    produceCompleteEncoding_eq, he, if_neg (by simp only [List.length_append, lz]; omega), List.append_assoc] at heq
  refine raw_length_differs h1 h2 hc (pad := List.replicate (padLen (P ++ (zfill 8 (pyBin L) ++ content)).length) false) ?_
    (List.append_cancel_left heq)
  unfold padLen
  congr 1
  rw [List.length_append (as := P)]
  omega

/-- A number of 128 octets and more, as a message of its own or behind an extension bit. -/
theorem unconstrained_differs {z : Int} (h : Spec.twosFits 127 z = false) (h' : Spec.twosFits 16383 z = true) :
    produceCompleteEncoding (fieldListUnconstrained z) ≠ complete (unconstrained z) ∧
      produceCompleteEncoding ([⟨false, [true]⟩] ++ fieldListUnconstrained z) ≠
        complete (bits [true] ▹ unconstrained z) := by
  have l1 := leastTwosOctets_gt (by omega) h
  have l2 := twosFits_leastTwosOctets (by omega) h'
  obtain ⟨content, hc, hf, hb⟩ := unconstrained_field z
  have ha := unconstrained_at (z := z) (by omega)
  rw [hb] at ha
  constructor
  · refine complete_differs (P := []) l1 l2 hc rfl ?_ ?_
    · rw [hf, emit_single]; rfl
    · rw [ha]; rfl
  · refine complete_differs (P := true :: List.replicate 7 false) l1 l2 hc rfl ?_ ?_
    · rw [hf, List.singleton_append, emit_cons, emit_single]; rfl
    · unfold andThen
      rw [ha]
      rfl

/-- INTEGER: what is encoded is what the standard says only for regular values. -/
theorem integer_exact_X691 {c : Constr} {z : Int} {fs : List BitField} (hp : Spec.plain c = true) (ht : c.test z = true)
    (hz : Spec.twosFits 16383 z = true) (hlo : ∀ l, c.lower = some l → Spec.unsignedFits 16383 (z - l) = true)
    (hhi : ∀ l u, c.lower = some l → c.upper = some u → Spec.unsignedFits 65536 (u - l) = true)
    (h : encodeInteger c z = .ok fs) (heq : produceCompleteEncoding fs = complete (integer c.ext c.lower c.upper z)) :
    regularInt c z = true := by
  by_cases hr : regularInt c z = true
  · exact hr
  exfalso
  unfold regularInt at hr
  simp only [hp, ht, Bool.true_and] at hr
  unfold encodeInteger at h
  unfold integer at heq
  cases he : c.ext with
  | true =>
    rw [he] at hr
    simp only [he, if_true] at h heq
    cases hl : c.lower with
    | none => rw [hl] at h; simp [chainLe, needInt, bind, Except.bind] at h
    | some l =>
      cases hu : c.upper with
      | none =>
        rw [hl, hu] at hr h heq
        simp only at hr
        by_cases hz' : l ≤ z
        · simp [chainLe, needInt, bind, Except.bind, hz'] at h
        · simp [chainLe, needInt, bind, Except.bind, pure, Except.pure, hz'] at h
          subst h
          simp only [between, hz', decide_false, Bool.false_and, Bool.false_eq_true, if_false] at heq
          exact (unconstrained_differs (by simpa using hr) hz).2 heq
      | some u =>
        have hf := hhi l u hl hu
        rw [hl, hu] at hr h heq
        simp only at hr
        by_cases hin : l ≤ z ∧ z ≤ u
        · rw [if_pos hin] at hr
          exact hr hf
        · rw [if_neg hin] at hr
          have hch : chainLe (some l) (some u) z = .ok false := by
            by_cases hz : l ≤ z
            · have : ¬ z ≤ u := fun hh => hin ⟨hz, hh⟩
              simp [chainLe, needInt, bind, Except.bind, pure, Except.pure, hz, this]
            · simp [chainLe, needInt, bind, Except.bind, pure, Except.pure, hz]
          rw [hch] at h
          simp only [bind, Except.bind, Bool.false_eq_true, if_false, pure, Except.pure, Except.ok.injEq] at h
          subst h
          have hbt : between (some l) (some u) z = false := by
            simp only [between, Bool.and_eq_false_iff, decide_eq_false_iff_not]
            by_cases hz : l ≤ z
            · exact .inr fun hh => hin ⟨hz, hh⟩
            · exact .inl hz
          rw [hbt, if_neg (by decide)] at heq
          exact (unconstrained_differs (by simpa using hr) hz).2 heq
  | false =>
    rw [he] at hr
    simp only [he, Bool.false_eq_true, if_false] at h heq
    cases hl : c.lower with
    | none =>
      rw [hl] at hr h heq
      simp only at hr
      cases h
      exact (unconstrained_differs (by simpa using hr) hz).1 heq
    | some l =>
      have hf := hlo l hl
      cases hu : c.upper with
      | none =>
        rw [hl, hu] at hr
        exact hr hf
      | some u =>
        have hf := hhi l u hl hu
        rw [hl, hu] at hr
        exact hr hf

/-! ## BIT STRING -/

/-- Messages that differ in a field at the same place. -/
theorem complete_ne {w w' : Writer} {P A B X Y : Bits} (hw : w 0 = P ++ (A ++ X)) (hw' : w' 0 = P ++ (B ++ Y))
    (hl : A.length = B.length) (hne : A ≠ B) : complete w ≠ complete w' := by
  have n1 : w 0 ≠ [] := by
    rw [hw]
    intro e
    simp only [List.append_eq_nil_iff] at e
    rw [e.2.1] at hl hne
    exact hne (List.length_eq_zero_iff.1 hl.symm).symm
  have n2 : w' 0 ≠ [] := by
    rw [hw']
    intro e
    simp only [List.append_eq_nil_iff] at e
    rw [e.2.1] at hl hne
    exact hne (List.length_eq_zero_iff.1 hl)
  unfold complete
  rw [if_neg n1, if_neg n2]
  generalize List.replicate ((8 - (w 0).length % 8) % 8) false = p1
  generalize List.replicate ((8 - (w' 0).length % 8) % 8) false = p2
  rw [hw, hw']
  intro e
  simp only [List.append_assoc] at e
  exact hne (List.append_inj (List.append_cancel_left e) hl).1

theorem bin_zero_one {w : Nat} (hw : 1 ≤ w) : bin w 0 ≠ bin w 1 := by
  intro e
  have := congrArg bitsToNat e
  rw [(bitsToNat_bin w 0).2, (bitsToNat_bin w 1).2] at this
  have h2 : 2 ≤ 2 ^ w := Nat.pow_le_pow_right (n := 2) (by omega) hw
  rw [Nat.zero_mod, Nat.mod_eq_of_lt (by omega)] at this
  omega

theorem bin_length (w n : Nat) : (bin w n).length = w := (bitsToNat_bin w n).1

/-- The field with the number of bits, for none and for one: `A` and `B` behind the same padding. -/
theorem lengthOf_zero_one (pos : Nat) : ∃ P A B : Bits, lengthOf 0 pos = P ++ A ∧ lengthOf 1 pos = P ++ B ∧
    A.length = B.length ∧ A ≠ B :=
  ⟨_, _, _, rfl, rfl, rfl, by decide⟩

theorem short_zero_one {r : Nat} (hr : 2 ≤ r) (pos : Nat) : ∃ P A B : Bits, short r 0 pos = P ++ A ∧
    short r 1 pos = P ++ B ∧ A.length = B.length ∧ A ≠ B := by
  unfold short
  have hr1 : ¬ r = 1 := by omega
  rw [if_neg hr1, if_neg hr1]
  by_cases h1 : r ≤ 255
  · rw [if_pos h1, if_pos h1]
    exact ⟨[], bin ((r - 1).log2 + 1) 0, bin ((r - 1).log2 + 1) 1, rfl, rfl, by rw [bin_length, bin_length],
      bin_zero_one (by omega)⟩
  · rw [if_neg h1, if_neg h1]
    by_cases h2 : r = 256
    · rw [if_pos h2, if_pos h2]
      exact ⟨_, bin 8 0, bin 8 1, rfl, rfl, rfl, by decide⟩
    · rw [if_neg h2, if_neg h2]
      exact ⟨_, bin 16 0, bin 16 1, rfl, rfl, rfl, by decide⟩

theorem count_zero_one {u : Option Nat} (hu : u ≠ some 0) (pos : Nat) : ∃ P A B : Bits, count 0 u 0 pos = P ++ A ∧
    count 0 u 1 pos = P ++ B ∧ A.length = B.length ∧ A ≠ B := by
  cases u with
  | none => exact lengthOf_zero_one pos
  | some u =>
    have hu' : u ≠ 0 := fun e => hu (by rw [e])
    simp only [count]
    by_cases h : u < 65536
    · rw [if_pos h, if_pos h]
      unfold constrained
      rw [if_pos (by omega), if_pos (by omega)]
      exact short_zero_one (by omega) pos
    · rw [if_neg h, if_neg h]
      exact lengthOf_zero_one pos

/-- A string without bits and the string of one bit have different encodings. -/
theorem string_zero_one {c : SizeC} (hu : ¬ (c.ext = false ∧ c.upper = some 0)) (h0 : c.ext = false → sizeBetween c 0 = true)
    (h1 : c.ext = false → sizeBetween c 1 = true) : complete (X691.string c 0 []) ≠ complete (X691.string c 1 [false]) := by
  -- both within the bounds
  have root : sizeBetween c 0 = true → sizeBetween c 1 = true → ∀ pos : Nat, ∃ P A B X Y : Bits,
      stringRoot c 0 [] pos = P ++ (A ++ X) ∧ stringRoot c 1 [false] pos = P ++ (B ++ Y) ∧ A.length = B.length ∧ A ≠ B := by
    intro s0 s1 pos
    obtain ⟨w1, _⟩ := sizeBetween_iff.1 s0
    obtain ⟨_, w2⟩ := sizeBetween_iff.1 s1
    have hlow : c.lower.getD 0 = 0 := by
      cases hl : c.lower with
      | none => rfl
      | some l => have := w1 l hl; simpa using this
    have hup : c.upper ≠ some 0 := fun e => by have := w2 0 e; omega
    have hfix : ¬ (c.lower = c.upper ∧ c.upper.any (· < 65536) = true) := by
      rintro ⟨e, e'⟩
      cases hu : c.upper with
      | none => rw [hu] at e'; cases e'
      | some u =>
        rw [hu] at e
        have := w1 u e
        have := w2 u hu
        omega
    obtain ⟨P, A, B, e1, e2, e3, e4⟩ := count_zero_one hup pos
    unfold stringRoot
    rw [if_neg hfix, if_neg hfix, hlow]
    simp only [andThen]
    rw [e1, e2]
    exact ⟨P, A, B, _, _, List.append_assoc .., List.append_assoc .., e3, e4⟩
  unfold X691.string
  cases he : c.ext with
  | false =>
    simp only [Bool.false_eq_true, if_false]
    obtain ⟨P, A, B, X, Y, e1, e2, e3, e4⟩ := root (h0 he) (h1 he) 0
    exact complete_ne e1 e2 e3 e4
  | true =>
    simp only [if_true]
    by_cases s0 : sizeBetween c 0 = true
    · rw [if_pos s0]
      by_cases s1 : sizeBetween c 1 = true
      · rw [if_pos s1]
        obtain ⟨P, A, B, X, Y, e1, e2, e3, e4⟩ := root s0 s1 1
        refine complete_ne (P := false :: P) (X := X) (Y := Y) ?_ ?_ e3 e4
        · show false :: stringRoot c 0 [] 1 = _
          rw [e1]; rfl
        · show false :: stringRoot c 1 [false] 1 = _
          rw [e2]; rfl
      · rw [if_neg s1]
        exact complete_ne (P := []) (A := [false]) (B := [true]) rfl rfl rfl (by decide)
    · rw [if_neg s0]
      by_cases s1 : sizeBetween c 1 = true
      · rw [if_pos s1]
        exact complete_ne (P := []) (A := [true]) (B := [false]) rfl rfl rfl (by decide)
      · rw [if_neg s1]
        exact complete_ne (P := true :: List.replicate 7 false) (A := bin 8 0) (B := bin 8 1) (X := []) (Y := [false])
          (by decide) (by decide) (by decide) (by decide)

theorem regularString_of {c : SizeC} {n : Nat} (ht : c.test n = true) (hn : n ≤ 16383) : regularString c n = true := by
  unfold regularString
  rw [ht]
  simp only [Bool.true_and]
  split
  · rename_i hs
    split
    · rename_i hf
      cases hu : c.upper with
      | none => rw [hu] at hf; simp at hf
      | some u =>
        have := (sizeBetween_iff.1 hs).1 u (by rw [hf.1, hu])
        simp
        omega
    · simp [hn]
  · simpa using hn

/-- BIT STRING: of the strings of up to 16383 bits only the empty one is not encoded as the standard says, unless the
size is always zero. -/
theorem bitString_exact_X691 {c : SizeC} {b : Bits} {fs : List BitField} (ht : c.test b.length = true)
    (hn : b.length ≤ 16383) (h : encodeBitstring c b = .ok fs) :
    produceCompleteEncoding fs = complete (bitString c b) ↔ b ≠ [] ∨ (c.ext = false ∧ c.upper = some 0) := by
  have reg : ∀ b : Bits, b ≠ [] → c.test b.length = true → b.length ≤ 16383 → regularBits c b = true := by
    intro b hne ht hn
    have he : b.isEmpty = false := by cases b with | nil => exact absurd rfl hne | cons => rfl
    unfold regularBits
    rw [he, regularString_of ht hn]
    rfl
  by_cases hb : b = []
  · subst hb
    simp only [ne_eq, not_true_eq_false, false_or]
    constructor
    · intro e
      by_cases hc : c.ext = false ∧ c.upper = some 0
      · exact hc
      exfalso
      have h' : encodeBitstring c [false] = .ok fs := h
      have s0 : c.ext = false → sizeBetween c 0 = true := fun he => sizeBetween_of_test he ht
      have s1 : c.ext = false → sizeBetween c 1 = true := by
        intro he
        obtain ⟨w1, w2⟩ := sizeBetween_iff.1 (s0 he)
        refine sizeBetween_iff.2 ⟨fun l hl => by have := w1 l hl; omega, fun u hu => ?_⟩
        have : u ≠ 0 := fun e => hc ⟨he, by rw [hu, e]⟩
        omega
      have t1 : c.test 1 = true := by
        cases he : c.ext with
        | true => simp [SizeC.test, he]
        | false =>
          have := s1 he
          unfold sizeBetween at this
          unfold SizeC.test
          cases hl : c.lower <;> cases hu : c.upper <;> simpa [hl, hu, he] using this
      have := complete_eq (bitstring_emits h' (reg [false] (by simp) t1 (by simp)))
      rw [← this] at e
      exact string_zero_one hc s0 s1 e.symm
    · rintro ⟨he, hu⟩
      have hs := sizeBetween_of_test he ht
      unfold encodeBitstring encodeBitstringRoot at h
      simp only [he, hu, Bool.false_eq_true, if_false, if_true, Except.ok.injEq] at h
      subst h
      have hw : X691.bitString c [] 0 = [] := by
        unfold X691.bitString X691.string stringRoot
        simp only [he, hu, Bool.false_eq_true, if_false, List.length_nil]
        cases hl : c.lower with
        | none => simp [count, constrained, short, andThen, nothing, bits, aligned]
        | some l =>
          have := (sizeBetween_iff.1 hs).1 l hl
          have : l = 0 := by simpa using this
          subst this
          rfl
      unfold complete
      rw [if_pos hw]
      rfl
  · exact ⟨fun _ => .inl hb, fun _ => (complete_eq (bitstring_emits h (reg b hb ht hn))).symm⟩

/-! ## OCTET STRING -/

/-- OCTET STRING: every string of up to 16383 octets with an upper bound below 64K, or none, is encoded as the standard
says, if it is a message of its own. -/
theorem octetString_exact_X691 {c : SizeC} {o : List UInt8} {fs : List BitField} (ht : c.test o.length = true)
    (hn : o.length ≤ 16383) (h64 : c.upper.all (· < 65536) = true) (h : encodeOctetstring c o = .ok fs) :
    produceCompleteEncoding fs = complete (octetString c o) := by
  have hreg := regularString_of ht hn
  by_cases ho : o = []
  · subst ho
    have hfirst := hreg
    unfold regularString at hfirst
    rw [ht, Bool.true_and] at hfirst
    unfold encodeOctetstring at h
    unfold X691.octetString X691.string
    have hdiv : (octetBits []).length / 8 = 0 := rfl
    simp only [hdiv] at h
    cases hext : c.ext with
    | false =>
      simp only [hext, Bool.false_eq_true, if_false] at h ⊢
      have hs := sizeBetween_of_test hext ht
      rw [if_pos hs] at hfirst
      by_cases h0 : c.upper = some 0
      · unfold encodeOctetstringRoot at h
        rw [if_pos h0] at h
        cases h
        have hw : stringRoot c 0 [] 0 = [] := by
          unfold stringRoot
          simp only [h0]
          cases hl : c.lower with
          | none => simp [count, constrained, short, andThen, nothing, bits, aligned]
          | some l =>
            have := (sizeBetween_iff.1 hs).1 l hl
            have : l = 0 := by simpa using this
            subst this
            rfl
        unfold complete
        simp only [List.length_nil, List.flatMap_nil]
        rw [if_pos hw]
        rfl
      · exact (complete_eq ((octetstringRoot_emits rfl h0 hs hfirst h64 (.inl ⟨rfl, rfl⟩) h).congr
          fun pos => nothing_andThen _ pos)).symm
    | true =>
      simp only [hext, if_true] at h ⊢
      obtain ⟨bl, e1, h⟩ := Except.bind_eq_ok h
      obtain ⟨rfl, hl, _⟩ := chainLe_size e1
      by_cases hs : sizeBetween c 0 = true
      · have hs' : sizeBetween c ([] : List UInt8).length = true := hs
        rw [if_pos hs'] at hfirst ⊢
        rw [if_pos hs] at h
        by_cases h0 : c.upper = some 0
        · unfold encodeOctetstringRoot at h
          rw [if_pos h0] at h
          cases h
          obtain ⟨l, hl⟩ := Option.isSome_iff_exists.1 hl
          have := (sizeBetween_iff.1 hs).1 l hl
          have : l = 0 := by simpa using this
          subst this
          have hw : (bits [false] ▹ stringRoot c 0 []) 0 = [false] := by
            unfold stringRoot
            simp only [h0, hl]
            rfl
          unfold complete
          simp only [List.length_nil, List.flatMap_nil]
          rw [hw]
          rfl
        · exact (complete_eq (octetstringRoot_emits rfl h0 hs hfirst h64 (.inr rfl) h)).symm
      · have hs' : ¬ sizeBetween c ([] : List UInt8).length = true := hs
        rw [if_neg hs'] at hfirst ⊢
        rw [if_neg hs] at h
        obtain ⟨f, e2, e3⟩ := lengthOf_emits (n := 0) (by omega) c.lowerZ none
        have e2' : encodeLengthDeterminant false false ((0 : Nat) : Int) c.lowerZ none = .ok [f] := e2
        rw [e2'] at h
        cases h
        exact (complete_eq (Emits.append (a := [⟨false, [true]⟩]) (b := [f, ⟨false, octetBits []⟩]) (Emits.bits _)
          (e3.afterLength _ _))).symm
  · have he : o.isEmpty = false := by cases o with | nil => exact absurd rfl ho | cons => rfl
    refine (complete_eq (octetstring_emits h ?_)).symm
    unfold regularOctets
    rw [hreg, h64, he]
    simp

end Verif
