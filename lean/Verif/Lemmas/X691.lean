import Verif.SpecX691
import Verif.Lemmas.Format
/-!
# The encoder against the reference
-/
namespace Verif
open X691

theorem bitsToNat_bin : ∀ w n : Nat, (bin w n).length = w ∧ bitsToNat (bin w n) = n % 2 ^ w
  | 0, n => by simp [bin, bitsToNat, Nat.mod_one]
  | w + 1, n => by
    obtain ⟨h1, h2⟩ := bitsToNat_bin w (n / 2)
    refine ⟨by simp [bin, h1], ?_⟩
    rw [bin, bitsToNat_append, h2]
    simp only [bitsToNat_cons, bitsToNat_nil, List.length_singleton, List.length_nil, Nat.pow_one, Nat.pow_zero]
    rw [Nat.pow_succ, Nat.mul_comm (2 ^ w) 2, Nat.mod_mul]
    have : n % 2 < 2 := Nat.mod_lt _ (by omega)
    by_cases h : n % 2 = 1
    · simp [h]; omega
    · have : n % 2 = 0 := by omega
      simp [this]; omega

theorem bin_eq (w n : Nat) : bin w n = natToBits w n := by
  obtain ⟨h1, h2⟩ := bitsToNat_bin w n
  exact bitsToNat_inj (by rw [h1, natToBits_length]) (by rw [h2, bitsToNat_natToBits])

/-- The fields, laid out from any position, are what the writer writes there. -/
def Emits (fs : List BitField) (w : Writer) : Prop := ∀ pos, emit pos fs = w pos

theorem Emits.nil : Emits [] nothing := fun _ => rfl

theorem Emits.append {a b : List BitField} {w w' : Writer} (h : Emits a w) (h' : Emits b w') :
    Emits (a ++ b) (w ▹ w') := fun pos => by rw [emit_append, h pos, h' _]; rfl

theorem Emits.bits (w : Bits) : Emits [⟨false, w⟩] (X691.bits w) := fun pos => by
  rw [emit_single, padTo_false, List.nil_append]; rfl

theorem Emits.aligned (w : Bits) : Emits [⟨true, w⟩] (X691.aligned w) := fun pos => by
  rw [emit_single]; rfl

theorem Emits.cons {f : BitField} {b : List BitField} {w w' : Writer} (h : Emits [f] w) (h' : Emits b w') :
    Emits (f :: b) (w ▹ w') := Emits.append (a := [f]) h h'

theorem Emits.congr {fs : List BitField} {w w' : Writer} (h : Emits fs w) (e : ∀ pos, w pos = w' pos) : Emits fs w' :=
  fun pos => (h pos).trans (e pos)

theorem aligned_at {w : Bits} {pos : Nat} (h : pos % 8 = 0) : X691.aligned w pos = w := by
  unfold X691.aligned
  rw [h]; rfl

theorem andThen_nothing (w : Writer) (pos : Nat) : (w ▹ nothing) pos = w pos := by
  simp [andThen, nothing, X691.bits]

theorem nothing_andThen (w : Writer) (pos : Nat) : (nothing ▹ w) pos = w pos := by
  simp [andThen, nothing, X691.bits]

theorem andThen_assoc (a b c : Writer) (pos : Nat) : ((a ▹ b) ▹ c) pos = (a ▹ (b ▹ c)) pos := by
  simp [andThen, List.append_assoc, Nat.add_assoc]

/-! ## whole numbers -/

theorem short_cwn {n lb ub : Int} (h1 : lb ≤ n) (h2 : n ≤ ub) (hr : ub - lb + 1 ≤ 65536) :
    ∃ f, encodeConstrainedWholeNumber n (some lb) (some ub) = .ok f ∧
      Emits [f] (short (ub - lb + 1).toNat (n - lb).toNat) := by
  refine ⟨_, (cwn_roundtrip h1 h2 hr).1, ?_⟩
  unfold short cwnWidth
  generalize hR : (ub - lb + 1).toNat = r
  by_cases c1 : r = 1
  · subst c1
    have : ¬ 256 ≤ ub - lb + 1 := by omega
    simp [this, natToBits]
    exact Emits.bits []
  · rw [if_neg c1, if_neg (by omega)]
    by_cases c2 : r ≤ 255
    · have : ¬ 256 ≤ ub - lb + 1 := by omega
      simp only [c2, if_true, this, decide_false]
      rw [bin_eq]
      exact Emits.bits _
    · have : 256 ≤ ub - lb + 1 := by omega
      simp only [c2, if_false, this, decide_true]
      by_cases c3 : r = 256
      · simp only [c3, if_true, Nat.le_refl, bin_eq]
        exact Emits.aligned _
      · rw [if_neg (by omega), if_neg c3, bin_eq]
        exact Emits.aligned _

theorem leastOctets_unique {k n : Nat} (h : Spec.LeastOctets k n) : k = leastOctets n := by
  have h' := leastOctets_log2 n
  have := h.2.2 _ h'.1 h'.2.1
  have := h'.2.2 _ h.1 h.2.1
  unfold leastOctets
  omega

theorem minOctets_bin (n : Nat) : minOctets n = bin (8 * leastOctets n) n := by
  obtain ⟨h1, h2⟩ := bitsToNat_bin (8 * leastOctets n) n
  apply bitsToNat_inj
  · rw [h1, minOctets_length]; rfl
  · rw [h2, bitsToNat_minOctets, Nat.mod_eq_of_lt]
    exact (leastOctets_log2 n).2.1

theorem constrained_emits {n lb ub : Int} (h1 : lb ≤ n) (h2 : n ≤ ub) (hr : Spec.unsignedFits 65536 (ub - lb) = true) :
    ∃ fs, fieldListConstrained n (some lb) (some ub) = .ok fs ∧ Emits fs (constrained lb ub n) := by
  unfold constrained
  rcases Int.lt_or_le 65536 (ub - lb + 1) with hR | hR
  · rw [if_neg (by omega)]
    have hmost := leastOctets_range (r := ub - lb) (by omega)
    have hk := minOctets_octets (n - lb).toNat
    have hle : leastOctets (n - lb).toNat ≤ leastOctets (ub - lb).toNat := by
      unfold leastOctets
      have := log2_mono (a := (n - lb).toNat) (b := (ub - lb).toNat) (by omega)
      omega
    have hlim : leastOctets (ub - lb).toNat ≤ 65536 := by
      have : (ub - lb).toNat.log2 < 8 * 65536 := by simpa [Spec.unsignedFits] using hr
      unfold leastOctets; omega
    have h1' : 1 ≤ leastOctets (n - lb).toNat := by unfold leastOctets; omega
    obtain ⟨f, e1, e2⟩ := short_cwn (n := ((leastOctets (n - lb).toNat : Nat) : Int)) (lb := 1)
      (ub := ((leastOctets (ub - lb).toNat : Nat) : Int)) (by omega) (by omega) (by omega)
    refine ⟨[f] ++ [⟨true, minOctets (n - lb).toNat⟩], ?_, ?_⟩
    · unfold fieldListConstrained integerRange
      simp only [encodeCwn_large h1 hR, needInt, bind, Except.bind]
      rw [if_neg (by omega)]
      unfold encodeLengthDeterminant
      simp only [Bool.false_eq_true, if_false, if_true, bind, Except.bind]
      rw [hk, leastOctets_unique hmost]
      unfold leastOctets at e1 ⊢
      rw [e1]; rfl
    · refine Emits.append ?_ (by rw [← minOctets_bin]; exact Emits.aligned _)
      have a1 : (((leastOctets (ub - lb).toNat : Nat) : Int) - 1 + 1).toNat = leastOctets (ub - lb).toNat := by omega
      have a2 : (((leastOctets (n - lb).toNat : Nat) : Int) - 1).toNat = leastOctets (n - lb).toNat - 1 := by omega
      rw [a1, a2] at e2
      exact e2
  · rw [if_pos hR]
    obtain ⟨f, e1, e2⟩ := short_cwn h1 h2 hR
    refine ⟨[f], ?_, e2⟩
    unfold fieldListConstrained integerRange
    simp only [needInt, e1, bind, Except.bind, if_pos hR]
    rfl

theorem lengthOf_emits {n : Nat} (h : n ≤ 16383) (lb ub : Option Int) :
    ∃ f, encodeLengthDeterminant false false (n : Int) lb ub = .ok [f] ∧ Emits [f] (lengthOf n) := by
  unfold lengthOf
  by_cases h1 : n < 128
  · rw [if_pos h1]
    have hlt : (n : Int).toNat < 2 ^ 7 := by simp; omega
    refine ⟨⟨true, [false] ++ natToBits 7 n⟩, ?_, ?_⟩
    · unfold encodeLengthDeterminant
      simp only [Bool.false_eq_true, if_false]
      rw [if_pos (by omega), encodeNN_fixed (s := ⟨0, 7⟩) (by omega) true (by simp) hlt]
      rfl
    · have : bin 8 n = [false] ++ natToBits 7 n := by
        rw [bin_eq]
        apply bitsToNat_inj (by simp [natToBits_length])
        have a : n < 2 ^ 7 := by omega
        have b : n < 2 ^ 8 := by omega
        rw [bitsToNat_append, bitsToNat_natToBits_of_lt a, bitsToNat_natToBits_of_lt b]
        simp [bitsToNat]
      rw [this]
      exact Emits.aligned _
  · rw [if_neg h1]
    have hlt : (n : Int).toNat < 2 ^ 14 := by simp; omega
    refine ⟨⟨true, [true, false] ++ natToBits 14 n⟩, ?_, ?_⟩
    · unfold encodeLengthDeterminant
      simp only [Bool.false_eq_true, if_false]
      rw [if_neg (by omega), if_pos (by omega), encodeNN_fixed (s := ⟨1, 6⟩) (by omega) true (by simp) hlt]
      rfl
    · rw [bin_eq]
      exact Emits.aligned _

theorem semi_emits {n lb : Int} (h0 : lb ≤ n) (h1 : Spec.unsignedFits 16383 (n - lb) = true) :
    ∃ f g, encodeSemiConstrainedWholeNumber n lb = .ok g ∧
      encodeLengthDeterminant false false ((g.value.length / 8 : Nat) : Int) (some 1) none = .ok [f] ∧
      Emits [f, g] (semiConstrained lb n) := by
  have hl : (n - lb).toNat.log2 < 8 * 16383 := by simpa [Spec.unsignedFits] using h1
  obtain ⟨f, e1, e2⟩ := lengthOf_emits (n := leastOctets (n - lb).toNat) (by unfold leastOctets; omega) (some 1) none
  refine ⟨f, ⟨true, minOctets (n - lb).toNat⟩, encodeNN_min (by omega) _ _, ?_, ?_⟩
  · rw [show (minOctets (n - lb).toNat).length / 8 = leastOctets (n - lb).toNat from minOctets_octets _]
    exact e1
  · refine Emits.cons e2 ?_
    rw [← minOctets_bin]
    exact Emits.aligned _

theorem normallySmall_emits {n : Nat} (h : Spec.unsignedFits 16383 n = true) :
    ∃ fs, encodeNormallySmall n 0 = .ok fs ∧ Emits fs (normallySmall n) := by
  unfold normallySmall
  by_cases h63 : n ≤ 63
  · rw [if_pos h63]
    have hlt : (n : Int).toNat < 2 ^ 6 := by simp; omega
    refine ⟨[⟨false, [false]⟩, ⟨false, natToBits 6 n⟩], ?_, ?_⟩
    · unfold encodeNormallySmall
      rw [if_pos (by omega), encodeNN_fixed (s := ⟨0, 6⟩) (by omega) false (by simp) hlt]
      rfl
    · intro pos
      rw [bin_eq]
      simp [emit, padTo_false, X691.bits]
  · rw [if_neg h63]
    obtain ⟨f, g, e1, e2, e3⟩ := semi_emits (n := (n : Int)) (lb := 0) (by omega) (by simpa using h)
    refine ⟨[⟨false, [true]⟩] ++ [f] ++ [g], ?_, ?_⟩
    · unfold encodeNormallySmall
      rw [if_neg (by omega), e1]
      simp only [bind, Except.bind]
      rw [e2]
      rfl
    · exact Emits.append (a := [⟨false, [true]⟩]) (b := [f, g]) (Emits.bits _) e3

theorem normallySmallLength_emits {n : Nat} {fs : List BitField} (h0 : 1 ≤ n) (lb ub : Option Int)
    (h : encodeLengthDeterminant true false (n : Int) lb ub = .ok fs) : Emits fs (normallySmallLength n) := by
  by_cases h1 : n ≤ 64
  · rw [(normallySmallLen_roundtrip (n := (n : Int)) (by omega) (by omega) lb ub).1] at h
    cases h
    unfold normallySmallLength
    rw [if_pos h1, bin_eq]
    intro pos
    have : ((n : Int) - 1).toNat = n - 1 := by omega
    simp [emit, padTo_false, X691.bits, this]
  · unfold encodeLengthDeterminant at h
    rw [if_pos rfl, if_neg (by omega)] at h
    cases h

theorem leastTwosOctets_eq (z : Int) : getTwosComplementOctetLen z = leastTwosOctets z := by
  obtain ⟨h1, h2, h3, h4⟩ := getTwosComplementOctetLen_spec z
  generalize getTwosComplementOctetLen z = k at *
  -- the number whose bits count
  have key : ∀ j : Nat, (z < 2 ^ j ∧ -(2 ^ j) ≤ z) ↔ (if 0 ≤ z then z.toNat else (-z - 1).toNat) < 2 ^ j := by
    intro j
    have e : ((2 ^ j : Nat) : Int) = 2 ^ j := by simp [Int.natCast_pow]
    have hp : 0 < 2 ^ j := Nat.two_pow_pos j
    rw [← e]
    split <;> omega
  unfold leastTwosOctets
  dsimp only
  generalize (if 0 ≤ z then z.toNat else (-z - 1).toNat) = m at key
  have a : m < 2 ^ (k * 8 - 1) := (key _).1 ⟨h1, h2⟩
  have b : 1 < k → ¬ m < 2 ^ ((k - 1) * 8 - 1) := by
    intro hk hlt
    have := (key _).2 hlt
    rcases h4 hk with h | h <;> omega
  by_cases hm : m = 0
  · subst hm
    simp only [if_true]
    rcases Nat.lt_or_ge 1 k with hk | hk
    · exact absurd (Nat.two_pow_pos _) (b hk)
    · omega
  · rw [if_neg hm]
    have a' := (Nat.log2_lt hm).2 a
    rcases Nat.lt_or_ge 1 k with hk | hk
    · have b' := b hk
      rw [← Nat.log2_lt hm] at b'
      omega
    · omega

theorem twosFits_leastTwosOctets {k : Nat} {z : Int} (hk : 1 ≤ k) (h : Spec.twosFits k z = true) :
    leastTwosOctets z ≤ k := by rw [← leastTwosOctets_eq]; exact twosFits_len hk h

theorem unconstrained_emits {z : Int} (h : Spec.twosFits 127 z = true) :
    Emits (fieldListUnconstrained z) (unconstrained z) := by
  have hk := twosFits_leastTwosOctets (by omega) h
  obtain ⟨h1, h2, h3, _⟩ := getTwosComplementOctetLen_spec z
  unfold fieldListUnconstrained unconstrained
  simp only
  rw [leastTwosOctets_eq] at *
  generalize leastTwosOctets z = k at *
  have hcomm : k * 8 = 8 * k := by omega
  rw [hcomm] at h1 h2
  rw [encodeTwosComplement_eq (by omega) h1 h2, zfill_pyBin (by omega) (by omega)]
  intro pos
  unfold lengthOf
  rw [if_pos (by omega), emit_single, bin_eq, bin_eq]
  have hal : (pos + (X691.aligned (natToBits 8 k) pos).length) % 8 = 0 := by
    have := add_padLen_mod pos
    unfold padLen at this
    simp only [X691.aligned, List.length_append, List.length_replicate, natToBits_length]
    omega
  unfold andThen
  rw [aligned_at hal, ← List.append_assoc]
  rfl

/-! ## INTEGER -/

theorem integer_emits {c : Constr} {z : Int} {fs : List BitField} (h : encodeInteger c z = .ok fs)
    (hr : regularInt c z = true) : Emits fs (integer c.ext c.lower c.upper z) := by
  unfold regularInt at hr
  simp only [Bool.and_eq_true] at hr
  obtain ⟨⟨hp, ht⟩, hr⟩ := hr
  unfold encodeInteger at h
  unfold integer
  cases he : c.ext with
  | true =>
    rw [he] at hr
    simp only [he, if_true] at h ⊢
    cases hl : c.lower with
    | none => rw [hl] at h; simp [chainLe, needInt, bind, Except.bind] at h
    | some l =>
      cases hu : c.upper with
      | none =>
        rw [hl, hu] at hr h
        simp only at hr
        by_cases hz : l ≤ z
        · simp [chainLe, needInt, bind, Except.bind, hz] at h
        · simp [chainLe, needInt, bind, Except.bind, pure, Except.pure, hz] at h
          subst h
          simp only [between, hz, decide_false, Bool.false_and, Bool.false_eq_true, if_false]
          exact Emits.cons (Emits.bits _) (unconstrained_emits hr)
      | some u =>
        rw [hl, hu] at hr h
        simp only at hr
        by_cases hin : l ≤ z ∧ z ≤ u
        · rw [if_pos hin] at hr
          obtain ⟨fl, e1, e2⟩ := constrained_emits hin.1 hin.2 hr
          simp [chainLe, needInt, bind, Except.bind, pure, Except.pure, hin.1, hin.2, e1] at h
          subst h
          simp only [between, hin.1, hin.2, decide_true, Bool.and_self, if_true, integerRoot]
          exact Emits.cons (Emits.bits _) e2
        · rw [if_neg hin] at hr
          have hch : chainLe (some l) (some u) z = .ok false := by
            by_cases hz : l ≤ z
            · have : ¬ z ≤ u := fun hh => hin ⟨hz, hh⟩
              simp [chainLe, needInt, bind, Except.bind, pure, Except.pure, hz, this]
            · simp [chainLe, needInt, bind, Except.bind, pure, Except.pure, hz]
          rw [hch] at h
          simp only [bind, Except.bind, Bool.false_eq_true, if_false, pure, Except.pure, Except.ok.injEq] at h
          subst h
          have hbt : between (some l) (some u) z = false := by
            simp only [between, Bool.and_eq_false_iff, decide_eq_false_iff_not]
            by_cases hz : l ≤ z
            · exact .inr fun hh => hin ⟨hz, hh⟩
            · exact .inl hz
          rw [hbt, if_neg (by decide)]
          exact Emits.cons (Emits.bits _) (unconstrained_emits hr)
  | false =>
    rw [he] at hr
    simp only [he, Bool.false_eq_true, if_false] at h ⊢
    have hb := lower_upper_cover hp he ht
    cases hl : c.lower with
    | none =>
      rw [hl] at hr h
      simp only at hr
      cases h
      exact unconstrained_emits hr
    | some l =>
      have hlz : l ≤ z := by have := hb.1; rw [hl] at this; simpa [leLo] using this
      cases hu : c.upper with
      | none =>
        rw [hl, hu] at hr h
        obtain ⟨f, g, e1, e2, e3⟩ := semi_emits hlz (by simpa using hr)
        simp only [e1, bind, Except.bind] at h
        rw [e2] at h
        cases h
        exact e3
      | some u =>
        rw [hl, hu] at hr h
        have huz : z ≤ u := by have := hb.2; rw [hu] at this; simpa [leHi] using this
        obtain ⟨fl, e1, e2⟩ := constrained_emits hlz huz (by simpa using hr)
        simp only [e1] at h
        cases h
        exact e2

/-! ## ENUMERATED -/

theorem map_range_get {l : List (String × Int)} {off : Nat} {n : Nat}
    (h : l.map (·.2) = (List.range' off n).map Int.ofNat) :
    ∀ z : Int, l.any (fun p => p.2 == z) = true →
      ∃ i, z = ((off + i : Nat) : Int) ∧ i < n ∧ rank l z = i ∧ (l.map (·.2)).findIdx? (· == z) = some i := by
  induction l generalizing off n with
  | nil => intro z hz; simp at hz
  | cons p l ih =>
    intro z hz
    cases n with
    | zero => simp at h
    | succ n =>
      rw [List.range'_succ] at h
      simp only [List.map_cons, List.cons.injEq] at h
      obtain ⟨hp, ht⟩ := h
      by_cases hpz : p.2 = z
      · refine ⟨0, by rw [← hpz, hp]; simp, by omega, ?_, by simp [List.findIdx?_cons, hpz]⟩
        unfold rank
        rw [List.length_eq_zero_iff, List.filter_eq_nil_iff]
        intro q hq
        simp only [List.mem_cons] at hq
        rcases hq with rfl | hq
        · simp [hpz]
        · have hm : q.2 ∈ (List.range' (off + 1) n).map Int.ofNat := by rw [← ht]; exact List.mem_map_of_mem hq
          obtain ⟨j, hj, hjq⟩ := List.mem_map.1 hm
          rw [List.mem_range'_1] at hj
          simp only [decide_eq_true_eq]
          rw [← hpz, hp, ← hjq]
          simp only [Int.ofNat_eq_natCast]
          omega
      · have hz' : l.any (fun p => p.2 == z) = true := by
          simpa [hpz] using hz
        obtain ⟨i, e1, e2, e3, e4⟩ := ih ht z hz'
        refine ⟨i + 1, by rw [e1]; congr 1; omega, by omega, ?_, ?_⟩
        · unfold rank at e3 ⊢
          rw [List.filter_cons_of_pos, List.length_cons, e3]
          simp only [decide_eq_true_eq]
          rw [hp, e1]
          simp only [Int.ofNat_eq_natCast]
          omega
        · rw [List.map_cons, List.findIdx?_cons]
          simp [hpz, e4]

theorem enumerated_emits {ext : Bool} {root add : List (String × Int)} {z : Int} {fs : List BitField}
    (h : encodeEnumerated ext root add z = .ok fs) (hr : regularEnum ext root add z = true) :
    Emits fs (X691.enumerated ext root add z) := by
  unfold regularEnum at hr
  simp only [Bool.and_eq_true, beq_iff_eq] at hr
  obtain ⟨⟨hnum, hz⟩, hlim⟩ := hr
  have hlog : (root ++ add).length.log2 < 8 * 16383 := by
    simp only [Spec.unsignedFits, decide_eq_true_eq, Int.toNat_natCast] at hlim
    exact hlim
  have fits : ∀ n : Nat, n ≤ (root ++ add).length → Spec.unsignedFits 65536 ((n : Int) - 1 - 0) = true ∧
      Spec.unsignedFits 16383 (n : Int) = true := by
    intro n hn
    have := log2_mono hn
    have := log2_mono (a := ((n : Int) - 1 - 0).toNat) (b := n) (by omega)
    simp only [Spec.unsignedFits, decide_eq_true_eq, Int.toNat_natCast]
    omega
  rw [List.range_eq_range'] at hnum
  unfold encodeEnumerated at h
  unfold X691.enumerated
  cases ext with
  | false =>
    simp only [Bool.not_false, if_true, Bool.false_eq_true, if_false] at h ⊢
    obtain ⟨i, e1, e2, e3, _⟩ := map_range_get hnum z hz
    obtain ⟨fl, f1, f2⟩ := constrained_emits (n := z) (lb := 0) (ub := ((root ++ add).length : Int) - 1)
      (by omega) (by omega) (fits _ (Nat.le_refl _)).1
    rw [f1] at h
    cases h
    rw [e3]
    rw [show z = (i : Int) by omega] at f2
    exact f2
  | true =>
    simp only [Bool.not_true, Bool.false_eq_true, if_false, if_true] at h ⊢
    rw [List.map_append, List.length_append] at hnum
    have hsplit : (List.range' 0 (root.length + add.length)).map Int.ofNat =
        (List.range' 0 root.length).map Int.ofNat ++ (List.range' root.length add.length).map Int.ofNat := by
      rw [← List.map_append, ← List.range'_append_1]
      simp
    rw [hsplit] at hnum
    obtain ⟨hroot, hadd⟩ := List.append_inj hnum (by simp)
    rw [contains_map_snd] at h
    by_cases hin : root.any (fun p => p.2 == z) = true
    · rw [if_pos hin] at h ⊢
      obtain ⟨i, e1, e2, e3, _⟩ := map_range_get hroot z hin
      obtain ⟨fl, f1, f2⟩ := constrained_emits (n := z) (lb := 0) (ub := (root.length : Int) - 1)
        (by omega) (by omega) (fits root.length (by simp)).1
      rw [f1] at h
      cases h
      rw [e3]
      rw [show z = (i : Int) by omega] at f2
      exact Emits.cons (Emits.bits _) f2
    · rw [if_neg hin] at h ⊢
      have hin' : add.any (fun p => p.2 == z) = true := by
        rw [List.any_append] at hz
        simpa [hin] using hz
      obtain ⟨i, e1, e2, e3, e4⟩ := map_range_get hadd z hin'
      rw [e4] at h
      obtain ⟨fl, f1, f2⟩ := normallySmall_emits (n := i) (fits i (by simp; omega)).2
      simp only [f1, bind, Except.bind] at h
      cases h
      rw [e3]
      exact Emits.cons (Emits.bits _) f2

/-! ## counts -/

theorem chainLe_size {c : SizeC} {n : Nat} {b : Bool} (h : chainLe c.lowerZ c.upperZ (n : Int) = .ok b) :
    b = sizeBetween c n ∧ c.lower.isSome = true ∧ (b = true → c.upper.isSome = true) := by
  unfold SizeC.lowerZ SizeC.upperZ at h
  unfold sizeBetween
  cases hl : c.lower with
  | none => rw [hl] at h; simp [chainLe, needInt, bind, Except.bind] at h
  | some l =>
    rw [hl] at h
    by_cases hn : l ≤ n
    · cases hu : c.upper with
      | none =>
        rw [hu] at h
        simp [chainLe, needInt, bind, Except.bind, pure, Except.pure, hn] at h
      | some u =>
        rw [hu] at h
        simp [chainLe, needInt, bind, Except.bind, pure, Except.pure, hn] at h
        simp [hn, ← h]
    · simp [chainLe, needInt, bind, Except.bind, pure, Except.pure, hn] at h
      subst h
      simp [hn]

theorem sizeBetween_iff {c : SizeC} {n : Nat} : sizeBetween c n = true ↔ c.within n := by
  unfold sizeBetween SizeC.within
  cases c.lower <;> cases c.upper <;> simp

theorem sizeBetween_of_test {c : SizeC} {n : Nat} (he : c.ext = false) (h : c.test n = true) :
    sizeBetween c n = true := sizeBetween_iff.2 (SizeC.within_of_test he h)

/-- A count below 64K. -/
theorem count_emits {n l u : Nat} (h1 : l ≤ n) (h2 : n ≤ u) (hu : u < 65536) :
    ∃ f, encodeLengthDeterminant false true (n : Int) (some (l : Int)) (some (u : Int)) = .ok [f] ∧
      Emits [f] (count l (some u) n) := by
  obtain ⟨f, e1, e2⟩ := short_cwn (n := (n : Int)) (lb := (l : Int)) (ub := (u : Int)) (by omega) (by omega) (by omega)
  refine ⟨f, ?_, ?_⟩
  · unfold encodeLengthDeterminant
    simp only [Bool.false_eq_true, if_false, if_true, e1, bind, Except.bind]
    rfl
  · unfold count constrained
    simp only [hu, if_true]
    rw [if_pos (by omega)]
    exact e2

/-- The second field may be aligned or not, the first one ends at an octet boundary. -/
theorem lengthOf_mod (n pos : Nat) : (pos + (lengthOf n pos).length) % 8 = 0 := by
  have := add_padLen_mod pos
  unfold padLen at this
  unfold lengthOf
  split <;> simp only [X691.aligned, bin_eq, List.length_append, List.length_replicate, natToBits_length,
    List.length_cons, List.length_nil] <;> omega

theorem Emits.afterLength {f : BitField} {n : Nat} (h : Emits [f] (lengthOf n)) (b : Bool) (w : Bits) :
    Emits [f, ⟨b, w⟩] (lengthOf n ▹ X691.aligned w) := by
  intro pos
  have hm := lengthOf_mod n pos
  rw [show [f, (⟨b, w⟩ : BitField)] = [f] ++ [⟨b, w⟩] from rfl, emit_append, h pos, emit_single]
  unfold andThen
  rw [aligned_at hm, padTo_aligned hm, List.nil_append]

theorem withExt_emits {e : Option BitField} {fl : List BitField} {b : Bits} {w : Writer}
    (he : e = none ∧ b = [] ∨ e = some ⟨false, b⟩) (h : Emits fl w) : Emits (withExt e fl) (X691.bits b ▹ w) := by
  rcases he with ⟨rfl, rfl⟩ | rfl
  · exact h.congr fun pos => (nothing_andThen w pos).symm
  · exact Emits.cons (Emits.bits _) h

/-! ## BIT STRING and OCTET STRING -/

theorem asBinary_of_ne {b : Bits} (h : b ≠ []) : asBinary b = b := by
  cases b with
  | nil => exact absurd rfl h
  | cons => rfl

theorem bitstringRoot_emits {c : SizeC} {b : Bits} {e : Option BitField} {x : Bits} {fs : List BitField} (hne : b ≠ [])
    (hs : sizeBetween c b.length = true)
    (hr : (if c.lower = c.upper ∧ c.upper.isSome then c.upper.any (· < 65536)
      else c.upper.any (· < 65536) || decide (b.length ≤ 16383)) = true)
    (he : e = none ∧ x = [] ∨ e = some ⟨false, x⟩) (h : encodeBitstringRoot c b e = .ok fs) :
    Emits fs (X691.bits x ▹ stringRoot c b.length b) := by
  obtain ⟨w1, w2⟩ := sizeBetween_iff.1 hs
  have hp := List.length_pos_iff.2 hne
  unfold encodeBitstringRoot at h
  unfold stringRoot
  have h0 : ¬ c.upper = some 0 := fun h0 => by have := w2 0 h0; omega
  rw [if_neg h0] at h
  cases hu : c.upper with
  | none =>
    simp only [hu, Option.isSome_none, Bool.false_eq_true, and_false, if_false, Option.any_none, Bool.false_or,
      decide_eq_true_eq] at hr h ⊢
    rw [if_neg (by rintro ⟨a, b⟩; exact a b)] at h
    obtain ⟨f, e1, e2⟩ := lengthOf_emits hr (some 0) none
    rw [e1] at h
    cases h
    exact withExt_emits he (e2.afterLength _ _)
  | some u =>
    have hbu := w2 u hu
    rw [hu] at h hr
    simp only [Option.isSome_some, and_true, Option.any_some] at hr ⊢
    by_cases hfix : c.lower = some u
    · rw [if_pos ⟨by rw [hfix]; simp, hfix⟩] at h
      rw [if_pos hfix] at hr
      have hlu := w1 u hfix
      have hbeq : b.length = u := by omega
      have hu' : u < 65536 := by simpa using hr
      rw [if_pos ⟨hfix, hr⟩]
      by_cases h16 : b.length ≤ 16
      · rw [if_pos h16] at h ⊢
        cases h
        exact withExt_emits he (Emits.bits _)
      · rw [if_neg h16] at h ⊢
        rw [if_pos (by omega)] at h
        cases h
        exact withExt_emits he (Emits.aligned _)
    · rw [if_neg (by rintro ⟨_, b⟩; exact hfix b)] at h
      rw [if_neg hfix] at hr
      rw [if_neg (by rintro ⟨b, _⟩; exact hfix b)]
      dsimp only at h
      by_cases hu64 : u < 65536
      · rw [if_pos hu64] at h
        cases hl : c.lower with
        | none =>
          simp [SizeC.lowerZ, SizeC.upperZ, hl, hu, encodeLengthDeterminant, encodeConstrainedWholeNumber, needInt, bind,
            Except.bind] at h
        | some l =>
          obtain ⟨f, e1, e2⟩ := count_emits (w1 l hl) hbu hu64
          simp only [SizeC.lowerZ, SizeC.upperZ, hl, hu, Option.map_some, Int.ofNat_eq_natCast] at h
          rw [e1] at h
          cases h
          exact withExt_emits he (Emits.append (a := [f]) e2 (Emits.aligned _))
      · rw [if_neg hu64] at h
        have h16 : b.length ≤ 16383 := by simpa [hu64] using hr
        obtain ⟨f, e1, e2⟩ := lengthOf_emits h16 (some 0) none
        rw [e1] at h
        cases h
        refine withExt_emits he ?_
        simp only [count, hu64, if_false]
        exact e2.afterLength _ _

theorem bitstring_emits {c : SizeC} {b : Bits} {fs : List BitField} (h : encodeBitstring c b = .ok fs)
    (hr : regularBits c b = true) : Emits fs (X691.bitString c b) := by
  unfold regularBits regularString at hr
  simp only [Bool.and_eq_true] at hr
  obtain ⟨⟨ht, hr⟩, hempty⟩ := hr
  unfold encodeBitstring at h
  unfold X691.bitString X691.string
  cases b with
  | nil =>
    simp at hempty
    simp only [hempty.2, Bool.false_eq_true, if_false] at h ⊢
    unfold encodeBitstringRoot at h
    rw [if_pos hempty.1.2] at h
    cases h
    unfold stringRoot
    simp [hempty.1]
    exact Emits.nil
  | cons x b =>
    have hne : x :: b ≠ [] := by simp
    rw [asBinary_of_ne hne] at h
    generalize hbb : x :: b = b' at *
    cases hext : c.ext with
    | false =>
      simp only [hext, Bool.false_eq_true, if_false] at h ⊢
      have hs := sizeBetween_of_test hext ht
      rw [if_pos hs] at hr
      exact (bitstringRoot_emits hne hs hr (.inl ⟨rfl, rfl⟩) h).congr fun pos => nothing_andThen _ pos
    | true =>
      simp only [hext, if_true] at h ⊢
      obtain ⟨bl, e1, h⟩ := Except.bind_eq_ok h
      obtain ⟨rfl, _, _⟩ := chainLe_size e1
      by_cases hs : sizeBetween c b'.length = true
      · rw [if_pos hs] at hr h ⊢
        exact bitstringRoot_emits hne hs hr (.inr rfl) h
      · rw [if_neg hs] at hr h ⊢
        obtain ⟨f, e2, e3⟩ := lengthOf_emits (n := b'.length) (by simpa using hr) (some 0) none
        rw [e2] at h
        cases h
        exact Emits.append (a := [⟨false, [true]⟩]) (b := [f, ⟨true, b'⟩]) (Emits.bits _) (e3.afterLength _ _)

theorem octetstringRoot_emits {c : SizeC} {n : Nat} {b : Bits} {e : Option BitField} {x : Bits} {fs : List BitField}
    (hbn : b.length = 8 * n) (h0 : ¬ c.upper = some 0) (hs : sizeBetween c n = true)
    (hr : (if c.lower = c.upper ∧ c.upper.isSome then c.upper.any (· < 65536)
      else c.upper.any (· < 65536) || decide (n ≤ 16383)) = true)
    (hu64 : c.upper.all (· < 65536) = true)
    (he : e = none ∧ x = [] ∨ e = some ⟨false, x⟩) (h : encodeOctetstringRoot c b e = .ok fs) :
    Emits fs (X691.bits x ▹ stringRoot c n b) := by
  obtain ⟨w1, w2⟩ := sizeBetween_iff.1 hs
  have hdiv : b.length / 8 = n := by omega
  unfold encodeOctetstringRoot at h
  unfold stringRoot
  simp only [hdiv] at h
  rw [if_neg h0] at h
  cases hu : c.upper with
  | none =>
    simp only [hu, Option.isSome_none, Bool.false_eq_true, and_false, if_false, Option.any_none, Bool.false_or,
      decide_eq_true_eq] at hr h ⊢
    rw [if_neg (by rintro ⟨a, b⟩; exact a b)] at h
    obtain ⟨f, e1, e2⟩ := lengthOf_emits hr (some 0) none
    rw [e1] at h
    cases h
    exact withExt_emits he (e2.afterLength _ _)
  | some u =>
    have hbu := w2 u hu
    rw [hu] at h hr hu64
    simp only [Option.isSome_some, and_true, Option.any_some, Option.all_some] at hr hu64 ⊢
    have hu' : u < 65536 := by simpa using hu64
    by_cases hfix : c.lower = some u
    · rw [if_pos ⟨by rw [hfix]; simp, hfix⟩] at h
      rw [if_pos ⟨hfix, hu64⟩]
      by_cases h16 : n ≤ 2
      · rw [if_pos h16] at h
        rw [if_pos (by omega)]
        cases h
        exact withExt_emits he (Emits.bits _)
      · rw [if_neg h16, if_pos (by omega)] at h
        rw [if_neg (by omega)]
        cases h
        exact withExt_emits he (Emits.aligned _)
    · rw [if_neg (by rintro ⟨_, b⟩; exact hfix b)] at h
      rw [if_neg (by rintro ⟨b, _⟩; exact hfix b)]
      dsimp only at h
      cases hl : c.lower with
      | none =>
        simp [SizeC.lowerZ, SizeC.upperZ, hl, hu, encodeLengthDeterminant, encodeConstrainedWholeNumber, needInt, bind,
          Except.bind] at h
      | some l =>
        obtain ⟨f, e1, e2⟩ := count_emits (w1 l hl) hbu hu'
        simp only [SizeC.lowerZ, SizeC.upperZ, hl, hu, Option.map_some, Int.ofNat_eq_natCast] at h
        rw [e1] at h
        cases h
        exact withExt_emits he (Emits.append (a := [f]) e2 (Emits.aligned _))

theorem octetstring_emits {c : SizeC} {o : List UInt8} {fs : List BitField} (h : encodeOctetstring c o = .ok fs)
    (hr : regularOctets c o = true) : Emits fs (X691.octetString c o) := by
  unfold regularOctets regularString at hr
  simp only [Bool.and_eq_true] at hr
  obtain ⟨⟨⟨ht, hr⟩, h64⟩, hempty⟩ := hr
  unfold encodeOctetstring at h
  unfold X691.octetString X691.string
  have hb : (o.flatMap fun x => bin 8 x.toNat) = octetBits o := by
    unfold octetBits
    rw [octetBits_eq]
    unfold bytesToBits
    simp only [bin_eq]
  have hlen : (octetBits o).length = 8 * o.length := by
    unfold octetBits
    rw [octetBits_eq, bytesToBits_length]
  have hdiv : (octetBits o).length / 8 = o.length := by omega
  rw [hb]
  simp only [hdiv] at h
  cases hext : c.ext with
  | false =>
    simp only [hext, Bool.false_eq_true, if_false] at h ⊢
    have hs := sizeBetween_of_test hext ht
    rw [if_pos hs] at hr
    have h64' : c.upper.all (· < 65536) = true := by simpa [hs] using h64
    by_cases h0 : c.upper = some 0
    · have ho : o = [] := by
        have := (sizeBetween_iff.1 hs).2 0 h0
        exact List.length_eq_zero_iff.1 (by omega)
      subst ho
      simp [h0] at hempty
      unfold encodeOctetstringRoot at h
      rw [if_pos h0] at h
      cases h
      unfold stringRoot
      simp [h0, hempty.1, octetBits]
      exact Emits.nil
    · exact (octetstringRoot_emits hlen h0 hs hr h64' (.inl ⟨rfl, rfl⟩) h).congr fun pos => nothing_andThen _ pos
  | true =>
    have hne : o ≠ [] := by
      rintro rfl
      simp [hext] at hempty
    have hp := List.length_pos_iff.2 hne
    simp only [hext, if_true] at h ⊢
    obtain ⟨bl, e1, h⟩ := Except.bind_eq_ok h
    obtain ⟨rfl, _, _⟩ := chainLe_size e1
    by_cases hs : sizeBetween c o.length = true
    · rw [if_pos hs] at hr h ⊢
      have h64' : c.upper.all (· < 65536) = true := by simpa [hs] using h64
      exact octetstringRoot_emits hlen (fun h0 => by have := (sizeBetween_iff.1 hs).2 0 h0; omega) hs hr h64'
        (.inr rfl) h
    · rw [if_neg hs] at hr h ⊢
      obtain ⟨f, e2, e3⟩ := lengthOf_emits (n := o.length) (by simpa using hr) c.lowerZ none
      rw [e2] at h
      cases h
      exact Emits.append (a := [⟨false, [true]⟩]) (b := [f, ⟨false, octetBits o⟩]) (Emits.bits _) (e3.afterLength _ _)

/-! ## SEQUENCE OF -/

theorem short_one (m pos : Nat) : short 1 m pos = [] := rfl

theorem sequenceOf_emits {c : SizeC} {n : Nat} {fl fs : List BitField} {w : Writer}
    (h : encodeSequenceOf c n fl = .ok fs) (hr : regularCount c n = true) (hw : Emits fl w) :
    Emits fs (elements c n ▹ w) := by
  unfold encodeSequenceOf at h
  unfold regularCount at hr
  unfold elements
  cases hext : c.ext with
  | true =>
    simp only [hext, if_true] at h ⊢
    obtain ⟨bl, e1, h⟩ := Except.bind_eq_ok h
    obtain ⟨rfl, hl, hu⟩ := chainLe_size e1
    by_cases hs : sizeBetween c n = true
    · rw [if_pos hs] at hr h ⊢
      obtain ⟨l, hl⟩ := Option.isSome_iff_exists.1 hl
      obtain ⟨u, hu⟩ := Option.isSome_iff_exists.1 (hu hs)
      obtain ⟨w1, w2⟩ := sizeBetween_iff.1 hs
      rw [hu] at hr
      have hu64 : u < 65536 := by simpa using hr
      obtain ⟨f, e2, e3⟩ := count_emits (w1 l hl) (w2 u hu) hu64
      simp only [SizeC.lowerZ, SizeC.upperZ, hl, hu, Option.map_some, Int.ofNat_eq_natCast] at h
      rw [e2] at h
      cases h
      have hroot : Emits [f] (elementsRoot c n) := by
        refine e3.congr fun pos => ?_
        unfold elementsRoot
        rw [hl, hu]
        by_cases hlu : l = u
        · subst hlu
          simp [hu64, count, constrained, short, nothing]
        · simp [hlu]
      refine (Emits.append (a := [⟨false, [false]⟩]) (Emits.bits _) (Emits.append hroot hw)).congr fun pos => ?_
      exact (andThen_assoc _ _ _ pos).symm
    · rw [if_neg hs] at hr h ⊢
      simp only [Bool.and_eq_true, decide_eq_true_eq] at hr
      obtain ⟨f, e2, e3⟩ := lengthOf_emits hr.2 (some 0) none
      rw [e2] at h
      cases h
      refine (Emits.append (a := [⟨false, [true]⟩]) (Emits.bits _) (Emits.append e3 hw)).congr fun pos => ?_
      exact (andThen_assoc _ _ _ pos).symm
  | false =>
    simp only [hext, Bool.false_eq_true, if_false, Bool.false_and] at h hr ⊢
    have hs : sizeBetween c n = true := by
      by_cases hs : sizeBetween c n = true
      · exact hs
      · rw [if_neg hs] at hr; cases hr
    rw [if_pos hs] at hr
    obtain ⟨w1, w2⟩ := sizeBetween_iff.1 hs
    cases hl : c.lower with
    | none => rw [hl] at h; cases h
    | some l =>
      have hln := w1 l hl
      rw [hl] at h
      dsimp only at h
      rw [if_neg (by omega)] at h
      cases hu : c.upper with
      | none =>
        rw [hu] at h hr
        obtain ⟨f, e2, e3⟩ := lengthOf_emits (n := n) (by simpa using hr) c.lowerZ none
        dsimp only at h
        rw [e2] at h
        cases h
        refine Emits.append (a := [f]) ?_ hw
        unfold elementsRoot
        simp [hl, hu, count]
        exact e3
      | some u =>
        have hnu := w2 u hu
        rw [hu] at h hr
        have hu64 : u < 65536 := by simpa using hr
        dsimp only at h
        rw [if_neg (by omega)] at h
        by_cases hlu : l = u
        · rw [if_pos ⟨hlu, hu64⟩] at h
          cases h
          refine hw.congr fun pos => ?_
          unfold elementsRoot
          simp [hl, hu, hlu, hu64, nothing_andThen]
        · rw [if_neg (by omega), if_pos (by omega)] at h
          obtain ⟨f, e2, e3⟩ := count_emits hln hnu hu64
          simp only [SizeC.lowerZ, SizeC.upperZ, hl, hu, Option.map_some, Int.ofNat_eq_natCast] at h
          rw [e2] at h
          cases h
          refine Emits.append (a := [f]) ?_ hw
          unfold elementsRoot
          simp [hl, hu, hlu]
          exact e3

theorem mapM_emits {t : Ty} (ih : ∀ v fs, encTy t v = .ok fs → regular t v = true → Emits fs (value t v)) :
    ∀ (vs : List Val) (fls : List (List BitField)), vs.mapM (encTy t) = .ok fls → vs.all (regular t) = true →
      Emits fls.flatten ((vs.map (value t)).foldr andThen nothing)
  | [], fls, h, _ => by
    rw [List.mapM_nil] at h
    cases h
    exact Emits.nil
  | v :: vs, fls, h, hs => by
    rw [List.mapM_cons] at h
    obtain ⟨fl, e1, h⟩ := Except.bind_eq_ok h
    obtain ⟨fls', e2, h⟩ := Except.bind_eq_ok h
    cases h
    rw [List.all_cons, Bool.and_eq_true] at hs
    rw [List.flatten_cons, List.map_cons, List.foldr_cons]
    exact Emits.append (ih v fl e1 hs.1) (mapM_emits ih vs fls' e2 hs.2)

/-! ## open types -/

theorem complete_eq {fl : List BitField} {w : Writer} (h : Emits fl w) : complete w = produceCompleteEncoding fl := by
  rw [produceCompleteEncoding_eq, h 0]
  unfold complete
  by_cases h0 : w 0 = []
  · simp [h0]
  · rw [if_neg h0, if_neg (by simpa using h0)]
    rfl

theorem openType_emits {fl ofl : List BitField} {w : Writer} (h : encodeOpenTypeField fl = .ok ofl) (hw : Emits fl w)
    (hne : (produceCompleteEncoding fl).length / 8 ≠ 16384) : Emits ofl (openType w) := by
  unfold encodeOpenTypeField at h
  obtain ⟨ld, e1, e2⟩ := Except.bind_eq_ok h
  have hle := lenDet_bound e1
  obtain ⟨f, e3, e4⟩ := lengthOf_emits (n := (produceCompleteEncoding fl).length / 8) (by omega) none none
  rw [e3] at e1
  cases e1
  cases e2
  unfold openType
  rw [complete_eq hw]
  exact Emits.append e4 (Emits.aligned _)

/-! ## all types -/

theorem withOptionalBits_emits {opt : Bits} {fl rf : List BitField} {w : Writer} (h : withOptionalBits opt fl = .ok rf)
    (hw : Emits fl w) : Emits rf (X691.bits opt ▹ w) := by
  unfold withOptionalBits at h
  cases opt with
  | nil =>
    simp at h
    subst h
    exact hw.congr fun pos => (nothing_andThen w pos).symm
  | cons b opt =>
    simp only [List.isEmpty_cons, Bool.false_eq_true, if_false] at h
    split at h
    · cases h
      exact Emits.cons (Emits.bits _) hw
    · cases h

theorem any_id_pos {s : Bits} : s.any id = decide (0 < bitsToNat s) := by
  rw [Bool.eq_iff_iff, decide_eq_true_eq, bitsToNat_pos]
  simp

theorem additionBits_unset : ∀ {f : Fields} {cs : List (Option Val)}, Spec.unset f cs = true →
    (additionBits f cs).any id = false
  | .nil, _, _ => rfl
  | .cons n k t r, cs, h => by
    unfold Spec.unset at h
    rw [Bool.and_eq_true] at h
    unfold additionBits
    rw [List.any_cons, additionBits_unset h.2, Bool.or_false]
    cases hc : cs.head?.getD none with
    | none => cases k <;> rfl
    | some v => rw [hc] at h; cases k <;> simp [Spec.held] at h

theorem substantial_present {t : Ty} {v : Val} (h : Spec.substantial t (some v) = true) :
    isValue t v = true ∧ hasContent v = true := by
  rw [← present_eq] at h
  simpa [present] using h

mutual
theorem em_ty : ∀ (t : Ty) (v : Val) (fs : List BitField), encTy t v = .ok fs → regular t v = true →
    Emits fs (value t v)
  | .boolean, v, fs, h, hs => by
    cases v <;> simp only [encTy, reduceCtorEq, Except.ok.injEq] at h
    subst h
    exact Emits.bits _
  | .integer c, v, fs, h, hs => by
    cases v <;> simp only [encTy, reduceCtorEq] at h
    exact integer_emits h (by simpa only [regular] using hs)
  | .enumerated ext root add, v, fs, h, hs => by
    cases v <;> simp only [encTy, reduceCtorEq] at h
    exact enumerated_emits h (by simpa only [regular] using hs)
  | .bitString c, v, fs, h, hs => by
    cases v <;> simp only [encTy, reduceCtorEq] at h
    exact bitstring_emits h (by simpa only [regular] using hs)
  | .octetString c, v, fs, h, hs => by
    cases v <;> simp only [encTy, reduceCtorEq] at h
    exact octetstring_emits h (by simpa only [regular] using hs)
  | .seqOf c t, v, fs, h, hs => by
    cases v with
    | seqOf vs =>
      simp only [encTy] at h
      simp only [regular, Bool.and_eq_true] at hs
      obtain ⟨fls, e1, h⟩ := Except.bind_eq_ok h
      rw [value]
      exact sequenceOf_emits h hs.1 (mapM_emits (fun v fs h hs => em_ty t v fs h hs) vs fls e1 hs.2)
    | _ => simp [encTy] at h
  | .choice ext r a g, v, fs, h, hs => by
    cases v with
    | choice ix v =>
      simp only [encTy] at h
      obtain ⟨fl, e1, h⟩ := Except.bind_eq_ok h
      simp only [regular] at hs
      rw [value]
      unfold assembleChoice at h
      unfold X691.choice
      by_cases hr : ix < r.length
      · simp only [hr, if_true, Bool.and_eq_true] at e1 hs h ⊢
        have hd := em_alt r ix v fl e1 hs.2
        have hfit : Spec.unsignedFits 65536 ((r.length : Int) - 1 - 0) = true := by
          have h1 : r.length.log2 < 8 * 65536 := by simpa [Spec.unsignedFits] using hs.1
          have := log2_mono (a := ((r.length : Int) - 1 - 0).toNat) (b := r.length) (by omega)
          simp only [Spec.unsignedFits, decide_eq_true_eq]
          omega
        obtain ⟨ixf, i1, i2⟩ := constrained_emits (n := (ix : Int)) (lb := 0) (ub := (r.length : Int) - 1)
          (by omega) (by omega) hfit
        have single : r.length = 1 → ∀ w : Writer, ∀ pos,
            (constrained 0 ((r.length : Int) - 1) ix ▹ w) pos = w pos := by
          intro h1 w pos
          rw [h1]
          exact nothing_andThen w pos
        cases ext with
        | false =>
          simp only [Bool.not_false, if_true, Bool.false_eq_true, if_false] at h ⊢
          by_cases h1 : r.length = 1
          · rw [if_pos h1] at h
            cases h
            exact hd.congr fun pos => by rw [nothing_andThen, single h1]
          · rw [if_neg h1] at h
            rw [i1] at h
            cases h
            exact (Emits.append i2 hd).congr fun pos => by rw [nothing_andThen]
        | true =>
          simp only [Bool.not_true, Bool.false_eq_true, if_false, if_true] at h ⊢
          by_cases h1 : r.length = 1
          · rw [if_pos h1] at h
            cases h
            exact (Emits.cons (Emits.bits _) hd).congr fun pos => by
              unfold andThen
              exact congrArg _ (single h1 _ _).symm
          · rw [if_neg h1] at h
            rw [i1] at h
            cases h
            exact Emits.append (a := [⟨false, [false]⟩]) (Emits.bits _) (Emits.append i2 hd)
      · simp only [hr, if_false, Bool.and_eq_true] at e1 hs h ⊢
        obtain ⟨⟨hext, hfit⟩, hs⟩ := hs
        subst hext
        simp only [Bool.not_true, Bool.false_eq_true, if_false] at h
        have hd : Emits fl (if ix < r.length + a.length then alternative a (ix - r.length) v
            else groupAlternative g (ix - (r.length + a.length)) v) ∧
            (produceCompleteEncoding fl).length / 8 ≠ 16384 := by
          by_cases ha : ix < r.length + a.length
          · rw [if_pos ha] at e1 hs ⊢
            exact em_openAlt a _ v fl e1 hs
          · rw [if_neg ha] at e1 hs ⊢
            exact em_openAltG g _ v fl e1 hs
        split at h
        · cases h
        · obtain ⟨ixf, i1, i2⟩ := normallySmall_emits (n := ix - r.length) hfit
          rw [i1] at h
          obtain ⟨_, e2, h⟩ := Except.bind_eq_ok h
          cases e2
          obtain ⟨ofl, e3, h⟩ := Except.bind_eq_ok h
          cases h
          exact Emits.append (a := [⟨false, [true]⟩]) (Emits.bits _) (Emits.append i2 (openType_emits e3 hd.1 hd.2))
    | _ => simp [encTy] at h
  | .sequence ext r a g, v, fs, h, hs => by
    cases v with
    | seq cs =>
      simp only [encTy] at h
      simp only [regular, Bool.and_eq_true] at hs
      obtain ⟨⟨opt, fl⟩, e1, h⟩ := Except.bind_eq_ok h
      obtain ⟨rf, e2, h⟩ := Except.bind_eq_ok h
      obtain ⟨ho, hroot⟩ := em_root r cs opt fl e1 hs.1
      have hrf := withOptionalBits_emits e2 hroot
      rw [ho] at hrf
      rw [value]
      cases ext with
      | false =>
        simp only [Bool.false_eq_true, if_false] at h ⊢
        cases h
        exact hrf
      | true =>
        simp only [if_true, Bool.not_true, Bool.false_or, Bool.and_eq_true] at h hs ⊢
        by_cases h0 : a.length = 0 ∧ g.length = 0
        · rw [if_pos h0] at h
          cases h
          have ha : a = .nil := by cases a <;> simp [Fields.length] at h0 ⊢
          have hg : g = .nil := by cases g <;> simp [Groups.length] at h0 ⊢
          subst ha hg
          simp only [additionBits, groupBits, List.append_nil, List.any_nil, Bool.false_eq_true, if_false]
          exact Emits.cons (Emits.bits _) hrf
        · rw [if_neg h0] at h
          obtain ⟨⟨abits, afl⟩, e3, h⟩ := Except.bind_eq_ok h
          obtain ⟨⟨gbits, gfl⟩, e4, h⟩ := Except.bind_eq_ok h
          obtain ⟨ha, hafl⟩ := em_adds a _ none abits afl e3 hs.2.1
          obtain ⟨hg, hgfl⟩ := em_groups g _ none gbits gfl e4 hs.2.2
          unfold assembleSequence at h
          obtain ⟨bv, e5, h⟩ := Except.bind_eq_ok h
          have hbv : bv = bitsToNat (abits ++ gbits) := by
            unfold pyInt2 at e5
            split at e5
            · cases e5
            · cases e5; rfl
          rw [← ha, ← hg, any_id_pos, ← hbv]
          by_cases hp : bv > 0
          · rw [if_pos hp] at h
            rw [if_pos (by simpa using hp)]
            obtain ⟨ld, e6, h⟩ := Except.bind_eq_ok h
            cases h
            have hne : 1 ≤ (abits ++ gbits).length := by
              cases hab : abits ++ gbits with
              | nil => rw [hab] at hbv; simp [bitsToNat] at hbv; omega
              | cons => simp
            have hld := normallySmallLength_emits hne none none e6
            refine (Emits.append (Emits.append (Emits.append (Emits.append (a := [⟨false, [true]⟩]) (Emits.bits _) hrf)
              hld) (Emits.bits (abits ++ gbits))) (Emits.append hafl hgfl)).congr fun pos => ?_
            simp only [andThen_assoc]
            rw [ha, hg]
            unfold andThen
            simp [List.append_assoc, Nat.add_assoc]
          · rw [if_neg hp] at h
            rw [if_neg (by simpa using hp)]
            cases h
            exact Emits.cons (Emits.bits _) hrf
    | _ => simp [encTy] at h
theorem em_alt : ∀ (r : Fields) (p : Nat) (v : Val) (fs : List BitField), encAlt r p v = .ok fs →
    regularAlt r p v = true → Emits fs (alternative r p v)
  | .nil, p, v, fs, h, _ => by simp [encAlt] at h
  | .cons _ _ t _, 0, v, fs, h, hs => em_ty t v fs h hs
  | .cons _ _ _ r, p + 1, v, fs, h, hs => em_alt r p v fs h hs
theorem em_openAlt : ∀ (r : Fields) (p : Nat) (v : Val) (fs : List BitField), encAlt r p v = .ok fs →
    regularOpenAlt r p v = true →
    Emits fs (alternative r p v) ∧ (produceCompleteEncoding fs).length / 8 ≠ 16384
  | .nil, p, v, fs, h, _ => by simp [encAlt] at h
  | .cons _ _ t _, 0, v, fs, h, hs => by
    simp only [regularOpenAlt, Bool.and_eq_true] at hs
    exact ⟨em_ty t v fs h hs.1, notOversize_len hs.2 h⟩
  | .cons _ _ _ r, p + 1, v, fs, h, hs => em_openAlt r p v fs h hs
theorem em_openAltG : ∀ (g : Groups) (p : Nat) (v : Val) (fs : List BitField), encAltG g p v = .ok fs →
    regularOpenAltG g p v = true →
    Emits fs (groupAlternative g p v) ∧ (produceCompleteEncoding fs).length / 8 ≠ 16384
  | .nil, p, v, fs, h, _ => by simp [encAltG] at h
  | .cons f g, p, v, fs, h, hs => by
    simp only [encAltG, regularOpenAltG, groupAlternative] at h hs ⊢
    by_cases hp : p < f.length
    · simp only [hp, if_true] at h hs ⊢
      exact em_openAlt f p v fs h hs
    · simp only [hp, if_false] at h hs ⊢
      exact em_openAltG g _ v fs h hs
theorem em_root : ∀ (r : Fields) (cs : List (Option Val)) (bits : Bits) (fs : List BitField),
    encRoot r cs = .ok (bits, fs) → regularRoot r cs = true →
    bits = preamble r cs ∧ Emits fs (components r cs)
  | .nil, cs, bits, fs, h, _ => by
    simp only [encRoot, Except.ok.injEq, Prod.mk.injEq] at h
    obtain ⟨rfl, rfl⟩ := h
    exact ⟨rfl, Emits.nil⟩
  | .cons n k t r, cs, bits, fs, h, hs => by
    simp only [encRoot] at h
    simp only [regularRoot, Bool.and_eq_true] at hs
    obtain ⟨⟨b, fl⟩, e1, h⟩ := Except.bind_eq_ok h
    obtain ⟨⟨bs, fls⟩, e2, h⟩ := Except.bind_eq_ok h
    cases h
    obtain ⟨hb, hr⟩ := em_root r cs.tail bs fls e2 hs.2
    have hs1 := hs.1
    unfold rootComponent at e1
    unfold components
    generalize hc : cs.head?.getD none = c at e1 hs1
    cases k with
    | mandatory =>
      cases c with
      | none => cases hs1
      | some v =>
        obtain ⟨fl', e3, e1⟩ := Except.bind_eq_ok e1
        cases e1
        refine ⟨by rw [preamble, ← hb]; rfl, ?_⟩
        simp only [encoded, if_true]
        exact Emits.append (em_ty t v _ e3 hs1) hr
    | optional =>
      cases c with
      | none =>
        dsimp only at e1
        rw [if_neg (by simp [present])] at e1
        cases e1
        refine ⟨by simp only [preamble, hc, ← hb]; rfl, ?_⟩
        exact Emits.append (a := []) Emits.nil hr
      | some v =>
        simp only [Bool.and_eq_true] at hs1
        dsimp only at e1
        rw [if_pos (by rw [present_eq]; exact hs1.2)] at e1
        obtain ⟨fl', e3, e1⟩ := Except.bind_eq_ok e1
        cases e1
        refine ⟨by simp only [preamble, hc, ← hb]; rfl, ?_⟩
        simp only [encoded, if_true]
        exact Emits.append (em_ty t v _ e3 hs1.1) hr
    | default d =>
      cases c with
      | none =>
        obtain ⟨ne, e3, e1⟩ := Except.bind_eq_ok e1
        have hne : ne = false := by
          have := pyValueNe_eq e3
          rw [this]
          cases d <;> simp [Spec.sameAsDefault]
        subst hne
        cases e1
        refine ⟨by simp only [preamble, hc, ← hb]; rfl, ?_⟩
        exact Emits.append (a := []) Emits.nil hr
      | some v =>
        obtain ⟨ne, e3, e1⟩ := Except.bind_eq_ok e1
        have hne := pyValueNe_eq e3
        by_cases hvd : v = d
        · subst hvd
          have hne : ne = false := by
            rw [hne]
            cases v <;> simp [Spec.sameAsDefault]
          subst hne
          cases e1
          refine ⟨by simp only [preamble, hc, ← hb]; simp [encoded], ?_⟩
          simp only [encoded, bne_self_eq_false, Bool.false_eq_true, if_false]
          exact Emits.append (a := []) Emits.nil hr
        · simp only [Bool.or_eq_true, beq_iff_eq, hvd, false_or, Bool.and_eq_true, Bool.not_eq_true'] at hs1
          rw [hs1.2] at hne
          subst hne
          obtain ⟨fl', e4, e1⟩ := Except.bind_eq_ok e1
          cases e1
          have hen : encoded (.default d) (some v) = true := by simp [encoded, hvd]
          refine ⟨by simp only [preamble, hc, ← hb, hen]; rfl, ?_⟩
          simp only [hen, if_true]
          exact Emits.append (em_ty t v _ e4 hs1.1) hr
theorem em_adds : ∀ (a : Fields) (cs : List (Option Val)) (prev : Option Prev) (bits : Bits)
    (fs : List BitField), encAdds a cs prev = .ok (bits, fs) → regularAdds a cs = true →
    bits = additionBits a cs ∧ Emits fs (additions a cs)
  | .nil, cs, prev, bits, fs, h, _ => by
    simp only [encAdds, Except.ok.injEq, Prod.mk.injEq] at h
    obtain ⟨rfl, rfl⟩ := h
    exact ⟨rfl, Emits.nil⟩
  | .cons n k t r, cs, prev, bits, fs, h, hs => by
    simp only [encAdds] at h
    simp only [regularAdds, Bool.and_eq_true] at hs
    obtain ⟨⟨b, fl⟩, e1, h⟩ := Except.bind_eq_ok h
    obtain ⟨⟨bs, fls⟩, e2, h⟩ := Except.bind_eq_ok h
    cases h
    obtain ⟨hb, hr⟩ := em_adds r cs.tail _ bs fls e2 hs.2
    have hs1 := hs.1
    unfold additions additionBits
    generalize hc : cs.head?.getD none = c at e1 hs1
    unfold additionComponent at e1
    cases c with
    | none =>
      have hk : effective k none = none := by cases k <;> simp at hs1 <;> rfl
      rw [hk] at e1
      cases e1
      refine ⟨by rw [← hb]; cases k <;> rfl, Emits.append (a := []) Emits.nil hr⟩
    | some v =>
      have hs1' : encoded k (some v) = true ∧ regular t v = true ∧ Spec.substantial t (some v) = true ∧
          Spec.notOversize t v = true := by
        cases k <;> simpa [Bool.and_eq_true, and_assoc] using hs1
      obtain ⟨h1, h2, h3, h4⟩ := hs1'
      obtain ⟨hv, hcont⟩ := substantial_present h3
      simp only [effective] at e1
      rw [if_pos hv] at e1
      split at e1
      · cases e1
      · obtain ⟨fl', e3, e1⟩ := Except.bind_eq_ok e1
        obtain ⟨ofl, e4, e1⟩ := Except.bind_eq_ok e1
        cases e1
        refine ⟨by rw [← hb, h1], ?_⟩
        simp only [h1, if_true]
        exact Emits.append (openType_emits e4 (em_ty t v _ e3 h2) (notOversize_len h4 e3)) hr
theorem em_groups : ∀ (g : Groups) (cs : List (Option Val)) (prev : Option (List Prev)) (bits : Bits)
    (fs : List BitField), encGroups g cs prev = .ok (bits, fs) → regularGroups g cs = true →
    bits = groupBits g cs ∧ Emits fs (groups g cs)
  | .nil, cs, prev, bits, fs, h, _ => by
    simp only [encGroups, Except.ok.injEq, Prod.mk.injEq] at h
    obtain ⟨rfl, rfl⟩ := h
    exact ⟨rfl, Emits.nil⟩
  | .cons f g, cs, prev, bits, fs, h, hs => by
    simp only [encGroups] at h
    simp only [regularGroups, Bool.and_eq_true] at hs
    obtain ⟨infos, e0, h⟩ := Except.bind_eq_ok h
    obtain ⟨⟨b, fl⟩, e1, h⟩ := Except.bind_eq_ok h
    obtain ⟨⟨bs, fls⟩, e2, h⟩ := Except.bind_eq_ok h
    cases h
    obtain ⟨hb, hr⟩ := em_groups g _ _ bs fls e2 hs.2
    have hany := scanGroup_any e0
    have hs1 := hs.1
    unfold groupComponent at e1
    rw [hany] at e1
    unfold groups groupBits
    cases hu : Spec.unset f cs with
    | true =>
      rw [anySubstantial_unset hu] at e1
      rw [additionBits_unset hu]
      simp only [Bool.not_false, if_true, Bool.false_eq_true, if_false] at e1 ⊢
      cases e1
      exact ⟨by rw [← hb], Emits.append (a := []) Emits.nil hr⟩
    | false =>
      rw [hu] at hs1
      simp only [Bool.false_or, Bool.and_eq_true] at hs1
      obtain ⟨⟨⟨h1, h2⟩, h3⟩, h4⟩ := hs1
      rw [h3] at e1
      simp only [Bool.not_true, Bool.false_eq_true, if_false, h2, if_true] at e1 ⊢
      obtain ⟨_, _, e1⟩ := Except.bind_eq_ok e1
      obtain ⟨⟨opt, rfl'⟩, e3, e1⟩ := Except.bind_eq_ok e1
      obtain ⟨rf, e4, e1⟩ := Except.bind_eq_ok e1
      obtain ⟨ofl, e5, e1⟩ := Except.bind_eq_ok e1
      cases e1
      obtain ⟨hol, hroot⟩ := em_root f cs opt rfl' e3 h1
      have henc : encTy (.sequence false f .nil .nil) (.seq cs) = .ok rf := by
        simp only [encTy, e3, bind, Except.bind, e4, Bool.false_eq_true, if_false]; rfl
      have hin := withOptionalBits_emits e4 hroot
      rw [hol] at hin
      exact ⟨by rw [← hb], Emits.append (openType_emits e5 hin (notOversize_len h4 henc)) hr⟩
end

end Verif
