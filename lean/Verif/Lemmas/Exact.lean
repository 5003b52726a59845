import Verif.Lemmas.Message
import Verif.Lemmas.Conforms
import Verif.Lemmas.Stream
/-!
# Values that do not survive
-/
namespace Verif

open Spec

/-- Something is read where `v` was written, at the beginning of some message. -/
def Back (t : Ty) (v w : Val) : Prop :=
  ∃ fs rest p p', encTy t v = .ok fs ∧ At p 0 (emit 0 fs ++ rest) ∧ decTy t p = .ok (w, p')

/-- A reader at any position. -/
theorem at_exists (before rem : Bits) : ∃ p, At p before.length rem :=
  ⟨⟨Offset.init (before.length / 8) (before.length % 8), before ++ rem⟩,
    by simp only [Offset.init]; omega, by simp only [Offset.init]; omega, by simp⟩

theorem At.unique {p : PerBytes} {m n : Nat} {a b : Bits} (h : At p m a) (h' : At p n b) : m = n :=
  h.pos_eq.symm.trans h'.pos_eq

/-- What carrying says, at any position. -/
theorem reads_of_carries {t : Ty} {v w : Val} (h : Carries t v w) : ∃ fs, encTy t v = .ok fs ∧
    ∀ (pos : Nat) (rest : Bits), ∃ p p', At p pos (emit pos fs ++ rest) ∧ decTy t p = .ok (w, p') ∧
      At p' (pos + (emit pos fs).length) rest := by
  obtain ⟨fs, he, h⟩ := h
  refine ⟨fs, he, fun pos rest => ?_⟩
  have hl : (List.replicate pos false).length = pos := List.length_replicate
  obtain ⟨p, hp⟩ := at_exists (List.replicate pos false) (emit pos fs ++ rest)
  rw [hl] at hp
  obtain ⟨p', e, hat⟩ := h (List.replicate pos false) rest p (by
    rw [foldl_appendField, List.drop_left, readerAt_iff, hl]; exact hp)
  rw [foldl_appendField, readerAt_iff, List.length_append, hl] at hat
  exact ⟨p, p', hp, e, hat⟩

theorem back_of_carries {t : Ty} {v w : Val} (h : Carries t v w) : Back t v w := by
  obtain ⟨fs, he, h⟩ := reads_of_carries h
  obtain ⟨p, p', hp, hd, _⟩ := h 0 []
  exact ⟨fs, [], p, p', he, hp, hd⟩

theorem back_of_roundTrips {t : Ty} {v w : Val} (h : RoundTrips t v w) : Back t v w := by
  obtain ⟨bs, hb, h⟩ := h
  have h := h []
  obtain ⟨fs, e1, e2⟩ := (encode_eq t v bs).1 hb
  rw [List.append_nil] at h
  obtain ⟨p', hd, _⟩ := decode_ok h
  rw [e2, produceCompleteEncoding_eq] at hd
  exact ⟨fs, _, _, p', e1, At.init _, hd⟩

/-- A message of its own: only what is read at the beginning counts. -/
theorem roundTrips_of_start {t : Ty} {v w : Val} {fs : List BitField} (he : encTy t v = .ok fs)
    (h : ∀ p rest, At p 0 (emit 0 fs ++ (List.replicate (if (emit 0 fs).length = 0 then 8 else padLen (emit 0 fs).length) false ++ rest)) →
      ∃ p', decTy t p = .ok (w, p')) (hr : returnable w = true := by rfl) : RoundTrips t v w := by
  obtain ⟨bs, hb⟩ := encode_of_encTy he
  refine ⟨bs, hb, fun extra => ?_⟩
  obtain ⟨fs', e1, e2⟩ := (encode_eq t v bs).1 hb
  rw [he] at e1
  cases e1
  have hne : bs ≠ [] := by
    rintro rfl
    have := produceCompleteEncoding_ne_nil fs
    rw [← e2] at this; exact this rfl
  obtain ⟨p', e⟩ := h _ _ (At.init _)
  refine decode_ok_of (p' := p') (by simp [hne]) hr ?_
  rw [bytesToBits_append, e2, produceCompleteEncoding_eq, List.append_assoc]
  exact e

/-! ## what numbers the decoder can return -/

theorem ensures_unconstrained : Ensures decodeUnconstrainedWholeNumber (fun z => twosFits 255 z = true) := by
  unfold decodeUnconstrainedWholeNumber
  refine (ensures_next ⟨1, 0⟩ true).bind fun len hlen => (ensures_next ⟨len, 0⟩ false).bind fun v hv => Ensures.liftE fun z hz => ?_
  have hlen : len < 256 := hlen
  simp only [Nat.add_zero] at hv
  unfold twosComp at hz
  split at hz
  · cases hz
  have h8 : 8 * len ≠ 0 := ‹_›
  have hle : (2 : Int) ^ (8 * len - 1) ≤ 2 ^ (8 * 255 - 1) := by
    have := Nat.pow_le_pow_right (n := 2) (by omega) (show 8 * len - 1 ≤ 8 * 255 - 1 by omega)
    exact_mod_cast this
  have hpow : (2 : Nat) ^ (8 * len) = 2 * 2 ^ (8 * len - 1) := by
    rw [← Nat.pow_succ']; congr 1; omega
  rw [Nat.mul_comm] at hv
  have ht := testBit_top (v := v) (k := 8 * len - 1) (by rw [show 8 * len - 1 + 1 = 8 * len by omega]; exact hv)
  split at hz
  · rename_i h
    rw [and_two_pow_ne_zero, ht, decide_eq_true_eq] at h
    cases hz
    rw [Nat.one_shiftLeft]
    simp only [twosFits, Bool.and_eq_true, decide_eq_true_eq]
    have e : ((2 ^ (8 * len - 1) : Nat) : Int) = (2 : Int) ^ (8 * len - 1) := by norm_cast
    have h0 := Nat.two_pow_pos (8 * len - 1)
    constructor <;> omega
  · rename_i h
    rw [and_two_pow_ne_zero, ht, decide_eq_true_eq] at h
    cases hz
    simp only [twosFits, Bool.and_eq_true, decide_eq_true_eq]
    have e : ((2 ^ (8 * len - 1) : Nat) : Int) = (2 : Int) ^ (8 * len - 1) := by norm_cast
    have h0 := Nat.two_pow_pos (8 * len - 1)
    constructor <;> omega

theorem ensures_lenDet (lb ub : Option Int) : Ensures (decodeLengthDeterminant false false lb ub) (fun n => 0 ≤ n ∧ n ≤ 16383) := by
  unfold decodeLengthDeterminant
  simp only [Bool.false_eq_true, if_false]
  refine Ensures.bind' fun _ => Ensures.bind' fun first => Ensures.ite (fun _ => ?_) fun _ => Ensures.bind' fun second =>
    Ensures.ite (fun _ => ?_) fun _ => Ensures.raise _
  · refine (ensures_nonNeg _ _).bind fun v hv => Ensures.pure ?_
    obtain ⟨z, hz, hv⟩ := hv
    cases hz
    have hv : v < 128 := hv
    omega
  · refine (ensures_nonNeg _ _).bind fun v hv => Ensures.pure ?_
    obtain ⟨z, hz, hv⟩ := hv
    cases hz
    have hv : v < 16384 := hv
    omega

theorem unsignedFits_of_lt {k : Nat} {z : Int} (hk : 0 < k) (h : z.toNat < 2 ^ (8 * k)) : unsignedFits k z = true := by
  unfold unsignedFits
  rw [decide_eq_true_eq]
  by_cases h0 : z.toNat = 0
  · rw [h0]; simp; omega
  · exact (Nat.log2_lt h0).2 h

theorem ensures_semi (lb : Int) : Ensures (decodeSemiConstrainedFromFieldList lb) (fun z => unsignedFits 16383 (z - lb) = true) := by
  unfold decodeSemiConstrainedFromFieldList
  refine (ensures_lenDet _ _).bind fun n hn => (ensures_next _ _).bind fun v hv => Ensures.pure ?_
  refine unsignedFits_of_lt (by decide) ?_
  have h1 : (2 : Nat) ^ (n.toNat * 8 + 0) ≤ 2 ^ (8 * 16383) := Nat.pow_le_pow_right (by omega) (by omega)
  have h2 : v < 2 ^ (8 * 16383) := Nat.lt_of_lt_of_le hv h1
  exact Nat.lt_of_le_of_lt (by omega) h2

theorem ensures_normallySmall : Ensures (decodeNormallySmall 0) (fun z => unsignedFits 16383 z = true) := by
  unfold decodeNormallySmall
  refine Ensures.bind' fun b => Ensures.ite (fun _ => ?_) fun _ => Ensures.bind' fun _ => (ensures_semi 0).mono fun z h => by simpa using h
  refine (ensures_nonNeg _ _).bind fun v hv => Ensures.pure ?_
  obtain ⟨z, hz, hv⟩ := hv
  cases hz
  have hv : v < 64 := hv
  refine unsignedFits_of_lt (by decide) ?_
  have h1 : (2 : Nat) ^ 6 ≤ 2 ^ (8 * 16383) := Nat.pow_le_pow_right (by omega) (by omega)
  exact Nat.lt_of_lt_of_le (by omega) h1

/-- The decoder refuses ranges of more than 65536 values where no length is sent. -/
theorem ensures_cwn_range (l u : Int) : Ensures (decodeConstrainedWholeNumber (some l) (some u))
    (fun n => u - l + 1 ≤ 65536 ∧ (l = u → n = 0)) := by
  unfold decodeConstrainedWholeNumber
  refine Ensures.bind (P := fun x => x = u) (Ensures.liftE fun a e => by cases e; rfl) fun ub hub => ?_
  refine Ensures.bind (P := fun x => x = l) (Ensures.liftE fun a e => by cases e; rfl) fun lb hlb => ?_
  subst hub hlb
  dsimp only
  unfold integerRange
  refine Ensures.ite (fun h1 => Ensures.pure ⟨by omega, fun _ => rfl⟩) fun h1 => ?_
  refine Ensures.ite (fun h2 => (Ensures.trivial _).bind fun _ _ => Ensures.pure ⟨by omega, fun _ => by omega⟩) fun h2 => ?_
  refine Ensures.ite (fun h2 => Ensures.bind' fun _ => (Ensures.trivial _).bind fun _ _ => Ensures.pure ⟨by omega, fun _ => by omega⟩) fun h2 => ?_
  refine Ensures.ite (fun h2 => Ensures.bind' fun _ => (Ensures.trivial _).bind fun _ _ => Ensures.pure ⟨by omega, fun _ => by omega⟩) fun h2 => ?_
  refine Ensures.bind (P := fun _ => False) ?_ fun _ h => h.elim
  unfold decodeNonNegativeBinaryInteger
  rw [if_pos rfl]
  exact Ensures.raise _

theorem ensures_fieldList (l u : Int) : Ensures (decodeConstrainedFromFieldList (some l) (some u))
    (fun n => unsignedFits 65536 (u - l) = true ∧ (l = u → n = 0)) := by
  unfold decodeConstrainedFromFieldList
  refine Ensures.bind (P := fun x => x = u) (Ensures.liftE fun a e => by cases e; rfl) fun ub hub => ?_
  refine Ensures.bind (P := fun x => x = l) (Ensures.liftE fun a e => by cases e; rfl) fun lb hlb => ?_
  subst hub hlb
  unfold integerRange
  refine Ensures.ite (fun h1 => (ensures_cwn_range _ _).mono fun n hn => ⟨?_, hn.2⟩) fun h1 => ?_
  · refine unsignedFits_of_lt (by decide) ?_
    have h1 : (2 : Nat) ^ 16 ≤ 2 ^ (8 * 65536) := Nat.pow_le_pow_right (by omega) (by omega)
    exact Nat.lt_of_lt_of_le (by omega) h1
  · refine Ensures.bind (P := fun _ => unsignedFits 65536 (ub - lb) = true) ?_ fun _ h => Ensures.bind' fun _ => Ensures.pure ⟨h, fun _ => by omega⟩
    unfold decodeLengthDeterminant
    simp only [Bool.false_eq_true, if_false, if_true]
    refine (ensures_cwn_range _ _).mono fun n hn => ?_
    have h2 := hn.1
    have h3 := getRangeOctetLen_eq (r := ub - lb) (by omega) (by omega)
    unfold unsignedFits
    rw [decide_eq_true_eq]
    omega

/-! ## the simple types -/

theorem bind_run {α β : Type} {m : Dec α} {f : α → Dec β} {p p1 : PerBytes} {a : α} (h : m p = .ok (a, p1)) :
    (m >>= f) p = f a p1 := by
  show StateT.bind m f p = _
  unfold StateT.bind
  rw [h]
  rfl

/-- The first bit of a type with an extension marker. -/
theorem first_bit {α : Type} {f : Nat → Dec α} {b : Bool} {fs : List BitField} {rest : Bits} {p p' : PerBytes} {a : α}
    (hp : At p 0 (emit 0 (⟨false, [b]⟩ :: fs) ++ rest)) (h : (next ⟨0, 1⟩ false >>= f) p = .ok (a, p')) :
    ∃ p1, At p1 1 (emit 1 fs ++ rest) ∧ f b.toNat p1 = .ok (a, p') := by
  rw [emit_bit, List.append_assoc] at hp
  obtain ⟨p1, e1, h1⟩ := Reads.bit 0 b p _ hp
  rw [bind_run e1] at h
  refine ⟨p1, h1, ?_⟩
  cases b <;> exact h

theorem mkInt_inv {c : Constr} {x z : Int} {p p' : PerBytes} (h : liftE (mkInt c x) p = .ok (.int z, p')) : x = z := by
  unfold liftE mkInt at h
  split at h <;> cases h
  rfl

theorem integer_exact {c : Constr} {z : Int} (hp : plain c = true) (h : Back (.integer c) (.int z) (.int z)) :
    safeInt c z = true := by
  obtain ⟨fs, rest, p, p', he, hat, hd⟩ := h
  have ht : c.test z = true := by
    have := (ensures_integer c).run _ _ _ hd
    simpa [hasShape] using this
  unfold safeInt
  rw [hp, ht]
  simp only [Bool.and_self, Bool.true_and]
  simp only [encTy, encodeInteger] at he
  simp only [decTy, decodeInteger] at hd
  cases hx : c.ext with
  | true =>
    rw [hx] at he hd
    simp only [if_true] at he hd
    have outside : ∀ fs', fs = ⟨false, [true]⟩ :: fs' → twosFits 255 z = true := by
      rintro fs' rfl
      obtain ⟨p1, _, hd⟩ := first_bit hat hd
      rw [if_pos (by decide)] at hd
      obtain ⟨x, p2, e1, hd⟩ := bind_eq_ok hd
      rw [← mkInt_inv hd]
      exact ensures_unconstrained.run _ _ _ e1
    cases hl : c.lower with
    | none => rw [hl] at he; simp [chainLe, needInt, bind, Except.bind] at he
    | some l =>
      rw [hl] at he
      by_cases hlz : l ≤ z
      · cases hu : c.upper with
        | none => rw [hu] at he; simp [chainLe, needInt, bind, Except.bind, hlz] at he
        | some u =>
          rw [hu] at he
          by_cases hzu : z ≤ u
          · simp only [hlz, hzu, and_self, if_true]
            simp only [chainLe, needInt, bind, Except.bind, hlz, if_true, hzu, pure, Except.pure, decide_true] at he
            cases hf : fieldListConstrained z (some l) (some u) with
            | error e => rw [hf] at he; cases he
            | ok fl =>
              rw [hf] at he
              cases he
              obtain ⟨p1, _, hd⟩ := first_bit hat hd
              rw [if_neg (by decide), hl, hu] at hd
              obtain ⟨x, p2, e1, hd⟩ := bind_eq_ok hd
              have hxz := mkInt_inv hd
              obtain ⟨h1, h2⟩ := (ensures_fieldList l u).run _ _ _ e1
              rw [h1, Bool.and_true]
              by_cases hlu : l = u
              · have := h2 hlu
                have : l = 0 := by omega
                simp [this]
              · simp [hlu]
          · simp only [hzu, and_false, if_false]
            simp only [chainLe, needInt, bind, Except.bind, hlz, if_true, hzu, pure, Except.pure, decide_false, Bool.false_eq_true,
              if_false] at he
            exact outside _ (by cases he; rfl)
      · have hfs : fs = ⟨false, [true]⟩ :: fieldListUnconstrained z := by
          simp only [chainLe, needInt, bind, Except.bind, hlz, if_false, pure, Except.pure, Bool.false_eq_true] at he
          cases he; rfl
        cases hu : c.upper with
        | none => simp only [outside _ hfs, Bool.and_true, decide_eq_true_eq]; omega
        | some u => simp only [hlz, false_and, if_false, outside _ hfs]
  | false =>
    rw [hx] at he hd
    simp only [Bool.false_eq_true, if_false] at he hd
    cases hl : c.lower with
    | none =>
      rw [hl] at hd
      obtain ⟨x, p2, e1, hd⟩ := bind_eq_ok hd
      rw [← mkInt_inv hd]
      exact ensures_unconstrained.run _ _ _ e1
    | some l =>
      cases hu : c.upper with
      | none =>
        rw [hl, hu] at hd
        obtain ⟨x, p2, e1, hd⟩ := bind_eq_ok hd
        rw [← mkInt_inv hd]
        exact (ensures_semi l).run _ _ _ e1
      | some u =>
        rw [hl, hu] at hd
        dsimp only at hd ⊢
        by_cases hlu : l = u
        · subst hlu
          rw [Int.sub_self]
          decide
        · rw [if_neg hlu] at hd
          obtain ⟨x, p2, e1, hd⟩ := bind_eq_ok hd
          exact ((ensures_fieldList l u).run _ _ _ e1).1

theorem mkEnum_inv {named : List (String × Int)} {x z : Int} {p p' : PerBytes}
    (h : liftE (mkEnum named x) p = .ok (.enum z, p')) : x = z := by
  unfold liftE mkEnum at h
  split at h <;> cases h
  rfl

/-- ENUMERATED types that are numbered by position. -/
theorem enumerated_exact {ext : Bool} {root add : List (String × Int)} {i : Nat}
    (hr : root.any (fun p => p.2 == (i : Int)) = decide (i < root.length)) (hi : i < (root ++ add).length)
    (h : Back (.enumerated ext root add) (.enum i) (.enum i)) :
    if ext then if i < root.length then root.length ≤ 65536 else unsignedFits 16383 ((i - root.length : Nat) : Int) = true
    else (root ++ add).length ≤ 65536 := by
  obtain ⟨fs, rest, p, p', he, hat, hd⟩ := h
  simp only [encTy, encodeEnumerated] at he
  simp only [decTy, decodeEnumerated] at hd
  cases ext with
  | false =>
    simp only [Bool.not_false, if_true] at he hd
    simp only [Bool.false_eq_true, if_false]
    obtain ⟨x, p2, e1, hd⟩ := bind_eq_ok hd
    have := ((ensures_cwn_range _ _).run _ _ _ e1).1
    omega
  | true =>
    simp only [Bool.not_true, Bool.false_eq_true, if_false] at he hd
    simp only [if_true]
    rw [contains_map_snd, hr] at he
    by_cases hlt : i < root.length
    · rw [if_pos hlt]
      simp only [hlt, decide_true, if_true] at he
      cases hf : fieldListConstrained i (some 0) (some ((root.length : Int) - 1)) with
      | error e => rw [hf] at he; cases he
      | ok fl =>
        rw [hf] at he
        cases he
        obtain ⟨p1, _, hd⟩ := first_bit hat hd
        rw [if_pos (by decide)] at hd
        obtain ⟨x, p2, e1, hd⟩ := bind_eq_ok hd
        have := ((ensures_cwn_range _ _).run _ _ _ e1).1
        omega
    · rw [if_neg hlt]
      simp only [hlt, decide_false, Bool.false_eq_true, if_false] at he
      have hfs : ∃ fl, fs = ⟨false, [true]⟩ :: fl := by
        split at he
        · cases he
        · rename_i n _
          cases hf : encodeNormallySmall n 0 with
          | error e => rw [hf] at he; cases he
          | ok fl => rw [hf] at he; cases he; exact ⟨fl, rfl⟩
      obtain ⟨fl, rfl⟩ := hfs
      obtain ⟨p1, _, hd⟩ := first_bit hat hd
      rw [if_neg (by decide)] at hd
      obtain ⟨x, p2, e1, hd⟩ := bind_eq_ok hd
      have h1 := ensures_normallySmall.run _ _ _ e1
      have h2 := mkEnum_inv hd
      rw [show ((i - root.length : Nat) : Int) = x by omega]
      exact h1

/-! ## BIT STRING -/

theorem mkBits_inv {c : SizeC} {x b : Bits} {p p' : PerBytes} (h : liftE (mkBits c x) p = .ok (.bits b, p')) : x = b := by
  unfold liftE mkBits at h
  split at h <;> cases h
  rfl

theorem chainLe_none {c : SizeC} {n : Nat} (h : inRoot c n = none) : ∃ e, chainLe c.lowerZ c.upperZ (n : Int) = .error e := by
  unfold inRoot at h
  unfold SizeC.lowerZ SizeC.upperZ
  cases hl : c.lower with
  | none => exact ⟨_, rfl⟩
  | some l =>
    rw [hl] at h
    cases hu : c.upper with
    | some u => rw [hu] at h; simp at h
    | none =>
      rw [hu] at h
      have hnl : l ≤ n := by
        by_cases hnl : n < l
        · simp [hnl] at h
        · omega
      exact ⟨.typeError, by simp [chainLe, needInt, bind, Except.bind, hnl]⟩

theorem zfill_pyBin_length {n v : Nat} (h : v < 2 ^ n) : (zfill n (pyBin v)).length = max n 1 := by
  rw [zfill_length]
  by_cases h0 : n = 0
  · subst h0
    have : v = 0 := by simpa using h
    subst this
    decide
  · have := pyBin_length_le (by omega) h
    omega

/-- A bit string outside of the root is read, whatever its length; the reader goes on to the next octet boundary. -/
theorem bitsOutside_rt {c : SizeC} {b : Bits} (he : c.ext = true) (hne : b ≠ []) (hr : inRoot c b.length = some false)
    (hn : b.length ≤ 16383) : ∃ fs, encodeBitstring c b = .ok fs ∧ ∀ pos p rest, At p pos (emit pos fs ++ rest) →
      ∃ p' q r, decodeBitstring c p = .ok (.bits b, p') ∧ At p' q r ∧ q % 8 = 0 ∧
        (pos + (emit pos fs).length) % 8 = b.length % 8 := by
  have ht : c.test b.length = true := by simp [SizeC.test, he]
  have hb : asBinary b = b := by cases b <;> simp_all [asBinary]
  obtain ⟨w, e1, e3, _, e2⟩ := lenDet_roundtrip (n := (b.length : Int)) (by omega) (by omega) (some 0) none
  refine ⟨[⟨false, [true]⟩] ++ [⟨true, w⟩] ++ [⟨true, b⟩], ?_, fun pos p rest hp => ?_⟩
  · unfold encodeBitstring
    rw [hb, he]
    simp only [if_true]
    rw [chainLe_inRoot hr, e1]
    rfl
  · replace hp : At p pos (emit pos (⟨false, [true]⟩ :: ⟨true, w⟩ :: [⟨true, b⟩]) ++ rest) := hp
    have ha := add_padLen_mod (pos + 1)
    have hem : emit pos (⟨false, [true]⟩ :: ⟨true, w⟩ :: [⟨true, b⟩]) = [true] ++ (padTo true (pos + 1) ++ (w ++ b)) := by
      rw [emit_bit, emit_align_split, padTo_true_length, emit_cons, padTo_aligned ha, List.nil_append, emit_single,
        padTo_aligned (pos := pos + 1 + padLen (pos + 1) + w.length) (by omega), List.nil_append]
    have hem' : emit pos ([⟨false, [true]⟩] ++ [⟨true, w⟩] ++ [⟨true, b⟩]) = [true] ++ (padTo true (pos + 1) ++ (w ++ b)) := hem
    rw [hem] at hp
    rw [hem']
    rw [List.append_assoc, List.append_assoc, List.append_assoc] at hp
    obtain ⟨p1, r1, h1⟩ := Reads.bit pos true p _ hp
    obtain ⟨p2, r2, h2⟩ := Reads.align _ p1 _ h1
    simp only [List.length_singleton, padTo_true_length] at h2
    have hd := e2 (some 0) none (pos + 1 + padLen (pos + 1))
    rw [padTo_aligned ha, List.nil_append] at hd
    obtain ⟨p3, r3, h3⟩ := hd p2 _ h2
    obtain ⟨p4, r4, h4⟩ := Reads.next_plain ⟨0, b.length⟩ _ b (by simp) p3 _ h3
    obtain ⟨h5, r5⟩ := next_eq h4 ⟨0, 0⟩ true
    rw [if_pos rfl] at r5
    refine ⟨_, _, _, ?_, h5, ?_, ?_⟩
    · unfold decodeBitstring
      rw [he, if_pos rfl, bind_run r1]
      simp only [if_true]
      rw [if_neg (by decide), bind_run r2, bind_run r3]
      simp only [Int.toNat_natCast]
      rw [bind_run r4, bind_run r5, zfill_pyBin_bitsToNat hne, mkBits_ok ht]
      rfl
    · rw [alignPos_true]
      exact add_padLen_mod _
    · simp only [List.length_append, List.length_singleton, padTo_true_length]
      omega

/-- Sizes that the decoder returns. -/
theorem ensures_bitsRoot {c : SizeC} (hu : c.upper ≠ some 0) : Ensures (decodeBitstringRoot c) (fun v => ∀ b, v = .bits b →
    c.within b.length → safeBitsRoot c b.length = true) := by
  unfold decodeBitstringRoot safeBitsRoot
  rw [if_neg hu]
  have big : ∀ q : Bits → Prop, (∀ b, b.length ≤ 16383 → q b) → Ensures (do
      let len ← decodeLengthDeterminant false false (some 0) none
      let v ← next ⟨0, len.toNat⟩ true
      liftE (mkBits c (zfill len.toNat (pyBin v)))) (fun v => ∀ b, v = .bits b → q b) := by
    intro q hq
    refine (ensures_lenDet _ _).bind fun n hn => (ensures_next _ _).bind fun v hv => Ensures.liftE fun a ha b hb => ?_
    subst hb
    unfold mkBits at ha
    split at ha <;> cases ha
    refine hq _ ?_
    simp only [Nat.zero_mul, Nat.zero_add] at hv
    rw [zfill_pyBin_length hv]
    omega
  by_cases hf : c.lower ≠ none ∧ c.lower = c.upper
  · simp only [hf]
    obtain ⟨n, hn⟩ := Option.ne_none_iff_exists'.1 (hf.2 ▸ hf.1)
    simp only [hn, Option.getD_some]
    have key : ∀ b : Bits, n < 65536 → c.within b.length → b.length < 65536 := fun b h hw => by have := hw.2 n hn; omega
    simp only [ne_eq, reduceCtorEq, not_false_eq_true, and_self, if_true]
    refine Ensures.ite (fun h => ?_) fun h => Ensures.ite (fun h => ?_) fun h => Ensures.raise _
    · exact (Ensures.trivial _).mono fun _ _ b _ hw => decide_eq_true (key b (by omega) hw)
    · exact (Ensures.trivial _).mono fun _ _ b _ hw => decide_eq_true (key b h hw)
  · simp only [if_neg hf]
    cases hu' : c.upper with
    | none => exact big _ fun b h _ => decide_eq_true h
    | some u =>
      dsimp only
      refine Ensures.ite (fun h => ?_) fun h => ?_
      · simp only [h, if_true]
        cases hl : c.lower with
        | some l => exact (Ensures.trivial _).mono fun _ _ _ _ _ => rfl
        | none =>
          refine Ensures.bind (P := fun _ => False) ?_ fun _ h => h.elim
          unfold decodeLengthDeterminant decodeConstrainedWholeNumber
          simp only [Bool.false_eq_true, if_false, if_true]
          refine Ensures.bind' fun _ => Ensures.bind (P := fun _ => False) (Ensures.liftE fun a e => ?_) fun _ h => h.elim
          simp only [SizeC.lowerZ, hl] at e
          cases e
      · simp only [h, if_false]
        exact big _ fun b h _ => decide_eq_true h

theorem encodeRoot_bit {c : SizeC} {value : Bits} {b : Bool} {fs : List BitField} (hu : c.upper ≠ some 0)
    (h : encodeBitstringRoot c value (some ⟨false, [b]⟩) = .ok fs) : ∃ fl, fs = ⟨false, [b]⟩ :: fl := by
  unfold encodeBitstringRoot at h
  simp only [hu, if_false, withExt] at h
  have key : ∀ {x : Except Err (List BitField)}, (x >>= fun ld => Pure.pure (⟨false, [b]⟩ :: (ld ++ [⟨true, value⟩]))) = .ok fs →
      ∃ fl, fs = ⟨false, [b]⟩ :: fl := by
    intro x hx
    cases x with
    | error e => cases hx
    | ok l => cases hx; exact ⟨_, rfl⟩
  split at h
  · split at h
    · cases h; exact ⟨_, rfl⟩
    · split at h
      · cases h; exact ⟨_, rfl⟩
      · cases h
  · split at h
    · split at h
      · exact key h
      · exact key h
    · exact key h

/-- The empty bit string is written like the string of one zero. -/
theorem bits_not_empty {c : SizeC} (hx : c.ext = true ∨ c.upper ≠ some 0) : ¬ Back (.bitString c) (.bits []) (.bits []) := by
  rintro ⟨fs, rest, p, p', he, hat, hd⟩
  have ht : c.test 0 = true := by
    have := (ensures_bitstring c).run _ _ _ hd
    simpa [hasShape] using this
  have he' : encodeBitstring c [false] = .ok fs := he
  have contra : ∀ p'', decodeBitstring c p = .ok (.bits [false], p'') → False := by
    intro p'' h
    rw [decTy, h] at hd
    cases hd
  by_cases hsafe : safeBits c [false] = true
  · obtain ⟨fs', e1, e2⟩ := bitstring_rt hsafe
    rw [he'] at e1
    cases e1
    obtain ⟨p'', h, _⟩ := e2 0 p rest hat
    exact contra _ h
  · cases hext : c.ext with
    | true =>
      have ht1 : c.test 1 = true := by simp [SizeC.test, hext]
      simp only [safeBits, List.length_singleton, ht1, hext, List.isEmpty_cons, Bool.not_false, Bool.true_and, if_true] at hsafe
      cases hr : inRoot c 1 with
      | none =>
        obtain ⟨e, h⟩ := chainLe_none hr
        unfold encodeBitstring at he'
        rw [hext] at he'
        have h : chainLe c.lowerZ c.upperZ ((asBinary [false]).length : Int) = .error e := h
        simp only [if_true, h, bind, Except.bind] at he'
        cases he'
      | some r =>
        rw [hr] at hsafe
        cases r with
        | false =>
          obtain ⟨fs', e1, e2⟩ := bitsOutside_rt (b := [false]) hext (by decide) hr (by decide)
          rw [he'] at e1
          cases e1
          obtain ⟨p'', _, _, h, _⟩ := e2 0 p rest hat
          exact contra _ h
        | true =>
          apply hsafe
          unfold inRoot at hr
          unfold safeBitsRoot
          cases hl : c.lower with
          | none => rw [hl] at hr; simp at hr
          | some l =>
            cases hu : c.upper with
            | none => rw [hl, hu] at hr; simp at hr
            | some u => simp
    | false =>
      have hu0 : c.upper ≠ some 0 := hx.resolve_left (by simp [hext])
      have hw := SizeC.within_of_test hext ht
      have hw1 : c.within 1 := ⟨fun l hl => by have := hw.1 l hl; omega, fun u hu => by
        have : u ≠ 0 := by rintro rfl; exact hu0 hu
        omega⟩
      have ht1 : c.test 1 = true := by
        unfold SizeC.test
        cases hl : c.lower <;> cases hu : c.upper <;> simp
        · exact Or.inr (hw1.2 _ hu)
        · exact Or.inr (hw1.1 _ hl)
        · exact Or.inr ⟨hw1.1 _ hl, hw1.2 _ hu⟩
      simp only [safeBits, List.length_singleton, ht1, hext, List.isEmpty_cons, Bool.not_false, Bool.true_and,
        Bool.false_eq_true, if_false, Bool.or_eq_true, beq_iff_eq, not_or] at hsafe
      apply hsafe.2
      have h0 : safeBitsRoot c 0 = true := by
        simp only [decTy, decodeBitstring, hext, Bool.false_eq_true, if_false] at hd
        exact (ensures_bitsRoot hu0).run _ _ _ hd [] rfl hw
      revert h0
      unfold safeBitsRoot
      split
      · intro _; rfl
      · split
        · split
          · exact id
          · intro _; rfl
        · intro _; rfl

theorem bits_exact {c : SizeC} {b : Bits} (h : Back (.bitString c) (.bits b) (.bits b)) : safeBitsAlone c b = true := by
  by_cases hb : b = [] ∧ (c.ext = true ∨ c.upper ≠ some 0)
  · obtain ⟨rfl, hx⟩ := hb
    exact absurd h (bits_not_empty hx)
  obtain ⟨fs, rest, p, p', he, hat, hd⟩ := h
  have ht : c.test b.length = true := by
    have := (ensures_bitstring c).run _ _ _ hd
    simpa [hasShape] using this
  simp only [encTy, encodeBitstring] at he
  simp only [decTy, decodeBitstring] at hd
  cases hext : c.ext with
  | true =>
    have hne : b ≠ [] := fun h0 => hb ⟨h0, .inl hext⟩
    have hbin : asBinary b = b := by cases b <;> simp_all [asBinary]
    have hemp : b.isEmpty = false := by cases b <;> simp_all
    rw [hbin, hext] at he
    rw [hext] at hd
    simp only [if_true] at he hd
    cases hr : inRoot c b.length with
    | none =>
      obtain ⟨e, h⟩ := chainLe_none hr
      rw [h] at he
      cases he
    | some r =>
      rw [chainLe_inRoot hr] at he
      cases r with
      | true =>
        have hw := SizeC.within_of_inRoot hr
        have hu0 : c.upper ≠ some 0 := fun h0 => hne (List.length_eq_zero_iff.1 (by have := hw.2 0 h0; omega))
        obtain ⟨fl, rfl⟩ := encodeRoot_bit hu0 he
        obtain ⟨p1, _, hd⟩ := first_bit hat hd
        rw [if_pos (by decide)] at hd
        have := (ensures_bitsRoot hu0).run _ _ _ hd b rfl hw
        simp [safeBitsAlone, safeBits, ht, hext, hemp, hr, this]
      | false =>
        have hfs : ∃ fl, fs = ⟨false, [true]⟩ :: fl := by
          cases hf : encodeLengthDeterminant false false (b.length : Int) (some 0) none with
          | error e => rw [hf] at he; cases he
          | ok ld => rw [hf] at he; cases he; exact ⟨_, rfl⟩
        obtain ⟨fl, rfl⟩ := hfs
        obtain ⟨p1, _, hd⟩ := first_bit hat hd
        rw [if_neg (by decide)] at hd
        obtain ⟨_, p2, _, hd⟩ := bind_eq_ok hd
        obtain ⟨n, p3, e3, hd⟩ := bind_eq_ok hd
        obtain ⟨v, p4, e4, hd⟩ := bind_eq_ok hd
        obtain ⟨_, p5, _, hd⟩ := bind_eq_ok hd
        have hn := (ensures_lenDet _ _).run _ _ _ e3
        have hv := (ensures_next _ _).run _ _ _ e4
        simp only [Nat.zero_mul, Nat.zero_add] at hv
        have hl := congrArg List.length (mkBits_inv hd)
        rw [zfill_pyBin_length hv] at hl
        have : b.length ≤ 16383 := by omega
        simp [safeBitsAlone, hext, hemp, hr, this]
  | false =>
    have hw := SizeC.within_of_test hext ht
    by_cases hu0 : c.upper = some 0
    · simp [safeBitsAlone, safeBits, ht, hext, hu0]
    · have hne : b ≠ [] := fun h0 => hb ⟨h0, .inr hu0⟩
      have hemp : b.isEmpty = false := by cases b <;> simp_all
      rw [hext] at hd
      simp only [Bool.false_eq_true, if_false] at hd
      have := (ensures_bitsRoot hu0).run _ _ _ hd b rfl hw
      simp [safeBitsAlone, safeBits, ht, hext, hemp, this]

/-- Inside of messages. -/
theorem bits_carried {c : SizeC} {b : Bits} (h : Carries (.bitString c) (.bits b) (.bits b)) : safeBits c b = true := by
  have ha := bits_exact (back_of_carries h)
  unfold safeBitsAlone at ha
  rw [Bool.or_eq_true] at ha
  rcases ha with ha | ha
  · exact ha
  simp only [Bool.and_eq_true, beq_iff_eq, decide_eq_true_eq, Bool.not_eq_true'] at ha
  obtain ⟨⟨⟨hext, hemp⟩, hr⟩, hn⟩ := ha
  have hne : b ≠ [] := by rintro rfl; cases hemp
  obtain ⟨fs, he, h⟩ := reads_of_carries h
  obtain ⟨fs', e1, e2⟩ := bitsOutside_rt hext hne hr hn
  rw [encTy, e1] at he
  cases he
  obtain ⟨p, p', hp, hd, hat⟩ := h 0 []
  obtain ⟨p'', q, r, hd', hat', hq, hl⟩ := e2 0 p [] hp
  rw [decTy, hd'] at hd
  cases hd
  have := hat.unique hat'
  have ht : c.test b.length = true := by simp [SizeC.test, hext]
  simp only [safeBits, ht, hext, hemp, hr, Bool.not_false, Bool.true_and, if_true, Bool.and_eq_true, decide_eq_true_eq]
  exact ⟨hn, by omega⟩

theorem bits_alone {c : SizeC} {b : Bits} (h : safeBitsAlone c b = true) : RoundTrips (.bitString c) (.bits b) (.bits b) := by
  unfold safeBitsAlone at h
  rw [Bool.or_eq_true] at h
  rcases h with h | h
  · exact (safe_carries (t := .bitString c) (v := .bits b) (by simpa [Spec.survives, Spec.faithful] using h) (by simp [Spec.sendable])).2
  simp only [Bool.and_eq_true, beq_iff_eq, decide_eq_true_eq, Bool.not_eq_true'] at h
  obtain ⟨⟨⟨hext, hemp⟩, hr⟩, hn⟩ := h
  have hne : b ≠ [] := by rintro rfl; cases hemp
  obtain ⟨fs, e1, e2⟩ := bitsOutside_rt hext hne hr hn
  refine roundTrips_of_start (t := .bitString c) (v := .bits b) (fs := fs) e1 fun p rest hp => ?_
  obtain ⟨p', _, _, hd, _⟩ := e2 0 p _ hp
  exact ⟨p', hd⟩

/-! ## OCTET STRING -/

theorem mkOctets_inv {c : SizeC} {x o : List UInt8} {p p' : PerBytes} (h : liftE (mkOctets c x) p = .ok (.octets o, p')) : x = o := by
  unfold liftE mkOctets at h
  split at h <;> cases h
  rfl

theorem fromHexString_length : ∀ l : List Nat, (fromHexString l).length = (l.length + 1) / 2
  | [] => rfl
  | [_] => by simp [fromHexString]
  | _ :: _ :: r => by
    simp only [fromHexString, List.length_cons, fromHexString_length r]
    omega

theorem digits_length {n v : Nat} (h : v < 2 ^ (n * 8)) : (fromHexString (zfillHex (n * 2) (pyHex v))).length = max n 1 := by
  rw [fromHexString_length]
  by_cases h0 : n = 0
  · subst h0
    have : v = 0 := by simpa using h
    subst this
    decide
  · have hl : (pyHex v).length ≤ n * 2 := pyHex_length_le (by omega) (by rw [pow16]; exact Nat.lt_of_lt_of_le h (Nat.pow_le_pow_right (by omega) (by omega)))
    simp only [zfillHex, List.length_append, List.length_replicate]
    omega

/-- `hex` drops leading zeros. -/
theorem pyHex_head (v : Nat) : ((fromHexString (pyHex v)).head?.any (fun x => decide (16 ≤ x.toNat)) ||
    fromHexString (pyHex v) == [0]) = true := by
  by_cases h0 : v = 0
  · subst h0; decide
  · have hlt := pyHex_lt v
    have hge : 16 ^ (v.log2 / 4) ≤ v := by
      rw [pow16]
      exact Nat.le_trans (Nat.pow_le_pow_right (by omega) (by omega)) (Nat.log2_self_le h0)
    have hd : v / 16 ^ (v.log2 / 4) % 16 = v / 16 ^ (v.log2 / 4) := by
      apply Nat.mod_eq_of_lt
      rw [Nat.div_lt_iff_lt_mul (Nat.pow_pos (by omega))]
      rw [Nat.pow_succ] at hlt
      omega
    have hd1 : 1 ≤ v / 16 ^ (v.log2 / 4) := Nat.div_pos hge (Nat.pow_pos (by omega))
    have hd2 : v / 16 ^ (v.log2 / 4) < 16 := by rw [← hd]; exact Nat.mod_lt _ (by omega)
    rw [Bool.or_eq_true]
    left
    unfold pyHex natToHex
    rw [hd]
    generalize v / 16 ^ (v.log2 / 4) = d at *
    cases v.log2 / 4 with
    | zero =>
      simp only [natToHex, fromHexString, List.head?_cons, Option.any_some, decide_eq_true_eq]
      rw [UInt8.toNat_ofNat']
      omega
    | succ k =>
      simp only [natToHex, fromHexString, List.head?_cons, Option.any_some, decide_eq_true_eq]
      have := Nat.mod_lt (v / 16 ^ k) (show 16 > 0 by omega)
      rw [UInt8.toNat_ofNat']
      omega

/-- Strings that the decoder returns. -/
theorem ensures_octetsRoot {c : SizeC} (hu : c.upper ≠ some 0) : Ensures (decodeOctetstringRoot c) (fun v => ∀ o, v = .octets o →
    c.within o.length → safeOctetsRoot c o = true ∨ (o = [] ∧ ∃ u, c.lower = some 0 ∧ c.upper = some u ∧ u ≤ 65535)) := by
  unfold decodeOctetstringRoot safeOctetsRoot
  rw [if_neg hu]
  by_cases hf : c.lower ≠ none ∧ c.lower = c.upper
  · simp only [hf]
    obtain ⟨n, hn⟩ := Option.ne_none_iff_exists'.1 (hf.2 ▸ hf.1)
    simp only [hn, Option.getD_some]
    have key : ∀ b : List UInt8, n < 65536 → c.within b.length → b.length < 65536 := fun b h hw => by have := hw.2 n hn; omega
    simp only [ne_eq, reduceCtorEq, not_false_eq_true, and_self, if_true]
    refine Ensures.ite (fun h => ?_) fun h => Ensures.ite (fun h => ?_) fun h => Ensures.raise _
    · exact (Ensures.trivial _).mono fun _ _ b _ hw => .inl (decide_eq_true (key b (by omega) hw))
    · exact (Ensures.trivial _).mono fun _ _ b _ hw => .inl (decide_eq_true (key b h hw))
  · simp only [if_neg hf]
    cases hu' : c.upper with
    | none =>
      dsimp only
      refine Ensures.bind' fun _ => (ensures_lenDet _ _).bind fun n hn => (ensures_next _ _).bind fun v hv =>
        Ensures.liftE fun a ha o ho => ?_
      subst ho
      unfold mkOctets at ha
      split at ha <;> cases ha
      have hl := digits_length (n := n.toNat) (v := v) hv
      intro _
      left
      cases c.lower <;> simp only [Bool.and_eq_true, decide_eq_true_eq] <;> omega
    | some u =>
      dsimp only
      cases hl : c.lower with
      | none =>
        refine Ensures.bind (P := fun _ => False) ?_ fun _ h => h.elim
        unfold decodeLengthDeterminant decodeConstrainedWholeNumber
        simp only [Bool.false_eq_true, if_false, if_true]
        refine Ensures.bind' fun _ => Ensures.bind (P := fun _ => False) (Ensures.liftE fun a e => ?_) fun _ h => h.elim
        simp only [SizeC.lowerZ, hl] at e
        cases e
      | some l =>
        have hr : Ensures (decodeLengthDeterminant false true c.lowerZ c.upperZ) (fun _ => u ≤ l + 65535) := by
          unfold decodeLengthDeterminant
          simp only [Bool.false_eq_true, if_false, if_true, SizeC.lowerZ, SizeC.upperZ, hl, hu', Option.map_some]
          refine (ensures_cwn_range _ _).mono fun n hn => ?_
          have := hn.1
          simp only [Int.ofNat_eq_natCast] at this
          omega
        refine hr.bind fun n hn => Ensures.ite (fun h0 => ?_) fun h0 => ?_
        · refine Ensures.liftE fun a ha o ho hw => ?_
          subst ho
          unfold mkOctets at ha
          split at ha <;> cases ha
          have : l = 0 := by have := hw.1 l hl; simpa [fromHexString] using this
          subst this
          exact .inr ⟨rfl, u, rfl, rfl, by omega⟩
        · refine Ensures.bind' fun v => Ensures.liftE fun a ha o ho hw => ?_
          subst ho
          unfold mkOctets at ha
          split at ha <;> cases ha
          left
          dsimp only
          have hemp : (fromHexString (pyHex v)).isEmpty = false := by
            have := fromHexString_length (pyHex v)
            rw [pyHex_length] at this
            cases h : fromHexString (pyHex v) with
            | nil => rw [h] at this; simp only [List.length_nil] at this; omega
            | cons _ _ => rfl
          rw [hemp]
          simp only [hn, decide_true, Bool.true_and, Bool.false_eq_true, if_false]
          exact pyHex_head v

theorem encodeOctetsRoot_bit {c : SizeC} {value : Bits} {b : Bool} {fs : List BitField} (hu : c.upper ≠ some 0)
    (h : encodeOctetstringRoot c value (some ⟨false, [b]⟩) = .ok fs) : ∃ fl, fs = ⟨false, [b]⟩ :: fl := by
  unfold encodeOctetstringRoot at h
  simp only [hu, if_false, withExt] at h
  have key : ∀ {x : Except Err (List BitField)}, (x >>= fun ld => Pure.pure (⟨false, [b]⟩ :: (ld ++ [⟨true, value⟩]))) = .ok fs →
      ∃ fl, fs = ⟨false, [b]⟩ :: fl := by
    intro x hx
    cases x with
    | error e => cases hx
    | ok l => cases hx; exact ⟨_, rfl⟩
  split at h
  · split at h
    · cases h; exact ⟨_, rfl⟩
    · split at h
      · cases h; exact ⟨_, rfl⟩
      · cases h
  · split at h
    · exact key h
    · exact key h

theorem octets_exact {c : SizeC} {o : List UInt8} (h : Back (.octetString c) (.octets o) (.octets o)) :
    safeOctetsAlone c o = true := by
  obtain ⟨fs, rest, p, p', he, hat, hd⟩ := h
  have ht : c.test o.length = true := by
    have := (ensures_octetstring c).run _ _ _ hd
    simpa [hasShape] using this
  have hlb : (bytesToBits o).length / 8 = o.length := by rw [bytesToBits_length]; omega
  simp only [encTy, encodeOctetstring, octetBits, octetBits_eq, hlb] at he
  simp only [decTy, decodeOctetstring] at hd
  cases hext : c.ext with
  | true =>
    rw [hext] at he hd
    simp only [if_true] at he hd
    cases hr : inRoot c o.length with
    | none =>
      obtain ⟨e, h⟩ := chainLe_none hr
      rw [h] at he
      cases he
    | some r =>
      rw [chainLe_inRoot hr] at he
      cases r with
      | true =>
        have hw := SizeC.within_of_inRoot hr
        by_cases hu0 : c.upper = some 0
        · have ho : o = [] := List.length_eq_zero_iff.1 (by have := hw.2 0 hu0; omega)
          subst ho
          have hl : c.lower = some 0 := by
            unfold inRoot at hr
            cases hl : c.lower with
            | none => rw [hl] at hr; cases hr
            | some l => have := hw.1 l hl; simp at this; rw [this]
          simp [safeOctetsAlone, hl, hu0, hext]
        · obtain ⟨fl, rfl⟩ := encodeOctetsRoot_bit hu0 he
          obtain ⟨p1, _, hd⟩ := first_bit hat hd
          rw [if_pos (by decide)] at hd
          rcases (ensures_octetsRoot hu0).run _ _ _ hd o rfl hw with h | ⟨rfl, u, h1, h2, h3⟩
          · simp [safeOctetsAlone, safeOctets, ht, hext, hr, h, hu0]
          · simp [safeOctetsAlone, h1, h2, h3, hext]
      | false =>
        have hfs : ∃ fl, fs = ⟨false, [true]⟩ :: fl := by
          cases hf : encodeLengthDeterminant false false (o.length : Int) c.lowerZ none with
          | error e => rw [hf] at he; cases he
          | ok ld => rw [hf] at he; cases he; exact ⟨_, rfl⟩
        obtain ⟨fl, rfl⟩ := hfs
        obtain ⟨p1, _, hd⟩ := first_bit hat hd
        rw [if_neg (by decide)] at hd
        obtain ⟨_, p2, _, hd⟩ := bind_eq_ok hd
        obtain ⟨n, p3, e3, hd⟩ := bind_eq_ok hd
        have hn := (ensures_lenDet _ _).run _ _ _ e3
        have : o.length ≤ 16383 := by
          split at hd
          · rw [← mkOctets_inv hd]; decide
          · obtain ⟨v, p4, e4, hd⟩ := bind_eq_ok hd
            have hl := digits_length ((ensures_next _ _).run _ _ _ e4)
            rw [mkOctets_inv hd] at hl
            dsimp only at hl
            omega
        simp [safeOctetsAlone, safeOctets, ht, hext, hr, this]
  | false =>
    have hw := SizeC.within_of_test hext ht
    by_cases hu0 : c.upper = some 0
    · simp [safeOctetsAlone, safeOctets, ht, hext, hu0]
    · rw [hext] at hd
      simp only [Bool.false_eq_true, if_false] at hd
      rcases (ensures_octetsRoot hu0).run _ _ _ hd o rfl hw with h | ⟨rfl, u, h1, h2, h3⟩
      · simp [safeOctetsAlone, safeOctets, ht, hext, h]
      · have : u ≠ 0 := by rintro rfl; exact hu0 h2
        simp [safeOctetsAlone, h1, h2, h3, this]

theorem emit_unaligned {pre : List BitField} (h : ∀ f ∈ pre, f.octetAlign = false) (pos pos' : Nat) : emit pos pre = emit pos' pre := by
  induction pre generalizing pos pos' with
  | nil => rfl
  | cons f fs ih =>
    have hf := h f (List.mem_cons_self ..)
    rw [emit_cons, emit_cons, hf, padTo_false, padTo_false]
    rw [ih (fun g hg => h g (List.mem_cons_of_mem _ hg))]

/-- The empty string of a type whose sizes start at 0: the decoder stops behind the length. -/
theorem emptyOctets_reads {c : SizeC} {u : Nat} (hl : c.lower = some 0) (hu : c.upper = some u) (h0 : 0 < u) (hr : u ≤ 65535) :
    ∃ pre, encodeOctetstring c [] = .ok (pre ++ [⟨true, []⟩]) ∧
      (∀ pos, Reads (decodeOctetstring c) pos (emit pos pre) (.octets [])) ∧
      (u < 255 → ∀ f ∈ pre, f.octetAlign = false) := by
  have ht : c.test ([] : List UInt8).length = true := by simp [SizeC.test, hl, hu]
  obtain ⟨f, e1, e2, hal⟩ : ∃ f, encodeLengthDeterminant false true ((0 : Nat) : Int) c.lowerZ c.upperZ = .ok [f] ∧
      (∀ pos, Reads (decodeLengthDeterminant false true c.lowerZ c.upperZ) pos (emit pos [f]) 0) ∧
      (u < 255 → f.octetAlign = false) := by
    obtain ⟨e1, e2⟩ := cwn_roundtrip (n := 0) (lb := 0) (ub := (u : Int)) (by omega) (by omega) (by omega)
    rw [if_neg (by omega)] at e2
    refine ⟨⟨decide (256 ≤ (u : Int) - 0 + 1), natToBits (cwnWidth ((u : Int) - 0 + 1).toNat) ((0 : Int) - 0).toNat⟩,
      ?_, fun pos => ?_, fun h => decide_eq_false (by omega)⟩
    · unfold encodeLengthDeterminant
      simp only [Bool.false_eq_true, if_false, if_true, SizeC.lowerZ, SizeC.upperZ, hl, hu, Option.map_some]
      exact congrArg (fun x => x >>= fun f => .ok [f]) e1
    · unfold decodeLengthDeterminant
      simp only [Bool.false_eq_true, if_false, if_true, SizeC.lowerZ, SizeC.upperZ, hl, hu, Option.map_some]
      exact e2 pos
  have hu0 : c.upper ≠ some 0 := by rw [hu]; intro h; cases h; omega
  have hfix : ¬ (c.lower ≠ none ∧ c.lower = c.upper) := by rw [hl, hu]; rintro ⟨_, h⟩; cases h; omega
  have henc : ∀ e, encodeOctetstringRoot c [] e = .ok (withExt e ([f] ++ [⟨true, []⟩])) := by
    intro e
    unfold encodeOctetstringRoot
    simp only [hu0, if_false, hfix, List.length_nil, Nat.zero_div]
    rw [e1, hu]; rfl
  have hdec : ∀ pos, Reads (decodeOctetstringRoot c) pos (emit pos [f]) (.octets []) := by
    intro pos
    unfold decodeOctetstringRoot
    simp only [hu0, if_false, hfix]
    rw [hu]
    dsimp only
    refine Reads.map (e2 pos) fun _ => ?_
    exact Reads.liftE (mkOctets_ok ht) _
  unfold encodeOctetstring decodeOctetstring octetBits
  rw [octetBits_eq]
  show ∃ pre, (if c.ext = true then _ else _) = _ ∧ _
  cases hext : c.ext with
  | false =>
    simp only [Bool.false_eq_true, if_false]
    refine ⟨[f], henc none, hdec, fun h g hg => ?_⟩
    rw [List.mem_singleton.1 hg]; exact hal h
  | true =>
    simp only [if_true]
    have hir : inRoot c 0 = some true := by simp [inRoot, hl, hu]
    refine ⟨[⟨false, [false]⟩, f], ?_, fun pos => ?_, fun h g hg => ?_⟩
    · have : bytesToBits [] = [] := rfl
      rw [this]
      simp only [List.length_nil, Nat.zero_div]
      rw [chainLe_inRoot hir]
      exact henc (some ⟨false, [false]⟩)
    · rw [emit_bit]
      refine (Reads.bit pos false).bind ?_
      simp only [Bool.false_eq_true, if_false, if_true]
      exact hdec _
    · rcases List.mem_cons.1 hg with rfl | hg
      · rfl
      · rw [List.mem_singleton.1 hg]; exact hal h

theorem octets_carried {c : SizeC} {o : List UInt8} (h : Carries (.octetString c) (.octets o) (.octets o)) :
    safeOctets c o = true := by
  have ha := octets_exact (back_of_carries h)
  unfold safeOctetsAlone at ha
  rw [Bool.or_eq_true] at ha
  rcases ha with ha | ha
  · exact ha
  rw [Bool.and_eq_true] at ha
  obtain ⟨hemp, ha⟩ := ha
  have : o = [] := List.isEmpty_iff.1 hemp
  subst this
  split at ha
  · rename_i u hl hu
    simp only [Bool.and_eq_true, decide_eq_true_eq, Bool.or_eq_true, bne_iff_ne] at ha
    obtain ⟨hr, hx⟩ := ha
    obtain ⟨fs, he, h⟩ := reads_of_carries h
    have ht : c.test ([] : List UInt8).length = true := by simp [SizeC.test, hl, hu]
    have hir : inRoot c ([] : List UInt8).length = some true := by simp [inRoot, hl, hu]
    by_cases h0 : u = 0
    · subst h0
      have hext : c.ext = true := by simpa using hx
      exfalso
      obtain ⟨p, p', hp, hd, hat⟩ := h 0 [false]
      have hfs : fs = [] := by
        simp only [encTy, encodeOctetstring, octetBits, octetBits_eq, hext, if_true] at he
        have hb : bytesToBits [] = [] := rfl
        rw [hb] at he
        simp only [List.length_nil, Nat.zero_div] at he hir
        rw [chainLe_inRoot hir] at he
        simp only [bind, Except.bind, if_true, encodeOctetstringRoot, hu] at he
        cases he; rfl
      subst hfs
      obtain ⟨p1, e1, h1⟩ := Reads.bit 0 false p [] hp
      simp only [decTy, decodeOctetstring, hext, if_true] at hd
      rw [bind_run e1] at hd
      simp only [Bool.false_eq_true, if_false, if_true, decodeOctetstringRoot, hu] at hd
      have : p1 = p' := by
        unfold liftE mkOctets at hd
        rw [if_pos ht] at hd
        cases hd; rfl
      subst this
      have := hat.unique h1
      simp [emit] at this
    · obtain ⟨pre, e1, e2, e3⟩ := emptyOctets_reads hl hu (by omega) hr
      have hbig : 255 ≤ u := by
        by_cases hsm : u < 255
        · exfalso
          have e3 := e3 hsm
          simp only [encTy] at he
          rw [e1] at he
          cases he
          have key : ∀ pos, (pos + (emit 0 pre).length) % 8 = 0 := by
            intro pos
            obtain ⟨p, p', hp, hd, hat⟩ := h pos []
            rw [emit_append, List.append_assoc] at hp
            obtain ⟨p'', hd', hat'⟩ := e2 pos p _ hp
            simp only [decTy] at hd
            rw [hd'] at hd
            cases hd
            have hu := hat.unique hat'
            rw [emit_append, List.length_append, emit_unaligned e3 pos 0, emit_single, List.length_append,
              padTo_true_length] at hu
            simp only [List.length_nil] at hu
            have := add_padLen_mod (pos + (emit 0 pre).length)
            omega
          have k0 := key 0
          have k1 := key 1
          omega
        · omega
      have hfix : ¬ (c.lower ≠ none ∧ c.lower = c.upper) := by rw [hl, hu]; rintro ⟨_, h⟩; cases h; omega
      have hs : safeOctetsRoot c [] = true := by
        unfold safeOctetsRoot
        rw [if_neg hfix, hl, hu]
        simp only [List.isEmpty_nil, if_true, Bool.and_eq_true, decide_eq_true_eq]
        omega
      have hu0 : c.upper ≠ some 0 := by rw [hu]; intro h; cases h; omega
      unfold safeOctets
      rw [ht, hir, hs]
      simp [hu0]
  · cases ha

theorem octets_alone {c : SizeC} {o : List UInt8} (h : safeOctetsAlone c o = true) :
    RoundTrips (.octetString c) (.octets o) (.octets o) := by
  unfold safeOctetsAlone at h
  rw [Bool.or_eq_true] at h
  rcases h with h | h
  · exact (safe_carries (t := .octetString c) (v := .octets o) (by simpa [Spec.survives, Spec.faithful] using h) (by simp [Spec.sendable])).2
  rw [Bool.and_eq_true] at h
  obtain ⟨hemp, h⟩ := h
  have : o = [] := List.isEmpty_iff.1 hemp
  subst this
  split at h
  · rename_i u hl hu
    simp only [Bool.and_eq_true, decide_eq_true_eq, Bool.or_eq_true, bne_iff_ne] at h
    obtain ⟨hr, hx⟩ := h
    have ht : c.test ([] : List UInt8).length = true := by simp [SizeC.test, hl, hu]
    by_cases h0 : u = 0
    · subst h0
      have hext : c.ext = true := by simpa using hx
      have hir : inRoot c ([] : List UInt8).length = some true := by simp [inRoot, hl, hu]
      refine roundTrips_of_start (t := .octetString c) (v := .octets []) (fs := []) ?_ fun p rest hp => ?_
      · simp only [encTy, encodeOctetstring, octetBits, octetBits_eq, hext, if_true]
        have hb : bytesToBits [] = [] := rfl
        rw [hb]
        simp only [List.length_nil, Nat.zero_div] at hir ⊢
        rw [chainLe_inRoot hir]
        simp only [bind, Except.bind, if_true, encodeOctetstringRoot, hu]
      · obtain ⟨p1, e1, h1⟩ := Reads.bit 0 false p _ hp
        refine ⟨p1, ?_⟩
        simp only [decTy, decodeOctetstring, hext, if_true]
        rw [bind_run e1]
        simp only [Bool.false_eq_true, if_false, if_true, decodeOctetstringRoot, hu]
        unfold liftE mkOctets
        rw [if_pos ht]
        rfl
    · obtain ⟨pre, e1, e2, _⟩ := emptyOctets_reads hl hu (by omega) hr
      refine roundTrips_of_start (t := .octetString c) (v := .octets []) (fs := _) e1 fun p rest hp => ?_
      rw [emit_append, List.append_assoc] at hp
      obtain ⟨p', hd, _⟩ := e2 0 p _ hp
      exact ⟨p', hd⟩
  · cases h

/-! ## SEQUENCE OF -/

theorem ensures_constrainedLen {c : SizeC} {l u : Nat} (hl : c.lower = some l) (hu : c.upper = some u) :
    Ensures (decodeLengthDeterminant false true c.lowerZ c.upperZ) (fun n => u ≤ l + 65535 ∧ (l = u → n = 0)) := by
  unfold decodeLengthDeterminant
  simp only [Bool.false_eq_true, if_false, if_true, SizeC.lowerZ, SizeC.upperZ, hl, hu, Option.map_some]
  refine (ensures_cwn_range _ _).mono fun n hn => ?_
  simp only [Int.ofNat_eq_natCast] at hn
  exact ⟨by omega, fun h => hn.2 (by rw [h])⟩

/-- As many components arrive as were sent only when the number is one of those. -/
theorem count_exact {c : SizeC} {t : Ty} {vs ws : List Val} (hlen : ws.length = vs.length)
    (h : Back (.seqOf c t) (.seqOf vs) (.seqOf ws)) : safeCount c vs.length = true := by
  obtain ⟨fs, rest, p, p', he, hat, hd⟩ := h
  simp only [encTy] at he
  simp only [decTy] at hd
  obtain ⟨m, p1, hm, hd⟩ := bind_eq_ok hd
  obtain ⟨ws', p2, hw, hd⟩ := bind_eq_ok hd
  cases hd
  have hcount := ((ensures_repeat (Ensures.trivial (decTy t)) m.toNat).run _ _ _ hw).1
  rw [hlen] at hcount
  cases hfl : vs.mapM (encTy t) with
  | error e => rw [hfl] at he; cases he
  | ok fls =>
    rw [hfl] at he
    simp only [bind, Except.bind] at he
    generalize vs.length = n at *
    unfold encodeSequenceOf at he
    unfold decodeSequenceOfCount at hm
    unfold safeCount
    cases hext : c.ext with
    | true =>
      rw [hext] at he hm
      simp only [if_true] at he hm ⊢
      cases hr : inRoot c n with
      | none =>
        obtain ⟨e, h⟩ := chainLe_none hr
        rw [h] at he
        cases he
      | some r =>
        rw [chainLe_inRoot hr] at he
        simp only [bind, Except.bind] at he
        cases r with
        | true =>
          have hfs : ∃ fl, fs = ⟨false, [false]⟩ :: fl := by
            simp only [if_true] at he
            split at he
            · cases he
            · cases he; exact ⟨_, rfl⟩
          obtain ⟨fl, rfl⟩ := hfs
          obtain ⟨q, _, hm⟩ := first_bit hat hm
          rw [if_pos (by decide)] at hm
          cases hl : c.lower with
          | none => simp [inRoot, hl] at hr
          | some l =>
            cases hu : c.upper with
            | none => simp [inRoot, hl, hu] at hr
            | some u =>
              have hn := (ensures_constrainedLen hl hu).run _ _ _ hm
              simp only [Bool.and_eq_true, Bool.or_eq_true, bne_iff_ne, beq_iff_eq, decide_eq_true_eq]
              refine ⟨?_, hn.1⟩
              by_cases hlu : l = u
              · right
                have := hn.2 hlu
                omega
              · exact .inl hlu
        | false =>
          have hfs : ∃ fl, fs = ⟨false, [true]⟩ :: fl := by
            simp only [Bool.false_eq_true, if_false] at he
            split at he
            · cases he
            · cases he; exact ⟨_, rfl⟩
          obtain ⟨fl, rfl⟩ := hfs
          obtain ⟨q, _, hm⟩ := first_bit hat hm
          rw [if_neg (by decide)] at hm
          obtain ⟨_, q2, _, hm⟩ := bind_eq_ok hm
          have hn := (ensures_lenDet _ _).run _ _ _ hm
          have : n ≤ 16383 := by omega
          cases c.lower <;> cases c.upper <;> simp [this]
    | false =>
      rw [hext] at he hm
      simp only [Bool.false_eq_true, if_false] at he hm ⊢
      cases hl : c.lower with
      | none => rw [hl] at he; cases he
      | some l =>
        rw [hl] at he hm
        dsimp only at he hm
        by_cases hln : n < l
        · rw [if_pos hln] at he; cases he
        rw [if_neg hln] at he
        cases hu : c.upper with
        | none =>
          rw [hu] at hm
          have hn := (ensures_lenDet _ _).run _ _ _ hm
          simp only [Bool.and_eq_true, decide_eq_true_eq]
          omega
        | some u =>
          rw [hu] at he hm
          dsimp only at he hm
          by_cases h1 : u ≠ 0 ∧ n > u
          · rw [if_pos h1] at he; cases he
          by_cases h2 : l = u ∧ u < 65536
          · rw [if_pos h2] at hm
            cases hm
            obtain ⟨rfl, h2⟩ := h2
            have : l = n := by simpa using hcount.symm
            subst this
            by_cases h0 : l = 0
            · simp [h0]
            · simp [h0, h2]
          · rw [if_neg h2] at hm
            by_cases h0 : u = 0
            · subst h0
              simp only [ne_eq, not_true_eq_false, if_false] at hm
              have hn := (ensures_lenDet _ _).run _ _ _ hm
              have hl0 : l ≠ 0 := fun h => h2 ⟨h, by omega⟩
              simp only [if_true, hl0, if_false, Bool.and_eq_true, decide_eq_true_eq]
              omega
            · rw [if_pos h0] at hm
              have hn := (ensures_constrainedLen hl hu).run _ _ _ hm
              simp only [h0, if_false, Bool.and_eq_true, decide_eq_true_eq]
              refine ⟨by omega, by omega, ?_⟩
              by_cases hlu : l = u
              · have := hn.2 hlu
                exfalso; omega
              · simp only [hlu, if_false, decide_eq_true_eq]; omega

end Verif
