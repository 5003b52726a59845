import Verif.Lemmas.Message
/-!
# A decoder without the defects F1, F2, F4, F7, F8 and F16 of the additions

It is not a model of anything in the repository: it is the inverse that shows how much of a value the encoder
writes.  Only the decoders of the simple types differ from the model of the code; the decoders of CHOICE,
SEQUENCE, SEQUENCE OF and open types are those of the code (`decWith`).
-/
namespace Verif

/-- INTEGER (k..k, ...): the value of the root is `k`. -/
def repairedInteger (c : Constr) : Dec Val :=
  match c.ext, c.lower, c.upper with
  | true, some l, some u =>
    if l = u then do
      let outside ← next ⟨0, 1⟩ false
      if outside ≠ 0 then
        let z ← decodeUnconstrainedWholeNumber
        liftE (mkInt c z)
      else liftE (mkInt c l)
    else decodeInteger c
  | _, _, _ => decodeInteger c

/-- Additions are looked up by position. -/
def repairedEnumerated (ext : Bool) (root add : List (String × Int)) : Dec Val := do
  if !ext then decodeEnumerated ext root add
  else
    let isAddition ← next ⟨0, 1⟩ false
    if isAddition = 0 then
      let i ← decodeConstrainedWholeNumber (some 0) (some ((root.length : Int) - 1))
      liftE (mkEnum (root ++ add) i)
    else
      let i ← decodeNormallySmall 0
      match add[i.toNat]? with
      | none => raise .valueError
      | some p => return .enum p.2

/-- No alignment after a BIT STRING outside the root. -/
def repairedBitstring (c : SizeC) : Dec Val := do
  if c.ext then
    let e ← next ⟨0, 1⟩ false
    if e = 0 then decodeBitstringRoot c
    else
      let len ← decodeLengthDeterminant false false (some 0) none
      let v ← next ⟨0, len.toNat⟩ true
      liftE (mkBits c (zfill len.toNat (pyBin v)))
  else decodeBitstringRoot c

/-- The octets of a field of `n` octets, none if there are none. -/
def octetsOf (n v : Nat) : List UInt8 := if n = 0 then [] else fromHexString (zfillHex (n * 2) (pyHex v))

/-- Every octet is kept, and the content is aligned even if there is none. -/
def repairedOctetstringRoot (c : SizeC) : Dec Val := do
  if c.upper = some 0 then liftE (mkOctets c [])
  else if c.lower ≠ none ∧ c.lower = c.upper then decodeOctetstringRoot c
  else
    match c.upper with
    | some _ =>
      let len ← decodeLengthDeterminant false true c.lowerZ c.upperZ
      let v ← next ⟨len.toNat, 0⟩ true
      liftE (mkOctets c (octetsOf len.toNat v))
    | none =>
      let len ← decodeLengthDeterminant false false (some 0) none
      let v ← next ⟨len.toNat, 0⟩ true
      liftE (mkOctets c (octetsOf len.toNat v))

def repairedOctetstring (c : SizeC) : Dec Val := do
  if c.ext then
    let e ← next ⟨0, 1⟩ false
    if e = 0 then repairedOctetstringRoot c
    else
      let len ← decodeLengthDeterminant false false (some 0) none
      let v ← next ⟨len.toNat, 0⟩ true
      liftE (mkOctets c (octetsOf len.toNat v))
  else repairedOctetstringRoot c

/-- SEQUENCE (SIZE(n, ...)) OF: the root has `n` elements. -/
def repairedCount (c : SizeC) : Dec Int := do
  if c.ext then
    let e ← next ⟨0, 1⟩ false
    if e = 0 then
      if c.lower ≠ none ∧ c.lower = c.upper then return ((c.lower.getD 0 : Nat) : Int)
      else decodeLengthDeterminant false true c.lowerZ c.upperZ
    else
      let _ ← next ⟨0, 0⟩ true
      decodeLengthDeterminant false false (some 0) none
  else decodeSequenceOfCount c

def repairedDecoders : LeafDecoders :=
  ⟨repairedInteger, repairedEnumerated, repairedBitstring, repairedOctetstring, repairedCount⟩

/-- The decoder made of them. -/
def repairedDecode (t : Ty) (stream : List UInt8) : Except Err Val := do
  let p ← PerBytes.init (hexlify stream)
  let r ← decWith repairedDecoders t p
  return r.1

/-! ## INTEGER -/

theorem legibleInt_rt {c : Constr} {z : Int} (h : Spec.legibleInt c z = true) :
    ∃ fs, encodeInteger c z = .ok fs ∧ ∀ pos, Reads (repairedInteger c) pos (emit pos fs) (.int z) := by
  by_cases hs : Spec.safeInt c z = true ∧
      (c.ext = false ∨ c.lower = none ∨ c.upper = none ∨ c.lower ≠ c.upper)
  · obtain ⟨fs, e1, e2⟩ := integer_rt hs.1
    refine ⟨fs, e1, fun pos => ?_⟩
    have : repairedInteger c = decodeInteger c := by
      unfold repairedInteger
      split
      · rename_i h1 h2 h3
        rw [if_neg]
        rintro rfl
        rcases hs.2 with h | h | h | h
        · rw [h1] at h; cases h
        · rw [h2] at h; cases h
        · rw [h3] at h; cases h
        · exact h (by rw [h2, h3])
      · rfl
    rw [this]; exact e2 pos
  · -- INTEGER (k..k, ...)
    have hk : c.ext = true ∧ ∃ k, c.lower = some k ∧ c.upper = some k := by
      cases he : c.ext with
      | false =>
        exfalso
        refine hs ⟨?_, .inl he⟩
        cases hl : c.lower <;> cases hu : c.upper <;> simpa [Spec.safeInt, Spec.legibleInt, he, hl, hu] using h
      | true =>
        refine ⟨rfl, ?_⟩
        cases hl : c.lower with
        | none => simp [Spec.legibleInt, he, hl] at h
        | some l =>
          cases hu : c.upper with
          | none =>
            exfalso
            refine hs ⟨?_, .inr (.inr (.inl hu))⟩
            simpa [Spec.safeInt, Spec.legibleInt, he, hl, hu] using h
          | some u =>
            by_cases hlu : l = u
            · exact ⟨l, rfl, by rw [hlu]⟩
            · exfalso
              refine hs ⟨?_, .inr (.inr (.inr (by rw [hl, hu]; simpa using hlu)))⟩
              simpa [Spec.safeInt, Spec.legibleInt, he, hl, hu, hlu] using h
    obtain ⟨he, k, hl, hu⟩ := hk
    unfold Spec.legibleInt at h
    simp only [Bool.and_eq_true] at h
    obtain ⟨⟨_, ht⟩, h⟩ := h
    have hmk := mkInt_ok ht
    rw [he, hl, hu] at h
    dsimp only at h
    have hrep : repairedInteger c = (do
        let outside ← next ⟨0, 1⟩ false
        if outside ≠ 0 then
          let z ← decodeUnconstrainedWholeNumber
          liftE (mkInt c z)
        else liftE (mkInt c k)) := by
      unfold repairedInteger
      rw [he, hl, hu]
      simp only [if_true]
    rw [hrep]
    unfold encodeInteger
    rw [he, hl, hu]
    simp only [if_true]
    by_cases hin : k ≤ z ∧ z ≤ k
    · have hz : z = k := by omega
      subst hz
      have hfl : fieldListConstrained z (some z) (some z) = .ok [⟨false, []⟩] := by
        simp [fieldListConstrained, encodeConstrainedWholeNumber, needInt, bind, Except.bind, pure,
          Except.pure, integerRange]
      refine ⟨[⟨false, [false]⟩, ⟨false, []⟩], ?_, fun pos => ?_⟩
      · simp [chainLe, needInt, bind, Except.bind, pure, Except.pure, hfl]
      · rw [emit_bit]
        refine (Reads.bit pos false).bind ?_
        simp only [Bool.false_eq_true, if_false]
        rw [if_neg (by decide), emit_single, padTo_false]
        exact Reads.liftE hmk _
    · rw [if_neg hin] at h
      refine ⟨[⟨false, [true]⟩] ++ fieldListUnconstrained z, ?_, fun pos => ?_⟩
      · have hc : chainLe (some k) (some k) z = .ok false := by
          by_cases hlz : k ≤ z
          · simp [chainLe, needInt, bind, Except.bind, pure, Except.pure, hlz]; omega
          · simp [chainLe, needInt, bind, Except.bind, pure, Except.pure, hlz]
        rw [hc]; rfl
      · rw [List.singleton_append, emit_bit]
        refine (Reads.bit pos true).bind ?_
        simp only [if_true]
        rw [if_pos (by decide)]
        exact (unconstrained_roundtrip (twosFits_len (by omega) h) _).map fun _ => Reads.liftE hmk _

/-! ## ENUMERATED -/

theorem legibleEnum_rt {ext : Bool} {root add : List (String × Int)} {z : Int}
    (h : Spec.legibleEnum ext root add z = true) :
    ∃ fs, encodeEnumerated ext root add z = .ok fs ∧
      ∀ pos, Reads (repairedEnumerated ext root add) pos (emit pos fs) (.enum z) := by
  unfold Spec.legibleEnum at h
  cases ext with
  | false =>
    simp only [Bool.not_false, Bool.true_or, if_true] at h
    exact enumerated_rt h
  | true =>
    simp only [Bool.not_true, Bool.false_or] at h
    unfold repairedEnumerated
    simp only [Bool.not_true, Bool.false_eq_true, if_false]
    by_cases hr : root.any (fun p => p.2 == z) = true
    · rw [if_pos hr] at h
      unfold Spec.safeEnum at h
      simp only [Bool.not_true, Bool.false_eq_true, if_false] at h
      rw [if_pos hr] at h
      simp only [Bool.and_eq_true] at h
      obtain ⟨fs, e1, e2⟩ := enumIndex_rt (of_decide_eq_true h.1.1) (of_decide_eq_true h.1.2)
        (of_decide_eq_true h.2)
      refine ⟨[⟨false, [false]⟩] ++ fs, ?_, fun pos => ?_⟩
      · unfold encodeEnumerated
        simp only [Bool.not_true, Bool.false_eq_true, if_false]
        rw [contains_map_snd, if_pos hr, e1]; rfl
      · rw [List.singleton_append, emit_bit]
        refine (Reads.bit pos false).bind ?_
        simp only [Bool.false_eq_true, if_false, if_true]
        refine (e2 _).map fun _ => Reads.liftE (mkEnum_ok ?_) _
        rw [List.any_append, hr]; rfl
    · rw [if_neg hr] at h
      cases hf : add.findIdx? (fun p => p.2 == z) with
      | none => rw [hf] at h; simp at h
      | some n =>
        rw [hf] at h
        obtain ⟨fs, e1, e2⟩ := normallySmall_roundtrip (n := n) (of_decide_eq_true h)
        refine ⟨[⟨false, [true]⟩] ++ fs, ?_, fun pos => ?_⟩
        · unfold encodeEnumerated
          simp only [Bool.not_true, Bool.false_eq_true, if_false]
          rw [contains_map_snd, if_neg hr, findIdx?_map_snd, hf]
          simp only [e1]; rfl
        · rw [List.singleton_append, emit_bit]
          refine (Reads.bit pos true).bind ?_
          simp only [if_true]
          rw [if_neg (by decide)]
          obtain ⟨hlt, hz, _⟩ := List.findIdx?_eq_some_iff_getElem.1 hf
          refine (e2 _).map fun _ => ?_
          simp only [Int.toNat_natCast, List.getElem?_eq_getElem hlt]
          rw [beq_iff_eq] at hz
          rw [hz]
          exact Reads.pure _ _

/-! ## BIT STRING -/

theorem legibleBits_rt {c : SizeC} {b : Bits} (h : Spec.legibleBits c b = true) :
    ∃ fs, encodeBitstring c b = .ok fs ∧ ∀ pos, Reads (repairedBitstring c) pos (emit pos fs) (.bits b) := by
  cases he : c.ext with
  | false =>
    have hs : Spec.safeBits c b = true := by simpa [Spec.safeBits, Spec.legibleBits, he] using h
    obtain ⟨fs, e1, e2⟩ := bitstring_rt hs
    refine ⟨fs, e1, fun pos => ?_⟩
    have : repairedBitstring c = decodeBitstring c := by simp [repairedBitstring, decodeBitstring, he]
    rw [this]; exact e2 pos
  | true =>
    unfold Spec.legibleBits at h
    simp only [Bool.and_eq_true] at h
    obtain ⟨ht, h⟩ := h
    rw [he] at h
    unfold encodeBitstring repairedBitstring
    simp only [he, if_true, Bool.and_eq_true] at h ⊢
    have hne : b ≠ [] := by have := h.1; cases b <;> simp_all
    have hb : asBinary b = b := by cases b <;> simp_all [asBinary]
    rw [hb]
    cases hr : Spec.inRoot c b.length with
    | none => rw [hr] at h; simp at h
    | some r =>
      rw [hr] at h
      rw [chainLe_inRoot hr]
      cases r with
      | true =>
        dsimp only at h
        obtain ⟨fs, e1, e2⟩ := bitsRoot_rt hne ht (SizeC.within_of_inRoot hr) h.2
        refine ⟨⟨false, [false]⟩ :: fs, e1 (some ⟨false, [false]⟩), fun pos => ?_⟩
        rw [emit_bit]
        refine (Reads.bit pos false).bind ?_
        simp only [Bool.false_eq_true, if_false, if_true]
        exact e2 _
      | false =>
        simp only [decide_eq_true_eq] at h
        obtain ⟨w, e1, e3, _, e2⟩ := lenDet_roundtrip (n := (b.length : Int)) (by omega) (by omega) (some 0) none
        refine ⟨[⟨false, [true]⟩] ++ [⟨true, w⟩] ++ [⟨true, b⟩], ?_, fun pos => ?_⟩
        · rw [e1]; rfl
        · show Reads _ pos (emit pos (⟨false, [true]⟩ :: ([⟨true, w⟩] ++ [⟨true, b⟩]))) _
          rw [emit_bit]
          refine (Reads.bit pos true).bind ?_
          simp only [if_true]
          rw [if_neg (by decide), emit_append, emit_single]
          exact (e2 _ _ _).bind (bitsContent_rt hne ht _)

/-! ## OCTET STRING -/

theorem octetsOf_bytes (o : List UInt8) : octetsOf o.length (bitsToNat (bytesToBits o)) = o := by
  unfold octetsOf
  by_cases h : o = []
  · subst h; rfl
  · rw [if_neg (by have := List.length_pos_iff.2 h; omega), fromHexString_zfill h]

/-- Content of an OCTET STRING whose length has just been read. -/
theorem octetsContent_rt {c : SizeC} {o : List UInt8} (ht : c.test o.length = true) (pos : Nat) :
    Reads (do
      let v ← next ⟨((o.length : Nat) : Int).toNat, 0⟩ true
      liftE (mkOctets c (octetsOf ((o.length : Nat) : Int).toNat v))) pos
      (emit pos [⟨true, bytesToBits o⟩]) (.octets o) := by
  rw [emit_single]
  simp only [Int.toNat_natCast]
  refine (Reads.next ⟨o.length, 0⟩ true pos (bytesToBits o) (by rw [bytesToBits_length]; simp; omega)).map
    fun _ => Reads.liftE ?_ _
  rw [octetsOf_bytes, mkOctets_ok ht]

theorem legibleOctetsRoot_rt {c : SizeC} {o : List UInt8} (ht : c.test o.length = true)
    (hw : c.within o.length) (hu0 : c.upper ≠ some 0) (h : Spec.legibleOctetsRoot c o.length = true) :
    ∃ fs, (∀ e, encodeOctetstringRoot c (bytesToBits o) e = .ok (withExt e fs)) ∧
      ∀ pos, Reads (repairedOctetstringRoot c) pos (emit pos fs) (.octets o) := by
  have hlb : (bytesToBits o).length / 8 = o.length := by rw [bytesToBits_length]; omega
  unfold Spec.legibleOctetsRoot at h
  by_cases hfix : c.lower ≠ none ∧ c.lower = c.upper
  · rw [if_pos hfix] at h
    obtain ⟨fs, e1, e2⟩ := octetsRoot_rt ht hw hu0 (by unfold Spec.safeOctetsRoot; rw [if_pos hfix]; exact h)
    refine ⟨fs, e1, fun pos => ?_⟩
    have : repairedOctetstringRoot c = decodeOctetstringRoot c := by
      unfold repairedOctetstringRoot
      rw [if_neg hu0, if_pos hfix]
    rw [this]; exact e2 pos
  · rw [if_neg hfix] at h
    unfold encodeOctetstringRoot repairedOctetstringRoot
    simp only [hu0, if_false, hlb, hfix]
    cases hu : c.upper with
    | none =>
      rw [hu] at h
      have h' : o.length ≤ 16383 := by
        cases hl : c.lower <;> rw [hl] at h <;> simpa using h
      obtain ⟨w, e1, _, _, e2⟩ := lenDet_roundtrip (n := (o.length : Int)) (by omega) (by omega) (some 0) none
      refine ⟨[⟨true, w⟩] ++ [⟨true, bytesToBits o⟩], fun e => by dsimp only; rw [e1]; rfl, fun pos => ?_⟩
      rw [emit_append, emit_single]
      exact (e2 _ _ _).bind (octetsContent_rt ht _)
    | some u =>
      rw [hu] at h
      cases hl : c.lower with
      | none => rw [hl] at h; simp at h
      | some l =>
        rw [hl] at h
        have hr : u ≤ l + 65535 := of_decide_eq_true h
        have hlu : l ≠ u := by rintro rfl; exact hfix ⟨by simp [hl], by rw [hl, hu]⟩
        obtain ⟨f, e1, e2⟩ := constrainedLen_rt (hw.1 l hl) (hw.2 u hu) hr
        refine ⟨[f] ++ [⟨true, bytesToBits o⟩], fun e => ?_, fun pos => ?_⟩
        · unfold SizeC.lowerZ SizeC.upperZ
          rw [hl, hu]
          show (do
            let ld ← encodeLengthDeterminant false true (o.length : Int) (some (l : Int)) (some (u : Int))
            return withExt e (ld ++ [⟨true, bytesToBits o⟩]) : Except Err (List BitField)) = _
          rw [e1]; rfl
        · unfold SizeC.lowerZ SizeC.upperZ
          rw [hl, hu, emit_append]
          have := e2 pos
          rw [if_neg hlu] at this
          exact this.bind (octetsContent_rt ht _)

theorem legibleOctets_rt {c : SizeC} {o : List UInt8} (h : Spec.legibleOctets c o = true) :
    ∃ fs, encodeOctetstring c o = .ok fs ∧
      ∀ pos, Reads (repairedOctetstring c) pos (emit pos fs) (.octets o) := by
  unfold Spec.legibleOctets at h
  simp only [Bool.and_eq_true] at h
  obtain ⟨ht, h⟩ := h
  have hlb : (bytesToBits o).length / 8 = o.length := by rw [bytesToBits_length]; omega
  unfold encodeOctetstring repairedOctetstring octetBits
  rw [octetBits_eq]
  simp only [hlb]
  cases he : c.ext with
  | true =>
    rw [he] at h
    simp only [if_true] at h ⊢
    cases hr : Spec.inRoot c o.length with
    | none => rw [hr] at h; simp at h
    | some r =>
      rw [hr] at h
      rw [chainLe_inRoot hr]
      cases r with
      | true =>
        simp only [Bool.and_eq_true, bne_iff_ne] at h
        obtain ⟨fs, e1, e2⟩ := legibleOctetsRoot_rt ht (SizeC.within_of_inRoot hr) h.1 h.2
        refine ⟨⟨false, [false]⟩ :: fs, e1 (some ⟨false, [false]⟩), fun pos => ?_⟩
        rw [emit_bit]
        refine (Reads.bit pos false).bind ?_
        simp only [Bool.false_eq_true, if_false, if_true]
        exact e2 _
      | false =>
        have h : o.length ≤ 16383 := of_decide_eq_true h
        obtain ⟨w, e1, e3, _, e2⟩ := lenDet_roundtrip (n := (o.length : Int)) (by omega) (by omega) c.lowerZ none
        refine ⟨[⟨false, [true]⟩] ++ [⟨true, w⟩] ++ [⟨false, bytesToBits o⟩], ?_, fun pos => ?_⟩
        · rw [e1]; rfl
        · show Reads _ pos (emit pos (⟨false, [true]⟩ :: ⟨true, w⟩ :: [⟨false, bytesToBits o⟩])) _
          rw [emit_bit]
          refine (Reads.bit pos true).bind ?_
          simp only [if_true]
          rw [if_neg (by decide), emit_cons]
          refine (e2 (some 0) none _).bind ?_
          have ha := add_padLen_mod (pos + 1)
          have hal : ∀ q, q % 8 = 0 → emit q [⟨false, bytesToBits o⟩] = emit q [⟨true, bytesToBits o⟩] := by
            intro q hq
            rw [emit_single, emit_single, padTo_false, padTo_aligned hq]
          have hq : (pos + 1 + (padTo true (pos + 1) ++ w).length) % 8 = 0 := by
            rw [List.length_append, padTo_true_length]; omega
          show Reads _ (pos + 1 + (padTo true (pos + 1) ++ w).length)
            (emit (pos + 1 + (padTo true (pos + 1) ++ w).length) [⟨false, bytesToBits o⟩]) _
          rw [hal _ hq]
          exact octetsContent_rt ht _
  | false =>
    rw [he] at h
    simp only [Bool.false_eq_true, if_false, Bool.or_eq_true] at h ⊢
    have hw := SizeC.within_of_test he ht
    by_cases hu0 : c.upper = some 0
    · have hb : o = [] := List.length_eq_zero_iff.1 (by have := hw.2 0 hu0; omega)
      subst hb
      refine ⟨[], ?_, fun pos => ?_⟩
      · simp only [encodeOctetstringRoot, hu0, if_true]
      · simp only [repairedOctetstringRoot, hu0, if_true]
        exact Reads.liftE (mkOctets_ok ht) _
    · have h' := h.resolve_left (by simpa using hu0)
      obtain ⟨fs, e1, e2⟩ := legibleOctetsRoot_rt ht hw hu0 h'
      exact ⟨fs, e1 none, e2⟩

/-! ## SEQUENCE OF -/

theorem legibleCount_rt {c : SizeC} {n : Nat} (h : Spec.legibleCount c n = true) :
    ∃ pre, (∀ fl, encodeSequenceOf c n fl = .ok (pre ++ fl)) ∧
      ∀ pos, Reads (repairedCount c) pos (emit pos pre) (n : Int) := by
  unfold Spec.legibleCount at h
  cases he : c.ext with
  | false =>
    rw [he] at h
    simp only [Bool.false_eq_true, if_false] at h
    obtain ⟨pre, e1, e2⟩ := seqOfCount_rt h
    refine ⟨pre, e1, fun pos => ?_⟩
    have : repairedCount c = decodeSequenceOfCount c := by simp [repairedCount, he]
    rw [this]; exact e2 pos
  | true =>
    rw [he] at h
    unfold encodeSequenceOf repairedCount
    simp only [he, if_true] at h ⊢
    cases hr : Spec.inRoot c n with
    | none => rw [hr] at h; cases c.lower <;> cases c.upper <;> simp at h
    | some r =>
      rw [hr] at h
      rw [chainLe_inRoot hr]
      cases r with
      | true =>
        have hw := SizeC.within_of_inRoot hr
        cases hl : c.lower with
        | none => rw [hl] at h; simp at h
        | some l =>
          cases hu : c.upper with
          | none => rw [hl, hu] at h; simp at h
          | some u =>
            rw [hl, hu] at h
            simp only [decide_eq_true_eq] at h
            have h1 := hw.1 l hl
            have h2 := hw.2 u hu
            obtain ⟨f, e1, e2⟩ := constrainedLen_rt h1 h2 h
            have henc : encodeLengthDeterminant false true (n : Int) c.lowerZ c.upperZ = .ok [f] := by
              unfold SizeC.lowerZ SizeC.upperZ
              rw [hl, hu]
              exact e1
            refine ⟨[⟨false, [false]⟩] ++ [f], fun fl => ?_, fun pos => ?_⟩
            · rw [henc]; rfl
            · rw [List.singleton_append, emit_bit]
              refine (Reads.bit pos false).bind ?_
              simp only [Bool.false_eq_true, if_false, if_true]
              by_cases hlu : l = u
              · subst hlu
                rw [if_pos ⟨by simp, rfl⟩]
                have hn : n = l := by omega
                subst hn
                have hf : f = ⟨false, []⟩ := by
                  have : encodeLengthDeterminant false true (n : Int) (some (n : Int)) (some (n : Int))
                      = .ok [⟨false, []⟩] := by
                    simp [encodeLengthDeterminant, encodeConstrainedWholeNumber, needInt, bind, Except.bind,
                      pure, Except.pure]
                  rw [this] at e1
                  cases e1; rfl
                rw [hf, emit_single, padTo_false]
                exact Reads.pure _ _
              · rw [if_neg (by simpa using hlu)]
                unfold SizeC.lowerZ SizeC.upperZ
                rw [hl, hu]
                refine (e2 _).cast rfl ?_
                rw [if_neg hlu]
      | false =>
        have h' : n ≤ 16383 := by cases hl : c.lower <;> cases hu : c.upper <;> rw [hl, hu] at h <;> simpa using h
        obtain ⟨w, e1, e3, _, e2⟩ := lenDet_roundtrip (n := (n : Int)) (by omega) (by omega) (some 0) none
        refine ⟨[⟨false, [true]⟩] ++ [⟨true, w⟩], fun fl => ?_, fun pos => ?_⟩
        · rw [e1]; rfl
        · rw [List.singleton_append, emit_bit]
          refine (Reads.bit pos true).bind ?_
          simp only [if_true]
          rw [if_neg (by decide), emit_align_split]
          refine (Reads.align _).bind ?_
          rw [emit_single]
          exact e2 (some 0) none _

/-! ## whole schemas -/

/-- What `Spec.legible` is made of. -/
def legibleLeaves : Spec.Leaves :=
  ⟨Spec.legibleInt, Spec.legibleEnum, Spec.legibleBits, Spec.legibleOctets, Spec.legibleCount⟩

theorem repaired_reads : repairedDecoders.Reads legibleLeaves where
  int := fun hs h => by
    obtain ⟨_, e1, e2⟩ := legibleInt_rt hs
    rw [e1] at h; cases h; exact e2
  enum := fun hs h => by
    obtain ⟨_, e1, e2⟩ := legibleEnum_rt hs
    rw [e1] at h; cases h; exact e2
  bits := fun hs h => by
    obtain ⟨_, e1, e2⟩ := legibleBits_rt hs
    rw [e1] at h; cases h; exact e2
  octets := fun hs h => by
    obtain ⟨_, e1, e2⟩ := legibleOctets_rt hs
    rw [e1] at h; cases h; exact e2
  count := fun hs h => by
    obtain ⟨pre, e1, e2⟩ := legibleCount_rt hs
    rw [e1] at h; cases h; exact ⟨pre, rfl, e2⟩

theorem legible_encodes : Encodes legibleLeaves where
  int := fun h => by obtain ⟨fs, e, _⟩ := legibleInt_rt h; exact ⟨fs, e⟩
  enum := fun h => by obtain ⟨fs, e, _⟩ := legibleEnum_rt h; exact ⟨fs, e⟩
  bits := fun h => by obtain ⟨fs, e, _⟩ := legibleBits_rt h; exact ⟨fs, e⟩
  octets := fun h => by obtain ⟨fs, e, _⟩ := legibleOctets_rt h; exact ⟨fs, e⟩
  count := fun h fl => by obtain ⟨pre, e, _⟩ := legibleCount_rt h; exact ⟨pre ++ fl, e fl⟩

/-- The decoder made of the repaired ones reads what was written. -/
theorem repaired_of_encode {t : Ty} {v : Val} {bs : List UInt8} (h : Spec.legible t v = true)
    (hb : encode t v = .ok bs) (extra : List UInt8) :
    repairedDecode t (bs ++ extra) = .ok (Spec.received t v) := by
  obtain ⟨fs, e1, e2⟩ := (encode_eq t v bs).1 hb
  have hne : bs ≠ [] := by
    rintro rfl
    have := produceCompleteEncoding_ne_nil fs
    rw [← e2] at this; exact this rfl
  unfold repairedDecode
  rw [PerBytes_init_hexlify (by simp [hne])]
  simp only [bind, Except.bind]
  rw [bytesToBits_append, e2, produceCompleteEncoding_eq, List.append_assoc]
  obtain ⟨p', e, _⟩ := wt_ty repaired_reads t v fs e1 h 0 _ _ (At.init (emit 0 fs ++ _))
  rw [e]; rfl

theorem legible_encodable {t : Ty} {v : Val} (h : Spec.legible t v = true) (hs : Spec.sendable t v = true) :
    ∃ bs, encode t v = .ok bs := by
  obtain ⟨fs, e⟩ := okw_ty repaired_reads legible_encodes t v h hs
  exact encode_of_encTy e

/-! ## `safe` values are `legible` -/

/-- Every value of `L` is one of `M`. -/
structure LeafLe (L M : Spec.Leaves) : Prop where
  int : ∀ {c z}, L.int c z = true → M.int c z = true
  enum : ∀ {ext root add z}, L.enum ext root add z = true → M.enum ext root add z = true
  bits : ∀ {c b}, L.bits c b = true → M.bits c b = true
  octets : ∀ {c o}, L.octets c o = true → M.octets c o = true
  count : ∀ {c n}, L.count c n = true → M.count c n = true

mutual
theorem survives_mono {L M : Spec.Leaves} (H : LeafLe L M) : ∀ (t : Ty) (v : Val),
    Spec.survives L t v = true → Spec.survives M t v = true
  | .boolean, v, h => by cases v <;> simp_all [Spec.survives]
  | .integer c, v, h => by
    cases v <;> simp only [Spec.survives, Bool.false_eq_true] at h ⊢
    exact H.int h
  | .enumerated _ _ _, v, h => by
    cases v <;> simp only [Spec.survives, Bool.false_eq_true] at h ⊢
    exact H.enum h
  | .bitString _, v, h => by
    cases v <;> simp only [Spec.survives, Bool.false_eq_true] at h ⊢
    exact H.bits h
  | .octetString _, v, h => by
    cases v <;> simp only [Spec.survives, Bool.false_eq_true] at h ⊢
    exact H.octets h
  | .seqOf c t, v, h => by
    cases v <;> simp only [Spec.survives, Bool.false_eq_true, Bool.and_eq_true, List.all_eq_true] at h ⊢
    exact ⟨H.count h.1, fun v hv => survives_mono H t v (h.2 v hv)⟩
  | .choice ext r a g, v, h => by
    cases v <;> simp only [Spec.survives, Bool.false_eq_true] at h ⊢
    rename_i pos v
    by_cases hp : pos < r.length
    · simp only [hp, if_true, Bool.and_eq_true] at h ⊢
      exact ⟨h.1, survivesAlt_mono H r _ _ h.2⟩
    · simp only [hp, if_false, Bool.and_eq_true] at h ⊢
      refine ⟨h.1, ?_⟩
      by_cases ha : pos < r.length + a.length
      · simp only [ha, if_true] at h ⊢
        exact survivesOpenAlt_mono H a _ _ h.2
      · simp only [ha, if_false] at h ⊢
        exact survivesOpenAltG_mono H g _ _ h.2
  | .sequence ext r a g, v, h => by
    cases v <;> simp only [Spec.survives, Bool.false_eq_true, Bool.and_eq_true, Bool.or_eq_true] at h ⊢
    exact ⟨survivesRoot_mono H r _ h.1,
      h.2.imp id fun h => ⟨survivesAdds_mono H a _ h.1, survivesGroups_mono H g _ h.2⟩⟩
theorem survivesAlt_mono {L M : Spec.Leaves} (H : LeafLe L M) : ∀ (r : Fields) (p : Nat) (v : Val),
    Spec.survivesAlt L r p v = true → Spec.survivesAlt M r p v = true
  | .nil, _, _, h => by simp [Spec.survivesAlt] at h
  | .cons _ _ t _, 0, v, h => survives_mono H t v h
  | .cons _ _ _ r, p + 1, v, h => survivesAlt_mono H r p v h
theorem survivesOpenAlt_mono {L M : Spec.Leaves} (H : LeafLe L M) : ∀ (r : Fields) (p : Nat) (v : Val),
    Spec.survivesOpenAlt L r p v = true → Spec.survivesOpenAlt M r p v = true
  | .nil, _, _, h => by simp [Spec.survivesOpenAlt] at h
  | .cons _ _ t _, 0, v, h => by
    simp only [Spec.survivesOpenAlt, Bool.and_eq_true] at h ⊢
    exact ⟨survives_mono H t v h.1, h.2⟩
  | .cons _ _ _ r, p + 1, v, h => survivesOpenAlt_mono H r p v h
theorem survivesOpenAltG_mono {L M : Spec.Leaves} (H : LeafLe L M) : ∀ (g : Groups) (p : Nat) (v : Val),
    Spec.survivesOpenAltG L g p v = true → Spec.survivesOpenAltG M g p v = true
  | .nil, _, _, h => by simp [Spec.survivesOpenAltG] at h
  | .cons f g, p, v, h => by
    simp only [Spec.survivesOpenAltG] at h ⊢
    by_cases hp : p < f.length
    · simp only [hp, if_true] at h ⊢
      exact survivesOpenAlt_mono H f p v h
    · simp only [hp, if_false] at h ⊢
      exact survivesOpenAltG_mono H g _ v h
theorem survivesRoot_mono {L M : Spec.Leaves} (H : LeafLe L M) : ∀ (r : Fields) (cs : List (Option Val)),
    Spec.survivesRoot L r cs = true → Spec.survivesRoot M r cs = true
  | .nil, _, _ => rfl
  | .cons _ k t r, cs, h => by
    simp only [Spec.survivesRoot, Bool.and_eq_true] at h ⊢
    refine ⟨?_, survivesRoot_mono H r _ h.2⟩
    cases hs : Spec.sent k t (cs.head?.getD none) with
    | none => rfl
    | some v => rw [hs] at h; exact survives_mono H t v h.1
theorem survivesAdds_mono {L M : Spec.Leaves} (H : LeafLe L M) : ∀ (r : Fields) (cs : List (Option Val)),
    Spec.survivesAdds L r cs = true → Spec.survivesAdds M r cs = true
  | .nil, _, _ => rfl
  | .cons _ k t r, cs, h => by
    simp only [Spec.survivesAdds, Bool.and_eq_true] at h ⊢
    refine ⟨?_, survivesAdds_mono H r _ h.2⟩
    cases hs : Spec.held k (cs.head?.getD none) with
    | none => rfl
    | some v =>
      rw [hs] at h
      simp only [Bool.or_eq_true, Bool.and_eq_true] at h ⊢
      exact h.1.imp id fun h => ⟨survives_mono H t v h.1, h.2⟩
theorem survivesGroups_mono {L M : Spec.Leaves} (H : LeafLe L M) : ∀ (g : Groups) (cs : List (Option Val)),
    Spec.survivesGroups L g cs = true → Spec.survivesGroups M g cs = true
  | .nil, _, _ => rfl
  | .cons f g, cs, h => by
    simp only [Spec.survivesGroups, Bool.and_eq_true, Bool.or_eq_true] at h ⊢
    exact ⟨h.1.imp id fun h => ⟨survivesRoot_mono H f cs h.1, h.2⟩, survivesGroups_mono H g _ h.2⟩
end

theorem faithful_le_legible : LeafLe Spec.faithful legibleLeaves where
  int := fun {c z} h => by
    show Spec.legibleInt c z = true
    replace h : Spec.safeInt c z = true := h
    unfold Spec.safeInt at h
    unfold Spec.legibleInt
    cases he : c.ext <;> cases hl : c.lower <;> cases hu : c.upper <;> rw [he, hl, hu] at h <;> try exact h
    dsimp only at h ⊢
    split at h <;> rename_i hin
    · rw [if_pos hin]; simp only [Bool.and_eq_true] at h ⊢; exact ⟨h.1, h.2.2⟩
    · rw [if_neg hin]; exact h
  enum := fun {ext root add z} h => by
    show Spec.legibleEnum ext root add z = true
    replace h : Spec.safeEnum ext root add z = true := h
    unfold Spec.legibleEnum
    split
    · exact h
    · rename_i hn
      simp only [Bool.or_eq_true, Bool.not_eq_true', not_or, Bool.not_eq_false, Bool.not_eq_true] at hn
      unfold Spec.safeEnum at h
      rw [hn.1, hn.2] at h
      simp only [Bool.not_true, Bool.false_eq_true, if_false] at h
      cases hf : add.findIdx? (fun p => p.2 == z) with
      | none => rw [hf] at h; cases h
      | some n => rw [hf] at h; simp only [Bool.and_eq_true] at h; exact h.2
  bits := fun {c b} h => by
    show Spec.legibleBits c b = true
    replace h : Spec.safeBits c b = true := h
    unfold Spec.safeBits at h
    unfold Spec.legibleBits
    cases he : c.ext <;> rw [he] at h
    · exact h
    · cases hr : Spec.inRoot c b.length with
      | none => rw [hr] at h; exact h
      | some r => rw [hr] at h; cases r <;> simp_all
  octets := fun {c o} h => by
    show Spec.legibleOctets c o = true
    replace h : Spec.safeOctets c o = true := h
    have root : Spec.safeOctetsRoot c o = true → Spec.legibleOctetsRoot c o.length = true := by
      unfold Spec.safeOctetsRoot Spec.legibleOctetsRoot
      split
      · exact id
      · cases c.lower <;> cases c.upper <;> simp_all
    unfold Spec.safeOctets at h
    unfold Spec.legibleOctets
    simp only [Bool.and_eq_true] at h ⊢
    refine ⟨h.1, ?_⟩
    cases he : c.ext with
    | false =>
      rw [he] at h
      simp only [Bool.false_eq_true, if_false, Bool.or_eq_true] at h ⊢
      exact h.2.imp id root
    | true =>
      rw [he] at h
      simp only [if_true] at h ⊢
      cases hr : Spec.inRoot c o.length with
      | none => rw [hr] at h; exact h.2
      | some r =>
        rw [hr] at h
        cases r
        · exact h.2
        · simp only [Bool.and_eq_true] at h ⊢
          exact ⟨h.2.1, root h.2.2⟩
  count := fun {c n} h => by
    show Spec.legibleCount c n = true
    replace h : Spec.safeCount c n = true := h
    unfold Spec.legibleCount
    split
    · rename_i he
      unfold Spec.safeCount at h
      rw [if_pos he] at h
      cases hl : c.lower <;> cases hu : c.upper <;> rw [hl, hu] at h <;> cases hr : Spec.inRoot c n <;>
        rw [hr] at h <;> try exact h
      all_goals rename_i r; cases r <;> simp_all
    · exact h

theorem safe_legible {t : Ty} {v : Val} (h : Spec.safe t v = true) : Spec.legible t v = true :=
  survives_mono faithful_le_legible t v h

end Verif
