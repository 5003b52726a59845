import Verif.Lemmas.Number
import Verif.Lemmas.Constr
/-!
# Round trips of the simple types at any position of a message
-/
namespace Verif

theorem emit_bit (pos : Nat) (b : Bool) (fs : List BitField) :
    emit pos (⟨false, [b]⟩ :: fs) = [b] ++ emit (pos + 1) fs := by
  rw [emit_cons]; simp [padTo_false]

theorem Reads.bit (pos : Nat) (b : Bool) :
    Reads (Verif.next ⟨0, 1⟩ false) pos [b] (if b then 1 else 0) := by
  have := Reads.next_plain ⟨0, 1⟩ pos [b] rfl
  cases b <;> simpa [bitsToNat] using this

theorem Reads.map {α β : Type} {m : Dec α} {pos : Nat} {w : Bits} {a : α} {f : α → Dec β} {b : β}
    (h : Reads m pos w a) (hf : ∀ pos, Reads (f a) pos [] b) : Reads (m >>= f) pos w b :=
  h.bind_pure (hf _)

theorem twosFits_len {k : Nat} {z : Int} (hk : 1 ≤ k) (h : Spec.twosFits k z = true) :
    getTwosComplementOctetLen z ≤ k := by
  simp only [Spec.twosFits, Bool.and_eq_true, decide_eq_true_eq] at h
  obtain ⟨_, _, h3, h4⟩ := getTwosComplementOctetLen_spec z
  generalize getTwosComplementOctetLen z = m at *
  by_cases hm : m ≤ k
  · exact hm
  · exfalso
    have hp : (2 : Int) ^ (8 * k - 1) ≤ 2 ^ ((m - 1) * 8 - 1) := by
      have : (2 : Nat) ^ (8 * k - 1) ≤ 2 ^ ((m - 1) * 8 - 1) := Nat.pow_le_pow_right (by omega) (by omega)
      exact_mod_cast this
    rcases h4 (by omega) with h | h <;> omega

/-! ## BOOLEAN -/

theorem boolean_rt (b : Bool) (pos : Nat) : Reads decodeBoolean pos (emit pos (encodeBoolean b)) (.bool b) := by
  unfold decodeBoolean encodeBoolean
  rw [emit_bit, emit_nil, List.append_nil]
  refine (Reads.bit pos b).map fun _ => ?_
  cases b <;> exact Reads.pure _ _

/-! ## INTEGER -/

theorem mkInt_ok {c : Constr} {z : Int} (h : c.test z = true) : mkInt c z = .ok (.int z) := by
  simp [mkInt, h]

theorem integer_rt {c : Constr} {z : Int} (h : Spec.safeInt c z = true) :
    ∃ fs, encodeInteger c z = .ok fs ∧ ∀ pos, Reads (decodeInteger c) pos (emit pos fs) (.int z) := by
  unfold Spec.safeInt at h
  simp only [Bool.and_eq_true] at h
  obtain ⟨⟨hp, ht⟩, h⟩ := h
  have hmk := mkInt_ok ht
  unfold encodeInteger decodeInteger
  cases he : c.ext with
  | true =>
    rw [he] at h
    simp only [if_true]
    cases hl : c.lower with
    | none => rw [hl] at h; simp at h
    | some l =>
      rw [hl] at h
      -- the value is written unconstrained
      have hout : chainLe (some l) c.upper z = .ok false → Spec.twosFits 255 z = true →
          ∃ fs, (do
            if ← chainLe (some l) c.upper z then
              let fl ← fieldListConstrained z (some l) c.upper
              return [⟨false, [false]⟩] ++ fl
            else return [⟨false, [true]⟩] ++ fieldListUnconstrained z : Except Err (List BitField)) = .ok fs ∧
          ∀ pos, Reads (do
            let outside ← next ⟨0, 1⟩ false
            if outside ≠ 0 then
              let z ← decodeUnconstrainedWholeNumber
              liftE (mkInt c z)
            else
              let z ← decodeConstrainedFromFieldList (some l) c.upper
              liftE (mkInt c z)) pos (emit pos fs) (.int z) := by
        intro hc hf
        refine ⟨[⟨false, [true]⟩] ++ fieldListUnconstrained z, by rw [hc]; rfl, fun pos => ?_⟩
        rw [List.singleton_append, emit_bit]
        refine (Reads.bit pos true).bind ?_
        simp only [if_true]
        rw [if_pos (by decide)]
        exact (unconstrained_roundtrip (twosFits_len (by omega) hf) _).map fun _ => Reads.liftE hmk _
      cases hu : c.upper with
      | none =>
        rw [hu] at h hout
        simp only [Bool.and_eq_true, decide_eq_true_eq] at h
        refine hout ?_ h.2
        simp [chainLe, needInt, bind, Except.bind, pure, Except.pure, show ¬ l ≤ z by omega]
      | some u =>
        rw [hu] at h hout
        simp only at h
        by_cases hin : l ≤ z ∧ z ≤ u
        · rw [if_pos hin] at h
          simp only [Bool.and_eq_true, Spec.unsignedFits, decide_eq_true_eq] at h
          obtain ⟨fs, e1, e2⟩ := fieldListConstrained_roundtrip hin.1 hin.2 (by omega)
          refine ⟨[⟨false, [false]⟩] ++ fs, ?_, fun pos => ?_⟩
          · rw [e1]
            simp [chainLe, needInt, bind, Except.bind, pure, Except.pure, hin.1, hin.2]
          · rw [List.singleton_append, emit_bit]
            refine (Reads.bit pos false).bind ?_
            simp only [Bool.false_eq_true, if_false]
            rw [if_neg (by decide)]
            refine (e2 _).map fun _ => Reads.liftE ?_ _
            by_cases hlu : l = u
            · have : z = 0 := by
                have := h.1; simp [hlu] at this; omega
              rw [if_pos hlu, ← this]; exact hmk
            · rw [if_neg hlu]; exact hmk
        · rw [if_neg hin] at h
          refine hout ?_ h
          by_cases hlz : l ≤ z
          · simp [chainLe, needInt, bind, Except.bind, pure, Except.pure, hlz]; omega
          · simp [chainLe, needInt, bind, Except.bind, pure, Except.pure, hlz]
  | false =>
    rw [he] at h
    simp only [Bool.false_eq_true, if_false]
    have hc := lower_upper_cover hp he ht
    cases hl : c.lower with
    | none =>
      rw [hl] at h
      simp only at h
      refine ⟨fieldListUnconstrained z, rfl, fun pos => ?_⟩
      exact (unconstrained_roundtrip (twosFits_len (by omega) h) _).map fun _ => Reads.liftE hmk _
    | some l =>
      rw [hl] at h hc
      have hlz : l ≤ z := by simpa [leLo] using hc.1
      cases hu : c.upper with
      | none =>
        rw [hu] at h
        simp only [Spec.unsignedFits, decide_eq_true_eq] at h
        obtain ⟨w, e1, e2, _, e3⟩ := semi_roundtrip hlz (by omega)
        refine ⟨[⟨true, w⟩, ⟨true, minOctets (z - l).toNat⟩], ?_, fun pos => ?_⟩
        · simp only [e1, bind, Except.bind, e2]; rfl
        · exact (e3 _).map fun _ => Reads.liftE hmk _
      | some u =>
        rw [hu] at h hc
        have hzu : z ≤ u := by simpa [leHi] using hc.2
        simp only [Spec.unsignedFits, decide_eq_true_eq] at h
        obtain ⟨fs, e1, e2⟩ := fieldListConstrained_roundtrip hlz hzu (by omega)
        refine ⟨fs, e1, fun pos => ?_⟩
        by_cases hlu : l = u
        · subst hlu
          have hzl : z = l := by omega
          subst hzl
          have hfs : emit pos fs = [] := by
            have : fieldListConstrained z (some z) (some z) = .ok [⟨false, []⟩] := by
              simp [fieldListConstrained, encodeConstrainedWholeNumber, needInt, bind, Except.bind, pure,
                Except.pure, integerRange]
            rw [this] at e1
            cases e1
            simp [emit, padTo_false]
          rw [hfs]
          simp only [if_true]
          exact Reads.liftE hmk _
        · have := (e2 pos).map (f := fun z => liftE (mkInt c z)) (b := .int z)
            (by rw [if_neg hlu]; exact fun _ => Reads.liftE hmk _)
          simp only [hlu, if_false]
          exact this

/-! ## ENUMERATED -/

theorem mkEnum_ok {named : List (String × Int)} {z : Int} (h : named.any (fun p => p.2 == z) = true) :
    mkEnum named z = .ok (.enum z) := by simp [mkEnum, h]

/-- A value numbered by its position goes through the index field. -/
theorem enumIndex_rt {z : Int} {k : Nat} (h0 : 0 ≤ z) (h1 : z < k) (hk : k ≤ 65536) :
    ∃ fs, fieldListConstrained z (some 0) (some ((k : Int) - 1)) = .ok fs ∧
      ∀ pos, Reads (decodeConstrainedWholeNumber (some 0) (some ((k : Int) - 1))) pos (emit pos fs) z := by
  obtain ⟨e1, e2⟩ := cwn_roundtrip (n := z) (lb := 0) (ub := (k : Int) - 1) h0 (by omega) (by omega)
  refine ⟨_, ?_, fun pos => (e2 pos).cast rfl ?_⟩
  · simp only [fieldListConstrained, e1, bind, Except.bind, needInt, pure, Except.pure]
    rw [if_pos (by unfold integerRange; omega)]
  · split <;> omega

theorem findIdx?_map_snd (add : List (String × Int)) (z : Int) :
    (add.map (·.2)).findIdx? (· == z) = add.findIdx? (fun p => p.2 == z) := by
  rw [List.findIdx?_map]; rfl

theorem contains_map_snd (l : List (String × Int)) (z : Int) :
    (l.map (·.2)).contains z = l.any (fun p => p.2 == z) := by
  induction l with
  | nil => rfl
  | cons a l ih =>
    rw [List.map_cons, List.contains_cons, List.any_cons, ih]
    congr 1
    rw [Bool.eq_iff_iff, beq_iff_eq, beq_iff_eq]
    exact eq_comm

theorem enumerated_rt {ext : Bool} {root add : List (String × Int)} {z : Int}
    (h : Spec.safeEnum ext root add z = true) :
    ∃ fs, encodeEnumerated ext root add z = .ok fs ∧
      ∀ pos, Reads (decodeEnumerated ext root add) pos (emit pos fs) (.enum z) := by
  unfold Spec.safeEnum at h
  unfold encodeEnumerated decodeEnumerated
  cases ext with
  | false =>
    simp only [Bool.not_false, if_true, Bool.and_eq_true] at h
    simp only [Bool.not_false, if_true]
    obtain ⟨fs, e1, e2⟩ := enumIndex_rt (of_decide_eq_true h.1.1.1) (of_decide_eq_true h.1.1.2)
      (of_decide_eq_true h.1.2)
    refine ⟨fs, e1, fun pos => ?_⟩
    exact (e2 _).map fun _ => Reads.liftE (mkEnum_ok h.2) _
  | true =>
    simp only [Bool.not_true, Bool.false_eq_true, if_false] at h ⊢
    rw [contains_map_snd, findIdx?_map_snd]
    by_cases hr : root.any (fun p => p.2 == z) = true
    · rw [if_pos hr] at h
      simp only [Bool.and_eq_true] at h
      obtain ⟨fs, e1, e2⟩ := enumIndex_rt (of_decide_eq_true h.1.1) (of_decide_eq_true h.1.2)
        (of_decide_eq_true h.2)
      refine ⟨[⟨false, [false]⟩] ++ fs, ?_, fun pos => ?_⟩
      · rw [if_pos hr, e1]; rfl
      · rw [List.singleton_append, emit_bit]
        refine (Reads.bit pos false).bind ?_
        simp only [Bool.false_eq_true, if_false, if_true]
        refine (e2 _).map fun _ => Reads.liftE (mkEnum_ok ?_) _
        rw [List.any_append, hr]; rfl
    · rw [if_neg hr] at h
      rw [if_neg hr]
      cases hf : add.findIdx? (fun p => p.2 == z) with
      | none => rw [hf] at h; simp at h
      | some n =>
        rw [hf] at h
        simp only [Bool.and_eq_true, decide_eq_true_eq, beq_iff_eq] at h
        obtain ⟨fs, e1, e2⟩ := normallySmall_roundtrip (n := n) (of_decide_eq_true h.2)
        refine ⟨[⟨false, [true]⟩] ++ fs, ?_, fun pos => ?_⟩
        · simp only [e1]; rfl
        · rw [List.singleton_append, emit_bit]
          refine (Reads.bit pos true).bind ?_
          simp only [if_true]
          rw [if_neg (by decide)]
          refine (e2 _).map fun _ => Reads.liftE ?_ _
          rw [← h.1]
          apply mkEnum_ok
          rw [List.any_append, Bool.or_eq_true]
          right
          obtain ⟨hlt, hz, _⟩ := List.findIdx?_eq_some_iff_getElem.1 hf
          exact List.any_eq_true.2 ⟨_, List.getElem_mem hlt, hz⟩

/-! ## sizes -/

/-- The size lies between the endpoints that are given. -/
def SizeC.within (c : SizeC) (n : Nat) : Prop :=
  (∀ l, c.lower = some l → l ≤ n) ∧ (∀ u, c.upper = some u → n ≤ u)

theorem SizeC.within_of_test {c : SizeC} {n : Nat} (he : c.ext = false) (h : c.test n = true) : c.within n := by
  unfold SizeC.test at h
  rw [he] at h
  simp only [Bool.false_or, Bool.and_eq_true] at h
  refine ⟨fun l hl => ?_, fun u hu => ?_⟩
  · have := h.1; rw [hl] at this; simpa using this
  · have := h.2; rw [hu] at this; simpa using this

theorem SizeC.within_of_inRoot {c : SizeC} {n : Nat} (h : Spec.inRoot c n = some true) : c.within n := by
  unfold Spec.inRoot at h
  cases hl : c.lower with
  | none => rw [hl] at h; simp at h
  | some l =>
    rw [hl] at h
    cases hu : c.upper with
    | none => rw [hu] at h; simp at h
    | some u =>
      rw [hu] at h
      simp at h
      exact ⟨fun l' e => by cases hl.symm.trans e; exact h.1, fun u' e => by cases hu.symm.trans e; exact h.2⟩

theorem chainLe_inRoot {c : SizeC} {n : Nat} {b : Bool} (h : Spec.inRoot c n = some b) :
    chainLe c.lowerZ c.upperZ (n : Int) = .ok b := by
  unfold Spec.inRoot at h
  unfold SizeC.lowerZ SizeC.upperZ
  cases hl : c.lower with
  | none => rw [hl] at h; simp at h
  | some l =>
    rw [hl] at h
    cases hu : c.upper with
    | none =>
      rw [hu] at h
      by_cases hnl : n < l
      · simp [hnl] at h
        subst h
        simp [chainLe, needInt, bind, Except.bind, pure, Except.pure, hnl]
      · simp [hnl] at h
    | some u =>
      rw [hu] at h
      simp at h
      subst h
      by_cases hnl : l ≤ n
      · simp [chainLe, needInt, bind, Except.bind, pure, Except.pure, hnl]
      · simp [chainLe, needInt, bind, Except.bind, pure, Except.pure, hnl]

/-- Constrained length followed by something. -/
theorem constrainedLen_rt {n l u : Nat} (h1 : l ≤ n) (h2 : n ≤ u) (hr : u ≤ l + 65535) :
    ∃ f, encodeLengthDeterminant false true (n : Int) (some (l : Int)) (some (u : Int)) = .ok [f] ∧
      ∀ pos, Reads (decodeLengthDeterminant false true (some (l : Int)) (some (u : Int))) pos (emit pos [f])
        (if l = u then 0 else (n : Int)) := by
  obtain ⟨e1, e2⟩ := cwn_roundtrip (n := (n : Int)) (lb := (l : Int)) (ub := (u : Int)) (by omega) (by omega)
    (by omega)
  refine ⟨⟨decide (256 ≤ (u : Int) - l + 1), natToBits (cwnWidth ((u : Int) - l + 1).toNat) ((n : Int) - l).toNat⟩,
    ?_, fun pos => ?_⟩
  · unfold encodeLengthDeterminant
    simp only [Bool.false_eq_true, if_false, if_true, e1, bind, Except.bind]
    rfl
  · unfold decodeLengthDeterminant
    simp only [Bool.false_eq_true, if_false, if_true]
    refine (e2 pos).cast rfl ?_
    by_cases h : l = u
    · simp [h]
    · rw [if_neg h, if_neg (by omega)]

/-- A constrained length with 256 or more values is aligned. -/
theorem constrainedLen_aligned {n l u : Nat} (h1 : l ≤ n) (h2 : n ≤ u) (hr : u ≤ l + 65535) (h : l + 255 ≤ u) {f : BitField}
    (hf : encodeLengthDeterminant false true (n : Int) (some (l : Int)) (some (u : Int)) = .ok [f]) (pos : Nat) :
    (pos + (emit pos [f]).length) % 8 = 0 := by
  obtain ⟨e1, _⟩ := cwn_roundtrip (n := (n : Int)) (lb := (l : Int)) (ub := (u : Int)) (by omega) (by omega)
    (by omega)
  unfold encodeLengthDeterminant at hf
  simp only [Bool.false_eq_true, if_false, if_true, e1, bind, Except.bind, pure, Except.pure, Except.ok.injEq, List.cons.injEq,
    and_true] at hf
  subst hf
  apply emit_aligned_mod
  · exact decide_eq_true (by omega)
  · simp only [natToBits_length, cwnWidth]
    rw [if_neg (by omega), if_neg (by omega)]
    split <;> rfl

/-! ## BIT STRING -/

theorem mkBits_ok {c : SizeC} {b : Bits} (h : c.test b.length = true) : mkBits c b = .ok (.bits b) := by
  simp [mkBits, h]

/-- Content of a BIT STRING whose length has just been read. -/
theorem bitsContent_rt {c : SizeC} {b : Bits} (hne : b ≠ []) (ht : c.test b.length = true) (pos : Nat) :
    Reads (do
      let v ← next ⟨0, ((b.length : Nat) : Int).toNat⟩ true
      liftE (mkBits c (zfill ((b.length : Nat) : Int).toNat (pyBin v)))) pos (emit pos [⟨true, b⟩]) (.bits b) := by
  rw [emit_single]
  simp only [Int.toNat_natCast]
  refine (Reads.next ⟨0, b.length⟩ true pos b (by simp)).map fun _ => Reads.liftE ?_ _
  rw [zfill_pyBin_bitsToNat hne, mkBits_ok ht]

theorem bitsRoot_rt {c : SizeC} {b : Bits} (hne : b ≠ []) (ht : c.test b.length = true)
    (hw : c.within b.length) (h : Spec.safeBitsRoot c b.length = true) :
    ∃ fs, (∀ e, encodeBitstringRoot c b e = .ok (withExt e fs)) ∧
      ∀ pos, Reads (decodeBitstringRoot c) pos (emit pos fs) (.bits b) := by
  have hpos := List.length_pos_iff.2 hne
  have hu0 : c.upper ≠ some 0 := fun h0 => by have := hw.2 0 h0; omega
  unfold Spec.safeBitsRoot at h
  unfold encodeBitstringRoot decodeBitstringRoot
  simp only [hu0, if_false]
  by_cases hfix : c.lower ≠ none ∧ c.lower = c.upper
  · simp only [hfix]
    rw [if_pos hfix] at h
    have h' : b.length < 65536 := of_decide_eq_true h
    obtain ⟨n, hn⟩ := Option.ne_none_iff_exists'.1 hfix.1
    have hlen : n = b.length := by
      have := hw.1 n hn; have := hw.2 n (by rw [← hfix.2, hn]); omega
    subst hlen
    have hget : c.lower.getD 0 = b.length := by rw [hn]; rfl
    have hup : c.upper = some b.length := by rw [← hfix.2, hn]
    simp only [hup, Option.getD_some]
    by_cases h16 : b.length ≤ 16
    · refine ⟨[⟨false, b⟩], fun e => by simp [h16], fun pos => ?_⟩
      simp only [ne_eq, reduceCtorEq, not_false_eq_true, and_self, if_true, h16]
      rw [emit_single, padTo_false, List.nil_append]
      refine (Reads.next_plain ⟨0, b.length⟩ pos b (by simp)).map fun _ => Reads.liftE ?_ _
      rw [zfill_pyBin_bitsToNat hne, mkBits_ok ht]
    · refine ⟨[⟨true, b⟩], fun e => by simp [h16, h'], fun pos => ?_⟩
      simp only [ne_eq, reduceCtorEq, not_false_eq_true, and_self, if_true, h16, if_false, h']
      rw [emit_single]
      refine (Reads.align pos).bind ?_
      refine (Reads.next_plain ⟨0, b.length⟩ _ b (by simp)).map fun _ => Reads.liftE ?_ _
      rw [zfill_pyBin_bitsToNat hne, List.take_length, mkBits_ok ht]
  · simp only [hfix, if_false]
    rw [if_neg hfix] at h
    have semi : b.length ≤ 16383 →
        ∃ fs, (∀ e, (do
          let ld ← encodeLengthDeterminant false false (b.length : Int) (some 0) none
          return withExt e (ld ++ [⟨true, b⟩]) : Except Err (List BitField)) = .ok (withExt e fs)) ∧
        ∀ pos, Reads (do
          let len ← decodeLengthDeterminant false false (some 0) none
          let v ← next ⟨0, len.toNat⟩ true
          liftE (mkBits c (zfill len.toNat (pyBin v)))) pos (emit pos fs) (.bits b) := by
      intro hle
      obtain ⟨w, e1, _, _, e2⟩ := lenDet_roundtrip (n := (b.length : Int)) (by omega) (by omega) (some 0) none
      refine ⟨[⟨true, w⟩] ++ [⟨true, b⟩], fun e => by rw [e1]; rfl, fun pos => ?_⟩
      rw [emit_append, emit_single]
      exact (e2 _ _ pos).bind (bitsContent_rt hne ht _)
    cases hu : c.upper with
    | none =>
      rw [hu] at h
      exact semi (of_decide_eq_true h)
    | some u =>
      rw [hu] at h
      dsimp only at h ⊢
      by_cases hu' : u < 65536
      · rw [if_pos hu'] at h
        simp only [hu', if_true]
        obtain ⟨l, hl⟩ := Option.isSome_iff_exists.1 h
        have hlu : l ≠ u := by
          rintro rfl; exact hfix ⟨by simp [hl], by rw [hl, hu]⟩
        obtain ⟨f, e1, e2⟩ := constrainedLen_rt (hw.1 l hl) (hw.2 u hu) (by omega)
        refine ⟨[f] ++ [⟨true, b⟩], fun e => ?_, fun pos => ?_⟩
        · unfold SizeC.lowerZ SizeC.upperZ
          rw [hl, hu]
          show (do
            let ld ← encodeLengthDeterminant false true (b.length : Int) (some (l : Int)) (some (u : Int))
            return withExt e (ld ++ [⟨true, b⟩]) : Except Err (List BitField)) = _
          rw [e1]; rfl
        · unfold SizeC.lowerZ SizeC.upperZ
          rw [hl, hu, emit_append]
          have := e2 pos
          rw [if_neg hlu] at this
          exact this.bind (bitsContent_rt hne ht _)
      · rw [if_neg hu'] at h
        simp only [hu', if_false]
        exact semi (of_decide_eq_true h)

theorem bitstring_rt {c : SizeC} {b : Bits} (h : Spec.safeBits c b = true) :
    ∃ fs, encodeBitstring c b = .ok fs ∧ ∀ pos, Reads (decodeBitstring c) pos (emit pos fs) (.bits b) := by
  unfold Spec.safeBits at h
  simp only [Bool.and_eq_true] at h
  obtain ⟨ht, h⟩ := h
  unfold encodeBitstring decodeBitstring
  cases he : c.ext with
  | true =>
    rw [he] at h
    simp only [if_true, Bool.and_eq_true] at h ⊢
    have hne : b ≠ [] := by have := h.1; cases b <;> simp_all
    have hb : asBinary b = b := by cases b <;> simp_all [asBinary]
    rw [hb]
    cases hr : Spec.inRoot c b.length with
    | none => rw [hr] at h; simp at h
    | some r =>
      rw [hr] at h
      rw [chainLe_inRoot hr]
      cases r with
      | true =>
        dsimp only at h
        obtain ⟨fs, e1, e2⟩ := bitsRoot_rt hne ht (SizeC.within_of_inRoot hr) h.2
        refine ⟨⟨false, [false]⟩ :: fs, e1 (some ⟨false, [false]⟩), fun pos => ?_⟩
        rw [emit_bit]
        refine (Reads.bit pos false).bind ?_
        simp only [Bool.false_eq_true, if_false, if_true]
        exact e2 _
      | false =>
        simp only [Bool.and_eq_true, decide_eq_true_eq] at h
        obtain ⟨w, e1, e3, _, e2⟩ := lenDet_roundtrip (n := (b.length : Int)) (by omega) (by omega) (some 0) none
        refine ⟨[⟨false, [true]⟩] ++ [⟨true, w⟩] ++ [⟨true, b⟩], ?_, fun pos => ?_⟩
        · rw [e1]; rfl
        · show Reads _ pos (emit pos (⟨false, [true]⟩ :: ⟨true, w⟩ :: [⟨true, b⟩])) _
          rw [emit_bit]
          refine (Reads.bit pos true).bind ?_
          simp only [if_true]
          rw [if_neg (by decide), emit_align_split]
          refine (Reads.align _).bind ?_
          have ha := add_padLen_mod (pos + 1)
          simp only [List.length_singleton, padTo_true_length]
          have hd := e2 (some 0) none (pos + 1 + padLen (pos + 1))
          rw [padTo_aligned ha, List.nil_append] at hd
          rw [emit_cons, padTo_aligned ha, List.nil_append, emit_single,
            padTo_aligned (by show (pos + 1 + padLen (pos + 1) + w.length) % 8 = 0; omega), List.nil_append]
          refine hd.bind ?_
          simp only [Int.toNat_natCast]
          refine (Reads.next_plain ⟨0, b.length⟩ _ b (by simp)).bind_pure ?_
          refine Reads.bind_nil (Reads.align_aligned (by omega)) (Reads.liftE ?_ _)
          rw [zfill_pyBin_bitsToNat hne, mkBits_ok ht]
  | false =>
    rw [he] at h
    simp only [Bool.false_eq_true, if_false, Bool.or_eq_true, Bool.and_eq_true] at h ⊢
    have hw := SizeC.within_of_test he ht
    by_cases hu0 : c.upper = some 0
    · have hb : b = [] := List.length_eq_zero_iff.1 (by have := hw.2 0 hu0; omega)
      subst hb
      refine ⟨[], ?_, fun pos => ?_⟩
      · simp only [encodeBitstringRoot, hu0, if_true]
      · simp only [decodeBitstringRoot, hu0, if_true]
        exact Reads.liftE (mkBits_ok ht) _
    · have h' := h.resolve_left (by simpa using hu0)
      have hne : b ≠ [] := by have := h'.1; cases b <;> simp_all
      have hb : asBinary b = b := by cases b <;> simp_all [asBinary]
      rw [hb]
      obtain ⟨fs, e1, e2⟩ := bitsRoot_rt hne ht hw h'.2
      exact ⟨fs, e1 none, e2⟩

/-! ## OCTET STRING -/

theorem mkOctets_ok {c : SizeC} {o : List UInt8} (h : c.test o.length = true) :
    mkOctets c o = .ok (.octets o) := by simp [mkOctets, h]

/-- `hex()` keeps every digit when the first one is not zero. -/
theorem pyHex_bytes {x : UInt8} {o : List UInt8} (h : 16 ≤ x.toNat) :
    pyHex (bitsToNat (bytesToBits (x :: o))) = hexlify (x :: o) := by
  have hlt := bitsToNat_lt (bytesToBits (x :: o))
  rw [bytesToBits_length, List.length_cons] at hlt
  have hge : 2 ^ (8 * o.length + 4) ≤ bitsToNat (bytesToBits (x :: o)) := by
    rw [bytesToBits_cons, bitsToNat_append, bitsToNat_natToBits_of_lt x.toNat_lt, bytesToBits_length,
      Nat.pow_add, Nat.mul_comm]
    have : 2 ^ 4 * 2 ^ (8 * o.length) ≤ x.toNat * 2 ^ (8 * o.length) := Nat.mul_le_mul_right _ (by simpa using h)
    omega
  have hne : bitsToNat (bytesToBits (x :: o)) ≠ 0 := by
    have := Nat.two_pow_pos (8 * o.length + 4); omega
  have l1 := (Nat.log2_lt hne).2 hlt
  have l2 : ¬ (bitsToNat (bytesToBits (x :: o))).log2 < 8 * o.length + 4 := by
    rw [Nat.log2_lt hne]; omega
  unfold pyHex
  have : (bitsToNat (bytesToBits (x :: o))).log2 / 4 + 1 = 2 * (x :: o).length := by
    rw [List.length_cons]; omega
  rw [this, natToHex_bytes]

theorem fromHexString_pyHex {o : List UInt8}
    (h : (o.head?.any (fun x => decide (16 ≤ x.toNat)) || o == [0]) = true) :
    fromHexString (pyHex (bitsToNat (bytesToBits o))) = o := by
  rw [Bool.or_eq_true] at h
  rcases h with h | h
  · cases o with
    | nil => simp at h
    | cons x o => rw [pyHex_bytes (by simpa using h), fromHexString_spec rfl]
  · rw [beq_iff_eq] at h
    subst h
    decide

theorem octetsRoot_rt {c : SizeC} {o : List UInt8} (ht : c.test o.length = true)
    (hw : c.within o.length) (hu0 : c.upper ≠ some 0) (h : Spec.safeOctetsRoot c o = true) :
    ∃ fs, (∀ e, encodeOctetstringRoot c (bytesToBits o) e = .ok (withExt e fs)) ∧
      ∀ pos, Reads (decodeOctetstringRoot c) pos (emit pos fs) (.octets o) := by
  have hlb : (bytesToBits o).length / 8 = o.length := by rw [bytesToBits_length]; omega
  unfold Spec.safeOctetsRoot at h
  unfold encodeOctetstringRoot decodeOctetstringRoot
  simp only [hu0, if_false, hlb]
  by_cases hfix : c.lower ≠ none ∧ c.lower = c.upper
  · simp only [hfix]
    rw [if_pos hfix] at h
    have h' : o.length < 65536 := of_decide_eq_true h
    obtain ⟨n, hn⟩ := Option.ne_none_iff_exists'.1 hfix.1
    have hlen : n = o.length := by
      have := hw.1 n hn; have := hw.2 n (by rw [← hfix.2, hn]); omega
    subst hlen
    have hup : c.upper = some o.length := by rw [← hfix.2, hn]
    have hne : o ≠ [] := by
      rintro rfl; exact hu0 hup
    simp only [hup, Option.getD_some]
    by_cases h2 : o.length ≤ 2
    · refine ⟨[⟨false, bytesToBits o⟩], fun e => by simp [h2], fun pos => ?_⟩
      simp only [ne_eq, reduceCtorEq, not_false_eq_true, and_self, if_true, h2]
      rw [emit_single, padTo_false, List.nil_append]
      refine (Reads.next_plain ⟨o.length, 0⟩ pos (bytesToBits o) (by rw [bytesToBits_length]; simp; omega)).map
        fun _ => Reads.liftE ?_ _
      rw [fromHexString_zfill hne, mkOctets_ok ht]
    · refine ⟨[⟨true, bytesToBits o⟩], fun e => by simp [h2, h'], fun pos => ?_⟩
      simp only [ne_eq, reduceCtorEq, not_false_eq_true, and_self, if_true, h2, if_false, h']
      rw [emit_single]
      refine (Reads.align pos).bind ?_
      refine (Reads.next_plain ⟨o.length, 0⟩ _ (bytesToBits o) (by rw [bytesToBits_length]; simp; omega)).map
        fun _ => Reads.liftE ?_ _
      rw [fromHexString_zfill hne, mkOctets_ok ht]
  · simp only [hfix, if_false]
    rw [if_neg hfix] at h
    cases hu : c.upper with
    | none =>
      rw [hu] at h
      have h' : 1 ≤ o.length ∧ o.length ≤ 16383 := by
        cases hl : c.lower <;> rw [hl] at h <;> simpa using h
      have hne : o ≠ [] := List.length_pos_iff.1 h'.1
      obtain ⟨w, e1, e3, _, e2⟩ := lenDet_roundtrip (n := (o.length : Int)) (by omega) (by omega) (some 0) none
      refine ⟨[⟨true, w⟩, ⟨true, bytesToBits o⟩], fun e => by dsimp only; rw [e1]; rfl, fun pos => ?_⟩
      rw [emit_align_split]
      refine (Reads.align _).bind ?_
      have ha := add_padLen_mod pos
      simp only [padTo_true_length]
      have hd := e2 (some 0) none (pos + padLen pos)
      rw [padTo_aligned ha, List.nil_append] at hd
      rw [emit_cons, padTo_aligned ha, List.nil_append, emit_single,
        padTo_aligned (by show (pos + padLen pos + w.length) % 8 = 0; omega), List.nil_append]
      refine hd.bind ?_
      simp only [Int.toNat_natCast]
      refine (Reads.next_plain ⟨o.length, 0⟩ _ (bytesToBits o) (by rw [bytesToBits_length]; simp; omega)).map
        fun _ => Reads.liftE ?_ _
      rw [fromHexString_zfill hne, mkOctets_ok ht]
    | some u =>
      rw [hu] at h
      cases hl : c.lower with
      | none => rw [hl] at h; simp at h
      | some l =>
        rw [hl] at h
        dsimp only at h ⊢
        rw [Bool.and_eq_true] at h
        have hr : u ≤ l + 65535 := of_decide_eq_true h.1
        have hlu : l ≠ u := by rintro rfl; exact hfix ⟨by simp [hl], by rw [hl, hu]⟩
        obtain ⟨f, e1, e2⟩ := constrainedLen_rt (hw.1 l hl) (hw.2 u hu) hr
        refine ⟨[f] ++ [⟨true, bytesToBits o⟩], fun e => ?_, fun pos => ?_⟩
        · unfold SizeC.lowerZ SizeC.upperZ
          rw [hl, hu]
          show (do
            let ld ← encodeLengthDeterminant false true (o.length : Int) (some (l : Int)) (some (u : Int))
            return withExt e (ld ++ [⟨true, bytesToBits o⟩]) : Except Err (List BitField)) = _
          rw [e1]; rfl
        · unfold SizeC.lowerZ SizeC.upperZ
          rw [hl, hu, emit_append]
          have := e2 pos
          rw [if_neg hlu] at this
          refine this.bind ?_
          have h2 := h.2
          by_cases hne : o = []
          · subst hne
            rw [if_pos (by simp), emit_single (f := ⟨true, bytesToBits []⟩),
              padTo_aligned (constrainedLen_aligned (hw.1 l hl) (hw.2 u hu) hr (by simpa using h2) e1 pos)]
            exact Reads.liftE (mkOctets_ok ht) _
          rw [if_neg (by simpa using hne)] at h2
          have hp := List.length_pos_iff.2 hne
          rw [if_neg (by omega), emit_single (f := ⟨true, bytesToBits o⟩)]
          simp only [Int.toNat_natCast]
          refine (Reads.next ⟨o.length, 0⟩ true _ (bytesToBits o) (by rw [bytesToBits_length]; simp; omega)).map
            fun _ => Reads.liftE ?_ _
          rw [fromHexString_pyHex h2, mkOctets_ok ht]

theorem octetstring_rt {c : SizeC} {o : List UInt8} (h : Spec.safeOctets c o = true) :
    ∃ fs, encodeOctetstring c o = .ok fs ∧ ∀ pos, Reads (decodeOctetstring c) pos (emit pos fs) (.octets o) := by
  unfold Spec.safeOctets at h
  simp only [Bool.and_eq_true] at h
  obtain ⟨ht, h⟩ := h
  have hlb : (bytesToBits o).length / 8 = o.length := by rw [bytesToBits_length]; omega
  unfold encodeOctetstring decodeOctetstring octetBits
  rw [octetBits_eq]
  simp only [hlb]
  cases he : c.ext with
  | true =>
    rw [he] at h
    simp only [if_true] at h ⊢
    cases hr : Spec.inRoot c o.length with
    | none => rw [hr] at h; simp at h
    | some r =>
      rw [hr] at h
      rw [chainLe_inRoot hr]
      cases r with
      | true =>
        simp only [Bool.and_eq_true, bne_iff_ne] at h
        obtain ⟨fs, e1, e2⟩ := octetsRoot_rt ht (SizeC.within_of_inRoot hr) h.1 h.2
        refine ⟨⟨false, [false]⟩ :: fs, e1 (some ⟨false, [false]⟩), fun pos => ?_⟩
        rw [emit_bit]
        refine (Reads.bit pos false).bind ?_
        simp only [Bool.false_eq_true, if_false, if_true]
        exact e2 _
      | false =>
        have h : o.length ≤ 16383 := of_decide_eq_true h
        obtain ⟨w, e1, e3, _, e2⟩ := lenDet_roundtrip (n := (o.length : Int)) (by omega) (by omega) c.lowerZ none
        refine ⟨[⟨false, [true]⟩] ++ [⟨true, w⟩] ++ [⟨false, bytesToBits o⟩], ?_, fun pos => ?_⟩
        · rw [e1]; rfl
        · show Reads _ pos (emit pos (⟨false, [true]⟩ :: ⟨true, w⟩ :: [⟨false, bytesToBits o⟩])) _
          rw [emit_bit]
          refine (Reads.bit pos true).bind ?_
          simp only [if_true]
          rw [if_neg (by decide), emit_align_split]
          refine (Reads.align _).bind ?_
          have ha := add_padLen_mod (pos + 1)
          simp only [List.length_singleton, padTo_true_length]
          have hd := e2 (some 0) none (pos + 1 + padLen (pos + 1))
          rw [padTo_aligned ha, List.nil_append] at hd
          rw [emit_cons, padTo_aligned ha, List.nil_append, emit_single, padTo_false, List.nil_append]
          refine hd.bind ?_
          by_cases h0 : o = []
          · subst h0
            exact Reads.liftE (mkOctets_ok ht) _
          · have hp := List.length_pos_iff.2 h0
            rw [if_neg (by omega)]
            simp only [Int.toNat_natCast]
            refine (Reads.next_plain ⟨o.length, 0⟩ _ (bytesToBits o) (by rw [bytesToBits_length]; simp; omega)).map
              fun _ => Reads.liftE ?_ _
            rw [fromHexString_zfill h0, mkOctets_ok ht]
  | false =>
    rw [he] at h
    simp only [Bool.false_eq_true, if_false, Bool.or_eq_true] at h ⊢
    have hw := SizeC.within_of_test he ht
    by_cases hu0 : c.upper = some 0
    · have hb : o = [] := List.length_eq_zero_iff.1 (by have := hw.2 0 hu0; omega)
      subst hb
      refine ⟨[], ?_, fun pos => ?_⟩
      · simp only [encodeOctetstringRoot, hu0, if_true]
      · simp only [decodeOctetstringRoot, hu0, if_true]
        exact Reads.liftE (mkOctets_ok ht) _
    · have h' := h.resolve_left (by simpa using hu0)
      obtain ⟨fs, e1, e2⟩ := octetsRoot_rt ht hw hu0 h'
      exact ⟨fs, e1 none, e2⟩

/-! ## SEQUENCE OF length -/

theorem seqOfCount_rt {c : SizeC} {n : Nat} (h : Spec.safeCount c n = true) :
    ∃ pre, (∀ fl, encodeSequenceOf c n fl = .ok (pre ++ fl)) ∧
      ∀ pos, Reads (decodeSequenceOfCount c) pos (emit pos pre) (n : Int) := by
  unfold Spec.safeCount at h
  unfold encodeSequenceOf decodeSequenceOfCount
  cases he : c.ext with
  | true =>
    rw [he] at h
    simp only [if_true] at h ⊢
    cases hr : Spec.inRoot c n with
    | none => rw [hr] at h; cases c.lower <;> cases c.upper <;> simp at h
    | some r =>
      rw [hr] at h
      rw [chainLe_inRoot hr]
      cases r with
      | true =>
        have hw := SizeC.within_of_inRoot hr
        cases hl : c.lower with
        | none => rw [hl] at h; simp at h
        | some l =>
          cases hu : c.upper with
          | none => rw [hl, hu] at h; simp at h
          | some u =>
            rw [hl, hu] at h
            simp only [Bool.and_eq_true, decide_eq_true_eq, Bool.or_eq_true, bne_iff_ne, beq_iff_eq] at h
            obtain ⟨f, e1, e2⟩ := constrainedLen_rt (hw.1 l hl) (hw.2 u hu) h.2
            refine ⟨[⟨false, [false]⟩] ++ [f], fun fl => ?_, fun pos => ?_⟩
            · unfold SizeC.lowerZ SizeC.upperZ
              rw [hl, hu]
              show (do
                let ld ← encodeLengthDeterminant false true (n : Int) (some (l : Int)) (some (u : Int))
                return [⟨false, [false]⟩] ++ ld ++ fl : Except Err (List BitField)) = _
              rw [e1]; rfl
            · rw [List.singleton_append, emit_bit]
              refine (Reads.bit pos false).bind ?_
              simp only [Bool.false_eq_true, if_false, if_true]
              unfold SizeC.lowerZ SizeC.upperZ
              rw [hl, hu]
              refine (e2 _).cast rfl ?_
              split <;> omega
      | false =>
        have h' : n ≤ 16383 := by cases hl : c.lower <;> cases hu : c.upper <;> rw [hl, hu] at h <;> simpa using h
        obtain ⟨w, e1, e3, _, e2⟩ := lenDet_roundtrip (n := (n : Int)) (by omega) (by omega) (some 0) none
        refine ⟨[⟨false, [true]⟩] ++ [⟨true, w⟩], fun fl => ?_, fun pos => ?_⟩
        · rw [e1]; rfl
        · rw [List.singleton_append, emit_bit]
          refine (Reads.bit pos true).bind ?_
          simp only [if_true]
          rw [if_neg (by decide), emit_align_split]
          refine (Reads.align _).bind ?_
          have ha := add_padLen_mod (pos + 1)
          simp only [List.length_singleton, padTo_true_length]
          have hd := e2 (some 0) none (pos + 1 + padLen (pos + 1))
          rw [emit_single]
          exact hd
  | false =>
    rw [he] at h
    simp only [Bool.false_eq_true, if_false] at h ⊢
    cases hl : c.lower with
    | none => rw [hl] at h; simp at h
    | some l =>
      rw [hl] at h
      have semi : n ≤ 16383 → ∃ pre, (∀ fl, (do
          let ld ← encodeLengthDeterminant false false (n : Int) c.lowerZ none
          return ld ++ fl : Except Err (List BitField)) = .ok (pre ++ fl)) ∧
          ∀ pos, Reads (decodeLengthDeterminant false false c.lowerZ none) pos (emit pos pre) (n : Int) := by
        intro hn
        obtain ⟨w, e1, e3, _, e2⟩ := lenDet_roundtrip (n := (n : Int)) (by omega) (by omega) c.lowerZ none
        refine ⟨[⟨true, w⟩], fun fl => ?_, fun pos => ?_⟩
        · rw [e1]; rfl
        · rw [emit_single]; exact e2 _ _ _
      cases hu : c.upper with
      | none =>
        rw [hu] at h
        simp only [Bool.and_eq_true, decide_eq_true_eq] at h
        simp only [show ¬ n < l by omega, if_false]
        exact semi h.2
      | some u =>
        rw [hu] at h
        simp only [Bool.and_eq_true, decide_eq_true_eq] at h
        obtain ⟨hln, h⟩ := h
        simp only [show ¬ n < l by omega, if_false]
        by_cases hu0 : u = 0
        · subst hu0
          simp only [if_true] at h
          by_cases hl0 : l = 0
          · subst hl0
            have : n = 0 := by simpa using h
            subst this
            exact ⟨[], fun fl => by simp; rfl, fun pos => by simpa [emit] using Reads.pure _ _⟩
          · rw [if_neg hl0] at h
            have := semi (of_decide_eq_true h)
            simp only [ne_eq, not_true_eq_false, false_and, if_false, hl0]
            exact this
        · rw [if_neg hu0, Bool.and_eq_true] at h
          have hnu : n ≤ u := of_decide_eq_true h.1
          simp only [ne_eq, hu0, not_false_eq_true, true_and, show ¬ n > u by omega, if_false, if_true]
          by_cases hlu : l = u
          · rw [if_pos hlu] at h
            have h6 : u < 65536 := of_decide_eq_true h.2
            simp only [hlu, h6, and_self, if_true]
            have : n = u := by omega
            subst this
            exact ⟨[], fun fl => rfl, fun pos => Reads.pure _ _⟩
          · rw [if_neg hlu] at h
            have h6 : u ≤ l + 65535 := of_decide_eq_true h.2
            simp only [hlu, false_and, if_false]
            obtain ⟨f, e1, e2⟩ := constrainedLen_rt hln hnu h6
            have z1 : c.lowerZ = some (l : Int) := by unfold SizeC.lowerZ; rw [hl]; rfl
            have z2 : c.upperZ = some (u : Int) := by unfold SizeC.upperZ; rw [hu]; rfl
            rw [z1, z2]
            refine ⟨[f], fun fl => by rw [e1]; rfl, fun pos => ?_⟩
            have := e2 pos
            rwa [if_neg hlu] at this

end Verif
