import Verif.Lemmas.LeafDecoders
import Verif.Lemmas.Vocabulary
/-!
# The round trip of arbitrary schemas at any position of a message
-/
namespace Verif

theorem Except.bind_eq_ok {α β : Type} {x : Except Err α} {f : α → Except Err β} {b : β}
    (h : (x >>= f) = .ok b) : ∃ a, x = .ok a ∧ f a = .ok b := by
  cases x with
  | error e => cases h
  | ok a => exact ⟨a, rfl, h⟩

theorem present_eq (t : Ty) (c : Option Val) : present t c = Spec.substantial t c := by
  cases c with
  | none => rfl
  | some v => cases v <;> simp [present, Spec.substantial, hasContent]

theorem pyValueNe_eq {d v : Val} {b : Bool} (h : pyValueNe d v = .ok b) : b = !Spec.sameAsDefault d v := by
  cases d <;> cases v <;> simp [pyValueNe] at h <;> subst h <;> simp [Spec.sameAsDefault, bne] <;>
    (rw [Bool.eq_iff_iff]; simp [number_eq])

/-! ## open types -/

theorem lenDet_bound {n : Nat} {lb ub : Option Int} {fs : List BitField}
    (h : encodeLengthDeterminant false false (n : Int) lb ub = .ok fs) : n ≤ 16384 := by
  unfold encodeLengthDeterminant at h
  simp only [Bool.false_eq_true, if_false] at h
  by_cases h1 : (n : Int) ≤ 127
  · omega
  · rw [if_neg h1] at h
    by_cases h2 : (n : Int) ≤ 16384
    · omega
    · rw [if_neg h2] at h; cases h

theorem openType_rt {α : Type} {m : Dec α} {fs ofl : List BitField} {a : α}
    (h : encodeOpenTypeField fs = .ok ofl) (hm : Reads m 0 (emit 0 fs) a)
    (hne : (produceCompleteEncoding fs).length / 8 ≠ 16384) :
    (∃ w rest, ofl = ⟨true, w⟩ :: rest) ∧ ∀ pos, Reads (decodeOpenTypeField m) pos (emit pos ofl) a := by
  obtain ⟨h8, hp⟩ := produceCompleteEncoding_length fs
  unfold encodeOpenTypeField at h
  obtain ⟨ld, e1, e2⟩ := Except.bind_eq_ok h
  have hle := lenDet_bound e1
  obtain ⟨w, e3, w8, _, hd⟩ := lenDet_roundtrip (n := (((produceCompleteEncoding fs).length / 8 : Nat) : Int))
    (by omega) (by omega) none none
  rw [e3] at e1
  cases e1
  cases e2
  refine ⟨⟨w, _, rfl⟩, fun pos => ?_⟩
  rw [emit_append, emit_single]
  unfold decodeOpenTypeField
  refine (hd none none pos).bind ?_
  simp only [Int.toNat_natCast]
  rw [emit_single (f := ⟨true, produceCompleteEncoding fs⟩)]
  refine (Reads.next ⟨(produceCompleteEncoding fs).length / 8, 0⟩ true _ (produceCompleteEncoding fs)
    (by simp; omega)).bind_pure ?_
  obtain ⟨bs, hb⟩ := exists_bytes (produceCompleteEncoding fs) h8
  have hlen : (produceCompleteEncoding fs).length / 8 = bs.length := by
    rw [← hb, bytesToBits_length]; omega
  have hbne : bs ≠ [] := by
    rintro rfl; rw [← hb] at hp; simp [bytesToBits_nil] at hp
  have hbp := List.length_pos_iff.2 hbne
  have hinit : PerBytes.init (zfillHex ((produceCompleteEncoding fs).length / 8 * 2)
      (pyHex (bitsToNat (produceCompleteEncoding fs)))) = .ok ⟨Offset.init 0 0, produceCompleteEncoding fs⟩ := by
    rw [hlen, ← hb, zfillHex_pyHex (by omega), Nat.mul_comm, natToHex_bytes, PerBytes_init_hexlify hbne]
    have := bitsToNat_lt (bytesToBits bs)
    rw [bytesToBits_length] at this
    rw [pow16, show 4 * (bs.length * 2) = 8 * bs.length by omega]
    exact this
  refine Reads.bind_nil (Reads.liftE hinit _) ?_
  have hat := At.init (produceCompleteEncoding fs)
  rw [produceCompleteEncoding_eq] at hat
  obtain ⟨p', e4, _⟩ := hm _ _ hat
  rw [← produceCompleteEncoding_eq] at e4
  exact Reads.bind_nil (Reads.liftE e4 _) (Reads.pure _ _)

theorem notOversize_len {t : Ty} {v : Val} {fs : List BitField} (h : Spec.notOversize t v = true)
    (he : encTy t v = .ok fs) : (produceCompleteEncoding fs).length / 8 ≠ 16384 := by
  obtain ⟨h8, hp⟩ := produceCompleteEncoding_length fs
  obtain ⟨bs, hb⟩ := exists_bytes (produceCompleteEncoding fs) h8
  have := (encode_eq t v bs).2 ⟨fs, he, hb⟩
  unfold Spec.notOversize at h
  rw [this] at h
  have : bs.length ≠ 16384 := by simpa using h
  rw [← hb, bytesToBits_length]; omega

/-! ## lists -/

theorem repeatDec_rt {D : LeafDecoders} {L : Spec.Leaves} {t : Ty} (ih : ∀ v fs, encTy t v = .ok fs → Spec.survives L t v = true →
    ∀ pos, Reads (decWith D t) pos (emit pos fs) (Spec.received t v)) :
    ∀ (vs : List Val) (fls : List (List BitField)), vs.mapM (encTy t) = .ok fls → vs.all (Spec.survives L t) = true →
      ∀ pos, Reads (repeatDec vs.length (decWith D t)) pos (emit pos fls.flatten) (vs.map (Spec.received t))
  | [], fls, h, _, pos => by
    rw [List.mapM_nil] at h
    cases h
    exact Reads.pure _ _
  | v :: vs, fls, h, hs, pos => by
    rw [List.mapM_cons] at h
    obtain ⟨fl, e1, h⟩ := Except.bind_eq_ok h
    obtain ⟨fls', e2, h⟩ := Except.bind_eq_ok h
    cases h
    rw [List.all_cons, Bool.and_eq_true] at hs
    rw [List.flatten_cons, emit_append, List.length_cons]
    unfold repeatDec
    refine (ih v fl e1 hs.1 pos).bind ?_
    refine (repeatDec_rt ih vs fls' e2 hs.2 _).bind_pure ?_
    exact Reads.pure _ _

/-! ## presence bits -/

theorem optionalBits_rt {opt : Bits} {fl rf : List BitField} (h : withOptionalBits opt fl = .ok rf)
    {α : Type} {f : Bits → Dec α} {a : α} (hf : ∀ pos, Reads (f opt) pos (emit pos fl) a) (pos : Nat) :
    Reads (decodeOptionalBits opt.length >>= f) pos (emit pos rf) a := by
  unfold withOptionalBits at h
  unfold decodeOptionalBits
  cases opt with
  | nil =>
    simp at h
    subst h
    simp only [List.length_nil, if_true]
    exact Reads.bind_nil (Reads.pure _ _) (hf pos)
  | cons b opt =>
    simp only [List.isEmpty_cons, Bool.false_eq_true, if_false] at h
    by_cases hlt : (b :: opt).length < 65536
    · rw [if_pos hlt] at h
      cases h
      rw [if_neg (by simp), if_pos hlt, emit_cons, padTo_false, List.nil_append]
      refine Reads.bind ?_ (hf _)
      refine (Reads.next_plain ⟨0, (b :: opt).length⟩ pos (b :: opt) (by simp)).map fun _ => ?_
      rw [zfill_pyBin_bitsToNat (by simp)]
      exact Reads.pure _ _
    · rw [if_neg hlt] at h; cases h

theorem bitsToNat_pos {s : Bits} : 0 < bitsToNat s ↔ true ∈ s := by
  induction s with
  | nil => simp [bitsToNat]
  | cons b s ih =>
    rw [bitsToNat_cons]
    have := Nat.two_pow_pos s.length
    cases b <;> simp <;> omega

/-! ## CHOICE index -/

theorem choiceIndex_rt {pos n : Nat} (h : pos < n) (hn : Spec.unsignedFits 65536 n = true) :
    ∃ fs, fieldListConstrained (pos : Int) (some 0) (some ((n : Int) - 1)) = .ok fs ∧
      ∀ p, Reads (decodeConstrainedFromFieldList (some 0) (some ((n : Int) - 1))) p (emit p fs) (pos : Int) := by
  have hl : ((n : Int) - 1 - 0).toNat.log2 < 524288 := by
    have h1 : n.log2 < 524288 := by simpa [Spec.unsignedFits] using hn
    have := log2_mono (a := ((n : Int) - 1 - 0).toNat) (b := n) (by omega)
    omega
  obtain ⟨fs, e1, e2⟩ := fieldListConstrained_roundtrip (n := (pos : Int)) (lb := 0) (ub := (n : Int) - 1)
    (by omega) (by omega) hl
  refine ⟨fs, e1, fun p => (e2 p).cast rfl ?_⟩
  split <;> omega

/-! ## the theorem -/

/-- An aligned field comes first, or there is no field. -/
def StartsAligned (fs : List BitField) : Prop := fs = [] ∨ ∃ w rest, fs = ⟨true, w⟩ :: rest

theorem StartsAligned.append {a b : List BitField} (ha : StartsAligned a) (hb : StartsAligned b) :
    StartsAligned (a ++ b) := by
  rcases ha with rfl | ⟨w, r, rfl⟩
  · exact hb
  · exact .inr ⟨w, r ++ b, rfl⟩

theorem StartsAligned.emit {fs : List BitField} (h : StartsAligned fs) (q : Nat) (hne : fs ≠ []) :
    emit q fs = padTo true q ++ emit (q + (padTo true q).length) fs := by
  rcases h with rfl | ⟨w, r, rfl⟩
  · exact absurd rfl hne
  · exact emit_align_split q w r

theorem scanGroup_any : ∀ {f : Fields} {cs : List (Option Val)} {prev : Option Prev} {infos : List Prev},
    scanGroup f cs prev = .ok infos → infos.any (·.present) = Spec.anySubstantial f cs
  | .nil, cs, prev, infos, h => by cases h; rfl
  | .cons n k t r, cs, prev, infos, h => by
    unfold scanGroup at h
    dsimp only at h
    by_cases hg : (isValueOpt t (effective k (cs.head?.getD none)) && Prev.gap prev) = true
    · rw [if_pos hg] at h; cases h
    · rw [if_neg hg] at h
      obtain ⟨rest, e1, h⟩ := Except.bind_eq_ok h
      cases h
      rw [List.any_cons, scanGroup_any e1, Spec.anySubstantial, held_eq, present_eq]

theorem anySubstantial_unset : ∀ {f : Fields} {cs : List (Option Val)}, Spec.unset f cs = true →
    Spec.anySubstantial f cs = false
  | .nil, _, _ => rfl
  | .cons n k t r, cs, h => by
    unfold Spec.unset at h
    rw [Bool.and_eq_true, held_eq] at h
    unfold Spec.anySubstantial
    rw [held_eq, anySubstantial_unset h.2, Bool.or_false]
    cases he : effective k (cs.head?.getD none) with
    | none => rfl
    | some v => rw [he] at h; simp at h

theorem Reads.some_cons {m : Dec Val} {ms : Dec (List (Option Val))} {p : Nat} {w ws : Bits} {v : Val}
    {vs : List (Option Val)} (h1 : Reads m p w v) (h2 : Reads ms (p + w.length) ws vs) :
    Reads (do let v ← m; let vs ← ms; return some v :: vs) p (w ++ ws) (some v :: vs) :=
  h1.bind (h2.bind_pure (Reads.pure _ _))

theorem Reads.none_cons {ms : Dec (List (Option Val))} {p : Nat} {ws : Bits}
    {vs : List (Option Val)} (h2 : Reads ms p ws vs) :
    Reads (do let vs ← ms; return none :: vs) p ws (none :: vs) :=
  h2.bind_pure (Reads.pure _ _)

theorem bits_of_zero {s : Bits} (h : ¬ bitsToNat s > 0) : ∀ b ∈ s, b = false := by
  intro b hb
  cases b
  · rfl
  · exact absurd (bitsToNat_pos.2 hb) h

/-- No presence bit set: nothing arrives. -/
theorem az' : ∀ (a : Fields) (cs : List (Option Val)) (prev : Option Prev) (bits : Bits)
    (fs : List BitField), encAdds a cs prev = .ok (bits, fs) → (∀ b ∈ bits, b = false) →
    Spec.receivedAdds a cs = List.replicate a.length none
  | .nil, _, _, _, _, _, _ => rfl
  | .cons n k t r, cs, prev, bits, fs, h, hz => by
    simp only [encAdds] at h
    obtain ⟨⟨b, fl⟩, e1, h⟩ := Except.bind_eq_ok h
    obtain ⟨⟨bs, fls⟩, e2, h⟩ := Except.bind_eq_ok h
    cases h
    have hb := hz b List.mem_cons_self
    rw [Spec.receivedAdds, held_eq, az' r _ _ _ _ e2 (fun x hx => hz x (List.mem_cons_of_mem _ hx)), Fields.length,
      List.replicate_succ]
    congr 1
    generalize effective k (cs.head?.getD none) = c at e1 ⊢
    unfold additionComponent at e1
    cases c with
    | none => rfl
    | some v =>
      rw [← present_eq, present]
      dsimp only at e1
      by_cases hv : isValue t v = true
      · rw [if_pos hv] at e1
        split at e1
        · cases e1
        · by_cases hcont : hasContent v = true
          · rw [if_pos hcont] at e1
            obtain ⟨fl', e3, e1⟩ := Except.bind_eq_ok e1
            obtain ⟨ofl, e4, e1⟩ := Except.bind_eq_ok e1
            cases e1
            cases hb
          · simp [hcont]
      · simp [hv]

theorem gz' : ∀ (g : Groups) (cs : List (Option Val)) (prev : Option (List Prev)) (bits : Bits)
    (fs : List BitField), encGroups g cs prev = .ok (bits, fs) → (∀ b ∈ bits, b = false) →
    Spec.receivedGroups g cs = List.replicate g.size none
  | .nil, _, _, _, _, _, _ => rfl
  | .cons f g, cs, prev, bits, fs, h, hz => by
    simp only [encGroups] at h
    obtain ⟨infos, e0, h⟩ := Except.bind_eq_ok h
    obtain ⟨⟨b, fl⟩, e1, h⟩ := Except.bind_eq_ok h
    obtain ⟨⟨bs, fls⟩, e2, h⟩ := Except.bind_eq_ok h
    cases h
    have hb := hz b List.mem_cons_self
    rw [Spec.receivedGroups, gz' g _ _ _ _ e2 (fun x hx => hz x (List.mem_cons_of_mem _ hx)), Groups.size,
      ← List.replicate_append_replicate]
    congr 1
    unfold groupComponent at e1
    rw [scanGroup_any e0] at e1
    cases hsub : Spec.anySubstantial f cs with
    | false => rfl
    | true =>
      rw [hsub] at e1
      simp only [Bool.not_true, Bool.false_eq_true, if_false] at e1
      obtain ⟨_, _, e1⟩ := Except.bind_eq_ok e1
      obtain ⟨⟨opt, rfl'⟩, e3, e1⟩ := Except.bind_eq_ok e1
      obtain ⟨rf, e4, e1⟩ := Except.bind_eq_ok e1
      obtain ⟨ofl, e5, e1⟩ := Except.bind_eq_ok e1
      cases e1
      cases hb

mutual
theorem wt_ty {D : LeafDecoders} {L : Spec.Leaves} (H : D.Reads L) : ∀ (t : Ty) (v : Val) (fs : List BitField), encTy t v = .ok fs → Spec.survives L t v = true →
    ∀ pos, Reads (decWith D t) pos (emit pos fs) (Spec.received t v)
  | .boolean, v, fs, h, hs, pos => by
    cases v <;> simp only [encTy, reduceCtorEq, Except.ok.injEq] at h
    subst h
    exact boolean_rt _ _
  | .integer c, v, fs, h, hs, pos => by
    cases v <;> simp only [encTy, reduceCtorEq] at h
    exact H.int (by simpa only [Spec.survives] using hs) h pos
  | .enumerated ext root add, v, fs, h, hs, pos => by
    cases v <;> simp only [encTy, reduceCtorEq] at h
    exact H.enum (by simpa only [Spec.survives] using hs) h pos
  | .bitString c, v, fs, h, hs, pos => by
    cases v <;> simp only [encTy, reduceCtorEq] at h
    exact H.bits (by simpa only [Spec.survives] using hs) h pos
  | .octetString c, v, fs, h, hs, pos => by
    cases v <;> simp only [encTy, reduceCtorEq] at h
    exact H.octets (by simpa only [Spec.survives] using hs) h pos
  | .seqOf c t, v, fs, h, hs, pos => by
    cases v with
    | seqOf vs =>
      simp only [encTy] at h
      simp only [Spec.survives, Bool.and_eq_true] at hs
      obtain ⟨fls, e1, h⟩ := Except.bind_eq_ok h
      obtain ⟨pre, rfl, e3⟩ := H.count hs.1 h
      rw [emit_append, decWith, Spec.received]
      refine (e3 pos).bind ?_
      simp only [Int.toNat_natCast]
      exact (repeatDec_rt (fun v fs h hs => wt_ty H t v fs h hs) vs fls e1 hs.2 _).bind_pure (Reads.pure _ _)
    | _ => simp [encTy] at h
  | .choice ext r a g, v, fs, h, hs, pos => by
    cases v with
    | choice ix v =>
      simp only [encTy] at h
      obtain ⟨fl, e1, h⟩ := Except.bind_eq_ok h
      simp only [Spec.survives] at hs
      rw [decWith, Spec.received]
      by_cases hr : ix < r.length
      · simp only [hr, if_true, Bool.and_eq_true] at e1 hs ⊢
        have hd := wt_alt H r ix v fl e1 hs.2
        unfold assembleChoice at h
        simp only [hr, if_true] at h
        obtain ⟨ixf, i1, i2⟩ := choiceIndex_rt hr hs.1
        -- the index and the alternative
        have tail : ∀ p, Reads (if r.length = 1 then do
              let v ← decAltWith D r 0
              return Val.choice 0 v
            else do
              let i ← decodeConstrainedFromFieldList (some 0) (some ((r.length : Int) - 1))
              let v ← decAltWith D r i.toNat
              return Val.choice i.toNat v) p (emit p (if r.length = 1 then fl else ixf ++ fl))
              (Val.choice ix (Spec.receivedAlt r ix v)) := by
          intro p
          by_cases h1 : r.length = 1
          · simp only [h1, if_true]
            have : ix = 0 := by omega
            subst this
            exact (hd p).bind_pure (Reads.pure _ _)
          · simp only [h1, if_false]
            rw [emit_append]
            refine (i2 p).bind ?_
            simp only [Int.toNat_natCast]
            exact (hd _).bind_pure (Reads.pure _ _)
        cases ext with
        | false =>
          simp only [Bool.not_false, if_true] at h ⊢
          have : fs = (if r.length = 1 then fl else ixf ++ fl) := by
            by_cases h1 : r.length = 1
            · simp only [h1, if_true] at h ⊢; cases h; rfl
            · simp only [h1, if_false] at h ⊢
              rw [i1] at h; cases h; rfl
          rw [this]
          exact tail pos
        | true =>
          simp only [Bool.not_true, Bool.false_eq_true, if_false] at h ⊢
          have : fs = ⟨false, [false]⟩ :: (if r.length = 1 then fl else ixf ++ fl) := by
            by_cases h1 : r.length = 1
            · simp only [h1, if_true] at h ⊢; cases h; rfl
            · simp only [h1, if_false] at h ⊢
              rw [i1] at h; cases h; rfl
          rw [this, emit_bit]
          refine (Reads.bit pos false).bind ?_
          simp only [Bool.false_eq_true, if_false, if_true]
          exact tail _
      · simp only [hr, if_false, Bool.and_eq_true] at e1 hs ⊢
        obtain ⟨⟨hext, h64⟩, hs⟩ := hs
        subst hext
        have hd : (∀ p, Reads (if ix - r.length < a.length then decAltWith D a (ix - r.length)
              else decAltGWith D g (ix - r.length - a.length)) p (emit p fl)
              (if ix < r.length + a.length then Spec.receivedAlt a (ix - r.length) v
               else Spec.receivedAltG g (ix - (r.length + a.length)) v)) ∧
            (produceCompleteEncoding fl).length / 8 ≠ 16384 := by
          by_cases ha : ix < r.length + a.length
          · simp only [ha, if_true] at e1 hs ⊢
            rw [if_pos (by omega)]
            exact wt_openAlt H a _ v fl e1 hs
          · simp only [ha, if_false] at e1 hs ⊢
            rw [if_neg (by omega), show ix - r.length - a.length = ix - (r.length + a.length) by omega]
            exact wt_openAltG H g _ v fl e1 hs
        unfold assembleChoice at h
        simp only [Bool.not_true, Bool.false_eq_true, if_false, hr] at h ⊢
        by_cases hno : a.length = 0 ∧ g.length = 0
        · simp only [hno, and_self, decide_true, if_true] at h; cases h
        · simp only [hno, decide_false, Bool.false_eq_true, if_false] at h
          obtain ⟨ixf, i1, i2⟩ := normallySmall_roundtrip (n := ix - r.length) (of_decide_eq_true h64)
          rw [i1] at h
          obtain ⟨_, h', h⟩ := Except.bind_eq_ok h
          cases h'
          obtain ⟨ofl, e2, h⟩ := Except.bind_eq_ok h
          cases h
          obtain ⟨_, o2⟩ := openType_rt e2 (hd.1 0) hd.2
          rw [List.append_assoc, List.singleton_append, emit_bit]
          refine (Reads.bit pos true).bind ?_
          simp only [if_true]
          rw [if_neg (by decide), emit_append]
          refine (i2 _).bind ?_
          rw [if_neg hno]
          simp only [Int.toNat_natCast]
          refine (o2 _).bind_pure ?_
          rw [show r.length + (ix - r.length) = ix by omega]
          exact Reads.pure _ _
    | _ => simp [encTy] at h
  | .sequence ext r a g, v, fs, h, hs, pos => by
    cases v with
    | seq cs =>
      simp only [encTy] at h
      obtain ⟨⟨opt, fl⟩, e1, h⟩ := Except.bind_eq_ok h
      obtain ⟨rf, e2, h⟩ := Except.bind_eq_ok h
      simp only [Spec.survives, Bool.and_eq_true] at hs
      obtain ⟨hlen, hroot⟩ := wt_root H r cs opt fl e1 hs.1
      rw [decWith, Spec.received]
      cases ext with
      | false =>
        simp only [Bool.false_eq_true, if_false] at h ⊢
        cases h
        refine Reads.bind_nil (Reads.pure _ _) ?_
        rw [← hlen]
        refine optionalBits_rt e2 (fun p => ?_) pos
        refine (hroot p).bind_pure ?_
        exact Reads.pure _ _
      | true =>
        simp only [Bool.not_true, Bool.false_or, Bool.and_eq_true] at hs
        simp only [if_true] at h ⊢
        -- reading the root when the extension bit is 0
        have noext : ∀ gv : List (Option Val), gv = List.replicate (a.length + g.size) none →
            Reads (do
              let e ← next ⟨0, 1⟩ false
              let opt ← decodeOptionalBits r.optionalCount
              let rootVals ← decRootWith D r opt
              if e ≠ 0 then do
                let bits ← decodeExtensionBits (a.length + g.length)
                let addVals ← decAddsWith D a (bits.take a.length)
                let groupVals ← decGroupsWith D g (bits.drop a.length)
                return Val.seq (rootVals ++ addVals ++ groupVals)
              else
                return Val.seq (rootVals ++ List.replicate (a.length + g.size) none)) pos
              (emit pos ([⟨false, [false]⟩] ++ rf)) (Val.seq (Spec.receivedRoot r cs ++ gv)) := by
          intro gv hgv
          subst hgv
          rw [List.singleton_append, emit_bit]
          refine (Reads.bit pos false).bind ?_
          simp only [Bool.false_eq_true, if_false]
          rw [← hlen]
          refine optionalBits_rt e2 (fun p => ?_) _
          refine (hroot p).bind_pure ?_
          exact Reads.pure _ _
        by_cases hno : a.length = 0 ∧ g.length = 0
        · simp only [hno, and_self, if_true] at h
          cases h
          refine noext _ ?_
          have ha : a = .nil := by cases a with | nil => rfl | cons => simp [Fields.length] at hno
          have hg : g = .nil := by cases g with | nil => rfl | cons => simp [Groups.length] at hno
          subst ha hg
          rfl
        · simp only [hno, if_false] at h
          obtain ⟨⟨abits, afl⟩, e3, h⟩ := Except.bind_eq_ok h
          obtain ⟨⟨gbits, gfl⟩, e4, h⟩ := Except.bind_eq_ok h
          obtain ⟨alen, aal, az, ar⟩ := wt_adds H a _ none abits afl e3 hs.2.1
          obtain ⟨glen, gal, gz, gr⟩ := wt_groups H g _ none gbits gfl e4 hs.2.2
          dsimp only at h
          have hbl : (abits ++ gbits).length = a.length + g.length := by
            rw [List.length_append, alen, glen]
          have hbne : abits ++ gbits ≠ [] := by
            intro h0
            have := congrArg List.length h0
            rw [hbl] at this; simp at this; omega
          unfold assembleSequence at h
          rw [pyInt2_of_ne hbne] at h
          simp only [bind, Except.bind] at h
          by_cases hpos : bitsToNat (abits ++ gbits) > 0
          · rw [if_pos hpos] at h
            have h64 : (abits ++ gbits).length ≤ 64 := by
              by_cases h64 : (abits ++ gbits).length ≤ 64
              · exact h64
              · exfalso
                unfold encodeLengthDeterminant at h
                simp only [if_true] at h
                rw [if_neg (by omega)] at h
                cases h
            have hp1 := List.length_pos_iff.2 hbne
            obtain ⟨l1, l2⟩ := normallySmallLen_roundtrip (n := ((abits ++ gbits).length : Int)) (by omega)
              (by omega) none none
            rw [l1] at h
            cases h
            generalize hld : [(⟨false, [false]⟩ : BitField),
              ⟨false, natToBits 6 (((abits ++ gbits).length : Int) - 1).toNat⟩] = ld at l2 ⊢
            have hfne : afl ++ gfl ≠ [] := by
              intro h0
              rw [List.append_eq_nil_iff] at h0
              have hm := bitsToNat_pos.1 hpos
              rw [List.mem_append] at hm
              rcases hm with hm | hm
              · exact absurd hm (fun hm => by have := az h0.1 _ hm; cases this)
              · exact absurd hm (fun hm => by have := gz h0.2 _ hm; cases this)
            have hal := aal.append gal
            rw [List.append_assoc, List.append_assoc, List.append_assoc, List.singleton_append, emit_bit]
            refine (Reads.bit pos true).bind ?_
            rw [emit_append, ← hlen]
            -- the root, then everything else
            have hroot' := optionalBits_rt e2 (f := fun opt => decRootWith D r opt) hroot (pos + 1)
            have assoc : ∀ {β : Type} (k : List (Option Val) → Dec β),
                (decodeOptionalBits opt.length >>= fun o => decRootWith D r o >>= k)
                  = ((decodeOptionalBits opt.length >>= fun o => decRootWith D r o) >>= k) := by
              intro β k; rw [bind_assoc]
            rw [assoc]
            refine Reads.bind hroot' ?_
            simp only [if_true]
            rw [if_pos (by decide)]
            generalize pos + [true].length + (emit (pos + 1) rf).length = q
            unfold decodeExtensionBits
            rw [emit_append]
            have l3 := l2 none none q
            have s1 : ∀ q, emit q (ld ++ ([⟨false, abits ++ gbits⟩] ++ (afl ++ gfl)))
                = (emit q ld ++ (abits ++ gbits) ++
                  padTo true (q + (emit q ld).length + (abits ++ gbits).length)) ++
                  emit (q + (emit q ld ++ (abits ++ gbits) ++
                  padTo true (q + (emit q ld).length + (abits ++ gbits).length)).length) (afl ++ gfl) := by
              intro q
              rw [emit_append, List.singleton_append, emit_cons, padTo_false, List.nil_append,
                hal.emit _ hfne]
              simp only [List.append_assoc, List.length_append, Nat.add_assoc]
            rw [← emit_append, s1]
            refine Reads.bind (a := abits ++ gbits) ?_ ?_
            · rw [List.append_assoc]
              refine l3.bind ?_
              simp only [Int.toNat_natCast]
              refine (Reads.next_plain ⟨0, (abits ++ gbits).length⟩ _ (abits ++ gbits) (by simp)).bind ?_
              refine (Reads.align _).bind_pure ?_
              rw [← hbl, zfill_pyBin_bitsToNat hbne]
              exact Reads.pure _ _
            · rw [emit_append]
              rw [show List.take a.length (abits ++ gbits) = abits by rw [← alen, List.take_left]]
              rw [show List.drop a.length (abits ++ gbits) = gbits by rw [← alen, List.drop_left]]
              refine (ar _).bind ?_
              refine (gr _).bind_pure ?_
              rw [List.append_assoc]
              exact Reads.pure _ _
          · rw [if_neg hpos] at h
            cases h
            have hz := bits_of_zero hpos
            refine noext _ ?_
            rw [(az' a _ none abits afl e3 (fun b hb => hz b (List.mem_append_left _ hb))),
              (gz' g _ none gbits gfl e4 (fun b hb => hz b (List.mem_append_right _ hb))),
              List.replicate_append_replicate]
    | _ => simp [encTy] at h
theorem wt_alt {D : LeafDecoders} {L : Spec.Leaves} (H : D.Reads L) : ∀ (r : Fields) (p : Nat) (v : Val) (fs : List BitField), encAlt r p v = .ok fs →
    Spec.survivesAlt L r p v = true → ∀ pos, Reads (decAltWith D r p) pos (emit pos fs) (Spec.receivedAlt r p v)
  | .nil, p, v, fs, h, _, pos => by simp [encAlt] at h
  | .cons _ _ t _, 0, v, fs, h, hs, pos => wt_ty H t v fs h hs pos
  | .cons _ _ _ r, p + 1, v, fs, h, hs, pos => wt_alt H r p v fs h hs pos
theorem wt_openAlt {D : LeafDecoders} {L : Spec.Leaves} (H : D.Reads L) : ∀ (r : Fields) (p : Nat) (v : Val) (fs : List BitField), encAlt r p v = .ok fs →
    Spec.survivesOpenAlt L r p v = true →
    (∀ pos, Reads (decAltWith D r p) pos (emit pos fs) (Spec.receivedAlt r p v)) ∧
      (produceCompleteEncoding fs).length / 8 ≠ 16384
  | .nil, p, v, fs, h, _ => by simp [encAlt] at h
  | .cons _ _ t _, 0, v, fs, h, hs => by
    simp only [Spec.survivesOpenAlt, Bool.and_eq_true] at hs
    exact ⟨fun pos => wt_ty H t v fs h hs.1 pos, notOversize_len hs.2 h⟩
  | .cons _ _ _ r, p + 1, v, fs, h, hs => wt_openAlt H r p v fs h hs
theorem wt_openAltG {D : LeafDecoders} {L : Spec.Leaves} (H : D.Reads L) : ∀ (g : Groups) (p : Nat) (v : Val) (fs : List BitField), encAltG g p v = .ok fs →
    Spec.survivesOpenAltG L g p v = true →
    (∀ pos, Reads (decAltGWith D g p) pos (emit pos fs) (Spec.receivedAltG g p v)) ∧
      (produceCompleteEncoding fs).length / 8 ≠ 16384
  | .nil, p, v, fs, h, _ => by simp [encAltG] at h
  | .cons f g, p, v, fs, h, hs => by
    simp only [encAltG, Spec.survivesOpenAltG, decAltGWith, Spec.receivedAltG] at h hs ⊢
    by_cases hp : p < f.length
    · simp only [hp, if_true] at h hs ⊢
      exact wt_openAlt H f p v fs h hs
    · simp only [hp, if_false] at h hs ⊢
      exact wt_openAltG H g _ v fs h hs
theorem wt_root {D : LeafDecoders} {L : Spec.Leaves} (H : D.Reads L) : ∀ (r : Fields) (cs : List (Option Val)) (bits : Bits) (fs : List BitField),
    encRoot r cs = .ok (bits, fs) → Spec.survivesRoot L r cs = true →
    bits.length = r.optionalCount ∧
      ∀ pos, Reads (decRootWith D r bits) pos (emit pos fs) (Spec.receivedRoot r cs)
  | .nil, cs, bits, fs, h, _ => by
    simp only [encRoot, Except.ok.injEq, Prod.mk.injEq] at h
    obtain ⟨rfl, rfl⟩ := h
    exact ⟨rfl, fun pos => Reads.pure _ _⟩
  | .cons n k t r, cs, bits, fs, h, hs => by
    simp only [encRoot] at h
    simp only [Spec.survivesRoot, Bool.and_eq_true, held_eq, untouched_eq, valued_eq, isOpt_eq, hasDefault_eq] at hs
    obtain ⟨⟨b, fl⟩, e1, h⟩ := Except.bind_eq_ok h
    obtain ⟨⟨bs, fls⟩, e2, h⟩ := Except.bind_eq_ok h
    cases h
    obtain ⟨hlen, hr⟩ := wt_root H r cs.tail bs fls e2 hs.2
    generalize hc : cs.head?.getD none = c at e1 hs
    have mand : ∀ v, Spec.survives L t v = true →
        Spec.receivedRoot (.cons n .mandatory t r) cs = some (Spec.received t v) :: Spec.receivedRoot r cs.tail →
        (do let fl ← encTy t v; return ([], fl) : Except Err (Bits × List BitField)) = .ok (b, fl) →
        (b ++ bs).length = (Fields.cons n .mandatory t r).optionalCount ∧
        ∀ pos, Reads (decRootWith D (.cons n .mandatory t r) (b ++ bs)) pos (emit pos (fl ++ fls))
          (Spec.receivedRoot (.cons n .mandatory t r) cs) := by
      intro v hv hrec he
      obtain ⟨fl', e3, he⟩ := Except.bind_eq_ok he
      cases he
      refine ⟨by simpa [Fields.optionalCount, Kind.isOptional, Kind.isDefaulted] using hlen, fun pos => ?_⟩
      rw [hrec, emit_append, decRootWith, List.nil_append]
      exact Reads.some_cons (wt_ty H t v _ e3 hv pos) (hr _)
    have nonMand : ∀ (hk : k.isOptional = true ∨ k.isDefaulted = true) (hb : b.length = 1),
        (b ++ bs).length = (Fields.cons n k t r).optionalCount := by
      intro hk h1
      have : (k.isOptional || k.isDefaulted) = true := by simpa using hk
      simp [Fields.optionalCount, this, hlen, h1]
    have given : ∀ v, (k.isOptional = true ∨ k.isDefaulted = true) → Spec.survives L t v = true →
        Spec.receivedRoot (.cons n k t r) cs = some (Spec.received t v) :: Spec.receivedRoot r cs.tail →
        (do let fl ← encTy t v; return ([true], fl) : Except Err (Bits × List BitField)) = .ok (b, fl) →
        (b ++ bs).length = (Fields.cons n k t r).optionalCount ∧
        ∀ pos, Reads (decRootWith D (.cons n k t r) (b ++ bs)) pos (emit pos (fl ++ fls))
          (Spec.receivedRoot (.cons n k t r) cs) := by
      intro v hk hv hrec he
      obtain ⟨fl', e3, he⟩ := Except.bind_eq_ok he
      cases he
      refine ⟨nonMand hk rfl, fun pos => ?_⟩
      rw [hrec, emit_append]
      cases k with
      | mandatory => simp [Kind.isOptional, Kind.isDefaulted] at hk
      | _ =>
        simp only [List.singleton_append, decRootWith, if_true]
        exact Reads.some_cons (wt_ty H t v _ e3 hv pos) (hr _)
    have skipped : (k.isOptional = true ∨ k.isDefaulted = true) →
        Spec.receivedRoot (.cons n k t r) cs = none :: Spec.receivedRoot r cs.tail →
        (return ([false], []) : Except Err (Bits × List BitField)) = .ok (b, fl) →
        (b ++ bs).length = (Fields.cons n k t r).optionalCount ∧
        ∀ pos, Reads (decRootWith D (.cons n k t r) (b ++ bs)) pos (emit pos (fl ++ fls))
          (Spec.receivedRoot (.cons n k t r) cs) := by
      intro hk hrec he
      cases he
      refine ⟨nonMand hk rfl, fun pos => ?_⟩
      rw [hrec, List.nil_append]
      cases k with
      | mandatory => simp [Kind.isOptional, Kind.isDefaulted] at hk
      | _ =>
        simp only [List.singleton_append, decRootWith, Bool.false_eq_true, if_false]
        exact Reads.none_cons (hr _)
    unfold rootComponent at e1
    cases k with
    | mandatory =>
      cases c with
      | some v => exact mand v hs.1 (by rw [Spec.receivedRoot, hc, Spec.receivedComponent]) e1
      | none =>
        dsimp only at e1
        cases hev : emptyVal t with
        | none => rw [hev] at e1; cases e1
        | some v =>
          rw [hev] at e1
          have hsn : Spec.sent .mandatory t none = some v := by simp [Spec.sent, untouched_eq, hev]
          rw [hsn] at hs
          exact mand v hs.1 (by rw [Spec.receivedRoot, hc, Spec.receivedComponent]; simp [hev]) e1
    | optional =>
      dsimp only at e1
      by_cases hp : present t c = true
      · rw [if_pos hp] at e1
        cases c with
        | none => cases hp
        | some v =>
          rw [present_eq] at hp
          have hsn : Spec.sent .optional t (some v) = some v := by simp [Spec.sent, hp]
          rw [hsn] at hs
          refine given v (.inl rfl) hs.1 ?_ e1
          rw [Spec.receivedRoot, hc, Spec.receivedComponent]
          simp [hp]
      · rw [if_neg hp] at e1
        refine skipped (.inl rfl) ?_ e1
        rw [present_eq] at hp
        rw [Spec.receivedRoot, hc, Spec.receivedComponent]
        simp [hp]
    | default d =>
      cases c with
      | none =>
        obtain ⟨ne, e3, e1⟩ := Except.bind_eq_ok e1
        have hne : ne = false := by
          have := pyValueNe_eq e3
          rw [this]
          cases d <;> simp [Spec.sameAsDefault]
        subst hne
        exact skipped (.inr rfl) (by rw [Spec.receivedRoot, hc, Spec.receivedComponent]) e1
      | some v =>
        obtain ⟨ne, e3, e1⟩ := Except.bind_eq_ok e1
        have hne := pyValueNe_eq e3
        cases hsd : Spec.sameAsDefault d v with
        | true =>
          rw [hsd] at hne
          subst hne
          exact skipped (.inr rfl) (by rw [Spec.receivedRoot, hc, Spec.receivedComponent]; simp [hsd]) e1
        | false =>
          rw [hsd] at hne
          subst hne
          have hsn : Spec.sent (.default d) t (some v) = some v := by simp [Spec.sent, hsd]
          rw [hsn] at hs
          exact given v (.inr rfl) hs.1 (by rw [Spec.receivedRoot, hc, Spec.receivedComponent]; simp [hsd]) e1
theorem wt_adds {D : LeafDecoders} {L : Spec.Leaves} (H : D.Reads L) : ∀ (a : Fields) (cs : List (Option Val)) (prev : Option Prev) (bits : Bits)
    (fs : List BitField), encAdds a cs prev = .ok (bits, fs) → Spec.survivesAdds L a cs = true →
    bits.length = a.length ∧ StartsAligned fs ∧
      (fs = [] → (∀ b ∈ bits, b = false)) ∧
      ∀ pos, Reads (decAddsWith D a bits) pos (emit pos fs) (Spec.receivedAdds a cs)
  | .nil, cs, prev, bits, fs, h, _ => by
    simp only [encAdds, Except.ok.injEq, Prod.mk.injEq] at h
    obtain ⟨rfl, rfl⟩ := h
    exact ⟨rfl, .inl rfl, fun _ => by simp, fun pos => Reads.pure _ _⟩
  | .cons n k t r, cs, prev, bits, fs, h, hs => by
    simp only [encAdds] at h
    simp only [Spec.survivesAdds, Bool.and_eq_true, held_eq, untouched_eq, valued_eq, isOpt_eq, hasDefault_eq] at hs
    obtain ⟨⟨b, fl⟩, e1, h⟩ := Except.bind_eq_ok h
    obtain ⟨⟨bs, fls⟩, e2, h⟩ := Except.bind_eq_ok h
    cases h
    obtain ⟨hlen, hal, hz, hr⟩ := wt_adds H r cs.tail _ bs fls e2 hs.2
    generalize hc : effective k (cs.head?.getD none) = c at e1 hs
    have absent : b = false ∧ fl = [] → Spec.substantial t c = false →
        (b :: bs).length = (Fields.cons n k t r).length ∧ StartsAligned (fl ++ fls) ∧
        (fl ++ fls = [] → (∀ x ∈ b :: bs, x = false)) ∧
        ∀ pos, Reads (decAddsWith D (.cons n k t r) (b :: bs)) pos (emit pos (fl ++ fls))
          (Spec.receivedAdds (.cons n k t r) cs) := by
      rintro ⟨rfl, rfl⟩ hsub
      refine ⟨by simp [Fields.length, hlen], hal, fun h0 => ?_, fun pos => ?_⟩
      · intro x hx
        rcases List.mem_cons.1 hx with rfl | hx
        · rfl
        · exact hz h0 x hx
      · rw [Spec.receivedAdds, held_eq, hc, decAddsWith]
        simp only [hsub, Bool.false_eq_true, if_false, List.nil_append]
        exact Reads.none_cons (hr _)
    unfold additionComponent at e1
    cases c with
    | none => dsimp only at e1; cases e1; exact absent ⟨rfl, rfl⟩ rfl
    | some v =>
      dsimp only at e1
      by_cases hv : isValue t v = true
      · rw [if_pos hv] at e1
        by_cases hg : Prev.gap prev = true
        · rw [if_pos hg] at e1; cases e1
        · rw [if_neg hg] at e1
          by_cases hcont : hasContent v = true
          · rw [if_pos hcont] at e1
            obtain ⟨fl', e3, e1⟩ := Except.bind_eq_ok e1
            obtain ⟨ofl, e4, e1⟩ := Except.bind_eq_ok e1
            cases e1
            have hsub : Spec.substantial t (some v) = true := by
              rw [← present_eq]; simp [present, hv, hcont]
            have hs1 := hs.1
            simp only [hsub, Bool.not_true, Bool.false_or, Bool.and_eq_true] at hs1
            obtain ⟨⟨w, rest, ho⟩, o2⟩ := openType_rt e4 (wt_ty H t v _ e3 hs1.1 0) (notOversize_len hs1.2 e3)
            refine ⟨by simp [Fields.length, hlen], .inr ⟨w, rest ++ fls, by rw [ho]; rfl⟩,
              fun h0 => (by rw [ho] at h0; cases h0), fun pos => ?_⟩
            rw [Spec.receivedAdds, held_eq, hc, decAddsWith]
            simp only [hsub, if_true, Option.map_some]
            rw [emit_append]
            exact Reads.some_cons (o2 pos) (hr _)
          · rw [if_neg hcont] at e1
            cases e1
            exact absent ⟨rfl, rfl⟩ (by rw [← present_eq]; simp [present, hcont])
      · rw [if_neg hv] at e1
        cases e1
        exact absent ⟨rfl, rfl⟩ (by rw [← present_eq]; simp [present, hv])
theorem wt_groups {D : LeafDecoders} {L : Spec.Leaves} (H : D.Reads L) : ∀ (g : Groups) (cs : List (Option Val)) (prev : Option (List Prev)) (bits : Bits)
    (fs : List BitField), encGroups g cs prev = .ok (bits, fs) → Spec.survivesGroups L g cs = true →
    bits.length = g.length ∧ StartsAligned fs ∧
      (fs = [] → (∀ b ∈ bits, b = false)) ∧
      ∀ pos, Reads (decGroupsWith D g bits) pos (emit pos fs) (Spec.receivedGroups g cs)
  | .nil, cs, prev, bits, fs, h, _ => by
    simp only [encGroups, Except.ok.injEq, Prod.mk.injEq] at h
    obtain ⟨rfl, rfl⟩ := h
    exact ⟨rfl, .inl rfl, fun _ => by simp, fun pos => Reads.pure _ _⟩
  | .cons f g, cs, prev, bits, fs, h, hs => by
    simp only [encGroups] at h
    simp only [Spec.survivesGroups, Bool.and_eq_true] at hs
    obtain ⟨infos, e0, h⟩ := Except.bind_eq_ok h
    obtain ⟨⟨b, fl⟩, e1, h⟩ := Except.bind_eq_ok h
    obtain ⟨⟨bs, fls⟩, e2, h⟩ := Except.bind_eq_ok h
    cases h
    obtain ⟨hlen, hal, hz, hr⟩ := wt_groups H g _ _ bs fls e2 hs.2
    have hany := scanGroup_any e0
    unfold groupComponent at e1
    rw [hany] at e1
    cases hsub : Spec.anySubstantial f cs with
    | false =>
      rw [hsub] at e1
      simp only [Bool.not_false, if_true] at e1
      cases e1
      refine ⟨by simp [Groups.length, hlen], hal, fun h0 => ?_, fun pos => ?_⟩
      · intro x hx
        rcases List.mem_cons.1 hx with rfl | hx
        · rfl
        · exact hz h0 x hx
      · rw [Spec.receivedGroups, hsub, decGroupsWith]
        simp only [Bool.false_eq_true, if_false, List.nil_append]
        exact (hr _).bind_pure (Reads.pure _ _)
    | true =>
      rw [hsub] at e1
      simp only [Bool.not_true, Bool.false_eq_true, if_false] at e1
      obtain ⟨_, _, e1⟩ := Except.bind_eq_ok e1
      obtain ⟨⟨opt, rfl'⟩, e3, e1⟩ := Except.bind_eq_ok e1
      obtain ⟨rf, e4, e1⟩ := Except.bind_eq_ok e1
      obtain ⟨ofl, e5, e1⟩ := Except.bind_eq_ok e1
      cases e1
      have hs1 := hs.1
      rw [hsub] at hs1
      simp only [Bool.not_true, Bool.false_or, Bool.and_eq_true] at hs1
      obtain ⟨hol, hroot⟩ := wt_root H f cs opt rfl' e3 hs1.1
      have henc : encTy (.sequence false f .nil .nil) (.seq cs) = .ok rf := by
        simp only [encTy, e3, bind, Except.bind, e4, Bool.false_eq_true, if_false]; rfl
      have hin := optionalBits_rt e4 (f := fun opt => decRootWith D f opt) hroot 0
      rw [hol] at hin
      obtain ⟨⟨w, rest, ho⟩, o2⟩ := openType_rt e5 hin (notOversize_len hs1.2 henc)
      refine ⟨by simp [Groups.length, hlen], .inr ⟨w, rest ++ fls, by rw [ho]; rfl⟩,
        fun h0 => (by rw [ho] at h0; cases h0), fun pos => ?_⟩
      rw [Spec.receivedGroups, hsub, decGroupsWith]
      simp only [if_true]
      rw [emit_append]
      exact (o2 pos).bind ((hr _).bind_pure (Reads.pure _ _))
end

/-! ## the decoder of the code -/

theorem rt_ty (t : Ty) (v : Val) (fs : List BitField) (h : encTy t v = .ok fs) (hs : Spec.safe t v = true)
    (pos : Nat) : Reads (decTy t) pos (emit pos fs) (Spec.received t v) := by
  rw [← decWith_code]; exact wt_ty code_reads t v fs h hs pos

theorem rt_alt (r : Fields) (p : Nat) (v : Val) (fs : List BitField) (h : encAlt r p v = .ok fs)
    (hs : Spec.safeAlt r p v = true) (pos : Nat) :
    Reads (decAlt r p) pos (emit pos fs) (Spec.receivedAlt r p v) := by
  rw [← decAltWith_code]; exact wt_alt code_reads r p v fs h hs pos

theorem rt_openAlt (r : Fields) (p : Nat) (v : Val) (fs : List BitField) (h : encAlt r p v = .ok fs)
    (hs : Spec.safeOpenAlt r p v = true) :
    (∀ pos, Reads (decAlt r p) pos (emit pos fs) (Spec.receivedAlt r p v)) ∧
      (produceCompleteEncoding fs).length / 8 ≠ 16384 := by
  rw [← decAltWith_code]; exact wt_openAlt code_reads r p v fs h hs

theorem rt_openAltG (g : Groups) (p : Nat) (v : Val) (fs : List BitField) (h : encAltG g p v = .ok fs)
    (hs : Spec.safeOpenAltG g p v = true) :
    (∀ pos, Reads (decAltG g p) pos (emit pos fs) (Spec.receivedAltG g p v)) ∧
      (produceCompleteEncoding fs).length / 8 ≠ 16384 := by
  rw [← decAltGWith_code]; exact wt_openAltG code_reads g p v fs h hs

theorem rt_root (r : Fields) (cs : List (Option Val)) (bits : Bits) (fs : List BitField)
    (h : encRoot r cs = .ok (bits, fs)) (hs : Spec.safeRoot r cs = true) :
    bits.length = r.optionalCount ∧
      ∀ pos, Reads (decRoot r bits) pos (emit pos fs) (Spec.receivedRoot r cs) := by
  rw [← decRootWith_code]; exact wt_root code_reads r cs bits fs h hs

theorem rt_adds (a : Fields) (cs : List (Option Val)) (prev : Option Prev) (bits : Bits)
    (fs : List BitField) (h : encAdds a cs prev = .ok (bits, fs)) (hs : Spec.safeAdds a cs = true) :
    bits.length = a.length ∧ StartsAligned fs ∧
      (fs = [] → (∀ b ∈ bits, b = false)) ∧
      ∀ pos, Reads (decAdds a bits) pos (emit pos fs) (Spec.receivedAdds a cs) := by
  rw [← decAddsWith_code]; exact wt_adds code_reads a cs prev bits fs h hs

theorem rt_groups (g : Groups) (cs : List (Option Val)) (prev : Option (List Prev)) (bits : Bits)
    (fs : List BitField) (h : encGroups g cs prev = .ok (bits, fs)) (hs : Spec.safeGroups g cs = true) :
    bits.length = g.length ∧ StartsAligned fs ∧
      (fs = [] → (∀ b ∈ bits, b = false)) ∧
      ∀ pos, Reads (decGroups g bits) pos (emit pos fs) (Spec.receivedGroups g cs) := by
  rw [← decGroupsWith_code]; exact wt_groups code_reads g cs prev bits fs h hs

end Verif
