import Verif.Lemmas.RoundTrip
/-!
# The encoder succeeds on sendable values
-/
namespace Verif

theorem fitsOpenType_ok {t : Ty} {v : Val} (h : Spec.fitsOpenType t v = true) :
    ∃ fs, encTy t v = .ok fs ∧ (produceCompleteEncoding fs).length / 8 ≤ 16383 := by
  unfold Spec.fitsOpenType at h
  cases he : encode t v with
  | error e => rw [he] at h; cases h
  | ok bs =>
    rw [he] at h
    obtain ⟨fs, e1, e2⟩ := (encode_eq t v bs).1 he
    refine ⟨fs, e1, ?_⟩
    have h' : bs.length ≤ 16383 := of_decide_eq_true h
    rw [← e2, bytesToBits_length]; omega

theorem openType_ok {fs : List BitField} (h : (produceCompleteEncoding fs).length / 8 ≤ 16383) :
    ∃ ofl, encodeOpenTypeField fs = .ok ofl := by
  obtain ⟨w, e, _⟩ := lenDet_roundtrip (n := (((produceCompleteEncoding fs).length / 8 : Nat) : Int))
    (by omega) (by omega) none none
  exact ⟨[⟨true, w⟩] ++ [⟨true, produceCompleteEncoding fs⟩], by unfold encodeOpenTypeField; dsimp only; rw [e]; rfl⟩

theorem mapM_ok {f : Val → Except Err (List BitField)} : ∀ {vs : List Val},
    (∀ v ∈ vs, ∃ fs, f v = .ok fs) → ∃ fls, vs.mapM f = .ok fls
  | [], _ => ⟨[], rfl⟩
  | v :: vs, h => by
    obtain ⟨fs, e1⟩ := h v List.mem_cons_self
    obtain ⟨fls, e2⟩ := mapM_ok (fun w hw => h w (List.mem_cons_of_mem _ hw))
    exact ⟨fs :: fls, by rw [List.mapM_cons, e1]; simp only [bind, Except.bind]; rw [e2]; rfl⟩

theorem pyValueNe_ok {d v : Val} (h : Spec.comparable d v = true) : ∃ b, pyValueNe d v = .ok b := by
  cases d <;> cases v <;> simp [Spec.comparable] at h <;> exact ⟨_, rfl⟩

theorem encRoot_bits_length : ∀ (r : Fields) (cs : List (Option Val)) {bits : Bits} {fs : List BitField},
    encRoot r cs = .ok (bits, fs) → bits.length = Spec.optionals r
  | .nil, cs, bits, fs, h => by simp only [encRoot, Except.ok.injEq, Prod.mk.injEq] at h; rw [← h.1]; rfl
  | .cons n k t r, cs, bits, fs, h => by
    simp only [encRoot] at h
    obtain ⟨⟨b, fl⟩, e1, h⟩ := Except.bind_eq_ok h
    obtain ⟨⟨bs, fls⟩, e2, h⟩ := Except.bind_eq_ok h
    cases h
    have ih := encRoot_bits_length r cs.tail e2
    have key : (k = .mandatory → b = []) ∧ (k ≠ .mandatory → b.length = 1) := by
      unfold rootComponent at e1
      generalize cs.head?.getD none = c at e1
      cases k with
      | mandatory =>
        refine ⟨fun _ => ?_, fun h => absurd rfl h⟩
        cases c with
        | some v =>
          obtain ⟨_, _, e1⟩ := Except.bind_eq_ok e1
          cases e1; rfl
        | none =>
          dsimp only at e1
          cases hev : emptyVal t with
          | none => rw [hev] at e1; cases e1
          | some v =>
            rw [hev] at e1
            obtain ⟨_, _, e1⟩ := Except.bind_eq_ok e1
            cases e1; rfl
      | optional =>
        refine ⟨fun h => (by cases h), fun _ => ?_⟩
        dsimp only at e1
        by_cases hp : present t c = true
        · rw [if_pos hp] at e1
          cases c with
          | none => cases hp
          | some v =>
            obtain ⟨_, _, e1⟩ := Except.bind_eq_ok e1
            cases e1; rfl
        · rw [if_neg hp] at e1; cases e1; rfl
      | default d =>
        refine ⟨fun h => (by cases h), fun _ => ?_⟩
        cases c with
        | none =>
          obtain ⟨ne, _, e1⟩ := Except.bind_eq_ok e1
          cases ne
          · cases e1; rfl
          · obtain ⟨_, _, e1⟩ := Except.bind_eq_ok (x := encTy t d) e1
            cases e1; rfl
        | some v =>
          obtain ⟨ne, _, e1⟩ := Except.bind_eq_ok e1
          cases ne
          · cases e1; rfl
          · obtain ⟨_, _, e1⟩ := Except.bind_eq_ok (x := encTy t v) e1
            cases e1; rfl
    cases k with
    | mandatory => rw [key.1 rfl]; simpa [Spec.optionals] using ih
    | optional => simp [Spec.optionals, ih, key.2 (by simp)]; omega
    | default d => simp [Spec.optionals, ih, key.2 (by simp)]; omega

theorem optionalBits_ok {opt : Bits} {fl : List BitField} (h : opt.length < 65536) :
    ∃ rf, withOptionalBits opt fl = .ok rf := by
  unfold withOptionalBits
  cases opt with
  | nil => exact ⟨_, rfl⟩
  | cons b o => exact ⟨⟨false, b :: o⟩ :: fl, by rw [if_neg (by simp), if_pos h]⟩

theorem assembleSequence_ok {rf afl : List BitField} {bits : Bits} (h0 : bits ≠ []) (h : bits.length ≤ 64) :
    ∃ fs, assembleSequence rf bits afl = .ok fs := by
  unfold assembleSequence
  rw [pyInt2_of_ne h0]
  simp only [bind, Except.bind]
  have hp := List.length_pos_iff.2 h0
  by_cases hv : bitsToNat bits > 0
  · rw [if_pos hv, (normallySmallLen_roundtrip (n := (bits.length : Int)) (by omega) (by omega) none none).1]
    exact ⟨_, rfl⟩
  · rw [if_neg hv]; exact ⟨_, rfl⟩

/-- The check of the scan never fires in a gapless group. -/
theorem scanGroup_ok : ∀ (f : Fields) (cs : List (Option Val)) (prev : Option Prev),
    Spec.gapless (Prev.gap prev) f cs = true → ∃ infos, scanGroup f cs prev = .ok infos ∧
      infos.any (fun p => p.present || p.optional) = (Spec.anySubstantial f cs || Spec.hasOptional f)
  | .nil, _, _, _ => ⟨[], rfl, rfl⟩
  | .cons n k t r, cs, prev, h => by
    unfold Spec.gapless at h
    simp only [Bool.and_eq_true, Bool.not_eq_true', held_eq, isOpt_eq, any_valued] at h
    obtain ⟨infos, e1, e2⟩ := scanGroup_ok r cs.tail
      (some ⟨present t (effective k (cs.head?.getD none)), k.isOptional⟩)
      (by simpa [Prev.gap, present_eq] using h.2)
    refine ⟨⟨present t (effective k (cs.head?.getD none)), k.isOptional⟩ :: infos, ?_, ?_⟩
    · unfold scanGroup
      have : (isValueOpt t (effective k (cs.head?.getD none)) && Prev.gap prev) = false := by
        rw [Bool.and_comm]; exact h.1
      dsimp only
      rw [this, e1]
      rfl
    · rw [List.any_cons, e2, Spec.anySubstantial, Spec.hasOptional, held_eq, isOpt_eq, present_eq]
      cases Spec.substantial t (effective k (cs.head?.getD none)) <;> cases k.isOptional <;>
        cases Spec.anySubstantial r cs.tail <;> rfl

/-- The simple values of `L` are encoded. -/
structure Encodes (L : Spec.Leaves) : Prop where
  int : ∀ {c z}, L.int c z = true → ∃ fs, encodeInteger c z = .ok fs
  enum : ∀ {ext root add z}, L.enum ext root add z = true → ∃ fs, encodeEnumerated ext root add z = .ok fs
  bits : ∀ {c b}, L.bits c b = true → ∃ fs, encodeBitstring c b = .ok fs
  octets : ∀ {c o}, L.octets c o = true → ∃ fs, encodeOctetstring c o = .ok fs
  count : ∀ {c n}, L.count c n = true → ∀ fl, ∃ fs, encodeSequenceOf c n fl = .ok fs

mutual
theorem okw_ty {D : LeafDecoders} {L : Spec.Leaves} (H : D.Reads L) (E : Encodes L) : ∀ (t : Ty) (v : Val), Spec.survives L t v = true → Spec.sendable t v = true →
    ∃ fs, encTy t v = .ok fs
  | .boolean, v, h, _ => by cases v <;> simp only [Spec.survives, Bool.false_eq_true] at h; exact ⟨_, rfl⟩
  | .integer c, v, h, _ => by
    cases v <;> simp only [Spec.survives, Bool.false_eq_true] at h
    exact E.int h
  | .enumerated _ _ _, v, h, _ => by
    cases v <;> simp only [Spec.survives, Bool.false_eq_true] at h
    exact E.enum h
  | .bitString _, v, h, _ => by
    cases v <;> simp only [Spec.survives, Bool.false_eq_true] at h
    exact E.bits h
  | .octetString _, v, h, _ => by
    cases v <;> simp only [Spec.survives, Bool.false_eq_true] at h
    exact E.octets h
  | .seqOf c t, v, h, hs => by
    cases v with
    | seqOf vs =>
      simp only [Spec.survives, Bool.and_eq_true, List.all_eq_true] at h
      simp only [Spec.sendable, List.all_eq_true] at hs
      obtain ⟨fls, e1⟩ := mapM_ok (f := encTy t) (vs := vs) (fun v hv => okw_ty H E t v (h.2 v hv) (hs v hv))
      obtain ⟨fs, e2⟩ := E.count h.1 fls.flatten
      exact ⟨fs, by simp only [encTy, e1, bind, Except.bind, e2]⟩
    | _ => simp [Spec.survives] at h
  | .choice ext r a g, v, h, hs => by
    cases v with
    | choice pos v =>
      simp only [Spec.survives] at h
      simp only [Spec.sendable] at hs
      by_cases hr : pos < r.length
      · simp only [hr, if_true, Bool.and_eq_true] at h hs
        obtain ⟨fl, e1⟩ := okw_alt H E r pos v h.2 hs
        obtain ⟨ixf, e2, _⟩ := choiceIndex_rt hr h.1
        simp only [encTy, hr, if_true, e1]
        show ∃ fs, assembleChoice _ _ _ _ _ = _
        unfold assembleChoice
        simp only [hr, if_true, e2]
        cases ext <;> simp only [Bool.not_false, Bool.not_true, Bool.false_eq_true, if_true, if_false] <;>
          split <;> exact ⟨_, rfl⟩
      · simp only [hr, if_false, Bool.and_eq_true] at h hs
        obtain ⟨⟨hext, h64⟩, h⟩ := h
        subst hext
        have key : ∃ fl, (if pos < r.length then encAlt r pos v
             else if pos < r.length + a.length then encAlt a (pos - r.length) v
             else encAltG g (pos - (r.length + a.length)) v) = .ok fl ∧
             (produceCompleteEncoding fl).length / 8 ≤ 16383 ∧ ¬ (a.length = 0 ∧ g.length = 0) := by
          rw [if_neg hr]
          by_cases ha : pos < r.length + a.length
          · simp only [ha, if_true] at h hs ⊢
            obtain ⟨fl, e1, e2⟩ := okw_openAlt H E a _ v h hs.2
            exact ⟨fl, e1, e2, by omega⟩
          · simp only [ha, if_false] at h hs ⊢
            obtain ⟨fl, e1, e2, e3⟩ := okw_openAltG H E g _ v h hs.2
            exact ⟨fl, e1, e2, by omega⟩
        obtain ⟨fl, e1, e2, e3⟩ := key
        obtain ⟨ixf, i1, _⟩ := normallySmall_roundtrip (n := pos - r.length) (of_decide_eq_true h64)
        obtain ⟨ofl, o1⟩ := openType_ok e2
        simp only [encTy, e1, bind, Except.bind]
        unfold assembleChoice
        simp only [hr, if_false, Bool.not_true, Bool.false_eq_true, e3, decide_false, i1, o1]
        exact ⟨_, rfl⟩
    | _ => simp [Spec.survives] at h
  | .sequence ext r a g, v, h, hs => by
    cases v with
    | seq cs =>
      simp only [Spec.survives, Bool.and_eq_true] at h
      simp only [Spec.sendable, Bool.and_eq_true] at hs
      obtain ⟨⟨bits, fl⟩, e1⟩ := okw_root H E r cs h.1 hs.1.2
      have hopt : Spec.optionals r < 65536 := of_decide_eq_true hs.1.1
      have hlen := encRoot_bits_length r cs e1
      obtain ⟨rf, e2⟩ := optionalBits_ok (fl := fl) (opt := bits) (by omega)
      simp only [encTy, e1]
      show ∃ fs, (withOptionalBits bits fl >>= _) = _
      rw [e2]
      cases ext with
      | false => exact ⟨_, rfl⟩
      | true =>
        simp only [Bool.not_true, Bool.false_or, Bool.and_eq_true] at h hs
        simp only [if_true, bind, Except.bind]
        by_cases hno : a.length = 0 ∧ g.length = 0
        · simp only [hno, and_self, if_true]; exact ⟨_, rfl⟩
        · simp only [hno, if_false]
          obtain ⟨hs1, ⟨⟨h64, hgap⟩, hadds⟩, hgr⟩ := hs
          have h64 : a.length + g.length ≤ 64 := of_decide_eq_true h64
          obtain ⟨⟨abits, afl⟩, e3⟩ := okw_adds H E a _ none h.2.1 hadds hgap
          obtain ⟨⟨gbits, gfl⟩, e4⟩ := okw_groups H E g _ none h.2.2 true (fun _ => rfl) hgr
          obtain ⟨alen, _⟩ := wt_adds H a _ none abits afl e3 h.2.1
          obtain ⟨glen, _⟩ := wt_groups H g _ none gbits gfl e4 h.2.2
          simp only [e3, e4]
          refine assembleSequence_ok ?_ ?_
          · intro h0
            have := congrArg List.length h0
            rw [List.length_append, alen, glen] at this; simp at this; omega
          · rw [List.length_append, alen, glen]; exact h64
    | _ => simp [Spec.survives] at h
theorem okw_alt {D : LeafDecoders} {L : Spec.Leaves} (H : D.Reads L) (E : Encodes L) : ∀ (r : Fields) (p : Nat) (v : Val), Spec.survivesAlt L r p v = true →
    Spec.sendableAlt r p v = true → ∃ fs, encAlt r p v = .ok fs
  | .nil, _, _, h, _ => by simp [Spec.survivesAlt] at h
  | .cons _ _ t _, 0, v, h, hs => okw_ty H E t v h hs
  | .cons _ _ _ r, p + 1, v, h, hs => okw_alt H E r p v h hs
theorem okw_openAlt {D : LeafDecoders} {L : Spec.Leaves} (H : D.Reads L) (E : Encodes L) : ∀ (r : Fields) (p : Nat) (v : Val), Spec.survivesOpenAlt L r p v = true →
    Spec.sendableOpenAlt r p v = true → ∃ fs, encAlt r p v = .ok fs ∧
      (produceCompleteEncoding fs).length / 8 ≤ 16383
  | .nil, _, _, h, _ => by simp [Spec.survivesOpenAlt] at h
  | .cons _ _ t _, 0, v, h, hs => by
    simp only [Spec.sendableOpenAlt, Bool.and_eq_true] at hs
    exact fitsOpenType_ok hs.2
  | .cons _ _ _ r, p + 1, v, h, hs => okw_openAlt H E r p v h hs
theorem okw_openAltG {D : LeafDecoders} {L : Spec.Leaves} (H : D.Reads L) (E : Encodes L) : ∀ (g : Groups) (p : Nat) (v : Val), Spec.survivesOpenAltG L g p v = true →
    Spec.sendableOpenAltG g p v = true → ∃ fs, encAltG g p v = .ok fs ∧
      (produceCompleteEncoding fs).length / 8 ≤ 16383 ∧ 0 < g.length
  | .nil, _, _, h, _ => by simp [Spec.survivesOpenAltG] at h
  | .cons f g, p, v, h, hs => by
    simp only [encAltG, Spec.survivesOpenAltG, Spec.sendableOpenAltG] at h hs ⊢
    by_cases hp : p < f.length
    · simp only [hp, if_true] at h hs ⊢
      obtain ⟨fs, e1, e2⟩ := okw_openAlt H E f p v h hs
      exact ⟨fs, e1, e2, by simp [Groups.length]⟩
    · simp only [hp, if_false] at h hs ⊢
      obtain ⟨fs, e1, e2, _⟩ := okw_openAltG H E g _ v h hs
      exact ⟨fs, e1, e2, by simp [Groups.length]⟩
theorem okw_root {D : LeafDecoders} {L : Spec.Leaves} (H : D.Reads L) (E : Encodes L) : ∀ (r : Fields) (cs : List (Option Val)), Spec.survivesRoot L r cs = true →
    Spec.sendableRoot r cs = true → ∃ x, encRoot r cs = .ok x
  | .nil, _, _, _ => ⟨_, rfl⟩
  | .cons n k t r, cs, h, hs => by
    simp only [Spec.survivesRoot, Bool.and_eq_true, held_eq, untouched_eq, valued_eq, isOpt_eq, hasDefault_eq] at h
    simp only [Spec.sendableRoot, Bool.and_eq_true, held_eq, untouched_eq, valued_eq, isOpt_eq, hasDefault_eq] at hs
    obtain ⟨x, e2⟩ := okw_root H E r cs.tail h.2 hs.2
    have key : ∃ y, rootComponent (encTy t) k t (cs.head?.getD none) = .ok y := by
      have h1 := h.1
      have hs1 := hs.1
      clear h hs
      generalize cs.head?.getD none = c at h1 hs1
      unfold rootComponent
      cases k with
      | mandatory =>
        cases c with
        | some v =>
          obtain ⟨fs, e⟩ := okw_ty H E t v h1 hs1.2
          exact ⟨_, by simp only [e]; rfl⟩
        | none =>
          have hsn : Spec.sent .mandatory t none = emptyVal t := by simp [Spec.sent, untouched_eq]
          rw [hsn] at h1 hs1
          dsimp only
          cases hev : emptyVal t with
          | none => rw [hev] at hs1; cases hs1.1
          | some v =>
            rw [hev] at h1 hs1
            obtain ⟨fs, e⟩ := okw_ty H E t v h1 hs1.2
            exact ⟨_, by simp only [e]; rfl⟩
      | optional =>
        cases c with
        | none => exact ⟨_, rfl⟩
        | some v =>
          dsimp only
          by_cases hp : present t (some v) = true
          · have hsn : Spec.sent .optional t (some v) = some v := by rw [present_eq] at hp; simp [Spec.sent, hp]
            rw [hsn] at h1 hs1
            obtain ⟨fs, e⟩ := okw_ty H E t v h1 hs1.2
            rw [if_pos hp, e]; exact ⟨_, rfl⟩
          · rw [if_neg hp]; exact ⟨_, rfl⟩
      | default d =>
        cases c with
        | none =>
          obtain ⟨b, e⟩ := pyValueNe_ok (show Spec.comparable d d = true from hs1.1)
          have hb : b = false := by
            rw [pyValueNe_eq e]; cases d <;> simp [Spec.sameAsDefault]
          subst hb
          exact ⟨_, by simp only [e]; rfl⟩
        | some v =>
          obtain ⟨b, e⟩ := pyValueNe_ok (show Spec.comparable d v = true from hs1.1)
          have hb := pyValueNe_eq e
          cases b
          · exact ⟨_, by simp only [e]; rfl⟩
          · have hsd : Spec.sameAsDefault d v = false := by simpa using hb
            have hsn : Spec.sent (.default d) t (some v) = some v := by simp [Spec.sent, hsd]
            rw [hsn] at h1 hs1
            obtain ⟨fs, e'⟩ := okw_ty H E t v h1 hs1.2
            exact ⟨_, by simp only [e, e']; rfl⟩
    obtain ⟨y, e1⟩ := key
    exact ⟨_, by simp only [encRoot, e1, bind, Except.bind, e2]; rfl⟩
theorem okw_adds {D : LeafDecoders} {L : Spec.Leaves} (H : D.Reads L) (E : Encodes L) : ∀ (a : Fields) (cs : List (Option Val)) (prev : Option Prev), Spec.survivesAdds L a cs = true →
    Spec.sendableAdds a cs = true → Spec.gapless (Prev.gap prev) a cs = true → ∃ x, encAdds a cs prev = .ok x
  | .nil, _, _, _, _, _ => ⟨_, rfl⟩
  | .cons n k t r, cs, prev, h, hs, hg => by
    simp only [Spec.survivesAdds, Bool.and_eq_true, held_eq, untouched_eq, valued_eq, isOpt_eq, hasDefault_eq] at h
    simp only [Spec.sendableAdds, Bool.and_eq_true, held_eq, untouched_eq, valued_eq, isOpt_eq, hasDefault_eq] at hs
    simp only [Spec.gapless, Bool.and_eq_true, Bool.not_eq_true', held_eq, isOpt_eq, any_valued] at hg
    have key : ∃ fl, additionComponent (encTy t) t prev (effective k (cs.head?.getD none))
        = .ok (Spec.substantial t (effective k (cs.head?.getD none)), fl) := by
      have h1 := h.1
      have hs1 := hs.1
      have hg1 := hg.1
      clear h hs hg
      generalize effective k (cs.head?.getD none) = c at h1 hs1 hg1
      unfold additionComponent
      cases c with
      | none => exact ⟨[], rfl⟩
      | some v =>
        dsimp only at h1 hs1 ⊢
        rw [← present_eq] at hs1 ⊢
        simp only [present] at hs1 ⊢
        by_cases hv : isValue t v = true
        · simp only [isValueOpt, hv, Bool.and_true] at hg1
          rw [if_pos hv, if_neg (by simp [hg1])]
          by_cases hc : hasContent v = true
          · rw [if_pos hc]
            simp only [hv, hc, Bool.and_self, Bool.not_true, Bool.false_or, Bool.and_eq_true] at hs1
            obtain ⟨fs, e1, e2⟩ := fitsOpenType_ok hs1.2
            obtain ⟨ofl, e3⟩ := openType_ok e2
            refine ⟨ofl, ?_⟩
            simp only [e1, bind, Except.bind, e3, hv, hc]; rfl
          · rw [if_neg hc]; exact ⟨[], by simp [hv, hc]; rfl⟩
        · rw [if_neg hv]; exact ⟨[], by simp [hv]; rfl⟩
    obtain ⟨fl, e1⟩ := key
    obtain ⟨x, e2⟩ := okw_adds H E r cs.tail
      (some ⟨Spec.substantial t (effective k (cs.head?.getD none)), k.isOptional⟩) h.2 hs.2
      (by simpa [Prev.gap] using hg.2)
    exact ⟨_, by simp only [encAdds, e1, bind, Except.bind, e2]; rfl⟩
theorem okw_groups {D : LeafDecoders} {L : Spec.Leaves} (H : D.Reads L) (E : Encodes L) : ∀ (g : Groups) (cs : List (Option Val)) (prev : Option (List Prev)),
    Spec.survivesGroups L g cs = true → ∀ may : Bool,
    (may = true → prev.all (fun infos => infos.any (fun p => p.present || p.optional)) = true) →
    Spec.sendableGroups may g cs = true → ∃ x, encGroups g cs prev = .ok x
  | .nil, _, _, _, _, _, _ => ⟨_, rfl⟩
  | .cons f g, cs, prev, h, may, hm, hs => by
    simp only [Spec.survivesGroups, Bool.and_eq_true] at h
    simp only [Spec.sendableGroups, Bool.and_eq_true, held_eq, untouched_eq, valued_eq, isOpt_eq, hasDefault_eq] at hs
    obtain ⟨infos, e0, e00⟩ := scanGroup_ok f cs none hs.1.1
    have hany := scanGroup_any e0
    have key : ∃ y, groupComponent (fun _ => encRoot f cs) prev infos = .ok y := by
      unfold groupComponent
      rw [hany]
      cases hsub : Spec.anySubstantial f cs with
      | false => exact ⟨_, rfl⟩
      | true =>
        have hs1 := hs.1.2
        rw [hsub] at hs1
        simp only [Bool.not_true, Bool.false_or, Bool.and_eq_true] at hs1
        simp only [Bool.not_true, Bool.false_eq_true, if_false]
        have hprev : checkPreviousGroup prev = .ok () := by
          unfold checkPreviousGroup
          cases prev with
          | none => rfl
          | some i =>
            have := hm hs1.1.1
            simp only [Option.all_some] at this
            simp [this]
        obtain ⟨fs, e1, e2⟩ := fitsOpenType_ok hs1.2
        simp only [encTy] at e1
        obtain ⟨⟨opt, fl⟩, e3, e1⟩ := Except.bind_eq_ok e1
        obtain ⟨rf, e4, e1⟩ := Except.bind_eq_ok e1
        cases e1
        obtain ⟨ofl, e5⟩ := openType_ok e2
        exact ⟨_, by simp only [hprev, e3, e4, e5, bind, Except.bind]; rfl⟩
    obtain ⟨y, e1⟩ := key
    obtain ⟨x, e2⟩ := okw_groups H E g (cs.drop f.length) (some infos) h.2 _
      (fun hh => by simpa [e00] using hh) hs.2
    exact ⟨_, by simp only [encGroups, e0, e1, bind, Except.bind, e2]; rfl⟩
end

theorem faithful_encodes : Encodes Spec.faithful where
  int := fun h => by obtain ⟨fs, e, _⟩ := integer_rt h; exact ⟨fs, e⟩
  enum := fun h => by obtain ⟨fs, e, _⟩ := enumerated_rt h; exact ⟨fs, e⟩
  bits := fun h => by obtain ⟨fs, e, _⟩ := bitstring_rt h; exact ⟨fs, e⟩
  octets := fun h => by obtain ⟨fs, e, _⟩ := octetstring_rt h; exact ⟨fs, e⟩
  count := fun h fl => by obtain ⟨pre, e, _⟩ := seqOfCount_rt h; exact ⟨pre ++ fl, e fl⟩

theorem ok_ty (t : Ty) (v : Val) (h : Spec.safe t v = true) (hs : Spec.sendable t v = true) :
    ∃ fs, encTy t v = .ok fs :=
  okw_ty code_reads faithful_encodes t v h hs

end Verif
