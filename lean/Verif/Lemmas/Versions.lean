import Verif.Lemmas.Missing
/-!
# Messages read with another version of the schema
-/
namespace Verif

/-! ## the encoder on a longer list of extensions -/

theorem encAdds_append : ∀ (a b : Fields) (cs : List (Option Val)) (prev : Option Prev) {bits : Bits}
    {fs : List BitField}, encAdds (Spec.appendFields a b) cs prev = .ok (bits, fs) →
    ∃ b1 f1 b2 f2, encAdds a cs prev = .ok (b1, f1) ∧ bits = b1 ++ b2 ∧ fs = f1 ++ f2
  | .nil, b, cs, prev, bits, fs, _ => ⟨[], [], bits, fs, rfl, rfl, rfl⟩
  | .cons n k t r, b, cs, prev, bits, fs, h => by
    simp only [Spec.appendFields, encAdds] at h
    obtain ⟨⟨x, fl⟩, e1, h'⟩ := Except.bind_eq_ok h
    obtain ⟨⟨bs, fls⟩, e2, h''⟩ := Except.bind_eq_ok h'
    cases h''
    obtain ⟨b1, f1, b2, f2, i1, rfl, rfl⟩ := encAdds_append r b cs.tail _ e2
    refine ⟨x :: b1, fl ++ f1, b2, f2, ?_, rfl, by simp⟩
    simp only [encAdds, e1, bind, Except.bind]
    dsimp only at i1
    rw [i1]; rfl

theorem encGroups_append : ∀ (g h : Groups) (cs : List (Option Val)) (prev : Option (List Prev)) {bits : Bits}
    {fs : List BitField}, encGroups (Spec.appendGroups g h) cs prev = .ok (bits, fs) →
    ∃ b1 f1 b2 f2, encGroups g cs prev = .ok (b1, f1) ∧ bits = b1 ++ b2 ∧ fs = f1 ++ f2
  | .nil, b, cs, prev, bits, fs, _ => ⟨[], [], bits, fs, rfl, rfl, rfl⟩
  | .cons f g, b, cs, prev, bits, fs, h => by
    simp only [Spec.appendGroups, encGroups] at h
    obtain ⟨infos, e0, h0⟩ := Except.bind_eq_ok h
    obtain ⟨⟨x, fl⟩, e1, h'⟩ := Except.bind_eq_ok h0
    obtain ⟨⟨bs, fls⟩, e2, h''⟩ := Except.bind_eq_ok h'
    cases h''
    obtain ⟨b1, f1, b2, f2, i1, rfl, rfl⟩ := encGroups_append g b _ _ e2
    refine ⟨x :: b1, fl ++ f1, b2, f2, ?_, rfl, by simp⟩
    simp only [encGroups, e0, e1, bind, Except.bind]
    rw [i1]; rfl

theorem openTypeField_aligned {fl ofl : List BitField} (h : encodeOpenTypeField fl = .ok ofl) :
    ∃ w rest, ofl = ⟨true, w⟩ :: rest := by
  unfold encodeOpenTypeField at h
  obtain ⟨ld, e, h⟩ := Except.bind_eq_ok h
  cases h
  have : ∃ w, ld = [⟨true, w⟩] := by
    unfold encodeLengthDeterminant at e
    simp only [Bool.false_eq_true, if_false] at e
    have al : ∀ {n : Int} {s : Option BitSize} {f : BitField},
        encodeNonNegativeBinaryInteger n s true false = .ok f → f.octetAlign = true := by
      intro n s f hf
      unfold encodeNonNegativeBinaryInteger at hf
      split at hf
      · cases hf
      · simp only [Bool.false_eq_true, if_false] at hf
        split at hf
        · cases hf
        · cases hf; rfl
    split at e
    · obtain ⟨f, e1, e⟩ := Except.bind_eq_ok e
      cases e
      exact ⟨_, by rw [al e1]⟩
    · split at e
      · obtain ⟨f, e1, e⟩ := Except.bind_eq_ok e
        cases e
        exact ⟨_, by rw [al e1]⟩
      · cases e
  obtain ⟨w, rfl⟩ := this
  exact ⟨w, _, rfl⟩

/-- Presence bits and fields of the additions, whatever they hold. -/
theorem encAdds_shape : ∀ (a : Fields) (cs : List (Option Val)) (prev : Option Prev) {bits : Bits}
    {fs : List BitField}, encAdds a cs prev = .ok (bits, fs) →
    bits.length = a.length ∧ StartsAligned fs ∧ (fs = [] → ∀ b ∈ bits, b = false)
  | .nil, cs, prev, bits, fs, h => by
    simp only [encAdds, Except.ok.injEq, Prod.mk.injEq] at h
    obtain ⟨rfl, rfl⟩ := h
    exact ⟨rfl, .inl rfl, fun _ => by simp⟩
  | .cons n k t r, cs, prev, bits, fs, h => by
    simp only [encAdds] at h
    obtain ⟨⟨b, fl⟩, e1, h⟩ := Except.bind_eq_ok h
    obtain ⟨⟨bs, fls⟩, e2, h⟩ := Except.bind_eq_ok h
    cases h
    obtain ⟨i1, i2, i3⟩ := encAdds_shape r cs.tail _ e2
    have key : (b = false ∧ fl = []) ∨ ∃ w rest, fl = ⟨true, w⟩ :: rest := by
      unfold additionComponent at e1
      split at e1
      · split at e1
        · split at e1
          · cases e1
          · split at e1
            · obtain ⟨fl', e3, e1⟩ := Except.bind_eq_ok e1
              obtain ⟨ofl, e4, e1⟩ := Except.bind_eq_ok e1
              cases e1
              exact .inr (openTypeField_aligned e4)
            · cases e1; exact .inl ⟨rfl, rfl⟩
        · cases e1; exact .inl ⟨rfl, rfl⟩
      · cases e1; exact .inl ⟨rfl, rfl⟩
    refine ⟨by simp [Fields.length, i1], ?_, ?_⟩
    · rcases key with ⟨rfl, rfl⟩ | ⟨w, rest, rfl⟩
      · exact i2
      · exact .inr ⟨w, rest ++ fls, rfl⟩
    · intro h0 x hx
      rcases key with ⟨rfl, rfl⟩ | ⟨w, rest, rfl⟩
      · rcases List.mem_cons.1 hx with rfl | hx
        · rfl
        · exact i3 h0 x hx
      · cases h0

theorem encGroups_shape : ∀ (g : Groups) (cs : List (Option Val)) (prev : Option (List Prev)) {bits : Bits}
    {fs : List BitField}, encGroups g cs prev = .ok (bits, fs) →
    bits.length = g.length ∧ StartsAligned fs ∧ (fs = [] → ∀ b ∈ bits, b = false)
  | .nil, cs, prev, bits, fs, h => by
    simp only [encGroups, Except.ok.injEq, Prod.mk.injEq] at h
    obtain ⟨rfl, rfl⟩ := h
    exact ⟨rfl, .inl rfl, fun _ => by simp⟩
  | .cons f g, cs, prev, bits, fs, h => by
    simp only [encGroups] at h
    obtain ⟨infos, e0, h⟩ := Except.bind_eq_ok h
    obtain ⟨⟨b, fl⟩, e1, h⟩ := Except.bind_eq_ok h
    obtain ⟨⟨bs, fls⟩, e2, h⟩ := Except.bind_eq_ok h
    cases h
    obtain ⟨i1, i2, i3⟩ := encGroups_shape g _ _ e2
    have key : (b = false ∧ fl = []) ∨ ∃ w rest, fl = ⟨true, w⟩ :: rest := by
      unfold groupComponent at e1
      split at e1
      · cases e1; exact .inl ⟨rfl, rfl⟩
      · obtain ⟨_, _, e1⟩ := Except.bind_eq_ok e1
        obtain ⟨⟨opt, rfl'⟩, e3, e1⟩ := Except.bind_eq_ok e1
        obtain ⟨rf, e4, e1⟩ := Except.bind_eq_ok e1
        obtain ⟨ofl, e5, e1⟩ := Except.bind_eq_ok e1
        cases e1
        exact .inr (openTypeField_aligned e5)
    refine ⟨by simp [Groups.length, i1], ?_, ?_⟩
    · rcases key with ⟨rfl, rfl⟩ | ⟨w, rest, rfl⟩
      · exact i2
      · exact .inr ⟨w, rest ++ fls, rfl⟩
    · intro h0 x hx
      rcases key with ⟨rfl, rfl⟩ | ⟨w, rest, rfl⟩
      · rcases List.mem_cons.1 hx with rfl | hx
        · rfl
        · exact i3 h0 x hx
      · cases h0

/-! ## the fields of a SEQUENCE with extension marker -/

/-- How an extensible SEQUENCE was encoded. -/
inductive ExtFields (r a : Fields) (g : Groups) (cs : List (Option Val)) : List BitField → Prop
  | none {opt fl rf abits gbits afl gfl} : encRoot r cs = .ok (opt, fl) → withOptionalBits opt fl = .ok rf →
      encAdds a (cs.drop r.length) none = .ok (abits, afl) →
      encGroups g (cs.drop (r.length + a.length)) none = .ok (gbits, gfl) →
      (∀ b ∈ abits ++ gbits, b = false) →
      ExtFields r a g cs ([⟨false, [false]⟩] ++ rf)
  | some {opt fl rf abits gbits afl gfl ld} : encRoot r cs = .ok (opt, fl) → withOptionalBits opt fl = .ok rf →
      encAdds a (cs.drop r.length) none = .ok (abits, afl) →
      encGroups g (cs.drop (r.length + a.length)) none = .ok (gbits, gfl) →
      true ∈ abits ++ gbits →
      encodeLengthDeterminant true false (abits ++ gbits).length none none = .ok ld →
      (∀ q, Reads (decodeLengthDeterminant true false none none) q (emit q ld) (abits ++ gbits).length) →
      ExtFields r a g cs ([⟨false, [true]⟩] ++ rf ++ ld ++ [⟨false, abits ++ gbits⟩] ++ (afl ++ gfl))

theorem extFields {r a : Fields} {g : Groups} {cs : List (Option Val)} {fs : List BitField}
    (h : encTy (.sequence true r a g) (.seq cs) = .ok fs) : ExtFields r a g cs fs := by
  simp only [encTy] at h
  obtain ⟨⟨opt, fl⟩, e1, h1⟩ := Except.bind_eq_ok h
  obtain ⟨rf, e2, h2⟩ := Except.bind_eq_ok h1
  rw [if_pos trivial] at h2
  by_cases hz : a.length = 0 ∧ g.length = 0
  · rw [if_pos hz] at h2
    cases h2
    have ha : a = .nil := by cases a with | nil => rfl | cons => simp [Fields.length] at hz
    have hg : g = .nil := by cases g with | nil => rfl | cons => simp [Groups.length] at hz
    subst ha hg
    exact ExtFields.none (abits := []) (afl := []) (gbits := []) (gfl := []) e1 e2 (by simp only [encAdds])
      (by simp only [encGroups]) (by simp)
  · rw [if_neg hz] at h2
    obtain ⟨⟨abits, afl⟩, e3, h3⟩ := Except.bind_eq_ok h2
    obtain ⟨⟨gbits, gfl⟩, e4, h4⟩ := Except.bind_eq_ok h3
    dsimp only at h4
    obtain ⟨alen, _, _⟩ := encAdds_shape a _ none e3
    obtain ⟨glen, _, _⟩ := encGroups_shape g _ none e4
    have hbl : (abits ++ gbits).length = a.length + g.length := by rw [List.length_append, alen, glen]
    have hbne : abits ++ gbits ≠ [] := by
      intro h0
      have := congrArg List.length h0
      rw [hbl] at this; simp at this; omega
    unfold assembleSequence at h4
    rw [pyInt2_of_ne hbne] at h4
    simp only [bind, Except.bind] at h4
    by_cases hpos : bitsToNat (abits ++ gbits) > 0
    · rw [if_pos hpos] at h4
      have h64 : (abits ++ gbits).length ≤ 64 := by
        by_cases h64 : (abits ++ gbits).length ≤ 64
        · exact h64
        · exfalso
          unfold encodeLengthDeterminant at h4
          simp only [if_true] at h4
          rw [if_neg (by omega)] at h4
          cases h4
      have hp1 := List.length_pos_iff.2 hbne
      obtain ⟨l1, l2⟩ := normallySmallLen_roundtrip (n := ((abits ++ gbits).length : Int)) (by omega)
        (by omega) none none
      have l3 := l1
      rw [l1] at h4
      cases h4
      exact .some e1 e2 e3 e4 (bitsToNat_pos.1 hpos) l3 (fun q => l2 none none q)
    · rw [if_neg hpos] at h4
      cases h4
      exact .none e1 e2 e3 e4 (bits_of_zero hpos)

theorem emit_bit' (pos : Nat) (b : Bool) (fs : List BitField) :
    emit pos ([⟨false, [b]⟩] ++ fs) = [b] ++ emit (pos + 1) fs := by
  rw [List.singleton_append, emit_cons, padTo_false]; rfl

/-- Reading the root when the extension bit is 0. -/
theorem read_root_only {r : Fields} {cs : List (Option Val)} {opt : Bits} {fl rf : List BitField}
    (e1 : encRoot r cs = .ok (opt, fl)) (e2 : withOptionalBits opt fl = .ok rf)
    (hs : Spec.safeRoot r cs = true) (a : Fields) (g : Groups) (pos : Nat) :
    Reads (decTy (.sequence true r a g)) pos (emit pos ([⟨false, [false]⟩] ++ rf))
      (.seq (Spec.receivedRoot r cs ++ List.replicate (a.length + g.size) none)) := by
  obtain ⟨hlen, hroot⟩ := rt_root r cs opt fl e1 hs
  rw [decTy, List.singleton_append, emit_bit]
  simp only [if_true]
  refine (Reads.bit pos false).bind ?_
  simp only [Bool.false_eq_true, if_false]
  rw [← hlen]
  refine optionalBits_rt e2 (fun p => ?_) _
  refine (hroot p).bind_pure ?_
  exact Reads.pure _ _

/-- Reading root and extensions when the extension bit is 1: `known` are the fields of the extensions the
reader knows, `seen` the presence bits it sees. -/
theorem read_with_extensions {r : Fields} {cs : List (Option Val)} {opt bits seen : Bits}
    {fl rf ld known unknown : List BitField} {a : Fields} {g : Groups} {av gv : List (Option Val)}
    (e1 : encRoot r cs = .ok (opt, fl)) (e2 : withOptionalBits opt fl = .ok rf)
    (hs : Spec.safeRoot r cs = true)
    (hld : ∀ q, Reads (decodeLengthDeterminant true false none none) q (emit q ld) bits.length)
    (hal : StartsAligned (known ++ unknown)) (hne : known ++ unknown ≠ [])
    (hseen : zfill (a.length + g.length) (pyBin (bitsToNat bits)) = seen)
    (hread : ∀ q, Reads (do
        let addVals ← decAdds a (seen.take a.length)
        let groupVals ← decGroups g (seen.drop a.length)
        return (addVals, groupVals)) q (emit q known) (av, gv)) (pos : Nat) :
    ∃ w rest, emit pos ([⟨false, [true]⟩] ++ rf ++ ld ++ [⟨false, bits⟩] ++ (known ++ unknown)) = w ++ rest ∧
      Reads (decTy (.sequence true r a g)) pos w (.seq (Spec.receivedRoot r cs ++ av ++ gv)) := by
  obtain ⟨hlen, hroot⟩ := rt_root r cs opt fl e1 hs
  have s1 : ∀ q, emit q (ld ++ ([⟨false, bits⟩] ++ (known ++ unknown)))
      = (emit q ld ++ bits ++ padTo true (q + (emit q ld).length + bits.length)) ++
        emit (q + (emit q ld ++ bits ++ padTo true (q + (emit q ld).length + bits.length)).length)
          (known ++ unknown) := by
    intro q
    rw [emit_append, List.singleton_append, emit_cons, padTo_false, List.nil_append, hal.emit _ hne]
    simp only [List.append_assoc, List.length_append, Nat.add_assoc]
  refine ⟨[true] ++ (emit (pos + 1) rf ++
      ((emit (pos + 1 + (emit (pos + 1) rf).length) ld ++ bits ++
          padTo true (pos + 1 + (emit (pos + 1) rf).length +
            (emit (pos + 1 + (emit (pos + 1) rf).length) ld).length + bits.length)) ++
        emit (pos + 1 + (emit (pos + 1) rf).length +
          (emit (pos + 1 + (emit (pos + 1) rf).length) ld ++ bits ++
          padTo true (pos + 1 + (emit (pos + 1) rf).length +
            (emit (pos + 1 + (emit (pos + 1) rf).length) ld).length + bits.length)).length) known)),
    emit (pos + 1 + (emit (pos + 1) rf).length +
          (emit (pos + 1 + (emit (pos + 1) rf).length) ld ++ bits ++
          padTo true (pos + 1 + (emit (pos + 1) rf).length +
            (emit (pos + 1 + (emit (pos + 1) rf).length) ld).length + bits.length)).length +
          (emit (pos + 1 + (emit (pos + 1) rf).length +
          (emit (pos + 1 + (emit (pos + 1) rf).length) ld ++ bits ++
          padTo true (pos + 1 + (emit (pos + 1) rf).length +
            (emit (pos + 1 + (emit (pos + 1) rf).length) ld).length + bits.length)).length) known).length) unknown,
    ?_, ?_⟩
  · rw [List.append_assoc, List.append_assoc, List.append_assoc, emit_bit', emit_append, s1, emit_append _ known]
    simp only [List.append_assoc]
  · rw [decTy]
    simp only [if_true]
    refine (Reads.bit pos true).bind ?_
    rw [← hlen]
    have hroot' := optionalBits_rt e2 (f := fun opt => decRoot r opt) hroot (pos + 1)
    have assoc : ∀ {β : Type} (k : List (Option Val) → Dec β),
        (decodeOptionalBits opt.length >>= fun o => decRoot r o >>= k)
          = ((decodeOptionalBits opt.length >>= fun o => decRoot r o) >>= k) := by
      intro β k; rw [bind_assoc]
    rw [assoc]
    refine Reads.bind hroot' ?_
    simp only [if_true]
    rw [if_pos (by decide)]
    simp only [List.length_singleton]
    generalize pos + 1 + (emit (pos + 1) rf).length = q
    refine Reads.bind (a := seen) ?_ ?_
    · unfold decodeExtensionBits
      rw [List.append_assoc]
      refine (hld q).bind ?_
      simp only [Int.toNat_natCast]
      refine (Reads.next_plain ⟨0, bits.length⟩ _ bits (by simp)).bind ?_
      refine (Reads.align _).bind_pure ?_
      rw [hseen]
      exact Reads.pure _ _
    · generalize q + (emit q ld ++ bits ++ padTo true (q + (emit q ld).length + bits.length)).length = q'
      have h3 := (hread q').bind_pure (f := fun x => (pure (Val.seq (Spec.receivedRoot r cs ++ x.1 ++ x.2)) : Dec Val))
        (Reads.pure _ _)
      simp only [bind_assoc, pure_bind] at h3
      exact h3

/-! ## presence bits -/

theorem encAdds_first {n : String} {k : Kind} {t : Ty} {r : Fields} {cs : List (Option Val)} {prev : Option Prev}
    {bits : Bits} {fs : List BitField} (h : encAdds (.cons n k t r) cs prev = .ok (bits, fs)) :
    ∃ bs, bits = Spec.substantial t (effective k (cs.head?.getD none)) :: bs := by
  simp only [encAdds] at h
  obtain ⟨⟨b, fl⟩, e1, h⟩ := Except.bind_eq_ok h
  obtain ⟨⟨bs, fls⟩, e2, h⟩ := Except.bind_eq_ok h
  cases h
  exact ⟨bs, by rw [(additionComponent_shape e1).1]⟩

theorem groupComponent_shape {enc : Unit → Except Err (Bits × List BitField)} {prev : Option (List Prev)}
    {infos : List Prev} {b : Bool} {fl : List BitField} (h : groupComponent enc prev infos = .ok (b, fl)) :
    b = infos.any (·.present) := by
  unfold groupComponent at h
  cases hi : infos.any (·.present) with
  | false => rw [hi] at h; cases h; rfl
  | true =>
    rw [hi] at h
    simp only [Bool.not_true, Bool.false_eq_true, if_false] at h
    obtain ⟨_, _, h⟩ := Except.bind_eq_ok h
    obtain ⟨_, _, h⟩ := Except.bind_eq_ok h
    obtain ⟨_, _, h⟩ := Except.bind_eq_ok h
    obtain ⟨_, _, h⟩ := Except.bind_eq_ok h
    cases h
    rfl

theorem encGroups_first {f : Fields} {g : Groups} {cs : List (Option Val)} {prev : Option (List Prev)}
    {bits : Bits} {fs : List BitField} (h : encGroups (.cons f g) cs prev = .ok (bits, fs)) :
    ∃ bs, bits = Spec.anySubstantial f cs :: bs := by
  simp only [encGroups] at h
  obtain ⟨infos, e0, h⟩ := Except.bind_eq_ok h
  obtain ⟨⟨b, fl⟩, e1, h⟩ := Except.bind_eq_ok h
  obtain ⟨⟨bs, fls⟩, e2, h⟩ := Except.bind_eq_ok h
  cases h
  exact ⟨bs, by rw [groupComponent_shape e1, scanGroup_any e0]⟩

theorem encGroups_given : ∀ {g : Groups} {cs : List (Option Val)} {prev : Option (List Prev)}
    {bits : Bits} {fs : List BitField}, encGroups g cs prev = .ok (bits, fs) →
    (true ∈ bits ↔ Spec.anyGiven .nil g cs = true)
  | .nil, cs, prev, bits, fs, h => by
    simp only [encGroups, Except.ok.injEq, Prod.mk.injEq] at h
    simp [← h.1, Spec.anyGiven]
  | .cons f g, cs, prev, bits, fs, h => by
    obtain ⟨bs', h0⟩ := encGroups_first h
    simp only [encGroups] at h
    obtain ⟨infos, e0, h⟩ := Except.bind_eq_ok h
    obtain ⟨⟨b, fl⟩, e1, h⟩ := Except.bind_eq_ok h
    obtain ⟨⟨bs, fls⟩, e2, h⟩ := Except.bind_eq_ok h
    cases h
    cases h0
    rw [List.mem_cons, encGroups_given e2, Spec.anyGiven, Bool.or_eq_true, eq_comm (a := true)]

theorem encAdds_given : ∀ {a : Fields} {g : Groups} {cs : List (Option Val)} {prev : Option Prev}
    {gprev : Option (List Prev)} {abits gbits : Bits} {afl gfl : List BitField},
    encAdds a cs prev = .ok (abits, afl) → encGroups g (cs.drop a.length) gprev = .ok (gbits, gfl) →
    (true ∈ abits ++ gbits ↔ Spec.anyGiven a g cs = true)
  | .nil, g, cs, prev, gprev, abits, gbits, afl, gfl, h, h' => by
    simp only [encAdds, Except.ok.injEq, Prod.mk.injEq] at h
    rw [← h.1, List.nil_append]
    exact encGroups_given h'
  | .cons n k t r, g, cs, prev, gprev, abits, gbits, afl, gfl, h, h' => by
    obtain ⟨bs', h0⟩ := encAdds_first h
    simp only [encAdds] at h
    obtain ⟨⟨b, fl⟩, e1, h⟩ := Except.bind_eq_ok h
    obtain ⟨⟨bs, fls⟩, e2, h⟩ := Except.bind_eq_ok h
    cases h
    cases h0
    have := encAdds_given (g := g) e2 (gprev := gprev) (gbits := gbits) (gfl := gfl) (by
      rw [← h']; congr 1; rw [← List.drop_one, List.drop_drop, Fields.length, Nat.add_comm])
    rw [List.cons_append, List.mem_cons, this, Spec.anyGiven, held_eq, Bool.or_eq_true]
    exact or_congr eq_comm Iff.rfl

/-- A number that starts with a 1 needs no filling. -/
theorem pyBin_of_first_true (s : Bits) : pyBin (bitsToNat (true :: s)) = true :: s := by
  have h1 : (pyBin (bitsToNat (true :: s))).length ≤ (true :: s).length :=
    pyBin_length_le (by simp) (bitsToNat_lt _)
  have h2 : (true :: s).length ≤ (pyBin (bitsToNat (true :: s))).length := by
    have h3 : 2 ^ s.length ≤ bitsToNat (true :: s) := by
      rw [show true :: s = [true] ++ s from rfl, bitsToNat_append]
      simp [bitsToNat]
    have h4 := bitsToNat_lt (pyBin (bitsToNat (true :: s)))
    rw [bitsToNat_pyBin] at h4
    have := Nat.pow_lt_pow_iff_right (a := 2) (by decide) |>.1 (Nat.lt_of_le_of_lt h3 h4)
    simp only [List.length_cons]; omega
  exact bitsToNat_inj (by omega) (bitsToNat_pyBin _)

theorem zfill_of_le {w : Nat} {s : Bits} (h : w ≤ s.length) : zfill w s = s := by
  simp [zfill, Nat.sub_eq_zero_of_le h]

theorem decGroups_more : ∀ (g : Groups) (b c : Bits), b.length = g.length → decGroups g (b ++ c) = decGroups g b
  | .nil, _, _, _ => by simp only [decGroups]
  | .cons f g, [], _, h => by simp [Groups.length] at h
  | .cons f g, x :: b, c, h => by
    have := decGroups_more g b c (by simpa [Groups.length] using h)
    rw [List.cons_append]
    unfold decGroups
    dsimp only
    rw [this]

/-! ## messages -/

theorem decode_of_reads_prefix {t t' : Ty} {v w : Val} {bs : List UInt8} (hb : encode t v = .ok bs)
    (h : ∀ fs, encTy t v = .ok fs → ∃ x rest, emit 0 fs = x ++ rest ∧ Reads (decTy t') 0 x w)
    (extra : List UInt8) (hw : Spec.returnable w = true := by rfl) : decode t' (bs ++ extra) = .ok w := by
  obtain ⟨fs, e1, e2⟩ := (encode_eq t v bs).1 hb
  have hne : bs ≠ [] := by
    rintro rfl
    have := produceCompleteEncoding_ne_nil fs
    rw [← e2] at this; exact this rfl
  obtain ⟨x, rest, hx, hr⟩ := h fs e1
  obtain ⟨p', e, _⟩ := hr _ _ (At.init (x ++ _))
  refine decode_ok_of (p' := p') (by simp [hne]) hw ?_
  rw [bytesToBits_append, e2, produceCompleteEncoding_eq, hx, List.append_assoc, List.append_assoc]
  exact e

/-! ## the parts a receiver knows -/

theorem newer_split {a a' : Fields} {g g' : Groups} (hn : Spec.Newer a g a' g') {cs : List (Option Val)} {m : Nat}
    {abits gbits : Bits} {afl gfl : List BitField}
    (e3 : encAdds a' (cs.drop m) none = .ok (abits, afl))
    (e4 : encGroups g' (cs.drop (m + a'.length)) none = .ok (gbits, gfl)) :
    ∃ ab af gb gf, encAdds a (cs.drop m) none = .ok (ab, af) ∧
      encGroups g (cs.drop (m + a.length)) none = .ok (gb, gf) ∧
      (∃ more, abits ++ gbits = ab ++ gb ++ more) ∧ (∃ unknown, afl ++ gfl = (af ++ gf) ++ unknown) := by
  cases hn with
  | additions =>
    obtain ⟨b1, f1, b2, f2, i1, rfl, rfl⟩ := encAdds_append _ _ _ _ e3
    exact ⟨b1, f1, [], [], i1, by simp only [encGroups], ⟨b2 ++ gbits, by simp⟩, ⟨f2 ++ gfl, by simp⟩⟩
  | groups =>
    obtain ⟨b1, f1, b2, f2, i1, rfl, rfl⟩ := encGroups_append _ _ _ _ e4
    exact ⟨abits, afl, b1, f1, e3, i1, ⟨b2, by simp⟩, ⟨f2, by simp⟩⟩

/-- Reading a message of a newer version. -/
theorem read_newer {r a a' : Fields} {g g' : Groups} (hn : Spec.Newer a g a' g') {cs : List (Option Val)}
    {fs : List BitField} (h : encTy (.sequence true r a' g') (.seq cs) = .ok fs)
    (hs : Spec.safe (.sequence true r a g) (.seq cs) = true)
    (hfirst : Spec.firstGiven a' g' (cs.drop r.length) = true ∨ Spec.anyGiven a' g' (cs.drop r.length) = false ∨
      a.length + g.length = 0) (pos : Nat) :
    ∃ w rest, emit pos fs = w ++ rest ∧
      Reads (decTy (.sequence true r a g)) pos w (Spec.received (.sequence true r a g) (.seq cs)) := by
  have hs' := hs
  simp only [Spec.survives, Spec.faithful, Bool.and_eq_true, Bool.not_true, Bool.false_or] at hs'
  obtain ⟨hs1, hs2, hs3⟩ := hs'
  cases extFields h with
  | @none opt fl rf abits gbits afl gfl e1 e2 e3 e4 hz =>
    obtain ⟨ab, af, gb, gf, i1, i2, ⟨more, hm⟩, _⟩ := newer_split hn e3 e4
    have hz' : ∀ b ∈ ab ++ gb, b = false := fun b hb => hz b (by rw [hm]; exact List.mem_append_left _ hb)
    refine ⟨_, [], (List.append_nil _).symm, ?_⟩
    have := read_root_only e1 e2 hs1 a g pos
    rw [Spec.received]
    simp only [if_true]
    rw [az' a _ none ab af i1 (fun b hb => hz' b (List.mem_append_left _ hb)),
      gz' g _ none gb gf i2 (fun b hb => hz' b (List.mem_append_right _ hb)), List.replicate_append_replicate]
    exact this
  | @some opt fl rf abits gbits afl gfl ld e1 e2 e3 e4 hin hle hld =>
    obtain ⟨ab, af, gb, gf, i1, i2, ⟨more, hm⟩, ⟨unknown, hu⟩⟩ := newer_split hn e3 e4
    obtain ⟨_, aal, az⟩ := encAdds_shape a' _ none e3
    obtain ⟨_, gal, gz⟩ := encGroups_shape g' _ none e4
    obtain ⟨alen, _, _, ar⟩ := rt_adds a _ none ab af i1 hs2
    obtain ⟨glen, _, _, gr⟩ := rt_groups g _ none gb gf i2 hs3
    have hfne : afl ++ gfl ≠ [] := by
      intro h0
      rw [List.append_eq_nil_iff] at h0
      rw [List.mem_append] at hin
      rcases hin with hm | hm
      · have := az h0.1 _ hm; cases this
      · have := gz h0.2 _ hm; cases this
    have hal := aal.append gal
    have hbl : a.length + g.length ≤ (abits ++ gbits).length := by
      rw [hm]; simp only [List.length_append]; omega
    rw [hu] at hal hfne ⊢
    rw [Spec.received]
    simp only [if_true]
    rw [← List.append_assoc (Spec.receivedRoot r cs)]
    by_cases h0 : a.length + g.length = 0
    · have ha : a = .nil := by cases a with | nil => rfl | cons => simp [Fields.length] at h0
      have hg : g = .nil := by cases g with | nil => rfl | cons => simp [Groups.length] at h0
      subst ha hg
      refine read_with_extensions e1 e2 hs1 hld hal hfne rfl (fun q => ?_) pos
      have r1 := ar q
      have r2 := gr (q + (emit q af).length)
      simp only [decAdds, decGroups] at r1 r2 ⊢
      rw [emit_append]
      refine r1.bind ?_
      exact r2.bind_pure (Reads.pure _ _)
    · have hf : Spec.firstGiven a' g' (cs.drop r.length) = true := by
        rcases hfirst with hf | hf | hf
        · exact hf
        · rw [encAdds_given (g := g') e3 (by rw [List.drop_drop]; exact e4), hf] at hin
          cases hin
        · exact absurd hf h0
      have hstart : ∃ s, abits ++ gbits = true :: s := by
        cases a' with
        | cons n k t r' =>
          obtain ⟨bs, rfl⟩ := encAdds_first e3
          rw [Spec.firstGiven, held_eq] at hf
          exact ⟨bs ++ gbits, by rw [hf]; rfl⟩
        | nil =>
          simp only [encAdds, Except.ok.injEq, Prod.mk.injEq] at e3
          obtain ⟨rfl, rfl⟩ := e3
          cases g' with
          | nil => cases hf
          | cons f g' =>
            obtain ⟨bs, rfl⟩ := encGroups_first e4
            rw [Spec.firstGiven] at hf
            exact ⟨bs, by rw [← hf]; rfl⟩
      have hseen : zfill (a.length + g.length) (pyBin (bitsToNat (abits ++ gbits))) = ab ++ (gb ++ more) := by
        obtain ⟨s, hs⟩ := hstart
        rw [hs, pyBin_of_first_true, ← hs, zfill_of_le hbl, hm, List.append_assoc]
      refine read_with_extensions e1 e2 hs1 hld hal hfne hseen (fun q => ?_) pos
      rw [show List.take a.length (ab ++ (gb ++ more)) = ab by rw [← alen, List.take_left],
        show List.drop a.length (ab ++ (gb ++ more)) = gb ++ more by rw [← alen, List.drop_left],
        decGroups_more g gb more glen, emit_append]
      refine (ar q).bind ?_
      exact (gr _).bind_pure (Reads.pure _ _)

end Verif
