import Verif.SpecVersions
import Verif.Lemmas.Versions
import Verif.Lemmas.Conforms
import Verif.Lemmas.Same
/-!
# Messages that another version misreads

Which extensions hold something, for what was sent and for what is received.
-/
namespace Verif

/-- For every addition group: does it hold something. -/
def marksG : Groups → List (Option Val) → Bits
  | .nil, _ => []
  | .cons f g, vs => (vs.take f.length).any Option.isSome :: marksG g (vs.drop f.length)

/-- For every extension, additions first: does it hold something. -/
def marks (a : Fields) (g : Groups) (vs : List (Option Val)) : Bits :=
  (vs.take a.length).map Option.isSome ++ marksG g (vs.drop a.length)

def bitAt (s : Bits) (i : Nat) : Bool := s[i]?.getD false

theorem marksG_length : ∀ (g : Groups) (vs : List (Option Val)), (marksG g vs).length = g.length
  | .nil, _ => rfl
  | .cons _ g, vs => by simp [marksG, Groups.length, marksG_length g]

theorem bitAt_zero (b : Bool) (s : Bits) : bitAt (b :: s) 0 = b := rfl
theorem bitAt_succ (b : Bool) (s : Bits) (i : Nat) : bitAt (b :: s) (i + 1) = bitAt s i := by simp [bitAt]
theorem bitAt_nil (i : Nat) : bitAt [] i = false := by simp [bitAt]
theorem bitAt_left {s t : Bits} {i : Nat} (h : i < s.length) : bitAt (s ++ t) i = bitAt s i := by
  simp [bitAt, List.getElem?_append_left h]
theorem bitAt_right {s t : Bits} {i : Nat} (h : s.length ≤ i) : bitAt (s ++ t) i = bitAt t (i - s.length) := by
  simp [bitAt, List.getElem?_append_right h]
theorem bitAt_lt {s : Bits} {i : Nat} (h : bitAt s i = true) : i < s.length := by
  by_cases hi : i < s.length
  · exact hi
  · simp [bitAt, List.getElem?_eq_none (Nat.le_of_not_lt hi)] at h
theorem bitAt_drop (s : Bits) (n i : Nat) : bitAt (s.drop n) i = bitAt s (n + i) := by
  simp [bitAt, List.getElem?_drop]
theorem bitAt_take {s : Bits} {n i : Nat} (h : i < n) : bitAt (s.take n) i = bitAt s i := by
  simp [bitAt, List.getElem?_take, h]

/-! ## received -/

theorem ensures_rootMarks : ∀ (f : Fields) (opt : Bits),
    Ensures (decRoot f opt) (fun vs => vs.length = f.length ∧ (Spec.obligatory f = true → vs.any Option.isSome = true))
  | .nil, _ => by unfold decRoot; exact Ensures.pure ⟨rfl, fun h => nomatch h⟩
  | .cons n k t r, opt => by
    unfold decRoot
    have set : ∀ o, Ensures (do let v ← decTy t; let vs ← decRoot r o; return some v :: vs)
        (fun vs => vs.length = (Fields.cons n k t r).length ∧
          (Spec.obligatory (.cons n k t r) = true → vs.any Option.isSome = true)) := by
      intro o
      refine Ensures.bind' fun v => (ensures_rootMarks r o).bind fun vs hv => Ensures.pure ⟨by simp [Fields.length, hv.1], ?_⟩
      intro _; simp
    have unset : Spec.needed k = false → ∀ o, Ensures (do let vs ← decRoot r o; return none :: vs)
        (fun vs => vs.length = (Fields.cons n k t r).length ∧
          (Spec.obligatory (.cons n k t r) = true → vs.any Option.isSome = true)) := by
      intro hk o
      refine (ensures_rootMarks r o).bind fun vs hv => Ensures.pure ⟨by simp [Fields.length, hv.1], ?_⟩
      intro h
      rw [Spec.obligatory, hk, Bool.false_or] at h
      simpa using hv.2 h
    cases k with
    | mandatory => exact set opt
    | optional =>
      cases opt with
      | nil => exact Ensures.raise _
      | cons b opt => cases b with
        | false => exact unset rfl opt
        | true => exact set opt
    | default d =>
      cases opt with
      | nil => exact Ensures.raise _
      | cons b opt => cases b with
        | false => exact unset rfl opt
        | true => exact set opt

theorem ensures_addsMarks : ∀ (a : Fields) (bits : Bits),
    Ensures (decAdds a bits) (fun vs => vs.length = a.length ∧
      ∀ i, i < a.length → bitAt (vs.map Option.isSome) i = bitAt bits i)
  | .nil, _ => by unfold decAdds; exact Ensures.pure ⟨rfl, fun i h => nomatch h⟩
  | .cons n k t r, bits => by
    unfold decAdds
    have step : ∀ (b : Bool) (rest : Bits) (c : Option Val), c.isSome = b → ∀ vs : List (Option Val),
        (vs.length = r.length ∧ ∀ i, i < r.length → bitAt (vs.map Option.isSome) i = bitAt rest i) →
        ((c :: vs).length = (Fields.cons n k t r).length ∧
          ∀ i, i < (Fields.cons n k t r).length → bitAt ((c :: vs).map Option.isSome) i = bitAt (b :: rest) i) := by
      intro b rest c hc vs hv
      refine ⟨by simp [Fields.length, hv.1], fun i hi => ?_⟩
      cases i with
      | zero => exact hc
      | succ i =>
        rw [List.map_cons, bitAt_succ, bitAt_succ]
        exact hv.2 i (by simpa [Fields.length] using hi)
    cases bits with
    | nil =>
      refine (ensures_addsMarks r []).bind fun vs hv => Ensures.pure ?_
      have := step false [] none rfl vs hv
      refine ⟨this.1, fun i hi => (this.2 i hi).trans ?_⟩
      cases i with
      | zero => rfl
      | succ i => rw [bitAt_succ, bitAt_nil, bitAt_nil]
    | cons b rest =>
      cases b with
      | false => exact (ensures_addsMarks r rest).bind fun vs hv => Ensures.pure (step false rest none rfl vs hv)
      | true =>
        exact Ensures.bind' fun v => (ensures_addsMarks r rest).bind fun vs hv =>
          Ensures.pure (step true rest (some v) rfl vs hv)

theorem any_isSome_replicate (n : Nat) : (List.replicate n (none : Option Val)).any Option.isSome = false := by
  simp [List.any_replicate]

theorem marksG_cons {f : Fields} {g : Groups} {x y : List (Option Val)} (h : x.length = f.length) :
    marksG (.cons f g) (x ++ y) = x.any Option.isSome :: marksG g y := by
  rw [marksG, ← h, List.take_left, List.drop_left]

theorem ensures_groupsMarks : ∀ (g : Groups) (bits : Bits),
    Ensures (decGroups g bits) (fun vs => vs.length = g.size ∧
      (∀ i, bitAt (marksG g vs) i = true → bitAt bits i = true) ∧
      (Spec.firm g = true → ∀ i, i < g.length → bitAt bits i = true → bitAt (marksG g vs) i = true))
  | .nil, _ => by
    unfold decGroups
    exact Ensures.pure ⟨rfl, fun i h => by simp [marksG, bitAt] at h, fun _ i h => nomatch h⟩
  | .cons f g, bits => by
    unfold decGroups
    have step : ∀ (b : Bool) (rest : Bits) (c : List (Option Val)), c.length = f.length →
        (c.any Option.isSome = true → b = true) →
        (Spec.obligatory f = true → b = true → c.any Option.isSome = true) → ∀ vs : List (Option Val),
        (vs.length = g.size ∧ (∀ i, bitAt (marksG g vs) i = true → bitAt rest i = true) ∧
          (Spec.firm g = true → ∀ i, i < g.length → bitAt rest i = true → bitAt (marksG g vs) i = true)) →
        ((c ++ vs).length = (Groups.cons f g).size ∧
          (∀ i, bitAt (marksG (.cons f g) (c ++ vs)) i = true → bitAt (b :: rest) i = true) ∧
          (Spec.firm (.cons f g) = true → ∀ i, i < (Groups.cons f g).length → bitAt (b :: rest) i = true →
            bitAt (marksG (.cons f g) (c ++ vs)) i = true)) := by
      intro b rest c hl h1 h2 vs hv
      rw [marksG_cons hl]
      refine ⟨by simp [Groups.size, hl, hv.1], fun i hi => ?_, fun hf i hi hb => ?_⟩
      · cases i with
        | zero => exact h1 hi
        | succ i => rw [bitAt_succ] at hi ⊢; exact hv.2.1 i hi
      · rw [Spec.firm, Bool.and_eq_true] at hf
        cases i with
        | zero => exact h2 hf.1 hb
        | succ i =>
          rw [bitAt_succ] at hb ⊢
          exact hv.2.2 hf.2 i (by simpa [Groups.length] using hi) hb
    cases bits with
    | nil =>
      refine (ensures_groupsMarks g []).bind fun vs hv => Ensures.pure ?_
      have := step false [] (List.replicate f.length none) (by simp) (by rw [any_isSome_replicate]; exact id)
        (fun _ h => nomatch h) vs hv
      have nil : ∀ i, bitAt [false] i = bitAt [] i := by
        intro i
        cases i with
        | zero => rfl
        | succ i => rw [bitAt_succ, bitAt_nil, bitAt_nil]
      exact ⟨this.1, fun i hi => by rw [← nil]; exact this.2.1 i hi,
        fun hf i hi hb => this.2.2 hf i hi (by rw [nil]; exact hb)⟩
    | cons b rest =>
      cases b with
      | false =>
        exact (ensures_groupsMarks g rest).bind fun vs hv => Ensures.pure
          (step false rest (List.replicate f.length none) (by simp) (by rw [any_isSome_replicate]; exact id)
            (fun _ h => nomatch h) vs hv)
      | true =>
        refine (ensures_openType (Ensures.bind' fun opt => ensures_rootMarks f opt)).bind fun c hc => ?_
        exact (ensures_groupsMarks g rest).bind fun vs hv => Ensures.pure
          (step true rest c hc.1 (fun _ => rfl) (fun h _ => hc.2 h) vs hv)

/-- What a decoder that has seen the presence bits `seen` makes of the extensions. -/
theorem ensures_marks (a : Fields) (g : Groups) (seen : Bits) (root : List (Option Val)) :
    Ensures (do
        let addVals ← decAdds a (seen.take a.length)
        let groupVals ← decGroups g (seen.drop a.length)
        return Val.seq (root ++ addVals ++ groupVals))
      (fun v => ∃ x, v = Val.seq (root ++ x) ∧ x.length = a.length + g.size ∧
        (∀ i, bitAt (marks a g x) i = true → bitAt seen i = true) ∧
        (Spec.firm g = true → ∀ i, i < a.length + g.length → bitAt seen i = true → bitAt (marks a g x) i = true)) := by
  refine (ensures_addsMarks a _).bind fun av ha => (ensures_groupsMarks g _).bind fun gv hg => Ensures.pure ?_
  have hm : marks a g (av ++ gv) = av.map Option.isSome ++ marksG g gv := by
    rw [marks, ← ha.1, List.take_left, List.drop_left]
  have hal : (av.map Option.isSome).length = a.length := by simp [ha.1]
  refine ⟨av ++ gv, by rw [List.append_assoc], by simp [ha.1, hg.1], ?_, ?_⟩
  · intro i hi
    rw [hm] at hi
    by_cases h : i < a.length
    · rw [bitAt_left (by omega), ha.2 i h, bitAt_take h] at hi
      exact hi
    · rw [bitAt_right (by omega)] at hi
      have := hg.2.1 _ hi
      rw [bitAt_drop] at this
      rwa [show a.length + (i - (av.map Option.isSome).length) = i by omega] at this
  · intro hf i hi hb
    rw [hm]
    by_cases h : i < a.length
    · rw [bitAt_left (by omega), ha.2 i h, bitAt_take h]
      exact hb
    · rw [bitAt_right (by omega)]
      refine hg.2.2 hf _ (by omega) ?_
      rw [bitAt_drop, show a.length + (i - (av.map Option.isSome).length) = i by omega]
      exact hb

/-! ## sent -/

theorem receivedRoot_some : ∀ (f : Fields) (cs : List (Option Val)) {bits : Bits} {fs : List BitField},
    encRoot f cs = .ok (bits, fs) → Spec.obligatory f = true → (Spec.receivedRoot f cs).any Option.isSome = true
  | .nil, _, _, _, _, h => nomatch h
  | .cons n k t r, cs, bits, fs, h, ho => by
    simp only [encRoot] at h
    obtain ⟨⟨b, fl⟩, e1, h⟩ := Except.bind_eq_ok h
    obtain ⟨⟨bs, fls⟩, e2, h⟩ := Except.bind_eq_ok h
    rw [Spec.receivedRoot, List.any_cons, Bool.or_eq_true]
    cases k with
    | mandatory =>
      left
      cases hc : cs.head?.getD none with
      | some v => rfl
      | none =>
        rw [hc] at e1
        unfold rootComponent at e1
        simp only at e1
        rw [Spec.receivedComponent, untouched_eq]
        cases he : emptyVal t with
        | some v => rfl
        | none => rw [he] at e1; cases e1
    | optional => exact .inr (receivedRoot_some r cs.tail e2 (by simpa [Spec.obligatory, Spec.needed, Spec.isOpt] using ho))
    | default d =>
      exact .inr (receivedRoot_some r cs.tail e2
        (by simpa [Spec.obligatory, Spec.needed, Spec.isOpt, Spec.hasDefault] using ho))

theorem receivedAdds_marks : ∀ (a : Fields) (cs : List (Option Val)) (prev : Option Prev) {bits : Bits}
    {fs : List BitField}, encAdds a cs prev = .ok (bits, fs) → (Spec.receivedAdds a cs).map Option.isSome = bits
  | .nil, cs, prev, bits, fs, h => by
    simp only [encAdds, Except.ok.injEq, Prod.mk.injEq] at h
    simp [← h.1, Spec.receivedAdds]
  | .cons n k t r, cs, prev, bits, fs, h => by
    simp only [encAdds] at h
    obtain ⟨⟨b, fl⟩, e1, h⟩ := Except.bind_eq_ok h
    obtain ⟨⟨bs, fls⟩, e2, h⟩ := Except.bind_eq_ok h
    cases h
    rw [Spec.receivedAdds, List.map_cons, receivedAdds_marks r cs.tail _ e2, held_eq]
    congr 1
    rw [(additionComponent_shape e1).1]
    generalize effective k (cs.head?.getD none) = c
    cases c with
    | none => rfl
    | some v =>
      by_cases hs : Spec.substantial t (some v) = true <;> simp [hs]

theorem receivedGroups_marks : ∀ (g : Groups) (cs : List (Option Val)) (prev : Option (List Prev)) {bits : Bits}
    {fs : List BitField}, encGroups g cs prev = .ok (bits, fs) →
    (Spec.receivedGroups g cs).length = g.size ∧
    (∀ i, bitAt (marksG g (Spec.receivedGroups g cs)) i = true → bitAt bits i = true) ∧
    (Spec.firm g = true → marksG g (Spec.receivedGroups g cs) = bits)
  | .nil, cs, prev, bits, fs, h => by
    simp only [encGroups, Except.ok.injEq, Prod.mk.injEq] at h
    rw [← h.1]
    exact ⟨rfl, fun i h => h, fun _ => rfl⟩
  | .cons f g, cs, prev, bits, fs, h => by
    obtain ⟨bs', h0⟩ := encGroups_first h
    simp only [encGroups] at h
    obtain ⟨infos, e0, h⟩ := Except.bind_eq_ok h
    obtain ⟨⟨b, fl⟩, e1, h⟩ := Except.bind_eq_ok h
    obtain ⟨⟨bs, fls⟩, e2, h⟩ := Except.bind_eq_ok h
    cases h
    cases h0
    obtain ⟨i1, i2, i3⟩ := receivedGroups_marks g _ _ e2
    rw [Spec.receivedGroups]
    have hl : (if Spec.anySubstantial f cs then Spec.receivedRoot f cs else List.replicate f.length none).length = f.length := by
      split
      · exact receivedRoot_length f cs
      · simp
    rw [marksG_cons hl]
    refine ⟨by rw [List.length_append, hl, i1, Groups.size], ?_, ?_⟩
    · intro i hi
      cases i with
      | zero =>
        rw [bitAt_zero] at hi ⊢
        by_cases hs : Spec.anySubstantial f cs = true
        · exact hs
        · rw [if_neg hs, any_isSome_replicate] at hi; cases hi
      | succ i => rw [bitAt_succ] at hi ⊢; exact i2 i hi
    · intro hf
      rw [Spec.firm, Bool.and_eq_true] at hf
      rw [i3 hf.2]
      congr 1
      by_cases hs : Spec.anySubstantial f cs = true
      · rw [if_pos hs, hs]
        unfold groupComponent at e1
        rw [scanGroup_any e0, hs] at e1
        simp only [Bool.not_true, Bool.false_eq_true, if_false] at e1
        obtain ⟨_, _, e1⟩ := Except.bind_eq_ok e1
        obtain ⟨⟨opt, fl'⟩, e3, e1⟩ := Except.bind_eq_ok e1
        exact receivedRoot_some f cs e3 hf.1
      · rw [if_neg hs, any_isSome_replicate]
        simpa using hs

theorem received_marks {a : Fields} {g : Groups} {ca cg : List (Option Val)} {ap : Option Prev} {gp : Option (List Prev)}
    {ab gb : Bits} {af gf : List BitField} (ha : encAdds a ca ap = .ok (ab, af)) (hg : encGroups g cg gp = .ok (gb, gf)) :
    (Spec.receivedAdds a ca ++ Spec.receivedGroups g cg).length = a.length + g.size ∧
    (∀ i, bitAt (marks a g (Spec.receivedAdds a ca ++ Spec.receivedGroups g cg)) i = true → bitAt (ab ++ gb) i = true) ∧
    (Spec.firm g = true → marks a g (Spec.receivedAdds a ca ++ Spec.receivedGroups g cg) = ab ++ gb) := by
  have h1 := receivedAdds_marks a ca ap ha
  obtain ⟨h2, h3, h4⟩ := receivedGroups_marks g cg gp hg
  have hl : (Spec.receivedAdds a ca).length = a.length := by
    rw [← List.length_map (f := Option.isSome), h1, (encAdds_shape a ca ap ha).1]
  have hm : marks a g (Spec.receivedAdds a ca ++ Spec.receivedGroups g cg) = ab ++ marksG g (Spec.receivedGroups g cg) := by
    rw [marks, ← hl, List.take_left, List.drop_left, h1]
  rw [hm]
  refine ⟨by rw [List.length_append, hl, h2], fun i hi => ?_, fun hf => by rw [h4 hf]⟩
  by_cases h : i < ab.length
  · rw [bitAt_left h] at hi ⊢; exact hi
  · have h := Nat.le_of_not_lt h
    rw [bitAt_right h] at hi ⊢
    exact h3 _ hi

/-! ## presence bits that are read as a number -/

theorem first_true : ∀ {s : Bits}, true ∈ s → ∃ j t, s = List.replicate j false ++ true :: t
  | [], h => nomatch h
  | true :: s, _ => ⟨0, s, rfl⟩
  | false :: s, h => by
    obtain ⟨j, t, rfl⟩ := first_true (s := s) (by simpa using h)
    exact ⟨j + 1, t, by simp [List.replicate_succ]⟩

/-- What the receiver sees: its own first presence bit is the first 1, the last one its last. -/
theorem seen_bits (m j : Nat) (t : Bits) :
    zfill m (pyBin (bitsToNat (List.replicate j false ++ true :: t)))
      = List.replicate (m - (t.length + 1)) false ++ true :: t := by
  rw [bitsToNat_append, bitsToNat_replicate_false, Nat.zero_mul, Nat.zero_add, pyBin_of_first_true, zfill]
  rfl

theorem bitAt_replicate (n i : Nat) (t : Bits) (h : i < n) : bitAt (List.replicate n false ++ t) i = false := by
  rw [bitAt_left (by simpa using h)]
  simp [bitAt, List.getElem?_replicate, h]

theorem bitAt_first (n : Nat) (t : Bits) : bitAt (List.replicate n false ++ true :: t) n = true := by
  rw [bitAt_right (by simp)]
  simp [bitAt]

/-! ## reading with another version -/

/-- Reading a message that has extensions comes down to reading the extensions. -/
theorem run_with_extensions {r : Fields} {cs : List (Option Val)} {opt bits : Bits} {fl rf ld more : List BitField}
    {a : Fields} {g : Groups}
    (e1 : encRoot r cs = .ok (opt, fl)) (e2 : withOptionalBits opt fl = .ok rf) (hs : Spec.safeRoot r cs = true)
    (hld : ∀ q, Reads (decodeLengthDeterminant true false none none) q (emit q ld) bits.length)
    (hal : StartsAligned more) (hne : more ≠ []) {p : PerBytes} {pos : Nat} {rest : Bits}
    (hp : At p pos (emit pos ([⟨false, [true]⟩] ++ rf ++ ld ++ [⟨false, bits⟩] ++ more) ++ rest)) :
    ∃ p', decTy (.sequence true r a g) p = (do
        let addVals ← decAdds a ((zfill (a.length + g.length) (pyBin (bitsToNat bits))).take a.length)
        let groupVals ← decGroups g ((zfill (a.length + g.length) (pyBin (bitsToNat bits))).drop a.length)
        return Val.seq (Spec.receivedRoot r cs ++ addVals ++ groupVals)) p' := by
  obtain ⟨hlen, hroot⟩ := rt_root r cs opt fl e1 hs
  have s1 : ∀ q, emit q (ld ++ ([⟨false, bits⟩] ++ more))
      = (emit q ld ++ bits ++ padTo true (q + (emit q ld).length + bits.length)) ++
        emit (q + (emit q ld ++ bits ++ padTo true (q + (emit q ld).length + bits.length)).length) more := by
    intro q
    rw [emit_append, List.singleton_append, emit_cons, padTo_false, List.nil_append, hal.emit _ hne]
    simp only [List.append_assoc, List.length_append, Nat.add_assoc]
  rw [List.append_assoc, List.append_assoc, List.append_assoc, emit_bit', emit_append, s1] at hp
  simp only [List.append_assoc] at hp
  obtain ⟨p1, r1, at1⟩ := Reads.bit pos true p _ hp
  have hroot' := optionalBits_rt e2 (f := fun opt => decRoot r opt) hroot (pos + 1)
  obtain ⟨p2, r2, at2⟩ := hroot' p1 _ at1
  have hext : ∀ q, Reads (decodeExtensionBits (a.length + g.length)) q
      (emit q ld ++ bits ++ padTo true (q + (emit q ld).length + bits.length))
      (zfill (a.length + g.length) (pyBin (bitsToNat bits))) := by
    intro q
    unfold decodeExtensionBits
    rw [List.append_assoc]
    refine (hld q).bind ?_
    simp only [Int.toNat_natCast]
    refine (Reads.next_plain ⟨0, bits.length⟩ _ bits (by simp)).bind ?_
    exact (Reads.align _).bind_pure (Reads.pure _ _)
  obtain ⟨p3, r3, at3⟩ := hext (pos + 1 + (emit (pos + 1) rf).length) p2 _ (by simpa only [List.append_assoc] using at2)
  refine ⟨p3, ?_⟩
  rw [decTy, ← hlen]
  simp only [if_true]
  have step : ∀ {α β : Type} {m : Dec α} {k : α → Dec β} {x : α} {q q' : PerBytes}, m q = .ok (x, q') →
      (m >>= k) q = k x q' := by
    intro α β m k x q q' h
    show (m q >>= _) = _
    rw [h]; rfl
  rw [step r1]
  have assoc : ∀ {β : Type} (k : List (Option Val) → Dec β),
      (decodeOptionalBits opt.length >>= fun o => decRoot r o >>= k)
        = ((decodeOptionalBits opt.length >>= fun o => decRoot r o) >>= k) := by
    intro β k; rw [bind_assoc]
  rw [assoc, step r2]
  simp only [if_true]
  rw [if_pos (by decide), step r3]

/-- What is returned for a message that has extensions, by any version of the receiver. -/
theorem decode_extensions {r a a' : Fields} {g g' : Groups} {cs : List (Option Val)} {bs : List UInt8}
    {opt bits : Bits} {fl rf ld more : List BitField}
    (h : encode (.sequence true r a g) (.seq cs) = .ok bs)
    (hfs : encTy (.sequence true r a g) (.seq cs) =
      .ok ([⟨false, [true]⟩] ++ rf ++ ld ++ [⟨false, bits⟩] ++ more))
    (e1 : encRoot r cs = .ok (opt, fl)) (e2 : withOptionalBits opt fl = .ok rf) (hs : Spec.safeRoot r cs = true)
    (hld : ∀ q, Reads (decodeLengthDeterminant true false none none) q (emit q ld) bits.length)
    (hal : StartsAligned more) (hne : more ≠ []) {extra : List UInt8} {w : Val}
    (hd : decode (.sequence true r a' g') (bs ++ extra) = .ok w) :
    ∃ x, w = .seq (Spec.receivedRoot r cs ++ x) ∧ x.length = a'.length + g'.size ∧
      (∀ i, bitAt (marks a' g' x) i = true → bitAt (zfill (a'.length + g'.length) (pyBin (bitsToNat bits))) i = true) ∧
      (Spec.firm g' = true → ∀ i, i < a'.length + g'.length →
        bitAt (zfill (a'.length + g'.length) (pyBin (bitsToNat bits))) i = true → bitAt (marks a' g' x) i = true) := by
  obtain ⟨fs, i1, i2⟩ := (encode_eq _ _ bs).1 h
  rw [hfs] at i1
  cases i1
  have hbs : bs ≠ [] := by
    rintro rfl
    have := produceCompleteEncoding_ne_nil ([⟨false, [true]⟩] ++ rf ++ ld ++ [⟨false, bits⟩] ++ more)
    rw [← i2] at this; exact this rfl
  rw [decode_eq (by simp [hbs]), bytesToBits_append, i2, produceCompleteEncoding_eq, List.append_assoc] at hd
  obtain ⟨p', hrun⟩ := run_with_extensions (a := a') (g := g') e1 e2 hs hld hal hne (At.init (_ ++ _))
  rw [hrun] at hd
  obtain ⟨⟨v, q⟩, j1, j2⟩ := Except.bind_eq_ok hd
  have := (ensures_marks a' g' _ (Spec.receivedRoot r cs)).run _ _ _ j1
  dsimp only at j2
  split at j2
  · cases j2; exact this
  · cases j2

theorem marksG_append : ∀ (g h : Groups) {x y : List (Option Val)}, x.length = g.size →
    marksG (Spec.appendGroups g h) (x ++ y) = marksG g x ++ marksG h y
  | .nil, h, x, y, hx => by
    have : x = [] := List.length_eq_zero_iff.1 hx
    subst this; rfl
  | .cons f g, h, x, y, hx => by
    rw [Groups.size] at hx
    rw [Spec.appendGroups, marksG, marksG, List.take_append_of_le_length (by omega), List.drop_append_of_le_length (by omega),
      marksG_append g h (by rw [List.length_drop]; omega), List.cons_append]

/-- What the older version has is the beginning of what the newer one has. -/
theorem marks_newer {a a' : Fields} {g g' : Groups} (hn : Spec.Newer a g a' g') {x y : List (Option Val)}
    (hx : x.length = a.length + g.size) {i : Nat} (hi : bitAt (marks a g x) i = true) :
    bitAt (marks a' g' (x ++ y)) i = true := by
  cases hn with
  | additions =>
    simp only [Groups.size, Nat.add_zero] at hx
    rw [marks, marksG, List.append_nil, List.take_of_length_le (by omega)] at hi
    have hl := bitAt_lt hi
    rw [marks, appendFields_length, List.take_append, List.take_of_length_le (by omega), List.map_append, List.append_assoc,
      bitAt_left hl]
    exact hi
  | groups =>
    rw [marks, List.take_append_of_le_length (by omega), List.drop_append_of_le_length (by omega),
      marksG_append _ _ (by rw [List.length_drop]; omega), ← List.append_assoc, ← marks, bitAt_left (bitAt_lt hi)]
    exact hi

theorem appendGroups_size : ∀ (a b : Groups), (Spec.appendGroups a b).size = a.size + b.size
  | .nil, b => by simp [Spec.appendGroups, Groups.size]
  | .cons _ r, b => by simp only [Spec.appendGroups, Groups.size, appendGroups_size r b]; omega

theorem newer_size {a a' : Fields} {g g' : Groups} (hn : Spec.Newer a g a' g') :
    a.length + g.size ≤ a'.length + g'.size := by
  cases hn with
  | additions => rw [appendFields_length, Groups.size]; omega
  | groups => rw [appendGroups_size]; omega

/-- The first extension is the first presence bit. -/
theorem first_given {a : Fields} {g : Groups} {cs : List (Option Val)} {n : Nat} {abits gbits : Bits}
    {afl gfl : List BitField} (e3 : encAdds a cs none = .ok (abits, afl))
    (e4 : encGroups g (cs.drop n) none = .ok (gbits, gfl)) (hn : a = .nil → n = 0) :
    bitAt (abits ++ gbits) 0 = Spec.firstGiven a g cs := by
  cases a with
  | cons m k t r' =>
    obtain ⟨bs, rfl⟩ := encAdds_first e3
    rw [List.cons_append, bitAt_zero, Spec.firstGiven, held_eq]
  | nil =>
    simp only [encAdds, Except.ok.injEq, Prod.mk.injEq] at e3
    obtain ⟨rfl, rfl⟩ := e3
    rw [hn rfl] at e4
    cases g with
    | nil =>
      simp only [encGroups, Except.ok.injEq, Prod.mk.injEq] at e4
      obtain ⟨rfl, rfl⟩ := e4
      rfl
    | cons f g =>
      obtain ⟨bs, rfl⟩ := encGroups_first e4
      rw [List.nil_append, bitAt_zero, Spec.firstGiven, List.drop_zero]

/-- The fields of the extensions, if there are any: not empty, and they start with an aligned one. -/
theorem extension_fields {a : Fields} {g : Groups} {ca cg : List (Option Val)} {abits gbits : Bits}
    {afl gfl : List BitField} (e3 : encAdds a ca none = .ok (abits, afl)) (e4 : encGroups g cg none = .ok (gbits, gfl))
    (hin : true ∈ abits ++ gbits) : StartsAligned (afl ++ gfl) ∧ afl ++ gfl ≠ [] := by
  obtain ⟨_, aal, az⟩ := encAdds_shape a _ none e3
  obtain ⟨_, gal, gz⟩ := encGroups_shape g _ none e4
  refine ⟨aal.append gal, fun h0 => ?_⟩
  rw [List.append_eq_nil_iff] at h0
  rw [List.mem_append] at hin
  rcases hin with hm | hm
  · have := az h0.1 _ hm; cases this
  · have := gz h0.2 _ hm; cases this

end Verif
