import Verif.Lemmas.Sequence
import Verif.Props.Stream
import Verif.Props.Compound
/-!
# C20-C22: what a SEQUENCE consists of, and the size of a SEQUENCE OF
-/
namespace Verif.Props
open Verif

/-! ## C20 presence bitmap -/

/-- Whatever SEQUENCE is encoded, its fields are: the extension bit (if there is an extension marker), one
field with exactly one bit per OPTIONAL/DEFAULT component (no such field if there are none), the encodings of
the components that are sent, and what follows for the extensions (nothing if there is no marker or the
extension bit is 0). -/
theorem C20_fields {ext : Bool} {r a : Fields} {g : Groups} {cs : List (Option Val)} {fs : List BitField}
    (h : encTy (.sequence ext r a g) (.seq cs) = .ok fs) :
    ∃ (e : Bool) (parts : List (List BitField)) (rest : List BitField), Spec.Parts r cs parts ∧
      (Spec.presence r cs).length = Spec.optionals r ∧
      fs = (if ext then [⟨false, [e]⟩] else []) ++
        (if Spec.presence r cs = [] then [] else [⟨false, Spec.presence r cs⟩]) ++ parts.flatten ++ rest ∧
      (ext = false ∨ e = false → rest = []) := by
  obtain ⟨e, parts, rest, h1, h2, h3⟩ := encSequence_shape h
  exact ⟨e, parts, rest, h1, presence_length r cs, h2, h3⟩

/-- The same by position: the bit of an OPTIONAL/DEFAULT component is the one whose place is the number of
such components before it; it is 1 exactly if the component is encoded; the encodings stand in declaration
order. -/
theorem C20_by_position {r : Fields} {cs : List (Option Val)} {parts : List (List BitField)}
    (hp : Spec.Parts r cs parts) {i : Nat} {n : String} {k : Kind} {t : Ty}
    (hf : Spec.fieldAt r i = some (n, k, t)) :
    parts.length = r.length ∧
    ((∃ v fl, Spec.sent k t (cs[i]?.getD none) = some v ∧ encTy t v = .ok fl ∧ parts[i]? = some fl ∧
        (k ≠ .mandatory → (Spec.presence r cs)[Spec.optionalsBefore r i]? = some true)) ∨
     (k ≠ .mandatory ∧ Spec.sent k t (cs[i]?.getD none) = none ∧ parts[i]? = some [] ∧
        (Spec.presence r cs)[Spec.optionalsBefore r i]? = some false)) := by
  refine ⟨Parts.length hp, ?_⟩
  rcases parts_at hp hf with ⟨v, fl, h1, h2, h3⟩ | ⟨h1, h2, h3⟩
  · refine .inl ⟨v, fl, h1, h2, h3, fun hk => ?_⟩
    rw [presence_at r cs hf hk, h1]; rfl
  · refine .inr ⟨h1, h2, h3, ?_⟩
    rw [presence_at r cs hf h1, h2]; rfl

/-- In the octets of the message these are literally the first bits. -/
theorem C20_first_bits {ext : Bool} {r a : Fields} {g : Groups} {cs : List (Option Val)} {bs : List UInt8}
    (h : encode (.sequence ext r a g) (.seq cs) = .ok bs) :
    ∃ (e : Bool) (tail : Bits),
      Spec.octetsToBits bs = (if ext then [e] else []) ++ Spec.presence r cs ++ tail := by
  obtain ⟨fs, e1, e2⟩ := (encode_eq _ _ _).1 h
  obtain ⟨e, parts, rest, _, hfs, _⟩ := encSequence_shape e1
  have key : ∃ tail, emit 0 fs = (if ext then [e] else []) ++ Spec.presence r cs ++ tail := by
    rw [hfs, List.append_assoc _ parts.flatten]
    generalize parts.flatten ++ rest = q
    rw [emit_append, emit_append]
    have h1 : ∀ n, emit n (if ext then [(⟨false, [e]⟩ : BitField)] else []) = if ext then [e] else [] := by
      intro n; cases ext <;> simp [emit, padTo]
    have h2 : ∀ n, emit n (if Spec.presence r cs = [] then [] else [(⟨false, Spec.presence r cs⟩ : BitField)]) =
        Spec.presence r cs := by
      intro n
      by_cases hp : Spec.presence r cs = []
      · simp [hp, emit]
      · rw [if_neg hp]; simp [emit, padTo]
    rw [h1, h2]
    exact ⟨_, rfl⟩
  obtain ⟨tail, ht⟩ := key
  rw [octetsToBits_eq, e2, produceCompleteEncoding_eq, ht]
  exact ⟨e, _, by rw [List.append_assoc]⟩

example : encode sampleSequence sampleValue = .ok [0x1A, 0x80, 0x02, 0x01, 0x02, 0x00] ∧
    Spec.presence (Fields.ofList
      [("a", .mandatory, .integer (.valueRange (some 0) (some 7) false)),
       ("b", .optional, .octetString ⟨false, none, none⟩),
       ("c", .default (.int 5), .integer .noConstraint)]) [some (.int 3), none, some (.int 6)] = [false, true] :=
  ⟨by decide +kernel, by decide +kernel⟩

/-! ## C21 DEFAULT

The full statement has no `sameLength` hypothesis: BIT STRINGs are compared with their default as numbers, so
a value differing from the default only in leading zeros is not sent (`Findings.C21_bitstring_default`).
Extension additions with a DEFAULT are always sent (`Findings.C21_addition_default`); the theorems are about
root components. -/

theorem sameAsDefault_iff {d v : Val} (hl : Spec.sameLength d v = true) :
    Spec.sameAsDefault d v = true ↔ v = d := by
  cases d <;> cases v <;>
    simp only [Spec.sameAsDefault, Spec.sameLength, beq_iff_eq] at * <;>
    try first | exact eq_comm | (constructor <;> (intro h; cases h))
  rename_i x y
  constructor
  · intro h
    have hx := natToBits_bitsToNat x
    have hy := natToBits_bitsToNat y
    rw [number_eq, number_eq] at h
    rw [← hx, ← hy, h, hl]
  · rintro h; cases h; rfl

/-- A DEFAULT component set to its default, or not set: its presence bit is 0 and no field is produced for it.
Set to anything else: its presence bit is 1 and its fields are the encoding of the value. -/
theorem C21_sent_partial {ext : Bool} {r a : Fields} {g : Groups} {cs : List (Option Val)} {fs : List BitField}
    (h : encTy (.sequence ext r a g) (.seq cs) = .ok fs) {i : Nat} {n : String} {d : Val} {t : Ty}
    (hf : Spec.fieldAt r i = some (n, .default d, t))
    (hl : ∀ v, cs[i]?.getD none = some v → Spec.sameLength d v = true) :
    ∃ (e : Bool) (parts : List (List BitField)) (rest : List BitField),
      fs = (if ext then [⟨false, [e]⟩] else []) ++
        (if Spec.presence r cs = [] then [] else [⟨false, Spec.presence r cs⟩]) ++ parts.flatten ++ rest ∧
      (Spec.held (.default d) (cs[i]?.getD none) = some d →
        (Spec.presence r cs)[Spec.optionalsBefore r i]? = some false ∧ parts[i]? = some []) ∧
      (∀ v, cs[i]?.getD none = some v → v ≠ d →
        (Spec.presence r cs)[Spec.optionalsBefore r i]? = some true ∧
          ∃ fl, encTy t v = .ok fl ∧ parts[i]? = some fl) := by
  obtain ⟨e, parts, rest, hp, hfs, _⟩ := encSequence_shape h
  refine ⟨e, parts, rest, hfs, fun he => ?_, fun v hv hne => ?_⟩
  · have hs : Spec.sent (.default d) t (cs[i]?.getD none) = none := by
      cases hc : cs[i]?.getD none with
      | none => rfl
      | some v =>
        rw [hc] at he
        simp only [Spec.held, Option.some.injEq] at he
        subst he
        simp [Spec.sent, sameAsDefault_self]
    rcases (C20_by_position hp hf).2 with ⟨v, fl, h1, _⟩ | ⟨_, _, h3, h4⟩
    · rw [hs] at h1; cases h1
    · exact ⟨h4, h3⟩
  · have hs : Spec.sent (.default d) t (cs[i]?.getD none) = some v := by
      rw [hv]
      have : Spec.sameAsDefault d v = false := by
        rw [Bool.eq_false_iff]; intro hh; exact hne ((sameAsDefault_iff (hl v hv)).1 hh)
      simp [Spec.sent, this]
    rcases (C20_by_position hp hf).2 with ⟨w, fl, h1, h2, h3, h4⟩ | ⟨_, h2, _⟩
    · rw [hs] at h1; cases h1
      exact ⟨h4 (by simp), fl, h2, h3⟩
    · rw [hs] at h2; cases h2

/-- After decoding, reading the component gives the value it had (or the default if it was not set). -/
theorem C21_restored_partial {ext : Bool} {r a : Fields} {g : Groups} {cs : List (Option Val)} {bs : List UInt8}
    (h : encode (.sequence ext r a g) (.seq cs) = .ok bs) (hs : Spec.safe (.sequence ext r a g) (.seq cs) = true)
    {i : Nat} {n : String} {d : Val} {t : Ty} (hf : Spec.fieldAt r i = some (n, .default d, t))
    (hl : ∀ v, cs[i]?.getD none = some v → Spec.sameLength d v = true)
    (hc : ∀ v, cs[i]?.getD none = some v → Spec.canonical t v = true) (extra : List UInt8) :
    ∃ ds, decode (.sequence ext r a g) (bs ++ extra) = .ok (.seq ds) ∧
      Spec.held (.default d) (ds[i]?.getD none) = Spec.held (.default d) (cs[i]?.getD none) := by
  refine ⟨_, C10_accepted_partial rfl hs h extra, ?_⟩
  have hat := receivedRoot_at r cs hf
  rw [List.getElem?_append_left (by
    obtain ⟨hi, _⟩ := List.getElem?_eq_some_iff.1 hat
    exact hi), hat]
  cases hv : cs[i]?.getD none with
  | none => rfl
  | some v =>
    simp only [Spec.receivedComponent, Option.getD_some, held_eq, untouched_eq, valued_eq, isOpt_eq, hasDefault_eq]
    by_cases hsd : Spec.sameAsDefault d v = true
    · rw [if_pos hsd]
      rw [(sameAsDefault_iff (hl v hv)).1 hsd]; rfl
    · rw [if_neg hsd, received_canonical t v (hc v hv)]

example :
    let r := Fields.ofList [("a", .mandatory, .boolean), ("c", .default (.int 5), .integer .noConstraint)]
    (∃ bs, encode (.sequence false r .nil .nil) (.seq [some (.bool true), some (.int 6)]) = .ok bs) ∧
      Spec.safe (.sequence false r .nil .nil) (.seq [some (.bool true), some (.int 6)]) = true :=
  ⟨⟨[0xC0, 0x01, 0x06], by decide +kernel⟩, by decide +kernel⟩
example :
    let r := Fields.ofList [("a", .mandatory, .boolean), ("c", .default (.int 5), .integer .noConstraint)]
    encode (.sequence false r .nil .nil) (.seq [some (.bool true), some (.int 5)]) = .ok [0x40] ∧
      Spec.safe (.sequence false r .nil .nil) (.seq [some (.bool true), some (.int 5)]) = true :=
  ⟨by decide +kernel, by decide +kernel⟩

/-! ## C22 size of a SEQUENCE OF

The full statement has no `ub ≠ 0`: of SIZE(0..0) too many elements are not noticed
(`Findings.C22_size_zero`). -/

theorem seqOf_eq {c : SizeC} {t : Ty} {vs : List Val} (he : ∀ v ∈ vs, ∃ fs, encTy t v = .ok fs) :
    ∃ fl, encTy (.seqOf c t) (.seqOf vs) = encodeSequenceOf c vs.length fl := by
  obtain ⟨fls, h⟩ := mapM_ok he
  exact ⟨fls.flatten, by simp only [encTy, h]; rfl⟩

theorem encode_error {t : Ty} {v : Val} {e : Err} (h : encTy t v = .error e) : encode t v = .error e := by
  unfold encode; rw [h]; rfl

/-- Too few elements. -/
theorem C22_too_few {c : SizeC} {t : Ty} {vs : List Val} {lb : Nat} (hx : c.ext = false)
    (hl : c.lower = some lb) (hn : vs.length < lb) (he : ∀ v ∈ vs, ∃ fs, encTy t v = .ok fs) :
    encode (.seqOf c t) (.seqOf vs) = .error .sizeConstrainViolated := by
  obtain ⟨fl, h⟩ := seqOf_eq (c := c) he
  apply encode_error
  rw [h]; unfold encodeSequenceOf
  simp [hx, hl, hn]

/-- Too many elements. -/
theorem C22_too_many_partial {c : SizeC} {t : Ty} {vs : List Val} {lb ub : Nat} (hx : c.ext = false)
    (hl : c.lower = some lb) (hu : c.upper = some ub) (hb : lb ≤ ub) (h0 : ub ≠ 0) (hn : ub < vs.length)
    (he : ∀ v ∈ vs, ∃ fs, encTy t v = .ok fs) :
    encode (.seqOf c t) (.seqOf vs) = .error .invalidComponentIndex := by
  obtain ⟨fl, h⟩ := seqOf_eq (c := c) he
  apply encode_error
  rw [h]; unfold encodeSequenceOf
  have : ¬ vs.length < lb := by omega
  simp [hx, hl, hu, this, h0, hn]

/-- Whatever the elements are, a SEQUENCE OF outside its size is never encoded. -/
theorem C22_outside_partial {c : SizeC} {t : Ty} {vs : List Val} {lb ub : Nat} (hx : c.ext = false)
    (hl : c.lower = some lb) (hu : c.upper = some ub) (hb : lb ≤ ub) (h0 : ub ≠ 0)
    (hn : vs.length < lb ∨ ub < vs.length) :
    ∃ e, encode (.seqOf c t) (.seqOf vs) = .error e := by
  cases hm : vs.mapM (encTy t) with
  | error e => exact ⟨e, encode_error (by simp only [encTy, hm]; rfl)⟩
  | ok fls =>
    have hfl : encTy (.seqOf c t) (.seqOf vs) = encodeSequenceOf c vs.length fls.flatten := by
      simp only [encTy, hm]; rfl
    rcases hn with hn | hn
    · exact ⟨.sizeConstrainViolated, encode_error (by rw [hfl]; unfold encodeSequenceOf; simp [hx, hl, hn])⟩
    · have : ¬ vs.length < lb := by omega
      exact ⟨.invalidComponentIndex, encode_error (by
        rw [hfl]; unfold encodeSequenceOf; simp [hx, hl, hu, this, h0, hn])⟩

/-- A SEQUENCE OF inside its size is encoded. -/
theorem C22_inside {c : SizeC} {t : Ty} {vs : List Val} {lb ub : Nat} (hx : c.ext = false)
    (hl : c.lower = some lb) (hu : c.upper = some ub) (h1 : lb ≤ vs.length) (h2 : vs.length ≤ ub)
    (he : ∀ v ∈ vs, ∃ fs, encTy t v = .ok fs) :
    ∃ bs, encode (.seqOf c t) (.seqOf vs) = .ok bs := by
  obtain ⟨fl, h⟩ := seqOf_eq (c := c) he
  suffices ∃ fs, encodeSequenceOf c vs.length fl = .ok fs by
    obtain ⟨fs, hfs⟩ := this
    exact encode_of_encTy (h.trans hfs)
  unfold encodeSequenceOf
  have e1 : ¬ vs.length < lb := by omega
  have e2 : ¬ (ub ≠ 0 ∧ vs.length > ub) := by omega
  simp only [hx, Bool.false_eq_true, if_false, hl, e1, hu, e2]
  by_cases e3 : lb = ub ∧ ub < 65536
  · rw [if_pos e3]; exact ⟨_, rfl⟩
  · rw [if_neg e3]
    have e4 : ub ≠ 0 := by omega
    rw [if_pos e4]
    have key : ∃ f, encodeConstrainedWholeNumber (vs.length : Int) (some (lb : Int)) (some (ub : Int)) = .ok f := by
      unfold encodeConstrainedWholeNumber
      simp only [needInt, bind, Except.bind]
      have nn : ∀ s al m, ((ub : Int) - lb + 1 ≤ 65536 ∧ s = getBitFieldSize ((ub : Int) - lb + 1)) ∨ m = true →
          ∃ f, encodeNonNegativeBinaryInteger ((vs.length : Int) - lb) s al m = .ok f := by
        intro s al m hs
        unfold encodeNonNegativeBinaryInteger
        rw [if_neg (by omega)]
        rcases hs with ⟨hr, rfl⟩ | rfl
        · have : ∃ z, getBitFieldSize ((ub : Int) - lb + 1) = some z := by
            generalize hq : (ub : Int) - lb + 1 = q at hr
            by_cases q1 : q = 1
            · subst q1; exact ⟨_, rfl⟩
            · by_cases q2 : q ≤ 255
              · obtain ⟨w, hw, _⟩ := getBitFieldSize_small (r := q) (by omega) q2
                exact ⟨_, hw⟩
              · by_cases q3 : q = 256
                · subst q3; exact ⟨_, getBitFieldSize_256⟩
                · exact ⟨_, getBitFieldSize_medium (by omega) hr⟩
          obtain ⟨z, hz⟩ := this
          rw [hz]; split <;> exact ⟨_, rfl⟩
        · exact ⟨_, rfl⟩
      split
      · exact ⟨_, rfl⟩
      · split
        · exact nn _ _ _ (.inl ⟨by omega, rfl⟩)
        · split
          · exact nn _ _ _ (.inl ⟨by omega, rfl⟩)
          · split
            · exact nn _ _ _ (.inl ⟨by omega, rfl⟩)
            · exact nn _ _ _ (.inr rfl)
    obtain ⟨f, hf⟩ := key
    refine ⟨[f] ++ fl, ?_⟩
    simp only [encodeLengthDeterminant, SizeC.lowerZ, SizeC.upperZ, hl, hu, Option.map_some, Bool.false_eq_true,
      if_false, if_true]
    rw [show Int.ofNat lb = (lb : Int) from rfl, show Int.ofNat ub = (ub : Int) from rfl, hf]
    rfl

/-- A SEQUENCE OF with SIZE(lb..MAX) and enough elements is encoded, unless there are more than 16384. -/
theorem C22_inside_open {c : SizeC} {t : Ty} {vs : List Val} {lb : Nat} (hx : c.ext = false)
    (hl : c.lower = some lb) (hu : c.upper = none) (h1 : lb ≤ vs.length)
    (he : ∀ v ∈ vs, ∃ fs, encTy t v = .ok fs) :
    (vs.length ≤ 16384 → ∃ bs, encode (.seqOf c t) (.seqOf vs) = .ok bs) ∧
    (16384 < vs.length → encode (.seqOf c t) (.seqOf vs) = .error .notImplemented) := by
  obtain ⟨fl, h⟩ := seqOf_eq (c := c) he
  have e1 : ¬ vs.length < lb := by omega
  constructor
  · intro hn
    suffices ∃ fs, encodeSequenceOf c vs.length fl = .ok fs by
      obtain ⟨fs, hfs⟩ := this
      exact encode_of_encTy (h.trans hfs)
    unfold encodeSequenceOf
    simp only [hx, Bool.false_eq_true, if_false, hl, e1, hu, encodeLengthDeterminant]
    by_cases e2 : (vs.length : Int) ≤ 127
    · rw [if_pos e2]
      unfold encodeNonNegativeBinaryInteger
      rw [if_neg (by omega)]
      exact ⟨_, rfl⟩
    · rw [if_neg e2, if_pos (by omega)]
      unfold encodeNonNegativeBinaryInteger
      rw [if_neg (by omega)]
      exact ⟨_, rfl⟩
  · intro hn
    apply encode_error
    rw [h]
    unfold encodeSequenceOf
    simp only [hx, Bool.false_eq_true, if_false, hl, e1, hu, encodeLengthDeterminant]
    rw [if_neg (by omega), if_neg (by omega)]
    rfl

example : (∀ v ∈ [Val.bool true, .bool false], ∃ fs, encTy .boolean v = .ok fs) ∧
    encode (.seqOf ⟨false, some 3, some 4⟩ .boolean) (.seqOf [.bool true, .bool false]) =
      .error .sizeConstrainViolated ∧
    encode (.seqOf ⟨false, some 0, some 1⟩ .boolean) (.seqOf [.bool true, .bool false]) =
      .error .invalidComponentIndex ∧
    encode (.seqOf ⟨false, some 1, some 4⟩ .boolean) (.seqOf [.bool true, .bool false]) = .ok [0x60] := by
  refine ⟨?_, by decide +kernel, by decide +kernel, by decide +kernel⟩
  intro v hv
  rcases List.mem_cons.1 hv with rfl | hv
  · exact ⟨_, rfl⟩
  · rcases List.mem_cons.1 hv with rfl | hv
    · exact ⟨_, rfl⟩
    · cases hv

end Verif.Props
