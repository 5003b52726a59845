import Verif.Lemmas.Repaired
import Verif.Lemmas.Same
/-!
# C06-C12, C41: constructed types and whole messages survive the wire

`Spec.safe` collects, over the whole schema tree, the exclusions explained in `Props/Leaf.lean`; `Spec.sendable`
is what the encoder insists on (mandatory components are given, no gaps in the extension additions, ...), so
that the theorems show that such values *are* encoded, and `Spec.received` is what arrives: the same value with
components that hold nothing or equal their DEFAULT marked absent.  For values in `Spec.canonical` form it is
literally the same value.

All these theorems are `_partial` because of the exclusions in `Spec.safe` (see `Props/Findings.lean` for the
witnesses); the full statement is the same without that hypothesis, for all values of the type.
-/
namespace Verif.Props
open Verif

/-! ## C06 SEQUENCE OF -/

theorem C06_sequence_of_partial {c : SizeC} {t : Ty} {vs : List Val} (hc : Spec.safeCount c vs.length = true)
    (hs : ∀ v ∈ vs, Spec.safe t v = true ∧ Spec.sendable t v = true) :
    Spec.Carries (.seqOf c t) (.seqOf vs) (.seqOf (vs.map (Spec.received t))) ∧
      Spec.RoundTrips (.seqOf c t) (.seqOf vs) (.seqOf (vs.map (Spec.received t))) := by
  have := safe_carries (t := .seqOf c t) (v := .seqOf vs)
    (by simp only [Spec.survives, Spec.faithful, hc, Bool.true_and, List.all_eq_true]; exact fun v hv => (hs v hv).1)
    (by simp only [Spec.sendable, List.all_eq_true]; exact fun v hv => (hs v hv).2)
  simpa only [Spec.received] using this

example : Spec.safeCount ⟨false, some 0, some 3⟩ [Val.int 5, .int (-7)].length = true ∧
    ∀ v ∈ [Val.int 5, .int (-7)], Spec.safe (.integer .noConstraint) v = true ∧
      Spec.sendable (.integer .noConstraint) v = true := by decide +kernel

/-! ## C07 CHOICE -/

/-- The type of the alternative at a position: root alternatives, then extension additions, then the
alternatives of the addition groups. -/
theorem C07_choice_root_partial {ext : Bool} {r a : Fields} {g : Groups} {pos : Nat} {v : Val}
    (hp : pos < r.length) (hn : Spec.unsignedFits 65536 r.length = true)
    (h : Spec.safeAlt r pos v = true) (hs : Spec.sendableAlt r pos v = true) :
    Spec.Carries (.choice ext r a g) (.choice pos v) (.choice pos (Spec.receivedAlt r pos v)) ∧
      (Spec.nothing v = false → Spec.RoundTrips (.choice ext r a g) (.choice pos v) (.choice pos (Spec.receivedAlt r pos v))) := by
  have := safe_carries' (t := .choice ext r a g) (v := .choice pos v)
    (by simp only [Spec.survives, hp, if_true, hn, h]; rfl)
    (by simp only [Spec.sendable, hp, if_true, hs])
  simpa only [Spec.received, hp, if_true, Spec.returnable, Bool.not_eq_true'] using this

theorem C07_choice_addition_partial {r a : Fields} {g : Groups} {i : Nat} {v : Val}
    (hi : i < a.length) (hn : Spec.unsignedFits 16383 i = true)
    (h : Spec.safeOpenAlt a i v = true) (hs : Spec.sendableOpenAlt a i v = true) :
    Spec.Carries (.choice true r a g) (.choice (r.length + i) v)
        (.choice (r.length + i) (Spec.receivedAlt a i v)) ∧
      (Spec.nothing v = false → Spec.RoundTrips (.choice true r a g) (.choice (r.length + i) v)
        (.choice (r.length + i) (Spec.receivedAlt a i v))) := by
  have e1 : ¬ r.length + i < r.length := by omega
  have e2 : r.length + i < r.length + a.length := by omega
  have e3 : r.length + i - r.length = i := by omega
  have := safe_carries' (t := .choice true r a g) (v := .choice (r.length + i) v)
    (by simp only [Spec.survives, e1, if_false, e2, if_true, e3, hn, h]; rfl)
    (by simp only [Spec.sendable, e1, if_false, e2, if_true, e3, hs]; rfl)
  simpa only [Spec.received, e1, if_false, e2, if_true, e3, Spec.returnable, Bool.not_eq_true'] using this

theorem C07_choice_group_partial {r a : Fields} {g : Groups} {i : Nat} {v : Val}
    (hn : Spec.unsignedFits 16383 (a.length + i : Nat) = true)
    (h : Spec.safeOpenAltG g i v = true) (hs : Spec.sendableOpenAltG g i v = true) :
    Spec.Carries (.choice true r a g) (.choice (r.length + a.length + i) v)
        (.choice (r.length + a.length + i) (Spec.receivedAltG g i v)) ∧
      (Spec.nothing v = false → Spec.RoundTrips (.choice true r a g) (.choice (r.length + a.length + i) v)
        (.choice (r.length + a.length + i) (Spec.receivedAltG g i v))) := by
  have e1 : ¬ r.length + a.length + i < r.length := by omega
  have e2 : ¬ r.length + a.length + i < r.length + a.length := by omega
  have e3 : r.length + a.length + i - r.length = a.length + i := by omega
  have e4 : r.length + a.length + i - (r.length + a.length) = i := by omega
  have := safe_carries' (t := .choice true r a g) (v := .choice (r.length + a.length + i) v)
    (by simp only [Spec.survives, e1, if_false, e2, e3, e4, hn, h]; rfl)
    (by simp only [Spec.sendable, e1, if_false, e2, e4, hs]; rfl)
  simpa only [Spec.received, e1, if_false, e2, e4, Spec.returnable, Bool.not_eq_true'] using this

/-- A CHOICE with a root alternative, an addition and an addition group. -/
def sampleChoice : Ty :=
  .choice true (Fields.ofList [("a", .mandatory, .boolean), ("b", .mandatory, .integer .noConstraint)])
    (Fields.ofList [("c", .mandatory, .octetString ⟨false, some 2, some 2⟩)])
    (Groups.ofList [[("d", .mandatory, .boolean)]])

example : Spec.safe sampleChoice (.choice 1 (.int 77)) = true ∧ Spec.sendable sampleChoice (.choice 1 (.int 77)) = true := by
  decide +kernel
example : Spec.safe sampleChoice (.choice 2 (.octets [0, 9])) = true ∧
    Spec.sendable sampleChoice (.choice 2 (.octets [0, 9])) = true := by decide +kernel
example : Spec.safe sampleChoice (.choice 3 (.bool true)) = true ∧
    Spec.sendable sampleChoice (.choice 3 (.bool true)) = true := by decide +kernel

/-! ## C08 SEQUENCE root -/

theorem receivedRoot_at : ∀ (r : Fields) (cs : List (Option Val)) {i : Nat} {n : String} {k : Kind} {t : Ty},
    Spec.fieldAt r i = some (n, k, t) →
    (Spec.receivedRoot r cs)[i]? = some (Spec.receivedComponent (Spec.received t) k t (cs[i]?.getD none))
  | .nil, _, _, _, _, _, h => by simp [Spec.fieldAt] at h
  | .cons n' k' t' r, cs, 0, n, k, t, h => by
    simp only [Spec.fieldAt, Option.some.injEq, Prod.mk.injEq] at h
    obtain ⟨rfl, rfl, rfl⟩ := h
    cases cs <;> simp [Spec.receivedRoot]
  | .cons _ _ _ r, cs, i + 1, n, k, t, h => by
    simp only [Spec.receivedRoot, List.getElem?_cons_succ, held_eq, untouched_eq, valued_eq, isOpt_eq, hasDefault_eq]
    rw [receivedRoot_at r cs.tail h]
    cases cs <;> simp

/-- A SEQUENCE without extension marker: one component per declared component arrives, and
* a mandatory component that was set arrives with its value;
* an OPTIONAL component arrives with its value if it holds something and is absent otherwise;
* a DEFAULT component reads as the value that was set, or as the DEFAULT if none was set. -/
theorem C08_sequence_root_partial {r : Fields} {cs : List (Option Val)}
    (h : Spec.safe (.sequence false r .nil .nil) (.seq cs) = true)
    (hs : Spec.sendable (.sequence false r .nil .nil) (.seq cs) = true) :
    ∃ ds, Spec.Carries (.sequence false r .nil .nil) (.seq cs) (.seq ds) ∧
      Spec.RoundTrips (.sequence false r .nil .nil) (.seq cs) (.seq ds) ∧ ds.length = r.length ∧
      ∀ i n k t, Spec.fieldAt r i = some (n, k, t) →
        match k, cs[i]?.getD none with
        | .mandatory, some v => ds[i]? = some (some (Spec.received t v))
        | .mandatory, none => ds[i]? = some ((Spec.untouched t).map (Spec.received t))
        | .optional, c =>
          ds[i]? = some (if Spec.substantial t c then c.map (Spec.received t) else none)
        | .default _, none => ds[i]? = some none
        | .default d, some v =>
          if Spec.sameAsDefault d v then ds[i]? = some none else ds[i]? = some (some (Spec.received t v)) := by
  obtain ⟨h1, h2⟩ := safe_carries h hs
  simp only [Spec.received, Bool.false_eq_true, if_false, Fields.length, Groups.size, Nat.add_zero,
    List.replicate_zero, List.append_nil] at h1 h2
  refine ⟨_, h1, h2, receivedRoot_length r cs, fun i n k t hf => ?_⟩
  rw [receivedRoot_at r cs hf]
  cases k <;> cases cs[i]?.getD none <;> simp [Spec.receivedComponent]

/-- A SEQUENCE with mandatory, OPTIONAL, DEFAULT and nested components. -/
def sampleSequence : Ty :=
  .sequence false (Fields.ofList
    [("a", .mandatory, .integer (.valueRange (some 0) (some 7) false)),
     ("b", .optional, .octetString ⟨false, none, none⟩),
     ("c", .default (.int 5), .integer .noConstraint),
     ("d", .mandatory, .seqOf ⟨false, some 0, some 4⟩ sampleChoice)]) .nil .nil

/-- A value of it: `b` absent, `c` given explicitly as its DEFAULT. -/
def sampleValue : Val :=
  .seq [some (.int 3), none, some (.int 5), some (.seqOf [.choice 2 (.octets [1, 2]), .choice 0 (.bool false)])]

example : Spec.safe sampleSequence sampleValue = true ∧ Spec.sendable sampleSequence sampleValue = true := by
  decide +kernel

/-- Only what is sent has to be carried faithfully: the empty OCTET STRING would spoil what follows it (F8), but it
is the DEFAULT and therefore not sent; an empty list is not sent either. -/
example :
    let t : Ty := .sequence false (Fields.ofList
      [("a", .default (.octets []), .octetString ⟨false, some 0, some 4⟩),
       ("b", .optional, .seqOf ⟨true, some 2, some 2⟩ .boolean)]) .nil .nil
    let v : Val := .seq [some (.octets []), some (.seqOf [])]
    Spec.safe t v = true ∧ Spec.sendable t v = true ∧
      Spec.safe (.octetString ⟨false, some 0, some 4⟩) (.octets []) = false := by decide +kernel

/-! ## C09 SEQUENCE extensions -/

theorem receivedAdds_at : ∀ (r : Fields) (cs : List (Option Val)) {i : Nat} {n : String} {k : Kind} {t : Ty},
    Spec.fieldAt r i = some (n, k, t) →
    (Spec.receivedAdds r cs)[i]? =
      some (if Spec.substantial t (Spec.held k (cs[i]?.getD none)) then
        (Spec.held k (cs[i]?.getD none)).map (Spec.received t) else none)
  | .nil, _, _, _, _, _, h => by simp [Spec.fieldAt] at h
  | .cons n' k' t' r, cs, 0, n, k, t, h => by
    simp only [Spec.fieldAt, Option.some.injEq, Prod.mk.injEq] at h
    obtain ⟨rfl, rfl, rfl⟩ := h
    cases cs <;> rfl
  | .cons _ _ _ r, cs, i + 1, n, k, t, h => by
    simp only [Spec.receivedAdds, List.getElem?_cons_succ]
    rw [receivedAdds_at r cs.tail h]
    cases cs <;> rfl

/-- A SEQUENCE with extension additions and addition groups: the root components arrive as in C08, every
addition that holds something arrives with its value and the others are absent, every group with some
component holding something arrives like a SEQUENCE root and the others are absent altogether. -/
theorem C09_sequence_extensions_partial {r a : Fields} {g : Groups} {cs : List (Option Val)}
    (h : Spec.safe (.sequence true r a g) (.seq cs) = true)
    (hs : Spec.sendable (.sequence true r a g) (.seq cs) = true) :
    ∃ adds, Spec.Carries (.sequence true r a g) (.seq cs)
        (.seq (Spec.receivedRoot r cs ++ adds ++ Spec.receivedGroups g (cs.drop (r.length + a.length)))) ∧
      Spec.RoundTrips (.sequence true r a g) (.seq cs)
        (.seq (Spec.receivedRoot r cs ++ adds ++ Spec.receivedGroups g (cs.drop (r.length + a.length)))) ∧
      adds.length = a.length ∧
      ∀ i n k t, Spec.fieldAt a i = some (n, k, t) →
        adds[i]? = some (if Spec.substantial t (Spec.held k (cs[r.length + i]?.getD none)) then
          (Spec.held k (cs[r.length + i]?.getD none)).map (Spec.received t) else none) := by
  obtain ⟨h1, h2⟩ := safe_carries h hs
  simp only [Spec.received, if_true, ← List.append_assoc] at h1 h2
  refine ⟨_, h1, h2, receivedAdds_length a _, fun i n k t hf => ?_⟩
  rw [receivedAdds_at a _ hf, List.getElem?_drop]

/-- A SEQUENCE with additions and two addition groups. -/
def sampleExtended : Ty :=
  .sequence true (Fields.ofList [("a", .mandatory, .boolean)])
    (Fields.ofList [("b", .mandatory, .integer .noConstraint), ("c", .optional, .boolean)])
    (Groups.ofList [[("d", .optional, .boolean), ("e", .mandatory, .bitString ⟨false, some 3, some 3⟩)],
      [("f", .mandatory, .boolean)]])

example :
    let v : Val := .seq [some (.bool true), some (.int 300), none, none, some (.bits [true, false, true]), none]
    Spec.safe sampleExtended v = true ∧ Spec.sendable sampleExtended v = true ∧
      Spec.canonical sampleExtended v = true := by decide +kernel

/-! ## C10 whole schemas -/

/-- Whatever encode accepts (of the safe values) decodes to what the receiver is meant to see.  Missing besides: a CHOICE of an
empty BIT STRING (F87). -/
theorem C10_accepted_partial {t : Ty} {v : Val} {bs : List UInt8} (hn : Spec.returnable v = true) (h : Spec.safe t v = true)
    (he : encode t v = .ok bs) (extra : List UInt8) : decode t (bs ++ extra) = .ok (Spec.received t v) :=
  decode_of_reads he (by rw [returnable_received, hn]) (fun fs e => rt_ty t v fs e h 0) extra

/-- Values in canonical form come back exactly as they were, from any position of any message. -/
theorem C10_canonical_partial {t : Ty} {v : Val} (hc : Spec.canonical t v = true) (h : Spec.safe t v = true)
    (hs : Spec.sendable t v = true) : Spec.Carries t v v ∧ (Spec.returnable v = true → Spec.RoundTrips t v v) := by
  have := safe_carries' h hs
  rwa [received_canonical t v hc] at this

example :
    let v : Val := .seq [some (.int 3), some (.octets [7]), none, some (.seqOf [.choice 2 (.octets [1, 2])])]
    Spec.canonical sampleSequence v = true ∧ Spec.safe sampleSequence v = true ∧
      Spec.sendable sampleSequence v = true := by decide +kernel

/-! ## C12 injectivity -/

/-- There is a decoder that recovers every legible value from what the code writes for it, whatever follows.  (It
differs from the one of the code in how INTEGER, ENUMERATED, BIT STRING, OCTET STRING and the count of a SEQUENCE
OF are read: `Lemmas/Repaired.lean`.)  Missing: the values that are not `Spec.legible`, of which the encoder
writes too little (F3, F5, F6, F9, F16, F18). -/
theorem C12_recoverable_partial : ∃ D : Ty → List UInt8 → Except Err Val, ∀ (t : Ty) (v : Val),
    Spec.legible t v = true → ∀ bs, encode t v = .ok bs → ∀ extra, D t (bs ++ extra) = .ok (Spec.received t v) :=
  ⟨repairedDecode, fun _ _ h _ hb extra => repaired_of_encode h hb extra⟩

/-- Values that encode to the same octets are received as the same value; canonical ones are equal. -/
theorem C12_injective_partial {t : Ty} {v w : Val} {bs : List UInt8} (hv : Spec.legible t v = true)
    (hw : Spec.legible t w = true) (ev : encode t v = .ok bs) (ew : encode t w = .ok bs) :
    Spec.received t v = Spec.received t w ∧
      (Spec.canonical t v = true → Spec.canonical t w = true → v = w) := by
  have h1 := repaired_of_encode hv ev []
  have h2 := repaired_of_encode hw ew []
  rw [h1, Except.ok.injEq] at h2
  refine ⟨h2, fun cv cw => ?_⟩
  rwa [received_canonical t v cv, received_canonical t w cw] at h2

/-- No encoding of one value is a proper prefix of the encoding of a value received differently. -/
theorem C12_prefix_free_partial {t : Ty} {v w : Val} {bs extra : List UInt8} (hv : Spec.legible t v = true)
    (hw : Spec.legible t w = true) (ev : encode t v = .ok bs) (ew : encode t w = .ok (bs ++ extra)) :
    Spec.received t v = Spec.received t w := by
  have h1 := repaired_of_encode hv ev extra
  have h2 := repaired_of_encode hw ew []
  rw [List.append_nil, h1, Except.ok.injEq] at h2
  exact h2

/-- What is written depends on nothing but what is to be received: two objects of a type that differ only in how
they mark components as absent are encoded alike. -/
theorem C12_normal_form {t : Ty} {v w : Val} {bs bs' : List UInt8} (hv : Spec.ofType t v = true)
    (hw : Spec.ofType t w = true) (hr : Spec.received t v = Spec.received t w) (ev : encode t v = .ok bs)
    (ew : encode t w = .ok bs') : bs = bs' := by
  obtain ⟨fs, e1, e2⟩ := (encode_eq t v bs).1 ev
  obtain ⟨fs', e1', e2'⟩ := (encode_eq t w bs').1 ew
  have := same_ty t v w fs fs' hv hw hr e1 e1'
  subst this
  exact bytesToBits_inj (e2.trans e2'.symm)

/-- Exactly the values that are received alike share an encoding. -/
theorem C12_exactly_partial {t : Ty} {v w : Val} {bs bs' : List UInt8} (tv : Spec.ofType t v = true)
    (tw : Spec.ofType t w = true) (hv : Spec.legible t v = true) (hw : Spec.legible t w = true)
    (ev : encode t v = .ok bs) (ew : encode t w = .ok bs') :
    bs = bs' ↔ Spec.received t v = Spec.received t w :=
  ⟨fun h => (C12_injective_partial hv hw ev (h ▸ ew)).1, fun h => C12_normal_form tv tw h ev ew⟩

/-- A SEQUENCE with OPTIONAL, DEFAULT and untouched components, and a group. -/
def loosely : Ty :=
  .sequence true (Fields.ofList
    [("a", .optional, .seqOf ⟨false, some 0, some 4⟩ .boolean), ("b", .default (.int 5), .integer .noConstraint),
     ("c", .mandatory, .seqOf ⟨false, some 0, some 4⟩ .boolean)]) .nil
    (Groups.ofList [[("d", .default (.int 6), .integer .noConstraint), ("e", .optional, .boolean)]])

/-- Two objects that differ in what is set and not in what is received. -/
example :
    let v : Val := .seq [some (.seqOf []), some (.int 5), none, some (.int 6), none]
    let w : Val := .seq [none, none, some (.seqOf []), none, none]
    Spec.ofType loosely v = true ∧ Spec.ofType loosely w = true ∧ Spec.legible loosely v = true ∧
      Spec.legible loosely w = true ∧ Spec.received loosely v = Spec.received loosely w ∧
      encode loosely v = .ok [0x80, 0x04, 0x01, 0x00] ∧ encode loosely w = .ok [0x80, 0x04, 0x01, 0x00] := by
  decide +kernel

/-- Everything `Spec.safe` is legible. -/
theorem C12_legible {t : Ty} {v : Val} (h : Spec.safe t v = true) : Spec.legible t v = true := safe_legible h

/-- A SEQUENCE of values that do not come back: an OCTET STRING that starts with a zero digit (F1), an empty one
(F2, F8), INTEGER (5..5, ...) (F4), SEQUENCE (SIZE(2, ...)) OF (F4), a BIT STRING outside its root (F7), an
addition of an ENUMERATED numbered 7 (F16). -/
def misreadSequence : Ty :=
  .sequence false (Fields.ofList
    [("a", .mandatory, .octetString ⟨false, some 0, some 4⟩),
     ("b", .mandatory, .octetString ⟨false, none, none⟩),
     ("c", .mandatory, .integer (.valueRange (some 5) (some 5) true)),
     ("d", .mandatory, .seqOf ⟨true, some 2, some 2⟩ .boolean),
     ("e", .mandatory, .bitString ⟨true, some 1, some 2⟩),
     ("f", .mandatory, .enumerated true [("x", 0), ("y", 1)] [("z", 7)])]) .nil .nil

/-- They are legible all the same: only the decoder is at fault. -/
example :
    let v : Val := .seq [some (.octets [5]), some (.octets []), some (.int 5),
      some (.seqOf [.bool true, .bool false]), some (.bits [true, true, true]), some (.enum 7)]
    Spec.legible misreadSequence v = true ∧ Spec.safe misreadSequence v = false ∧
      Spec.sendable misreadSequence v = true ∧
      encode misreadSequence v = .ok [0x20, 0x05, 0x00, 0x28, 0x03, 0xF0, 0x00] := by
  decide +kernel

/-! ## C41 re-encoding -/

/-- What was decoded, if anything was. -/
private theorem decoded_received {t : Ty} {v w : Val} {bs : List UInt8} (h : Spec.safe t v = true) (he : encode t v = .ok bs)
    (hd : decode t bs = .ok w) : decode t bs = .ok (Spec.received t v) := by
  obtain ⟨p', h1, h2, _⟩ := decode_ok hd
  obtain ⟨fs, e1, e2⟩ := (encode_eq t v bs).1 he
  obtain ⟨q, e, _⟩ := rt_ty t v fs e1 h 0 _ _ (At.init (emit 0 fs ++ _))
  rw [e2, produceCompleteEncoding_eq, e, Except.ok.injEq, Prod.mk.injEq] at h1
  rw [hd, h1.1]

/-- A value that arrives unchanged, such as a canonical one: encode what was decoded, and the same octets come
out. -/
theorem C41_reencode_partial {t : Ty} {v w : Val} {bs : List UInt8} (hc : Spec.received t v = v)
    (h : Spec.safe t v = true) (he : encode t v = .ok bs) (hd : decode t bs = .ok w) : encode t w = .ok bs := by
  have := decoded_received h he hd
  rw [hd, Except.ok.injEq, hc] at this
  rw [this, he]

theorem C41_canonical_partial {t : Ty} {v w : Val} {bs : List UInt8} (hc : Spec.canonical t v = true)
    (h : Spec.safe t v = true) (he : encode t v = .ok bs) (hd : decode t bs = .ok w) : encode t w = .ok bs :=
  C41_reencode_partial (received_canonical t v hc) h he hd

/-- Any safe value.  What was decoded can differ from it, but if it would arrive unchanged when sent on, and encode
takes it, the same octets come out.  Missing: what was received may hold nothing any more where the original
did (F23), and encode may refuse it (F79). -/
theorem C41_stable_partial {t : Ty} {v w : Val} {bs bs' : List UInt8} (ht : Spec.ofType t v = true)
    (h : Spec.safe t v = true) (he : encode t v = .ok bs) (hd : decode t bs = .ok w)
    (hw : Spec.received t w = w) (he' : encode t w = .ok bs') : bs' = bs := by
  have := decoded_received h he hd
  rw [hd, Except.ok.injEq] at this
  subst this
  exact C12_normal_form (ofType_received t v ht) ht hw he' he

/-- And only then. -/
theorem C41_only_partial {t : Ty} {v w : Val} {bs : List UInt8} (h : Spec.safe t v = true)
    (he : encode t v = .ok bs) (hd : decode t bs = .ok w) (hl : Spec.legible t w = true)
    (he' : encode t w = .ok bs) : Spec.received t w = w := by
  have := decoded_received h he hd
  rw [hd, Except.ok.injEq] at this
  have h2 := (C12_injective_partial (safe_legible h) hl he he').1
  rw [← this] at h2
  exact h2.symm

/-- encode takes what can be sent. -/
theorem C41_forwarded_partial {t : Ty} {v w : Val} {bs : List UInt8} (ht : Spec.ofType t v = true)
    (h : Spec.safe t v = true) (he : encode t v = .ok bs) (hd : decode t bs = .ok w)
    (hw : Spec.received t w = w) (hl : Spec.legible t w = true) (hs : Spec.sendable t w = true) :
    encode t w = .ok bs := by
  obtain ⟨bs', e⟩ := legible_encodable hl hs
  rw [e, C41_stable_partial ht h he hd hw e]

/-- Not canonical, and what arrives is. -/
example :
    let v : Val := .seq [some (.seqOf []), some (.int 5), none, some (.int 6), none]
    Spec.ofType loosely v = true ∧ Spec.safe loosely v = true ∧ Spec.canonical loosely v = false ∧
      encode loosely v = .ok [0x80, 0x04, 0x01, 0x00] ∧
      decode loosely [0x80, 0x04, 0x01, 0x00] = .ok (.seq [none, none, some (.seqOf []), none, none]) ∧
      Spec.received loosely (Spec.received loosely v) = Spec.received loosely v ∧
      Spec.legible loosely (Spec.received loosely v) = true ∧
      Spec.sendable loosely (Spec.received loosely v) = true := by
  decide +kernel

end Verif.Props
