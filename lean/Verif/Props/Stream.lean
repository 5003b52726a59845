import Verif.Lemmas.Stream
import Verif.Lemmas.Closing
/-!
# C11, C13, C14, C27, C39: the octet stream

Shape of the output of `encode`, the reader's position, and the decoder on inputs that are longer, shorter
or simply different from what `encode` produces.
-/
namespace Verif.Props
open Verif

/-! ## C13 shape of the output -/

/-- If the value can be turned into fields, `encode` succeeds, and its octets are the fields laid out as
described, followed by fewer than 8 zero bits (one zero octet if there are no bits at all). -/
theorem C13_output_shape {t : Ty} {v : Val} {fs : List BitField} (h : encTy t v = .ok fs) :
    ∃ bs w k, encode t v = .ok bs ∧ bs ≠ [] ∧ Spec.Layout fs w ∧
      Spec.octetsToBits bs = w ++ List.replicate k false ∧ (if w = [] then k = 8 else k < 8) := by
  obtain ⟨bs, hb⟩ := encode_of_encTy h
  obtain ⟨fs', e1, e2⟩ := (encode_eq t v bs).1 hb
  rw [h] at e1; cases e1
  refine ⟨bs, emit 0 fs, _, hb, ?_, emit_layout fs, by rw [octetsToBits_eq, e2]; exact produceCompleteEncoding_eq fs, ?_⟩
  · rintro rfl
    exact produceCompleteEncoding_ne_nil fs (by rw [← e2]; rfl)
  · by_cases h0 : emit 0 fs = []
    · simp [h0]
    · rw [if_neg h0, if_neg (by simpa using h0)]; exact padLen_lt _

/-- The layout of a field list is unique, so the octets are determined by it. -/
theorem C13_layout_unique {fs : List BitField} {w w' : Bits} (h : Spec.Layout fs w) (h' : Spec.Layout fs w') :
    w = w' := by rw [layout_emit h, layout_emit h']

/-- `encode` fails only if some field cannot be produced; it never fails while assembling the octets. -/
theorem C13_error {t : Ty} {v : Val} {e : Err} (h : encode t v = .error e) : encTy t v = .error e := by
  cases he : encTy t v with
  | error e' => unfold encode at h; rw [he] at h; cases h; rfl
  | ok fs =>
    obtain ⟨bs, hb⟩ := encode_of_encTy he
    rw [hb] at h; cases h

example : encTy (.sequence false (Fields.ofList [("a", .mandatory, .boolean), ("b", .mandatory, .integer .noConstraint)])
    .nil .nil) (.seq [some (.bool true), some (.int (-2))]) =
      .ok [⟨false, [true]⟩, ⟨true, [false, false, false, false, false, false, false, true,
        true, true, true, true, true, true, true, false]⟩] := by decide +kernel
example : encTy (.integer (.valueRange (some 3) (some 3) false)) (.int 3) = .ok [⟨false, []⟩] := by decide +kernel

/-! ## C14 the bit pointer -/

/-- A history of `PerBytes.next` calls and what they return. -/
def readAll : List (BitSize × Bool) → Dec (List Nat)
  | [] => pure []
  | (size, align) :: hist => do
    let v ← next size align
    let vs ← readAll hist
    return v :: vs

/-- The reads as the specification sees them. -/
def asReads (hist : List (BitSize × Bool)) : List Spec.Read := hist.map fun h => ⟨h.1.octets * 8 + h.1.bits, h.2⟩

/-- From any reader standing at bit `n`, after any history of reads: the reader stands at the counter, and
the numbers returned are the bits between start and end of each read; a read that starts behind the end
of the input is the only thing that fails. -/
theorem C14_bit_pointer : ∀ (hist : List (BitSize × Bool)) {p : PerBytes} {n : Nat} {rest : Bits},
    Spec.ReaderAt p n rest →
    (Spec.startsInside p.binaryString n (asReads hist) = true →
      ∃ p', readAll hist p = .ok (Spec.readout p.binaryString n (asReads hist), p') ∧
        p'.offset.currBits < 8 ∧
        p'.offset.currOctets * 8 + p'.offset.currBits = Spec.counter n (asReads hist) ∧
        p'.binaryString = p.binaryString) ∧
    (Spec.startsInside p.binaryString n (asReads hist) = false → readAll hist p = .error .valueError)
  | [], p, n, rest, h => by
    rw [readerAt_iff] at h
    exact ⟨fun _ => ⟨p, rfl, h.bits_lt, h.pos_eq, rfl⟩, fun h => by cases h⟩
  | (size, align) :: hist, p, n, rest, h => by
    rw [readerAt_iff] at h
    obtain ⟨h1, h2⟩ := next_eq h size align
    have hs : (⟨size.octets * 8 + size.bits, align⟩ : Spec.Read).start n = alignPos align n := by
      rw [alignPos_eq]; rfl
    have hcons : asReads ((size, align) :: hist) = ⟨size.octets * 8 + size.bits, align⟩ :: asReads hist := rfl
    simp only [hcons, Spec.startsInside, Spec.readout, Spec.counter, hs]
    have ih := C14_bit_pointer hist (readerAt_iff.2 h1)
    dsimp only at ih
    have fail : ∀ {v q}, next size align p = .ok (v, q) → readAll hist q = .error .valueError →
        readAll ((size, align) :: hist) p = .error .valueError := by
      intro v q e1 e2
      refine bind_of_ok e1 ?_
      show StateT.bind _ _ _ = _
      unfold StateT.bind
      rw [e2]; rfl
    by_cases h0 : size.octets * 8 + size.bits = 0
    · rw [if_pos h0] at h2
      simp only [h0, beq_self_eq_true, Bool.true_or, Bool.true_and, Nat.add_zero, List.take_zero] at ih ⊢
      refine ⟨fun hi => ?_, fun hi => fail h2 (ih.2 hi)⟩
      obtain ⟨p', e, b1, b2, b3⟩ := ih.1 hi
      exact ⟨p', bind_of_ok h2 (bind_of_ok e rfl), b1, b2, b3⟩
    · rw [if_neg h0] at h2
      by_cases hl : p.binaryString.length ≤ alignPos align n
      · rw [if_pos hl] at h2
        have : ¬ (alignPos align n < p.binaryString.length) := by omega
        simp only [this, decide_false, Bool.or_false, beq_eq_false_iff_ne.2 h0, Bool.false_and]
        refine ⟨(fun h => by cases h), fun _ => ?_⟩
        unfold readAll
        show (next size align p >>= _) = _
        rw [h2]; rfl
      · rw [if_neg hl] at h2
        have : alignPos align n < p.binaryString.length := by omega
        simp only [this, decide_true, Bool.or_true, Bool.true_and, number_eq]
        refine ⟨fun hi => ?_, fun hi => fail h2 (ih.2 hi)⟩
        obtain ⟨p', e, b1, b2, b3⟩ := ih.1 hi
        exact ⟨p', bind_of_ok h2 (bind_of_ok e rfl), b1, b2, b3⟩

/-- The counter never moves backwards. -/
theorem C14_monotone : ∀ (rs : List Spec.Read) (n : Nat), n ≤ Spec.counter n rs
  | [], _ => Nat.le_refl _
  | r :: rs, n => by
    have h1 := C14_monotone rs (r.start n + r.bits)
    have h2 : n ≤ r.start n := by
      unfold Spec.Read.start
      split
      · unfold Spec.roundUp8; omega
      · exact Nat.le_refl _
    rw [Spec.counter]; omega

/-- The same for everything the decoder does, on any input: it leaves the input alone and moves forward. -/
theorem C14_decoder_moves_forward {t : Ty} {p p' : PerBytes} {w : Val} (hb : p.offset.currBits < 8)
    (h : decTy t p = .ok (w, p')) :
    p'.binaryString = p.binaryString ∧ p'.offset.currBits < 8 ∧
      p.offset.currOctets * 8 + p.offset.currBits ≤ p'.offset.currOctets * 8 + p'.offset.currBits := by
  obtain ⟨h1, h2, h3, _⟩ := (tame_ty t).run p w p' hb h
  exact ⟨h1, h2, h3⟩

example : Spec.startsInside (Spec.octetsToBits [0xA5, 0x3C, 0x77]) 0
      (asReads [(⟨0, 3⟩, false), (⟨1, 2⟩, true), (⟨0, 0⟩, true)]) = true ∧
    Spec.readout (Spec.octetsToBits [0xA5, 0x3C, 0x77]) 0
      (asReads [(⟨0, 3⟩, false), (⟨1, 2⟩, true), (⟨0, 0⟩, true)]) = [5, 0xF1, 0] ∧
    Spec.counter 0 (asReads [(⟨0, 3⟩, false), (⟨1, 2⟩, true), (⟨0, 0⟩, true)]) = 24 := by decide +kernel

/-! ## C11 trailing data -/

/-- The reader `decode` starts with. -/
theorem decode_run {t : Ty} {bs : List UInt8} (hne : bs ≠ []) :
    decode t bs = (decTy t ⟨Offset.init 0 0, Spec.octetsToBits bs⟩).bind
      fun r => if Spec.returnable r.1 then .ok r.1 else .error .typeError := by
  rw [decode_eq hne, octetsToBits_eq]
  rfl

/-- Any input at all, not only encodings: if decoding it ended inside the input, then whatever is
appended does not change the result. -/
theorem C11_trailing {t : Ty} {bs : List UInt8} {w : Val} {p' : PerBytes} (hne : bs ≠ [])
    (h : decTy t ⟨Offset.init 0 0, Spec.octetsToBits bs⟩ = .ok (w, p'))
    (hend : p'.offset.currOctets * 8 + p'.offset.currBits ≤ 8 * bs.length) (extra : List UInt8) :
    decode t (bs ++ extra) = decode t bs ∧ (Spec.returnable w = true → decode t bs = .ok w) := by
  have h0 : decode t bs = if Spec.returnable w then .ok w else .error .typeError := by rw [decode_run hne, h]; rfl
  refine ⟨?_, fun hr => by rw [h0, hr]; rfl⟩
  rw [h0]
  obtain ⟨_, _, _, h4⟩ := (tame_ty t).run _ w p' (by simp [Offset.init]) h
  have := h4 (bytesToBits extra) (by
    show _ ≤ (Spec.octetsToBits bs).length
    rw [octetsToBits_eq, bytesToBits_length]; exact hend)
  rw [decode_run (by simp [hne]), octetsToBits_eq, bytesToBits_append, ← octetsToBits_eq bs]
  unfold PerBytes.extend at this
  rw [this]; rfl

/-- Encodings of safe values. The full statement is for all values `encode` accepts; an extensible
BIT STRING outside its root as last component (F7) and the other defects behind `Spec.safe` are missing.  The second
half of the property, that components consume exactly the bits they produced, is `Spec.Carries` in C01-C10. -/
theorem C11_encodings_partial {t : Ty} {v : Val} {bs : List UInt8} (h : Spec.safe t v = true)
    (he : encode t v = .ok bs) (extra : List UInt8) : decode t (bs ++ extra) = decode t bs := by
  obtain ⟨fs, e1, e2⟩ := (encode_eq t v bs).1 he
  have hne : bs ≠ [] := by
    rintro rfl
    have := produceCompleteEncoding_ne_nil fs
    rw [← e2] at this; exact this rfl
  have key : ∀ x, ∃ p', decTy t ⟨Offset.init 0 0, bytesToBits (bs ++ x)⟩ = .ok (Spec.received t v, p') := fun x => by
    rw [bytesToBits_append, e2, produceCompleteEncoding_eq, List.append_assoc]
    obtain ⟨p', e, _⟩ := rt_ty t v fs e1 h 0 _ _ (At.init (emit 0 fs ++ _))
    exact ⟨p', e⟩
  obtain ⟨p, h1⟩ := key extra
  obtain ⟨q, h2⟩ := key []
  rw [List.append_nil] at h2
  rw [decode_run hne, decode_run (by simp [hne]), octetsToBits_eq, octetsToBits_eq, h1, h2]
  rfl

example : decTy (.seqOf ⟨false, some 0, some 3⟩ .boolean) ⟨Offset.init 0 0, Spec.octetsToBits [0xB0]⟩ =
    .ok (.seqOf [.bool true, .bool true], ⟨⟨0, 3, 0, 4⟩, Spec.octetsToBits [0xB0]⟩) := by decide +kernel

/-! ## C27 truncated input

Full statement: if decoding the whole message reads beyond bit `8 * k`, then decoding its first `k` octets
raises.  The code violates it (F10), because the read that straddles the end silently uses the bits that are there.
What does hold is that the position gives the truncation away, and that a read *starting* behind the end raises. -/

/-- Decoding the first `k` octets either raises or leaves the reader behind the end of its input. -/
theorem C27_overrun_partial {t : Ty} {bs : List UInt8} {k : Nat} {w w' : Val} {p p' : PerBytes} (hk : k ≤ bs.length)
    (h : decTy t ⟨Offset.init 0 0, Spec.octetsToBits bs⟩ = .ok (w, p))
    (hneed : 8 * k < p.offset.currOctets * 8 + p.offset.currBits)
    (h' : decTy t ⟨Offset.init 0 0, Spec.octetsToBits (bs.take k)⟩ = .ok (w', p')) :
    8 * k < p'.offset.currOctets * 8 + p'.offset.currBits := by
  refine Nat.lt_of_not_le fun hle => ?_
  obtain ⟨_, _, _, h4⟩ := (tame_ty t).run _ w' p' (by simp [Offset.init]) h'
  have hlen : (Spec.octetsToBits (bs.take k)).length = 8 * k := by
    rw [octetsToBits_eq, bytesToBits_length, List.length_take]; omega
  have := h4 (Spec.octetsToBits (bs.drop k)) (by rw [hlen]; exact hle)
  unfold PerBytes.extend at this
  dsimp only at this
  rw [octetsToBits_eq, octetsToBits_eq, ← bytesToBits_append, List.take_append_drop, ← octetsToBits_eq, h] at this
  simp only [Except.ok.injEq, Prod.mk.injEq] at this
  rw [this.2] at hneed
  dsimp only at hneed
  omega

/-- The full claim for the types that keep every field inside one octet: if decoding the whole message reads beyond its
first `k` octets, these alone are refused with `ValueError`.  The message is any message, not only one of `encode`. -/
theorem C27_narrow_partial {t : Ty} {bs : List UInt8} {k : Nat} {w : Val} {p : PerBytes} {Q : Spec.Phase}
    (hn : Spec.narrow t (some 0) = some Q) (hk : k ≤ bs.length)
    (h : decTy t ⟨Offset.init 0 0, Spec.octetsToBits bs⟩ = .ok (w, p))
    (hneed : 8 * k < p.offset.currOctets * 8 + p.offset.currBits) :
    decode t (bs.take k) = .error .valueError := by
  by_cases h0 : bs.take k = []
  · rw [h0]; rfl
  · have hlen : (bytesToBits (bs.take k)).length = 8 * k := by
      rw [bytesToBits_length, List.length_take]; omega
    have hx : PerBytes.extend ⟨Offset.init 0 0, bytesToBits (bs.take k)⟩ (bytesToBits (bs.drop k)) =
        ⟨Offset.init 0 0, Spec.octetsToBits bs⟩ := by
      unfold PerBytes.extend
      rw [octetsToBits_eq, ← bytesToBits_append, List.take_append_drop]
    have hs := stays_ty t _ _ hn ⟨Offset.init 0 0, bytesToBits (bs.take k)⟩ k (by simp [Offset.init]) hlen
      (by simp [PerBytes.pos, Offset.init]) (by simp [PerBytes.pos, Offset.init, Spec.Phase.holds])
    rw [decode_eq h0]
    unfold Outcome at hs
    split at hs
    · rename_i a p' e
      obtain ⟨_, _, s3, _, s5⟩ := hs
      have := s5 (bytesToBits (bs.drop k))
      rw [hx, h] at this
      simp only [Except.ok.injEq, Prod.mk.injEq] at this
      rw [this.2] at hneed
      unfold PerBytes.pos at s3
      simp only [PerBytes.extend] at hneed
      omega
    · rename_i x e
      rcases hs with hs | hs
      · rw [e, hs]; rfl
      · have := hs (bytesToBits (bs.drop k))
        rw [hx, h] at this
        cases this

/-- Used in the example below: flags, a small number, an octet and a list of flags. -/
def narrowSample : Ty := .sequence false
  (.cons "a" .mandatory .boolean
    (.cons "b" .optional (.integer (.valueRange (some 0) (some 4) false))
    (.cons "c" .mandatory (.integer (.valueRange (some 0) (some 255) false))
    (.cons "d" .mandatory (.seqOf ⟨false, some 1, some 8⟩ .boolean) .nil))))
  .nil .nil

example : Spec.narrow narrowSample (some 0) = some none ∧
    (∃ w p, decTy narrowSample ⟨Offset.init 0 0, Spec.octetsToBits [0xD8, 0x07, 0xFF, 0x60]⟩ = .ok (w, p) ∧
      8 * 3 < p.offset.currOctets * 8 + p.offset.currBits) ∧
    decode narrowSample [0xD8, 0x07, 0xFF] = .error .valueError :=
  ⟨by decide +kernel,
    ⟨.seq [some (.bool true), some (.int 3), some (.int 7), some (.seqOf ([true, true, true, true, true, false, true, true].map .bool))], _,
      show _ = Except.ok (_, ⟨⟨3, 2, 3, 3⟩, Spec.octetsToBits [0xD8, 0x07, 0xFF, 0x60]⟩) by decide +kernel, by decide⟩,
    by decide +kernel⟩

/-- It is enough if the last field lies inside one octet, whatever comes before it: if decoding the whole message reads
beyond its first `k` octets, these alone are refused. -/
theorem C27_closing_partial {t : Ty} {bs : List UInt8} {k : Nat} {w : Val} {p : PerBytes}
    (hc : Spec.closing t (some 0) = true) (hk : k ≤ bs.length)
    (h : decTy t ⟨Offset.init 0 0, Spec.octetsToBits bs⟩ = .ok (w, p))
    (hneed : 8 * k < p.offset.currOctets * 8 + p.offset.currBits) :
    ∃ e, decode t (bs.take k) = .error e := by
  by_cases h0 : bs.take k = []
  · exact ⟨.valueError, by rw [h0]; rfl⟩
  · rw [decode_eq h0]
    cases h' : decTy t ⟨Offset.init 0 0, bytesToBits (bs.take k)⟩ with
    | error e => exact ⟨e, rfl⟩
    | ok r =>
      exfalso
      have hlen : (bytesToBits (bs.take k)).length = 8 * k := by
        rw [bytesToBits_length, List.length_take]; omega
      have h1 := ((closing_ty t (some 0) hc).ends _ k r.1 r.2 (by simp [Offset.init]) hlen
        (fun _ => by simp [PerBytes.pos, Offset.init]) (fun _ => by simp [PerBytes.pos, Offset.init, Spec.Phase.holds])
        h').1 rfl
      have h2 := C27_overrun_partial hk h hneed (by rw [octetsToBits_eq]; exact h')
      unfold PerBytes.pos at h1
      omega

/-- An OCTET STRING of any length, an INTEGER of any size that may be absent, a list of at most 7 elements. -/
def closingSample : Ty := .sequence false (Fields.ofList
  [("data", .mandatory, .octetString ⟨false, none, none⟩), ("number", .optional, .integer .noConstraint),
   ("flags", .mandatory, .seqOf ⟨false, some 0, some 7⟩ .boolean)]) .nil .nil

/-- The message is cut behind the first octet of the string, and inside the number. -/
example : Spec.closing closingSample (some 0) = true ∧ Spec.narrow closingSample (some 0) = none ∧
    (∃ w p, decTy closingSample ⟨Offset.init 0 0, Spec.octetsToBits [0x80, 0x02, 0x41, 0x42, 0x02, 0x01, 0x00, 0x58]⟩ = .ok (w, p) ∧
      8 * 6 < p.offset.currOctets * 8 + p.offset.currBits) ∧
    decode closingSample [0x80, 0x02, 0x41] = .error .valueError ∧
    decode closingSample [0x80, 0x02, 0x41, 0x42, 0x02, 0x01] = .error .valueError :=
  ⟨by decide +kernel, by decide +kernel,
    ⟨.seq [some (.octets [0x41, 0x42]), some (.int 256), some (.seqOf ([true, true].map .bool))], _,
      show _ = Except.ok (_, ⟨⟨7, 4, 7, 5⟩, Spec.octetsToBits [0x80, 0x02, 0x41, 0x42, 0x02, 0x01, 0x00, 0x58]⟩) by decide +kernel, by decide⟩,
    by decide +kernel, by decide +kernel⟩

/-- A read that wants bits and starts at or behind the end of the input raises `ValueError`. -/
theorem C27_read_behind_end_partial {p : PerBytes} {n : Nat} {rest : Bits} (h : Spec.ReaderAt p n rest)
    {size : BitSize} {align : Bool} (h0 : 0 < size.octets * 8 + size.bits)
    (hl : p.binaryString.length ≤ (if align then Spec.roundUp8 n else n)) :
    next size align p = .error .valueError := by
  rw [readerAt_iff] at h
  exact next_error h (by omega) (by rw [alignPos_eq]; exact hl)

/-- The empty input is refused by every schema. -/
theorem C27_empty_partial (t : Ty) : decode t [] = .error .valueError := rfl

/-- Used in the example below. -/
def truncSample : Ty := .integer .noConstraint

example : ∃ w p, decTy truncSample ⟨Offset.init 0 0, Spec.octetsToBits [0x02, 0x01, 0x00]⟩ = .ok (w, p) ∧
    8 * 1 < p.offset.currOctets * 8 + p.offset.currBits ∧
    decTy truncSample ⟨Offset.init 0 0, Spec.octetsToBits ([0x02, 0x01, 0x00].take 1)⟩ = .error .valueError :=
  ⟨.int 256, _, show _ = Except.ok (Val.int 256, ⟨⟨1, 0, 3, 0⟩, Spec.octetsToBits [0x02, 0x01, 0x00]⟩) by decide +kernel,
    by decide, by decide +kernel⟩

/-! ## C39 open types -/

/-- Whatever the content and whatever reads it: behind an open type field the reader stands exactly behind the
octets announced by the length determinant at the next octet boundary. -/
theorem C39_position {α : Type} {m : Dec α} {p p' : PerBytes} {n : Nat} {rest : Bits} {a : α}
    (h : Spec.ReaderAt p n rest) (hm : decodeOpenTypeField m p = .ok (a, p')) :
    ∃ k l, Spec.announced (rest.drop (Spec.roundUp8 n - n)) = some (k, l) ∧
      Spec.ReaderAt p' (Spec.roundUp8 n + k + 8 * l) (rest.drop (Spec.roundUp8 n + k + 8 * l - n)) := by
  rw [readerAt_iff] at h
  unfold decodeOpenTypeField at hm
  obtain ⟨len, p1, e1, hm⟩ := bind_eq_ok hm
  obtain ⟨k, l, hk, hl, hk8, a1, s1⟩ := lenDet_inv h e1
  subst hl
  obtain ⟨v, p2, e2, hm⟩ := bind_eq_ok hm
  obtain ⟨a2, _, _, s2⟩ := next_inv a1 e2
  obtain ⟨inner, p3, e3, hm⟩ := bind_eq_ok hm
  obtain ⟨r, p4, e4, hm⟩ := bind_eq_ok hm
  cases hm
  have hp3 : p3 = p2 := by
    unfold liftE at e3; cases hx : PerBytes.init (zfillHex ((l : Int).toNat * 2) (pyHex v)) <;> rw [hx] at e3 <;> cases e3; rfl
  have hp4 : p' = p3 := by
    unfold liftE at e4; cases hx : m inner <;> rw [hx] at e4 <;> cases e4; rfl
  subst hp3 hp4
  refine ⟨k, l, hk, readerAt_iff.2 ?_⟩
  have hmod : (Spec.roundUp8 n + k) % 8 = 0 := by unfold Spec.roundUp8; omega
  have hal : alignPos true (Spec.roundUp8 n + k) = Spec.roundUp8 n + k := by
    rw [alignPos_true, padLen_aligned hmod]; rfl
  have hup : n ≤ Spec.roundUp8 n := by rw [roundUp8_eq]; omega
  rw [hal] at a2
  simp only [Int.toNat_natCast, Nat.add_zero, Nat.mul_comm l 8, List.drop_drop] at a2
  have e : Spec.roundUp8 n + k - n + (Spec.roundUp8 n + k + 8 * l - (Spec.roundUp8 n + k)) =
    Spec.roundUp8 n + k + 8 * l - n := by omega
  rwa [e] at a2

/-- The content is decoded from the announced octets alone (if there is at least one and they are all there):
nothing before or behind them is visible to the inner type. -/
theorem C39_content {α : Type} {m : Dec α} {p p' : PerBytes} {n k l : Nat} {rest : Bits} {a : α}
    (h : Spec.ReaderAt p n rest) (hm : decodeOpenTypeField m p = .ok (a, p'))
    (hk : Spec.announced (rest.drop (Spec.roundUp8 n - n)) = some (k, l)) (hl : 1 ≤ l)
    (hfull : Spec.roundUp8 n - n + k + 8 * l ≤ rest.length) :
    ∃ q, m ⟨Offset.init 0 0, (rest.drop (Spec.roundUp8 n - n + k)).take (8 * l)⟩ = .ok (a, q) := by
  rw [readerAt_iff] at h
  unfold decodeOpenTypeField at hm
  obtain ⟨len, p1, e1, hm⟩ := bind_eq_ok hm
  obtain ⟨k', l', hk', hl', hk8, a1, s1⟩ := lenDet_inv h e1
  rw [hk] at hk'
  cases hk'
  subst hl'
  obtain ⟨v, p2, e2, hm⟩ := bind_eq_ok hm
  obtain ⟨_, v2, _, _⟩ := next_inv a1 e2
  obtain ⟨inner, p3, e3, hm⟩ := bind_eq_ok hm
  obtain ⟨r, p4, e4, hm⟩ := bind_eq_ok hm
  cases hm
  have hmod : (Spec.roundUp8 n + k) % 8 = 0 := by unfold Spec.roundUp8; omega
  have hal : alignPos true (Spec.roundUp8 n + k) = Spec.roundUp8 n + k := by
    rw [alignPos_true, padLen_aligned hmod]; rfl
  have hup : n ≤ Spec.roundUp8 n := by rw [roundUp8_eq]; omega
  rw [hal] at v2
  simp only [Int.toNat_natCast, Nat.add_zero, Nat.mul_comm l 8, Nat.sub_self, List.drop_zero] at v2
  rw [show Spec.roundUp8 n + k - n = Spec.roundUp8 n - n + k by omega] at v2
  generalize hc : (rest.drop (Spec.roundUp8 n - n + k)).take (8 * l) = c at *
  have hlen : c.length = 8 * l := by rw [← hc, List.length_take, List.length_drop]; omega
  obtain ⟨bs, hb⟩ := exists_bytes c (by omega)
  have hbl : bs.length = l := by
    have := congrArg List.length hb; rw [bytesToBits_length] at this; omega
  have hbne : bs ≠ [] := by rintro rfl; simp at hbl; omega
  have hinit : PerBytes.init (zfillHex ((l : Int).toNat * 2) (pyHex v)) = .ok ⟨Offset.init 0 0, c⟩ := by
    rw [v2, ← hb, Int.toNat_natCast, ← hbl, zfillHex_pyHex (by omega), Nat.mul_comm, natToHex_bytes,
      PerBytes_init_hexlify hbne]
    have := bitsToNat_lt (bytesToBits bs)
    rw [bytesToBits_length] at this
    rw [pow16, show 4 * (bs.length * 2) = 8 * bs.length by omega]
    exact this
  rw [hinit] at e3
  cases e3
  unfold liftE at e4
  cases hx : m ⟨Offset.init 0 0, c⟩ with
  | error e => rw [hx] at e4; cases e4
  | ok r' => obtain ⟨x, y⟩ := r'; rw [hx] at e4; cases e4; exact ⟨y, rfl⟩

/-- What the encoder writes: a length determinant, aligned, announcing exactly the octets of the content, and
then the content, which is the complete encoding of the inner type. -/
theorem C39_encoder_partial {t : Ty} {v : Val} {fs ofl : List BitField} {bs : List UInt8} (he : encTy t v = .ok fs)
    (hb : encode t v = .ok bs) (ho : encodeOpenTypeField fs = .ok ofl) (h : bs.length ≠ 16384) :
    ∃ d k, ofl = [⟨true, d⟩, ⟨true, Spec.octetsToBits bs⟩] ∧ d.length = k ∧
      ∀ s, Spec.announced (d ++ s) = some (k, bs.length) := by
  obtain ⟨fs', e1, e2⟩ := (encode_eq t v bs).1 hb
  rw [he] at e1; cases e1
  unfold encodeOpenTypeField at ho
  obtain ⟨ld, e3, e4⟩ := Except.bind_eq_ok ho
  have hle := lenDet_bound e3
  have hlen : (produceCompleteEncoding fs).length / 8 = bs.length := by rw [← e2, bytesToBits_length]; omega
  rw [hlen] at e3 hle
  cases e4
  rw [← e2, octetsToBits_eq]
  unfold encodeLengthDeterminant at e3
  simp only [Bool.false_eq_true, if_false] at e3
  by_cases h127 : (bs.length : Int) ≤ 127
  · have hlt : ((bs.length : Int)).toNat < 2 ^ 7 := by simp; omega
    rw [if_pos h127, encodeNN_fixed (s := ⟨0, 7⟩) (by omega) true (by simp) hlt] at e3
    cases e3
    refine ⟨_, 8, rfl, by simp [natToBits_length], fun s => ?_⟩
    simp only [List.cons_append, List.nil_append, Spec.announced, number_eq, Int.toNat_natCast]
    rw [List.take_left' (by rw [natToBits_length]), bitsToNat_natToBits_of_lt (by simpa using hlt)]
  · have hlt : ((bs.length : Int)).toNat < 2 ^ 14 := by simp; omega
    rw [if_neg h127, if_pos (by omega), encodeNN_fixed (s := ⟨1, 6⟩) (by omega) true (by simp) hlt] at e3
    cases e3
    refine ⟨_, 16, rfl, by simp [natToBits_length], fun s => ?_⟩
    simp only [List.cons_append, List.nil_append, Spec.announced, number_eq, Int.toNat_natCast]
    rw [List.take_left' (by rw [natToBits_length]), bitsToNat_natToBits_of_lt (by simpa using hlt)]

/-- The inner type uses one bit of two announced octets; the reader is behind both of them. -/
example : decodeOpenTypeField decodeBoolean ⟨⟨0, 0, 0, 3⟩, Spec.octetsToBits [0xFF, 0x02, 0x80, 0x55, 0xAA]⟩ =
    .ok (.bool true, ⟨⟨2, 0, 4, 0⟩, Spec.octetsToBits [0xFF, 0x02, 0x80, 0x55, 0xAA]⟩) := by decide +kernel

end Verif.Props
