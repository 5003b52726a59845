import Verif.Decoder
import Verif.Lemmas.Bits
/-!
# The decoder's cursor and the encoder's field list, as positions in one bit string
-/
namespace Verif

/-- Number of bits needed to get from `pos` to the next octet boundary. -/
def padLen (pos : Nat) : Nat := (8 - pos % 8) % 8

theorem padLen_lt (pos : Nat) : padLen pos < 8 := by unfold padLen; omega

theorem padLen_aligned {pos : Nat} (h : pos % 8 = 0) : padLen pos = 0 := by unfold padLen; omega

theorem add_padLen_mod (pos : Nat) : (pos + padLen pos) % 8 = 0 := by unfold padLen; omega

/-- Padding inserted in front of a field with the given alignment flag at position `pos`. -/
def padTo (align : Bool) (pos : Nat) : Bits :=
  if align then List.replicate (padLen pos) false else []

theorem padTo_false (pos : Nat) : padTo false pos = [] := rfl

theorem padTo_aligned {align : Bool} {pos : Nat} (h : pos % 8 = 0) : padTo align pos = [] := by
  cases align
  · rfl
  · simp [padTo, padLen_aligned h]

theorem padTo_true_length (pos : Nat) : (padTo true pos).length = padLen pos := by simp [padTo]

/-- Bits produced by a field list starting at position `pos`. -/
def emit : Nat → List BitField → Bits
  | _, [] => []
  | pos, f :: fs =>
    let w := padTo f.octetAlign pos ++ f.value
    w ++ emit (pos + w.length) fs

theorem emit_nil (pos : Nat) : emit pos [] = [] := rfl

theorem emit_cons (pos : Nat) (f : BitField) (fs : List BitField) :
    emit pos (f :: fs) = (padTo f.octetAlign pos ++ f.value) ++
      emit (pos + (padTo f.octetAlign pos ++ f.value).length) fs := rfl

theorem emit_append (pos : Nat) (a b : List BitField) :
    emit pos (a ++ b) = emit pos a ++ emit (pos + (emit pos a).length) b := by
  induction a generalizing pos with
  | nil => simp [emit]
  | cons f fs ih =>
    rw [List.cons_append, emit_cons, emit_cons, ih]
    simp only [List.append_assoc, List.length_append, Nat.add_assoc]

/-- The padding in front of an aligned field can be read on its own. -/
theorem emit_align_split (q : Nat) (w : Bits) (fs : List BitField) :
    emit q (⟨true, w⟩ :: fs) = padTo true q ++ emit (q + (padTo true q).length) (⟨true, w⟩ :: fs) := by
  have ha : (q + (padTo true q).length) % 8 = 0 := by rw [padTo_true_length]; exact add_padLen_mod q
  rw [emit_cons, emit_cons (pos := q + _)]
  dsimp only
  rw [padTo_aligned ha]
  simp [List.append_assoc, Nat.add_assoc]

theorem appendField_eq (acc : Bits) (f : BitField) :
    appendField acc f = acc ++ (padTo f.octetAlign acc.length ++ f.value) := by
  unfold appendField padTo padBits padLen
  cases f.octetAlign
  · simp
  · by_cases h : acc.length % 8 = 0
    · simp [h]
    · have : (8 - acc.length % 8) % 8 = 8 - acc.length % 8 := by omega
      simp [h, this]

theorem foldl_appendField (fs : List BitField) (acc : Bits) :
    fs.foldl appendField acc = acc ++ emit acc.length fs := by
  induction fs generalizing acc with
  | nil => simp [emit]
  | cons f fs ih =>
    rw [List.foldl_cons, ih, appendField_eq, emit_cons]
    simp [List.append_assoc]

/-- The complete encoding: the emitted bits and the final padding. -/
theorem produceCompleteEncoding_eq (fs : List BitField) :
    produceCompleteEncoding fs = emit 0 fs ++
      List.replicate (if (emit 0 fs).length = 0 then 8 else padLen (emit 0 fs).length) false := by
  unfold produceCompleteEncoding
  rw [foldl_appendField]
  simp only [List.nil_append, List.length_nil]
  generalize emit 0 fs = s
  unfold padBits padLen
  by_cases h0 : s.length = 0
  · simp [h0]
  · by_cases h : s.length % 8 = 0
    · simp [h, h0]
    · have : (8 - s.length % 8) % 8 = 8 - s.length % 8 := by omega
      simp [h, h0, this]

theorem produceCompleteEncoding_length (fs : List BitField) :
    (produceCompleteEncoding fs).length % 8 = 0 ∧ 0 < (produceCompleteEncoding fs).length := by
  rw [produceCompleteEncoding_eq]
  simp only [List.length_append, List.length_replicate]
  generalize (emit 0 fs).length = n
  unfold padLen
  split <;> omega

theorem produceCompleteEncoding_ne_nil (fs : List BitField) : produceCompleteEncoding fs ≠ [] :=
  List.length_pos_iff.1 (produceCompleteEncoding_length fs).2

theorem binToHex_eq {s : Bits} (h0 : s ≠ []) (h8 : s.length % 8 = 0) :
    binToHex s = .ok (natToHex (2 * (s.length / 8)) (bitsToNat s)) := by
  have hp := List.length_pos_iff.2 h0
  unfold binToHex
  rw [pyInt2_of_ne h0]
  simp only [bind, Except.bind, pure, Except.pure]
  rw [zfillHex_pyHex (by omega), show s.length / 4 = 2 * (s.length / 8) by omega]
  rw [pow16, show 4 * (s.length / 4) = s.length by omega]
  exact bitsToNat_lt s

/-- `encode` turns the complete encoding into the bytes with exactly those bits. -/
theorem encode_eq (t : Ty) (v : Val) (bs : List UInt8) :
    encode t v = .ok bs ↔
      ∃ fs, encTy t v = .ok fs ∧ bytesToBits bs = produceCompleteEncoding fs := by
  unfold encode
  cases hfs : encTy t v with
  | error e => simp [bind, Except.bind]
  | ok fs =>
    obtain ⟨h8, hp⟩ := produceCompleteEncoding_length fs
    have h0 := produceCompleteEncoding_ne_nil fs
    simp only [bind, Except.bind]
    rw [binToHex_eq h0 h8]
    generalize hs : produceCompleteEncoding fs = s at *
    obtain ⟨bs', hb⟩ := exists_bytes s h8
    have hlen : bs'.length = s.length / 8 := by
      have := congrArg List.length hb; rw [bytesToBits_length] at this; omega
    have hx : unhex (natToHex (2 * (s.length / 8)) (bitsToNat s)) = .ok bs' := by
      rw [← hb, bytesToBits_length, show 8 * bs'.length / 8 = bs'.length by omega, natToHex_bytes]
      obtain ⟨b2, h1, h2⟩ := unhex_spec bs'.length (hexlify_length bs') (hexlify_digits bs')
      rw [h1]
      congr 1
      apply bytesToBits_inj
      apply bitsToNat_inj
      · have := congrArg List.length h2
        rw [hexlify_length, hexlify_length] at this
        rw [bytesToBits_length, bytesToBits_length]; omega
      · rw [← hexToNat_hexlify, ← hexToNat_hexlify, h2]
    simp only [hx, Except.ok.injEq, exists_eq_left', hs]
    constructor
    · rintro rfl; exact hb
    · intro h; exact bytesToBits_inj (by rw [hb, h])

theorem PerBytes_init_hexlify {bs : List UInt8} (h : bs ≠ []) :
    PerBytes.init (hexlify bs) = .ok ⟨Offset.init 0 0, bytesToBits bs⟩ := by
  have hp := List.length_pos_iff.2 h
  have hne : hexlify bs ≠ [] := by
    intro h0
    have := congrArg List.length h0
    rw [hexlify_length] at this; simp at this; omega
  unfold PerBytes.init
  rw [pyInt16_of_ne hne]
  simp only [bind, Except.bind, pure, Except.pure]
  rw [hexToNat_hexlify, hexlify_length, show 2 * bs.length * 4 = (bytesToBits bs).length by
    rw [bytesToBits_length]; omega, zfill_pyBin_bitsToNat]
  intro h0
  have := congrArg List.length h0
  rw [bytesToBits_length] at this; simp at this; omega

/-! ## cursor -/

/-- The reader stands at bit `pos`, with the bits `rem` still to come. -/
structure At (p : PerBytes) (pos : Nat) (rem : Bits) : Prop where
  bits_lt : p.offset.currBits < 8
  pos_eq : p.offset.currOctets * 8 + p.offset.currBits = pos
  rem_eq : p.binaryString.drop pos = rem

theorem At.init (s : Bits) : At ⟨Offset.init 0 0, s⟩ 0 s := ⟨by simp [Offset.init], rfl, rfl⟩

theorem Offset.add_spec (o : Offset) (s : BitSize) :
    (o.add s).prevOctets = o.currOctets ∧ (o.add s).prevBits = o.currBits ∧
    (o.add s).currBits < 8 ∧
    (o.add s).currOctets * 8 + (o.add s).currBits
      = o.currOctets * 8 + o.currBits + (s.octets * 8 + s.bits) := by
  unfold Offset.add
  dsimp only
  split
  · refine ⟨rfl, rfl, ?_, ?_⟩ <;> dsimp only <;> omega
  · refine ⟨rfl, rfl, ?_, ?_⟩ <;> dsimp only <;> omega

theorem Offset.align_spec {o : Offset} (h : o.currBits < 8) :
    o.align.currBits = 0 ∧
    o.align.currOctets * 8 = (o.currOctets * 8 + o.currBits) + padLen (o.currOctets * 8 + o.currBits) := by
  unfold Offset.align padLen
  dsimp only
  by_cases h0 : o.currBits = 0
  · simp only [h0, Nat.lt_irrefl, gt_iff_lt, if_false]
    simp; omega
  · have h1 : o.currBits > 0 := by omega
    have h2 : (1 + o.currBits / 8) * 8 - o.currBits ≠ 0 := by omega
    have h3 : ¬ o.currBits % 8 = 0 := by omega
    simp only [h1, if_true, h3, if_false]
    rw [if_pos h2]
    dsimp only
    omega

/-- Position after the optional alignment of `next`. -/
def alignPos (align : Bool) (pos : Nat) : Nat := pos + (padTo align pos).length

theorem alignPos_false (pos : Nat) : alignPos false pos = pos := rfl
theorem alignPos_true (pos : Nat) : alignPos true pos = pos + padLen pos := by
  simp [alignPos, padTo_true_length]

/-- Complete description of `PerBytes.next`. -/
theorem next_eq {p : PerBytes} {pos : Nat} {rem : Bits} (h : At p pos rem) (size : BitSize) (align : Bool) :
    let start := alignPos align pos
    let n := size.octets * 8 + size.bits
    let p' : PerBytes := { p with offset := (if align then p.offset.align else p.offset).add size }
    At p' (start + n) (rem.drop (start + n - pos)) ∧
    next size align p =
      if n = 0 then .ok (0, p')
      else if p.binaryString.length ≤ start then .error .valueError
      else .ok (bitsToNat ((p.binaryString.drop start).take n), p') := by
  intro start n p'
  have hcur : (if align then p.offset.align else p.offset).currOctets * 8 +
      (if align then p.offset.align else p.offset).currBits = start := by
    cases align
    · simp [start, alignPos_false, h.pos_eq]
    · have := Offset.align_spec h.bits_lt
      simp [start, alignPos_true, this.1, this.2, h.pos_eq]
  obtain ⟨a1, a2, a3, a4⟩ := Offset.add_spec (if align then p.offset.align else p.offset) size
  have hstart : start = pos + (padTo align pos).length := rfl
  have hat : At p' (start + n) (rem.drop (start + n - pos)) := by
    refine ⟨a3, ?_, ?_⟩
    · rw [a4, hcur]
    · show p.binaryString.drop _ = _
      rw [← h.rem_eq, List.drop_drop]
      congr 1; omega
  refine ⟨hat, ?_⟩
  have hget : p'.getItem = if n = 0 then [false] else (p.binaryString.drop start).take n := by
    unfold PerBytes.getItem
    have e1 : p'.offset.prevOctets * 8 + p'.offset.prevBits = start := by
      show ((if align then p.offset.align else p.offset).add size).prevOctets * 8 + _ = _
      rw [a1, a2, hcur]
    have e2 : p'.offset.currOctets * 8 + p'.offset.currBits = start + n := hat.pos_eq
    rw [e1, e2]
    by_cases hn : n = 0
    · simp [hn]
    · have : ¬ start = start + n := by omega
      simp only [this, if_false, hn]
      rw [List.drop_take]
      congr 1; omega
  unfold next
  show (do let v ← pyInt2 p'.getItem; return (v, p')) = _
  rw [hget]
  by_cases hn : n = 0
  · simp only [hn, if_true]; rfl
  · simp only [hn, if_false]
    by_cases hle : p.binaryString.length ≤ start
    · simp only [hle, if_true]
      rw [List.drop_eq_nil_of_le hle]; simp [pyInt2, bind, Except.bind]
    · simp only [hle, if_false]
      rw [pyInt2_of_ne]
      · rfl
      · intro h0
        have := congrArg List.length h0
        simp at this; omega

/-- `m`, started at `pos` in front of the bits `w`, returns `a` and stands right behind `w`. -/
def Reads {α : Type} (m : Dec α) (pos : Nat) (w : Bits) (a : α) : Prop :=
  ∀ p rest, At p pos (w ++ rest) → ∃ p', m p = .ok (a, p') ∧ At p' (pos + w.length) rest

theorem Reads.pure {α : Type} (a : α) (pos : Nat) : Reads (Pure.pure a : Dec α) pos [] a :=
  fun p _ h => ⟨p, rfl, h⟩

theorem Reads.bind {α β : Type} {m : Dec α} {f : α → Dec β} {pos : Nat} {w w' : Bits} {a : α} {b : β}
    (h1 : Reads m pos w a) (h2 : Reads (f a) (pos + w.length) w' b) :
    Reads (m >>= f) pos (w ++ w') b := by
  intro p rest h
  rw [List.append_assoc] at h
  obtain ⟨p1, e1, at1⟩ := h1 p _ h
  obtain ⟨p2, e2, at2⟩ := h2 p1 rest at1
  refine ⟨p2, ?_, ?_⟩
  · show StateT.bind m f p = _
    unfold StateT.bind
    rw [e1]
    exact e2
  · rw [List.length_append, ← Nat.add_assoc]; exact at2

/-- `bind` where the first part reads everything. -/
theorem Reads.bind_pure {α β : Type} {m : Dec α} {f : α → Dec β} {pos : Nat} {w : Bits} {a : α} {b : β}
    (h1 : Reads m pos w a) (h2 : Reads (f a) (pos + w.length) [] b) :
    Reads (m >>= f) pos w b := by
  have := h1.bind h2
  rwa [List.append_nil] at this

/-- `bind` where the first part reads nothing. -/
theorem Reads.bind_nil {α β : Type} {m : Dec α} {f : α → Dec β} {pos : Nat} {w : Bits} {a : α} {b : β}
    (h1 : Reads m pos [] a) (h2 : Reads (f a) pos w b) : Reads (m >>= f) pos w b :=
  h1.bind (w := []) (by simpa using h2)

theorem Reads.liftE {α : Type} {e : Except Err α} {a : α} (h : e = .ok a) (pos : Nat) :
    Reads (liftE e) pos [] a := by
  intro p rest hp
  subst h
  exact ⟨p, rfl, by simpa using hp⟩

theorem Reads.next (size : BitSize) (align : Bool) (pos : Nat) (w : Bits)
    (hw : w.length = size.octets * 8 + size.bits) :
    Reads (next size align) pos (padTo align pos ++ w) (bitsToNat w) := by
  intro p rest hp
  obtain ⟨hat, he⟩ := next_eq hp size align
  refine ⟨{ p with offset := (if align then p.offset.align else p.offset).add size }, ?_, ?_⟩
  rotate_left
  · have e1 : pos + (padTo align pos ++ w).length = alignPos align pos + (size.octets * 8 + size.bits) := by
      rw [List.length_append, hw, alignPos]; omega
    rw [e1]
    have e2 : alignPos align pos + (size.octets * 8 + size.bits) - pos = (padTo align pos ++ w).length := by
      omega
    rw [e2, List.drop_left] at hat
    exact hat
  · rw [he]
    by_cases hn : size.octets * 8 + size.bits = 0
    · simp only [hn, if_true]
      have : w = [] := List.length_eq_zero_iff.1 (by omega)
      subst this; rfl
    · simp only [hn, if_false]
      have hd : p.binaryString.drop (alignPos align pos) = w ++ rest := by
        have := congrArg (List.drop (padTo align pos).length) hp.rem_eq
        rw [List.drop_drop, List.append_assoc, List.drop_left] at this
        exact this
      have hlt : ¬ p.binaryString.length ≤ alignPos align pos := by
        intro hle
        rw [List.drop_eq_nil_of_le hle] at hd
        have := congrArg List.length hd
        simp at this; omega
      rw [if_neg hlt, hd, ← hw, List.take_left]

/-- Reading an unaligned field. -/
theorem Reads.next_plain (size : BitSize) (pos : Nat) (w : Bits)
    (hw : w.length = size.octets * 8 + size.bits) :
    Reads (Verif.next size false) pos w (bitsToNat w) := Reads.next size false pos w hw

/-- `next(0, 0, octet_align=True)` skips the padding. -/
theorem Reads.align (pos : Nat) : Reads (Verif.next ⟨0, 0⟩ true) pos (padTo true pos) 0 := by
  have := Reads.next ⟨0, 0⟩ true pos [] rfl
  rwa [List.append_nil] at this

theorem Reads.align_aligned {pos : Nat} (h : pos % 8 = 0) : Reads (Verif.next ⟨0, 0⟩ true) pos [] 0 := by
  have := Reads.align pos
  rwa [padTo_aligned h] at this

theorem Reads.cast {α : Type} {m : Dec α} {pos : Nat} {w w' : Bits} {a a' : α}
    (h : Reads m pos w a) (hw : w = w') (ha : a = a') : Reads m pos w' a' := by
  subst hw; subst ha; exact h

end Verif
