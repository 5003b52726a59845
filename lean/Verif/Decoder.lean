import Verif.Encoder
/-!
# codec/per/decoder.py (logging omitted)
-/
namespace Verif

/-- `Offset`, decoder.py:14-41 -/
structure Offset where
  prevOctets : Nat
  prevBits : Nat
  currOctets : Nat
  currBits : Nat
  deriving DecidableEq, Repr

/-- `Offset.__init__`, decoder.py:15-20 -/
def Offset.init (octets bits : Nat) : Offset := ⟨octets, bits, octets, bits⟩

/-- `Offset.__add__` (mutates `self`), decoder.py:22-31 -/
def Offset.add (o : Offset) (s : BitSize) : Offset :=
  let octets := o.currOctets + s.octets
  let bits := o.currBits + s.bits
  if bits ≥ 8 then ⟨o.currOctets, o.currBits, octets + bits / 8, bits - 8 * (bits / 8)⟩
  else ⟨o.currOctets, o.currBits, octets, bits⟩

/-- `Offset.align`, decoder.py:33-41 -/
def Offset.align (o : Offset) : Offset :=
  let bitsToAlign := if o.currBits > 0 then (1 + o.currBits / 8) * 8 - o.currBits else 0
  if bitsToAlign ≠ 0 then
    ⟨o.currOctets, 0,
     o.currOctets + (if o.currBits % 8 = 0 then o.currBits / 8 else 1 + o.currBits / 8), 0⟩
  else o

/-- `PerBytes`, decoder.py:44-65 -/
structure PerBytes where
  offset : Offset
  binaryString : Bits
  deriving DecidableEq, Repr

/-- `PerBytes.__init__`, decoder.py:45-47 -/
def PerBytes.init (hexString : List Nat) : Except Err PerBytes := do
  let v ← pyInt16 hexString
  return ⟨Offset.init 0 0, zfill (hexString.length * 4) (pyBin v)⟩

/-- `PerBytes.__getitem__`, decoder.py:57-62, with the one mutated offset as start and stop. -/
def PerBytes.getItem (p : PerBytes) : Bits :=
  let start := p.offset.prevOctets * 8 + p.offset.prevBits
  let stop := p.offset.currOctets * 8 + p.offset.currBits
  if start = stop then [false]
  else (p.binaryString.take stop).drop start

/-- Computations reading from a `PerBytes` that they mutate. -/
abbrev Dec (α : Type) := StateT PerBytes (Except Err) α

/-- `PerBytes.next`, decoder.py:49-55 -/
def next (size : BitSize) (octetAlign : Bool) : Dec Nat := fun p => do
  let o := if octetAlign then p.offset.align else p.offset
  let p' : PerBytes := { p with offset := o.add size }
  let v ← pyInt2 p'.getItem
  return (v, p')

/-- Lift an operation that may raise. -/
def liftE {α : Type} (e : Except Err α) : Dec α := fun p => e.map fun a => (a, p)

/-- `raise`. -/
def raise {α : Type} (e : Err) : Dec α := fun _ => .error e

/-- Using a `bit_field_size` that may be `None`. -/
def needSize : Option BitSize → Except Err BitSize
  | some s => .ok s
  | none => .error .attributeError

/-- `decode_non_negative_binary_integer`, decoder.py:679-690 -/
def decodeNonNegativeBinaryInteger (size : Option BitSize) (octetAlign minimumNumberOfOctets : Bool) :
    Dec Nat := do
  if minimumNumberOfOctets then raise .notImplemented
  else
    let s ← liftE (needSize size)
    let decoded ← next s false
    if octetAlign then
      let _ ← next ⟨0, 0⟩ true
    return decoded

/-- `decode_constrained_whole_number`, decoder.py:629-650 -/
def decodeConstrainedWholeNumber (lowerBound upperBound : Option Int) : Dec Int := do
  let ub ← liftE (needInt upperBound)
  let lb ← liftE (needInt lowerBound)
  let range := integerRange lb ub
  let size := getBitFieldSize range
  if range = 1 then return 0
  else if range ≤ 255 then
    let v ← decodeNonNegativeBinaryInteger size false false
    return lb + v
  else if range = 256 then
    let _ ← next ⟨0, 0⟩ true
    let v ← decodeNonNegativeBinaryInteger size true false
    return lb + v
  else if 257 ≤ range ∧ range ≤ 65536 then
    let _ ← next ⟨0, 0⟩ true
    let v ← decodeNonNegativeBinaryInteger size true false
    return lb + v
  else
    let v ← decodeNonNegativeBinaryInteger size true true
    return v

/-- `decode_length_determinant`, decoder.py:700-733 -/
def decodeLengthDeterminant (normallySmall constrained : Bool) (lowerBound upperBound : Option Int) :
    Dec Int := do
  if normallySmall then
    let single ← next ⟨0, 1⟩ false
    if single = 0 then
      let n ← decodeNonNegativeBinaryInteger (some ⟨0, 6⟩) false false
      return (n : Int) + 1
    else raise .notImplemented
  else if constrained then
    decodeConstrainedWholeNumber lowerBound upperBound
  else
    let _ ← next ⟨0, 0⟩ true
    let first ← next ⟨0, 1⟩ false
    if first = 0 then
      let n ← decodeNonNegativeBinaryInteger (some ⟨0, 7⟩) true false
      return (n : Int)
    else
      let second ← next ⟨0, 1⟩ false
      if second = 0 then
        let n ← decodeNonNegativeBinaryInteger (some ⟨1, 6⟩) true false
        return (n : Int)
      else raise .notImplemented

/-- `decode_constrained_whole_number_from_field_list`, decoder.py:586-600 -/
def decodeConstrainedFromFieldList (lowerEndpoint upperEndpoint : Option Int) : Dec Int := do
  let ub ← liftE (needInt upperEndpoint)
  let lb ← liftE (needInt lowerEndpoint)
  if integerRange lb ub ≤ 65536 then
    decodeConstrainedWholeNumber lowerEndpoint upperEndpoint
  else
    let upperBound := getRangeOctetLen (ub - lb)
    let len ← decodeLengthDeterminant false true (some 1) (some upperBound)
    let v ← next ⟨len.toNat, 0⟩ true
    return lb + v

/-- `decode_semi_constrained_whole_number_from_field_list`, decoder.py:603-614 -/
def decodeSemiConstrainedFromFieldList (lowerBound : Int) : Dec Int := do
  let len ← decodeLengthDeterminant false false (some 1) none
  let v ← next ⟨len.toNat, 0⟩ false
  return lowerBound + v

/-- `decode_normally_small_non_negative_whole_number`, decoder.py:653-665 -/
def decodeNormallySmall (lowerBound : Int) : Dec Int := do
  let single ← next ⟨0, 1⟩ false
  if single = 0 then
    let n ← decodeNonNegativeBinaryInteger (some ⟨0, 6⟩) false false
    return (n : Int)
  else
    let _ ← next ⟨0, 0⟩ true
    decodeSemiConstrainedFromFieldList lowerBound

/-- `twos_comp`, decoder.py:693-697; `1 << -1` raises `ValueError`. -/
def twosComp (v bits : Nat) : Except Err Int :=
  if bits = 0 then .error .valueError
  else if v &&& (1 <<< (bits - 1)) ≠ 0 then .ok ((v : Int) - ((1 <<< bits : Nat) : Int))
  else .ok v

/-- `decode_unconstrained_whole_number`, decoder.py:668-676 -/
def decodeUnconstrainedWholeNumber : Dec Int := do
  let len ← next ⟨1, 0⟩ true
  let v ← next ⟨len, 0⟩ false
  liftE (twosComp v (8 * len))

/-- `decode_open_type_field`, decoder.py:617-626: the content is decoded from a `PerBytes` of its own. -/
def decodeOpenTypeField {α : Type} (m : Dec α) : Dec α := do
  let len ← decodeLengthDeterminant false false none none
  let v ← next ⟨len.toNat, 0⟩ true
  let inner ← liftE (PerBytes.init (zfillHex (len.toNat * 2) (pyHex v)))
  let r ← liftE (m inner)
  return r.1

/-- `decode_boolean`, decoder.py:77-82 -/
def decodeBoolean : Dec Val := do
  let v ← next ⟨0, 1⟩ false
  return .bool (v != 0)

/-- `decode_integer`, decoder.py:85-132 -/
def decodeInteger (c : Constr) : Dec Val := do
  if c.ext then
    let outside ← next ⟨0, 1⟩ false
    if outside ≠ 0 then
      let z ← decodeUnconstrainedWholeNumber
      liftE (mkInt c z)
    else
      let z ← decodeConstrainedFromFieldList c.lower c.upper
      liftE (mkInt c z)
  else
    match c.lower, c.upper with
    | some lb, some ub =>
      if lb = ub then liftE (mkInt c lb)
      else
        let z ← decodeConstrainedFromFieldList c.lower c.upper
        liftE (mkInt c z)
    | some lb, none =>
      let z ← decodeSemiConstrainedFromFieldList lb
      liftE (mkInt c z)
    | none, _ =>
      let z ← decodeUnconstrainedWholeNumber
      liftE (mkInt c z)

/-- `decode_enumerated`, decoder.py:135-157 -/
def decodeEnumerated (ext : Bool) (root add : List (String × Int)) : Dec Val := do
  if !ext then
    let i ← decodeConstrainedWholeNumber (some 0) (some (((root ++ add).length : Int) - 1))
    liftE (mkEnum (root ++ add) i)
  else
    let isAddition ← next ⟨0, 1⟩ false
    if isAddition = 0 then
      let i ← decodeConstrainedWholeNumber (some 0) (some ((root.length : Int) - 1))
      liftE (mkEnum (root ++ add) i)
    else
      let i ← decodeNormallySmall 0
      liftE (mkEnum (root ++ add) (i + root.length))

/-- decoder.py:181-229, the part of `decode_bitstring` after the extension test. -/
def decodeBitstringRoot (c : SizeC) : Dec Val := do
  if c.upper = some 0 then liftE (mkBits c [])
  else if c.lower ≠ none ∧ c.lower = c.upper then
    let n := c.lower.getD 0
    if n ≤ 16 then
      let v ← next ⟨0, n⟩ false
      liftE (mkBits c (zfill n (pyBin v)))
    else if n < 65536 then
      let _ ← next ⟨0, 0⟩ true
      let v ← next ⟨0, n⟩ false
      liftE (mkBits c ((zfill n (pyBin v)).take n))
    else raise .notImplemented
  else
    match c.upper with
    | some u =>
      if u < 65536 then
        let len ← decodeLengthDeterminant false true c.lowerZ c.upperZ
        let v ← next ⟨0, len.toNat⟩ true
        liftE (mkBits c (zfill len.toNat (pyBin v)))
      else
        let len ← decodeLengthDeterminant false false (some 0) none
        let v ← next ⟨0, len.toNat⟩ true
        liftE (mkBits c (zfill len.toNat (pyBin v)))
    | none =>
      let len ← decodeLengthDeterminant false false (some 0) none
      let v ← next ⟨0, len.toNat⟩ true
      liftE (mkBits c (zfill len.toNat (pyBin v)))

/-- `decode_bitstring`, decoder.py:160-229.  The `''` returned when the upper endpoint is 0 becomes
an empty bit string of the class (decoder.py:72-73, or on assignment to a component). -/
def decodeBitstring (c : SizeC) : Dec Val := do
  if c.ext then
    let e ← next ⟨0, 1⟩ false
    if e = 0 then decodeBitstringRoot c
    else
      let _ ← next ⟨0, 0⟩ true
      let len ← decodeLengthDeterminant false false (some 0) none
      let v ← next ⟨0, len.toNat⟩ false
      let _ ← next ⟨0, 0⟩ true
      liftE (mkBits c (zfill len.toNat (pyBin v)))
  else decodeBitstringRoot c

/-- decoder.py:256-308, the part of `decode_octetstring` after the extension test. -/
def decodeOctetstringRoot (c : SizeC) : Dec Val := do
  if c.upper = some 0 then liftE (mkOctets c [])
  else if c.lower ≠ none ∧ c.lower = c.upper then
    let n := c.lower.getD 0
    if n ≤ 2 then
      let v ← next ⟨n, 0⟩ false
      liftE (mkOctets c (fromHexString (zfillHex (n * 2) (pyHex v))))
    else if n < 65536 then
      let _ ← next ⟨0, 0⟩ true
      let v ← next ⟨n, 0⟩ false
      liftE (mkOctets c (fromHexString (zfillHex (n * 2) (pyHex v))))
    else raise .notImplemented
  else
    match c.upper with
    | some _ =>
      let len ← decodeLengthDeterminant false true c.lowerZ c.upperZ
      if len = 0 then liftE (mkOctets c (fromHexString []))
      else
        let v ← next ⟨len.toNat, 0⟩ true
        liftE (mkOctets c (fromHexString (pyHex v)))
    | none =>
      let _ ← next ⟨0, 0⟩ true
      let len ← decodeLengthDeterminant false false (some 0) none
      let v ← next ⟨len.toNat, 0⟩ false
      liftE (mkOctets c (fromHexString (zfillHex (len.toNat * 2) (pyHex v))))

/-- `decode_octetstring`, decoder.py:232-308 -/
def decodeOctetstring (c : SizeC) : Dec Val := do
  if c.ext then
    let e ← next ⟨0, 1⟩ false
    if e = 0 then decodeOctetstringRoot c
    else
      let _ ← next ⟨0, 0⟩ true
      let len ← decodeLengthDeterminant false false (some 0) none
      if len = 0 then liftE (mkOctets c (fromHexString []))
      else
        let v ← next ⟨len.toNat, 0⟩ false
        liftE (mkOctets c (fromHexString (zfillHex (len.toNat * 2) (pyHex v))))
  else decodeOctetstringRoot c

/-- `for index in range(n): val = ...; new_seq_of.extend([val])` -/
def repeatDec {α : Type} : Nat → Dec α → Dec (List α)
  | 0, _ => return []
  | n + 1, m => do
    let a ← m
    let as ← repeatDec n m
    return a :: as

/-- The number of components, decoder.py:420-498 (read before any component). -/
def decodeSequenceOfCount (c : SizeC) : Dec Int := do
  if c.ext then
    let e ← next ⟨0, 1⟩ false
    if e = 0 then decodeLengthDeterminant false true c.lowerZ c.upperZ
    else
      let _ ← next ⟨0, 0⟩ true
      decodeLengthDeterminant false false (some 0) none
  else
    match c.lower, c.upper with
    | none, none => raise .typeError
    | some l, some u =>
      if l = u ∧ u < 65536 then return (l : Int)
      else if u ≠ 0 then decodeLengthDeterminant false true c.lowerZ c.upperZ
      else decodeLengthDeterminant false false c.lowerZ none
    | some _, none => decodeLengthDeterminant false false c.lowerZ none
    | none, some u =>
      if u ≠ 0 then decodeLengthDeterminant false true c.lowerZ c.upperZ
      else decodeLengthDeterminant false false c.lowerZ none

/-- Number of OPTIONAL or DEFAULT components, decoder.py:321-323 -/
def Fields.optionalCount : Fields → Nat
  | .nil => 0
  | .cons _ k _ r => (if k.isOptional || k.isDefaulted then 1 else 0) + r.optionalCount

/-- The presence bits, decoder.py:325-333 -/
def decodeOptionalBits (n : Nat) : Dec Bits := do
  if n = 0 then return []
  else if n < 65536 then
    let v ← next ⟨0, n⟩ false
    return zfill n (pyBin v)
  else raise .notImplemented

/-- The extension presence bits, decoder.py:366-382: note that they are filled up to the number of
extensions of *this* schema, not to the number announced in the message. -/
def decodeExtensionBits (ownCount : Nat) : Dec Bits := do
  let len ← decodeLengthDeterminant true false none none
  let v ← next ⟨0, len.toNat⟩ false
  let _ ← next ⟨0, 0⟩ true
  return zfill ownCount (pyBin v)

mutual
/-- `create_field_list` of `data/builtin/*.py` dispatching to the `decode_*` function of the class. -/
def decTy : Ty → Dec Val
  | .boolean => decodeBoolean
  | .integer c => decodeInteger c
  | .enumerated ext root add => decodeEnumerated ext root add
  | .bitString c => decodeBitstring c
  | .octetString c => decodeOctetstring c
  | .seqOf c t => do
    -- decode_sequence_of, decoder.py:416-498
    let n ← decodeSequenceOfCount c
    let vs ← repeatDec n.toNat (decTy t)
    return .seqOf vs
  | .choice ext r a g => do
    -- decode_choice, decoder.py:501-583
    if !ext then
      if r.length = 1 then
        let v ← decAlt r 0
        return .choice 0 v
      else
        let i ← decodeConstrainedFromFieldList (some 0) (some ((r.length : Int) - 1))
        let v ← decAlt r i.toNat
        return .choice i.toNat v
    else
      let e ← next ⟨0, 1⟩ false
      if e = 0 then
        if r.length = 1 then
          let v ← decAlt r 0
          return .choice 0 v
        else
          let i ← decodeConstrainedFromFieldList (some 0) (some ((r.length : Int) - 1))
          let v ← decAlt r i.toNat
          return .choice i.toNat v
      else
        let i ← decodeNormallySmall 0
        if a.length = 0 ∧ g.length = 0 then raise .notImplemented
        else
          let i := i.toNat
          let v ← decodeOpenTypeField (if i < a.length then decAlt a i else decAltG g (i - a.length))
          return .choice (r.length + i) v
  | .sequence ext r a g => do
    -- decode_sequence, decoder.py:311-413
    let e ← if ext then next ⟨0, 1⟩ false else pure 0
    let opt ← decodeOptionalBits r.optionalCount
    let rootVals ← decRoot r opt
    if e ≠ 0 then
      let bits ← decodeExtensionBits (a.length + g.length)
      let addVals ← decAdds a (bits.take a.length)
      let groupVals ← decGroups g (bits.drop a.length)
      return .seq (rootVals ++ addVals ++ groupVals)
    else
      return .seq (rootVals ++ List.replicate (a.length + g.size) none)
/-- The selected alternative; an index beyond the list raises `IndexError`. -/
def decAlt : Fields → Nat → Dec Val
  | .nil, _ => raise .indexError
  | .cons _ _ t _, 0 => decTy t
  | .cons _ _ _ r, p + 1 => decAlt r p
def decAltG : Groups → Nat → Dec Val
  | .nil, _ => raise .indexError
  | .cons f g, p => if p < f.length then decAlt f p else decAltG g (p - f.length)
/-- The root component loop, decoder.py:334-365. -/
def decRoot : Fields → Bits → Dec (List (Option Val))
  | .nil, _ => return []
  | .cons _ k t r, opt => do
    match k with
    | .mandatory =>
      let v ← decTy t
      let vs ← decRoot r opt
      return some v :: vs
    | _ =>
      match opt with
      | [] => raise .indexError
      | b :: opt' =>
        if b then
          let v ← decTy t
          let vs ← decRoot r opt'
          return some v :: vs
        else
          let vs ← decRoot r opt'
          return none :: vs
/-- The extension addition loop, decoder.py:383-395 (`zip` stops at the shorter list). -/
def decAdds : Fields → Bits → Dec (List (Option Val))
  | .nil, _ => return []
  | .cons _ _ t r, bits => do
    match bits with
    | [] =>
      let vs ← decAdds r []
      return none :: vs
    | b :: bits' =>
      if b then
        let v ← decodeOpenTypeField (decTy t)
        let vs ← decAdds r bits'
        return some v :: vs
      else
        let vs ← decAdds r bits'
        return none :: vs
/-- The extension addition group loop, decoder.py:396-411; a group is decoded as a SEQUENCE without
extension marker (`create_new_fake_empty_sequence`, 736-762). -/
def decGroups : Groups → Bits → Dec (List (Option Val))
  | .nil, _ => return []
  | .cons f g, bits => do
    match bits with
    | [] =>
      let vs ← decGroups g []
      return List.replicate f.length none ++ vs
    | b :: bits' =>
      if b then
        let cs ← decodeOpenTypeField (do
          let opt ← decodeOptionalBits f.optionalCount
          decRoot f opt)
        let vs ← decGroups g bits'
        return cs ++ vs
      else
        let vs ← decGroups g bits'
        return List.replicate f.length none ++ vs
end

/-- `decoded == ''`, decoder.py:72.  pyasn1 compares the chosen alternative when a CHOICE is compared, and takes the
other side for a BIT STRING when one is compared; objects of all other types differ from any text. -/
def equalsEmpty : Val → Bool
  | .bits [] => true
  | .choice _ v => equalsEmpty v
  | _ => false

/-- `decode`, decoder.py:68-74.  `asn1Spec.__class__('')` (73) is the empty BIT STRING again if the type is a BIT STRING
(an empty OCTET STRING arrives there as text, see `decodeOctetstring`); a CHOICE cannot be made from a text and raises
`TypeError`. -/
def decode (t : Ty) (stream : List UInt8) : Except Err Val := do
  let p ← PerBytes.init (hexlify stream)
  let r ← decTy t p
  match r.1 with
  | .choice i v => if equalsEmpty v then .error .typeError else return .choice i v
  | v => return v

end Verif
