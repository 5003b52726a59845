import Verif.Types
/-!
# codec/per/encoder.py
-/
namespace Verif

/-- `bit_field_size`, encoder.py:9 -/
structure BitSize where
  octets : Nat
  bits : Nat
  deriving DecidableEq, Repr

/-- `bit_field`, encoder.py:10 -/
structure BitField where
  octetAlign : Bool
  value : Bits
  deriving DecidableEq, Repr

/-- Using an endpoint in arithmetic or a comparison: `None` raises `TypeError`. -/
def needInt : Option Int → Except Err Int
  | some z => .ok z
  | none => .error .typeError

/-- Python chained comparison `lo <= n <= hi` on endpoints that may be `None`. -/
def chainLe (lo hi : Option Int) (n : Int) : Except Err Bool := do
  let l ← needInt lo
  if l ≤ n then
    let h ← needInt hi
    return decide (n ≤ h)
  else
    return false

/-- Endpoints of a size constraint as integers. -/
def SizeC.lowerZ (c : SizeC) : Option Int := c.lower.map Int.ofNat
def SizeC.upperZ (c : SizeC) : Option Int := c.upper.map Int.ofNat

/-- `''.zfill(abs(len % 8 - 8))`: the padding used by encoder.py:45, 51, 511. -/
def padBits (len : Nat) : Bits := List.replicate (8 - len % 8) false

/-- One iteration of the loop of `_produce_complete_encoding`, encoder.py:42-49. -/
def appendField (acc : Bits) (f : BitField) : Bits :=
  if f.octetAlign then
    (if acc.length % 8 ≠ 0 then acc ++ padBits acc.length else acc) ++ f.value
  else acc ++ f.value

/-- `_produce_complete_encoding`, encoder.py:40-52 -/
def produceCompleteEncoding (fl : List BitField) : Bits :=
  let c := fl.foldl appendField []
  if c.length % 8 ≠ 0 || c.length == 0 then c ++ padBits c.length else c

/-- `_bin_to_hex`, encoder.py:55-57 -/
def binToHex (s : Bits) : Except Err (List Nat) := do
  let v ← pyInt2 s
  return zfillHex (s.length / 4) (pyHex v)

/-- `get_range_octet_len`, encoder.py:613-620.  The `while True` loop gets fuel; it is proved that
the fuel never runs out. -/
def rangeOctetLenLoop : Nat → Nat → Int → Nat
  | 0, m, _ => m
  | fuel + 1, m, range => if range < 2 ^ (m * 8) then m else rangeOctetLenLoop fuel (m + 1) range

/-- `get_range_octet_len`, encoder.py:613-620 -/
def getRangeOctetLen (range : Int) : Nat := rangeOctetLenLoop (range.toNat.log2 + 1) 3 range

/-- `get_bit_field_size`, encoder.py:581-606; `none` is Python's `None`. -/
def getBitFieldSize (range : Int) : Option BitSize :=
  if range = 1 then some ⟨0, 0⟩
  else if range = 2 then some ⟨0, 1⟩
  else if 3 ≤ range ∧ range ≤ 4 then some ⟨0, 2⟩
  else if 5 ≤ range ∧ range ≤ 8 then some ⟨0, 3⟩
  else if 9 ≤ range ∧ range ≤ 16 then some ⟨0, 4⟩
  else if 17 ≤ range ∧ range ≤ 32 then some ⟨0, 5⟩
  else if 33 ≤ range ∧ range ≤ 64 then some ⟨0, 6⟩
  else if 65 ≤ range ∧ range ≤ 128 then some ⟨0, 7⟩
  else if 129 ≤ range ∧ range ≤ 255 then some ⟨0, 8⟩
  else if range = 256 then some ⟨1, 0⟩
  else if 256 < range ∧ range ≤ 65536 then some ⟨2, 0⟩
  else if range > 65536 then some ⟨getRangeOctetLen range, 0⟩
  else none

/-- `integer_range`, encoder.py:609-610 -/
def integerRange (lb ub : Int) : Int := ub - lb + 1

/-- `encode_non_negative_binary_integer`, encoder.py:507-515.  Simplification: a negative value
(whose text would contain '-' or 'b' and make a later `int(_, 2)` or hex decoding raise) raises here. -/
def encodeNonNegativeBinaryInteger (value : Int) (size : Option BitSize) (octetAlign : Bool)
    (minimumNumberOfOctets : Bool) : Except Err BitField :=
  if value < 0 then .error .valueError
  else if minimumNumberOfOctets then
    let encoded := pyBin value.toNat
    .ok ⟨octetAlign, if encoded.length % 8 ≠ 0 then padBits encoded.length ++ encoded else encoded⟩
  else
    match size with
    | none => .error .attributeError
    | some s => .ok ⟨octetAlign, zfill (s.octets * 8 + s.bits) (pyBin value.toNat)⟩

/-- `encode_constrained_whole_number`, encoder.py:465-484 -/
def encodeConstrainedWholeNumber (n : Int) (lowerBound upperBound : Option Int) : Except Err BitField := do
  let ub ← needInt upperBound
  let lb ← needInt lowerBound
  let range := ub - lb + 1
  let size := getBitFieldSize range
  let value := n - lb
  if range = 1 then return ⟨false, []⟩
  else if range ≤ 255 then encodeNonNegativeBinaryInteger value size false false
  else if range = 256 then encodeNonNegativeBinaryInteger value size true false
  else if 257 ≤ range ∧ range ≤ 65536 then encodeNonNegativeBinaryInteger value size true false
  else encodeNonNegativeBinaryInteger value size true true

/-- `encode_semi_constrained_whole_number`, encoder.py:518-522 -/
def encodeSemiConstrainedWholeNumber (n lowerBound : Int) : Except Err BitField :=
  encodeNonNegativeBinaryInteger (n - lowerBound) none true true

/-- `encode_length_determinant`, encoder.py:548-578 -/
def encodeLengthDeterminant (normallySmall constrained : Bool) (n : Int)
    (lowerBound upperBound : Option Int) : Except Err (List BitField) :=
  if normallySmall then
    if n ≤ 64 then do
      let f ← encodeNonNegativeBinaryInteger (n - 1) (some ⟨0, 6⟩) false false
      return [⟨false, [false]⟩, f]
    else .error .notImplemented
  else if constrained then do
    let f ← encodeConstrainedWholeNumber n lowerBound upperBound
    return [f]
  else if n ≤ 127 then do
    let f ← encodeNonNegativeBinaryInteger n (some ⟨0, 7⟩) true false
    return [⟨f.octetAlign, [false] ++ f.value⟩]
  else if n ≤ 16384 then do
    let f ← encodeNonNegativeBinaryInteger n (some ⟨1, 6⟩) true false
    return [⟨f.octetAlign, [true, false] ++ f.value⟩]
  else .error .notImplemented

/-- `encode_normally_small_non_negative_whole_number`, encoder.py:487-504 -/
def encodeNormallySmall (n lowerBound : Int) : Except Err (List BitField) :=
  if n ≤ 63 then do
    let f ← encodeNonNegativeBinaryInteger n (some ⟨0, 6⟩) false false
    return [⟨false, [false]⟩, f]
  else do
    let f ← encodeSemiConstrainedWholeNumber n lowerBound
    let octetLen := f.value.length / 8
    let ld ← encodeLengthDeterminant false false octetLen (some 1) none
    return [⟨false, [true]⟩] ++ ld ++ [f]

/-- `create_field_list_for_constrained_whole_number`, encoder.py:436-450 -/
def fieldListConstrained (n : Int) (lowerEndpoint upperEndpoint : Option Int) :
    Except Err (List BitField) := do
  let f ← encodeConstrainedWholeNumber n lowerEndpoint upperEndpoint
  let lb ← needInt lowerEndpoint
  let ub ← needInt upperEndpoint
  if integerRange lb ub ≤ 65536 then
    return [f]
  else
    let octets := f.value.length / 8
    let upperBound := getRangeOctetLen (ub - lb)
    let ld ← encodeLengthDeterminant false true octets (some 1) (some upperBound)
    return ld ++ [f]

/-- The loop of `get_twos_complement_octet_len`, encoder.py:623-636, with fuel. -/
def twosLenLoop : Nat → Nat → Int → Nat
  | 0, m, _ => m
  | fuel + 1, m, v =>
    if v ≥ 0 then
      if v < 2 ^ (m * 8 - 1) then m else twosLenLoop fuel (m + 1) v
    else
      if v ≥ -(2 ^ (m * 8 - 1)) then m else twosLenLoop fuel (m + 1) v

/-- `get_twos_complement_octet_len`, encoder.py:623-636 -/
def getTwosComplementOctetLen (v : Int) : Nat := twosLenLoop (v.natAbs.log2 + 1) 1 v

/-- `encode_twos_complement_binary_integer`, encoder.py:538-545 -/
def encodeTwosComplement (v : Int) (width : Nat) : Bits :=
  if v = 0 then List.replicate width false
  else if v > 0 then zfill width (pyBin v.toNat)
  else pyBin ((v.natAbs - 1) ^^^ bitsToNat (List.replicate width true))

/-- `create_field_list_for_unconstrained_whole_number` (encoder.py:525-529) with
`encode_unconstrained_whole_number` (532-535) inlined. -/
def fieldListUnconstrained (v : Int) : List BitField :=
  let len := getTwosComplementOctetLen v
  [⟨true, zfill 8 (pyBin len) ++ encodeTwosComplement v (8 * len)⟩]

/-- `encode_boolean`, encoder.py:60-64 -/
def encodeBoolean (b : Bool) : List BitField := [⟨false, [b]⟩]

/-- `encode_integer`, encoder.py:67-100 (`is_constant` is always false, encoder.py:651) -/
def encodeInteger (c : Constr) (v : Int) : Except Err (List BitField) :=
  if c.ext then do
    if ← chainLe c.lower c.upper v then
      let fl ← fieldListConstrained v c.lower c.upper
      return [⟨false, [false]⟩] ++ fl
    else
      return [⟨false, [true]⟩] ++ fieldListUnconstrained v
  else
    match c.lower, c.upper with
    | some _, some _ => fieldListConstrained v c.lower c.upper
    | some lb, none => do
      let f ← encodeSemiConstrainedWholeNumber v lb
      let n := f.value.length / 8
      let ld ← encodeLengthDeterminant false false n (some 1) none
      return ld ++ [f]
    | none, _ => .ok (fieldListUnconstrained v)

/-- `encode_enumerated`, encoder.py:103-118 -/
def encodeEnumerated (ext : Bool) (root add : List (String × Int)) (v : Int) :
    Except Err (List BitField) :=
  if !ext then
    fieldListConstrained v (some 0) (some (((root ++ add).length : Int) - 1))
  else if (root.map (·.2)).contains v then do
    let fl ← fieldListConstrained v (some 0) (some ((root.length : Int) - 1))
    return [⟨false, [false]⟩] ++ fl
  else
    match (add.map (·.2)).findIdx? (· == v) with
    | none => .error .valueError
    | some n => do
      let fl ← encodeNormallySmall n 0
      return [⟨false, [true]⟩] ++ fl

/-- `BitString.asBinary()`: the empty bit string prints as `'0'`. -/
def asBinary (b : Bits) : Bits := if b.isEmpty then [false] else b

/-- The optional leading extension bit of encoder.py:146-148 and similar. -/
def withExt (e : Option BitField) (fl : List BitField) : List BitField :=
  match e with
  | some f => f :: fl
  | none => fl

/-- encoder.py:140-175, the part of `encode_bitstring` after the extension test. -/
def encodeBitstringRoot (c : SizeC) (value : Bits) (e : Option BitField) : Except Err (List BitField) :=
  let len := value.length
  if c.upper = some 0 then .ok []
  else if c.lower ≠ none ∧ c.lower = c.upper then
    if len ≤ 16 then .ok (withExt e [⟨false, value⟩])
    else if len < 65536 then .ok (withExt e [⟨true, value⟩])
    else .error .notImplemented
  else
    match c.upper with
    | some u =>
      if u < 65536 then do
        let ld ← encodeLengthDeterminant false true len c.lowerZ c.upperZ
        return withExt e (ld ++ [⟨true, value⟩])
      else do
        let ld ← encodeLengthDeterminant false false len (some 0) none
        return withExt e (ld ++ [⟨true, value⟩])
    | none => do
      let ld ← encodeLengthDeterminant false false len (some 0) none
      return withExt e (ld ++ [⟨true, value⟩])

/-- `encode_bitstring`, encoder.py:121-175 (no named bits) -/
def encodeBitstring (c : SizeC) (b : Bits) : Except Err (List BitField) := do
  let value := asBinary b
  if c.ext then
    if ← chainLe c.lowerZ c.upperZ value.length then
      encodeBitstringRoot c value (some ⟨false, [false]⟩)
    else
      let ld ← encodeLengthDeterminant false false value.length (some 0) none
      return [⟨false, [true]⟩] ++ ld ++ [⟨true, value⟩]
  else
    encodeBitstringRoot c value none

/-- encoder.py:179-181 -/
def octetBits (o : List UInt8) : Bits := o.flatMap fun b => zfill 8 (pyBin b.toNat)

/-- encoder.py:197-231, the part of `encode_octetstring` after the extension test. -/
def encodeOctetstringRoot (c : SizeC) (value : Bits) (e : Option BitField) : Except Err (List BitField) :=
  let len := value.length / 8
  if c.upper = some 0 then .ok []
  else if c.lower ≠ none ∧ c.lower = c.upper then
    if len ≤ 2 then .ok (withExt e [⟨false, value⟩])
    else if len < 65536 then .ok (withExt e [⟨true, value⟩])
    else .error .notImplemented
  else
    match c.upper with
    | some _ => do
      let ld ← encodeLengthDeterminant false true len c.lowerZ c.upperZ
      return withExt e (ld ++ [⟨true, value⟩])
    | none => do
      let ld ← encodeLengthDeterminant false false len (some 0) none
      return withExt e (ld ++ [⟨true, value⟩])

/-- `encode_octetstring`, encoder.py:178-231 -/
def encodeOctetstring (c : SizeC) (o : List UInt8) : Except Err (List BitField) := do
  let value := octetBits o
  let len := value.length / 8
  if c.ext then
    if ← chainLe c.lowerZ c.upperZ len then
      encodeOctetstringRoot c value (some ⟨false, [false]⟩)
    else
      let ld ← encodeLengthDeterminant false false len c.lowerZ none
      return [⟨false, [true]⟩] ++ ld ++ [⟨false, value⟩]
  else
    encodeOctetstringRoot c value none

/-- `encode_open_type_field`, encoder.py:453-462, given the field list of the type. -/
def encodeOpenTypeField (fl : List BitField) : Except Err (List BitField) := do
  let s := produceCompleteEncoding fl
  let ld ← encodeLengthDeterminant false false ((s.length / 8 : Nat) : Int) none none
  return ld ++ [⟨true, s⟩]

/-- `encode_sequence_of`, encoder.py:357-390, given the number of components and their fields
(the components are encoded before the size is looked at). -/
def encodeSequenceOf (c : SizeC) (n : Nat) (fl : List BitField) : Except Err (List BitField) :=
  if c.ext then do
    if ← chainLe c.lowerZ c.upperZ n then
      let ld ← encodeLengthDeterminant false true n c.lowerZ c.upperZ
      return [⟨false, [false]⟩] ++ ld ++ fl
    else
      let ld ← encodeLengthDeterminant false false n (some 0) none
      return [⟨false, [true]⟩] ++ ld ++ fl
  else do
    match c.lower with
    | none => .error .typeError
    | some l =>
      if n < l then .error .sizeConstrainViolated
      else
        match c.upper with
        | some u =>
          if u ≠ 0 ∧ n > u then .error .invalidComponentIndex
          else if l = u ∧ u < 65536 then return fl
          else if u ≠ 0 then
            let ld ← encodeLengthDeterminant false true n c.lowerZ c.upperZ
            return ld ++ fl
          else
            let ld ← encodeLengthDeterminant false false n c.lowerZ none
            return ld ++ fl
        | none =>
          let ld ← encodeLengthDeterminant false false n c.lowerZ none
          return ld ++ fl

/-- `hasattr(x, '_componentValues')` implies `len(x._componentValues) > 0`: encoder.py:242-250,
286-296, 312-318. -/
def hasContent : Val → Bool
  | .seqOf vs => !vs.isEmpty
  | .seq comps => comps.any Option.isSome
  | _ => true

/-- Is the component encoded as present: encoder.py:241-252 (and 282-298, 309-318). -/
def present (t : Ty) (c : Option Val) : Bool :=
  match c with
  | some v => isValue t v && hasContent v
  | none => false

/-- `default._value != component._value`, encoder.py:257; constructed types have no `_value`. -/
def pyValueNe : Val → Val → Except Err Bool
  | .bool a, .bool b => .ok (a != b)
  | .int a, .int b => .ok (a != b)
  | .enum a, .enum b => .ok (a != b)
  | .bits a, .bits b => .ok (bitsToNat a != bitsToNat b)
  | .octets a, .octets b => .ok (a != b)
  | _, _ => .error .attributeError

/-- encoder.py:264-269 -/
def withOptionalBits (opt : Bits) (fl : List BitField) : Except Err (List BitField) :=
  if opt.isEmpty then .ok fl
  else if opt.length < 65536 then .ok (⟨false, opt⟩ :: fl)
  else .error .notImplemented

/-- What the loops of encoder.py:280-301 and 306-322 remember about a component. -/
structure Prev where
  present : Bool
  optional : Bool
  deriving DecidableEq, Repr

/-- `(index > 1) and not previous['present'] and not previous['optional']`, encoder.py:283, 310. -/
def Prev.gap : Option Prev → Bool
  | none => false
  | some p => !p.present && !p.optional

/-- `isValue` of a component as `getComponentByName` finds it; a component that was never set has none. -/
def isValueOpt (t : Ty) : Option Val → Bool
  | some v => isValue t v
  | none => false

/-- The scan of one extension addition group, encoder.py:305-322. -/
def scanGroup : Fields → List (Option Val) → Option Prev → Except Err (List Prev)
  | .nil, _, _ => .ok []
  | .cons _ k t r, cs, prev =>
    let c := effective k (cs.head?.getD none)
    if isValueOpt t c && Prev.gap prev then .error .mandatoryFieldNotPresentInGroup
    else do
      let me : Prev := ⟨present t c, k.isOptional⟩
      let rest ← scanGroup r cs.tail (some me)
      return me :: rest

/-- encoder.py:326-331; an empty previous group would index an empty list. -/
def checkPreviousGroup (prev : Option (List Prev)) : Except Err Unit :=
  match prev with
  | none => .ok ()
  | some infos =>
    if infos.any (fun p => p.present || p.optional) then .ok ()
    else if infos.isEmpty then .error .indexError
    else .error .mandatoryExtensionFieldNotPresent

/-- encoder.py:270-354, after the root and the extension parts have been produced. -/
def assembleSequence (rootFields : List BitField) (extBits : Bits) (extFields : List BitField) :
    Except Err (List BitField) := do
  let v ← pyInt2 extBits
  if v > 0 then
    let ld ← encodeLengthDeterminant true false extBits.length none none
    return [⟨false, [true]⟩] ++ rootFields ++ ld ++ [⟨false, extBits⟩] ++ extFields
  else
    return [⟨false, [false]⟩] ++ rootFields

/-- `encode_choice`, encoder.py:399-433, given the fields of the selected alternative.  Alternatives
are found by position instead of by name (names are distinct). -/
def assembleChoice (ext : Bool) (rootLen : Nat) (noExtensions : Bool) (pos : Nat) (fl : List BitField) :
    Except Err (List BitField) :=
  if !ext then
    if rootLen = 1 then return fl
    else if pos < rootLen then do
      let ix ← fieldListConstrained pos (some 0) (some ((rootLen : Int) - 1))
      return ix ++ fl
    else return []
  else if pos < rootLen then
    if rootLen = 1 then return [⟨false, [false]⟩] ++ fl
    else do
      let ix ← fieldListConstrained pos (some 0) (some ((rootLen : Int) - 1))
      return [⟨false, [false]⟩] ++ ix ++ fl
  else if noExtensions then .error .unboundLocal
  else do
    let ix ← encodeNormallySmall ((pos - rootLen : Nat) : Int) 0
    let ofl ← encodeOpenTypeField fl
    return [⟨false, [true]⟩] ++ ix ++ ofl

/-- One iteration of the root component loop, encoder.py:239-263: the presence bit, if any, and the
fields; `enc` encodes a value of the component's type. -/
def rootComponent (enc : Val → Except Err (List BitField)) (k : Kind) (t : Ty) (c : Option Val) :
    Except Err (Bits × List BitField) :=
  match k, c with
  | .optional, c =>
    if present t c then
      match c with
      | some v => do
        let fl ← enc v
        return ([true], fl)
      | none => .error .noValue
    else return ([false], [])
  | .default d, some v => do
    if ← pyValueNe d v then
      let fl ← enc v
      return ([true], fl)
    else return ([false], [])
  | .default d, none => do
    if ← pyValueNe d d then
      let fl ← enc d
      return ([true], fl)
    else return ([false], [])
  | .mandatory, some v => do
    let fl ← enc v
    return ([], fl)
  | .mandatory, none =>
    match emptyVal t with
    | some v => do
      let fl ← enc v
      return ([], fl)
    | none => .error .noValue

/-- One iteration of the extension addition loop, encoder.py:280-301, for the component as
`getComponentByName` finds it. -/
def additionComponent (enc : Val → Except Err (List BitField)) (t : Ty) (prev : Option Prev)
    (c : Option Val) : Except Err (Bool × List BitField) :=
  match c with
  | some v =>
    if isValue t v then
      if Prev.gap prev then .error .mandatoryExtensionFieldNotPresent
      else if hasContent v then do
        let fl ← enc v
        let ofl ← encodeOpenTypeField fl
        return (true, ofl)
      else return (false, [])
    else return (false, [])
  | none => return (false, [])

/-- One iteration of the extension addition group loop, encoder.py:323-338, after the scan.  A present
group is encoded as an open type holding a SEQUENCE without extension marker
(`create_new_fake_empty_sequence`, 655-684) whose root is encoded by `enc`. -/
def groupComponent (enc : Unit → Except Err (Bits × List BitField)) (prev : Option (List Prev))
    (infos : List Prev) : Except Err (Bool × List BitField) :=
  if !(infos.any (·.present)) then return (false, [])
  else do
    checkPreviousGroup prev
    let (opt, fl) ← enc ()
    let rootFields ← withOptionalBits opt fl
    let ofl ← encodeOpenTypeField rootFields
    return (true, ofl)

mutual
/-- `fill_field_list` of `data/builtin/*.py` dispatching to the `encode_*` function of the class. -/
def encTy : Ty → Val → Except Err (List BitField)
  | .boolean, .bool b => .ok (encodeBoolean b)
  | .integer c, .int z => encodeInteger c z
  | .enumerated ext root add, .enum z => encodeEnumerated ext root add z
  | .bitString c, .bits b => encodeBitstring c b
  | .octetString c, .octets o => encodeOctetstring c o
  | .seqOf c t, .seqOf vs => do
    let fls ← vs.mapM (encTy t)
    encodeSequenceOf c vs.length fls.flatten
  | .choice ext r a g, .choice pos v =>
    -- encode_choice, encoder.py:393-433
    (if pos < r.length then encAlt r pos v
     else if pos < r.length + a.length then encAlt a (pos - r.length) v
     else encAltG g (pos - (r.length + a.length)) v) >>=
      assembleChoice ext r.length (a.length = 0 ∧ g.length = 0) pos
  | .sequence ext r a g, .seq comps => do
    -- encode_sequence, encoder.py:234-354
    let (opt, fl) ← encRoot r comps
    let rootFields ← withOptionalBits opt fl
    if ext then
      if a.length = 0 ∧ g.length = 0 then
        return [⟨false, [false]⟩] ++ rootFields
      else
        let (abits, afl) ← encAdds a (comps.drop r.length) none
        let (gbits, gfl) ← encGroups g (comps.drop (r.length + a.length)) none
        assembleSequence rootFields (abits ++ gbits) (afl ++ gfl)
    else
      return rootFields
  | _, _ => .error .typeError
/-- `selected_component.fill_field_list`, encoder.py:396-398. -/
def encAlt : Fields → Nat → Val → Except Err (List BitField)
  | .nil, _, _ => .error .indexError
  | .cons _ _ t _, 0, v => encTy t v
  | .cons _ _ _ r, p + 1, v => encAlt r p v
def encAltG : Groups → Nat → Val → Except Err (List BitField)
  | .nil, _, _ => .error .indexError
  | .cons f g, p, v => if p < f.length then encAlt f p v else encAltG g (p - f.length) v
/-- The root component loop, encoder.py:238-263: presence bits and component fields. -/
def encRoot : Fields → List (Option Val) → Except Err (Bits × List BitField)
  | .nil, _ => .ok ([], [])
  | .cons _ k t r, cs => do
    let (b, fl) ← rootComponent (encTy t) k t (cs.head?.getD none)
    let (bs, fls) ← encRoot r cs.tail
    return (b ++ bs, fl ++ fls)
/-- The extension addition loop, encoder.py:279-301. -/
def encAdds : Fields → List (Option Val) → Option Prev → Except Err (Bits × List BitField)
  | .nil, _, _ => .ok ([], [])
  | .cons _ k t r, cs, prev => do
    let (b, fl) ← additionComponent (encTy t) t prev (effective k (cs.head?.getD none))
    let (bs, fls) ← encAdds r cs.tail (some ⟨b, k.isOptional⟩)
    return (b :: bs, fl ++ fls)
/-- The extension addition group loop, encoder.py:302-338. -/
def encGroups : Groups → List (Option Val) → Option (List Prev) → Except Err (Bits × List BitField)
  | .nil, _, _ => .ok ([], [])
  | .cons f g, cs, prev => do
    let infos ← scanGroup f cs none
    let (b, fl) ← groupComponent (fun _ => encRoot f cs) prev infos
    let (bs, fls) ← encGroups g (cs.drop f.length) (some infos)
    return (b :: bs, fl ++ fls)
end

/-- `encode`, encoder.py:33-37 -/
def encode (t : Ty) (v : Val) : Except Err (List UInt8) := do
  let fl ← encTy t v
  let h ← binToHex (produceCompleteEncoding fl)
  unhex h

end Verif
