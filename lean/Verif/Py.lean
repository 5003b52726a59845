/-!
# Python primitives used by the codec

`str` objects made of '0'/'1' are `List Bool` (most significant bit first), hexadecimal
strings are lists of digit values, `bytes` are `List UInt8`, Python integers are `Nat`/`Int`.
-/
namespace Verif

/-- Exceptions that can leave the code.  `raise NotImplemented` in the code base is a
`TypeError` in Python 3; it is kept apart here as `notImplemented`. -/
inductive Err where
  /-- pyasn1 `ValueConstraintError` raised by a value constructor -/
  | constraint
  /-- `raise NotImplemented` -/
  | notImplemented
  /-- encoder.py:25 -/
  | sizeConstrainViolated
  /-- encoder.py:29 -/
  | invalidComponentIndex
  /-- encoder.py:17 -/
  | mandatoryExtensionFieldNotPresent
  /-- encoder.py:21 -/
  | mandatoryFieldNotPresentInGroup
  /-- `ValueError` (e.g. `int('', 2)`) -/
  | valueError
  /-- `IndexError` -/
  | indexError
  /-- `TypeError` (e.g. arithmetic with `None`) -/
  | typeError
  /-- `AttributeError` (e.g. `None.octets`) -/
  | attributeError
  /-- pyasn1 error: using the value of a valueless object -/
  | noValue
  /-- `UnboundLocalError` -/
  | unboundLocal
  deriving DecidableEq, Repr

abbrev Bits := List Bool

/-- The `w` low bits of `n`, most significant first. -/
def natToBits : Nat → Nat → Bits
  | 0, _ => []
  | w + 1, n => n.testBit w :: natToBits w n

/-- `bin(n)[2:]` for `n ≥ 0` (gives `'0'` for 0). -/
def pyBin (n : Nat) : Bits := natToBits (n.log2 + 1) n

/-- `s.zfill(w)` for an unsigned digit string. -/
def zfill (w : Nat) (s : Bits) : Bits := List.replicate (w - s.length) false ++ s

/-- Value of a bit string read as an unsigned binary number. -/
def bitsToNat (s : Bits) : Nat := s.foldl (fun a b => 2 * a + b.toNat) 0

/-- `int(s, 2)`; raises `ValueError` on the empty string. -/
def pyInt2 (s : Bits) : Except Err Nat :=
  if s.isEmpty then .error .valueError else .ok (bitsToNat s)

/-- The `w` low hexadecimal digits of `n`, most significant first. -/
def natToHex : Nat → Nat → List Nat
  | 0, _ => []
  | w + 1, n => n / 16 ^ w % 16 :: natToHex w n

/-- `hex(n)[2:]` for `n ≥ 0`. -/
def pyHex (n : Nat) : List Nat := natToHex (n.log2 / 4 + 1) n

/-- `s.zfill(w)` on hexadecimal digits. -/
def zfillHex (w : Nat) (s : List Nat) : List Nat := List.replicate (w - s.length) 0 ++ s

/-- Value of a hexadecimal digit string. -/
def hexToNat (s : List Nat) : Nat := s.foldl (fun a d => 16 * a + d) 0

/-- `int(s, 16)`; raises `ValueError` on the empty string. -/
def pyInt16 (s : List Nat) : Except Err Nat :=
  if s.isEmpty then .error .valueError else .ok (hexToNat s)

/-- `binascii.hexlify`. -/
def hexlify (bs : List UInt8) : List Nat := bs.flatMap fun b => [b.toNat / 16, b.toNat % 16]

/-- `codecs.decode(s, 'hex_codec')`; an odd number of digits raises. -/
def unhex : List Nat → Except Err (List UInt8)
  | [] => .ok []
  | [_] => .error .valueError
  | a :: b :: r => do
    let rest ← unhex r
    return UInt8.ofNat (16 * a + b) :: rest

/-- pyasn1 `OctetString.fromHexString`: digits are paired from the left, an odd last digit is
completed with a `0` on its right. -/
def fromHexString : List Nat → List UInt8
  | [] => []
  | [a] => [UInt8.ofNat (16 * a)]
  | a :: b :: r => UInt8.ofNat (16 * a + b) :: fromHexString r

end Verif
