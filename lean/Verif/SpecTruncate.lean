import Verif.Spec
import Verif.SpecSize
/-!
# Types whose messages keep every field inside one octet

Vocabulary of C27.  A field that lies inside one octet is either received completely or not at all, so a message that
was cut at an octet boundary lacks it completely.
-/
namespace Verif.Spec

open Verif

/-- What is known about a position in a message: its distance from the preceding octet boundary, or nothing. -/
abbrev Phase := Option Nat

/-- The position `n` is as described. -/
def Phase.holds : Phase → Nat → Prop
  | none, _ => True
  | some r, n => n % 8 = r

/-- Where a field of `n` bits ends that is not aligned, if it certainly lies inside one octet. -/
def inOctet (n : Nat) : Phase → Option Phase
  | none => if n ≤ 1 then some none else none
  | some r => if r + n ≤ 8 then some (some ((r + n) % 8)) else none

/-- The same for a field that holds one of `n` numbers: none, up to 8 bits, or an octet of its own. -/
def oneOf (n : Nat) (P : Phase) : Option Phase :=
  if n = 1 then some P
  else if 2 ≤ n ∧ n ≤ 255 then inOctet ((n - 1).log2 + 1) P
  else if n = 256 then some (some 0)
  else none

/-- What is known if one of two things happened. -/
def Phase.or (P Q : Phase) : Phase := if P = Q then P else none

/-- The fields of `f`, `n` times. -/
def times (f : Phase → Option Phase) : Nat → Phase → Option Phase
  | 0, P => some P
  | n + 1, P => (f P).bind (times f n)

/-- The fields of `f` any number of times. -/
def anyTimes (f : Phase → Option Phase) (P : Phase) : Option Phase :=
  if f P = some P then some P else if (f none).isSome then some none else none

mutual
/-- Where a value of the type ends that begins at a position as described, if all its fields certainly lie inside one
octet each: no extension markers, no INTEGER with more than 256 values, no strings of more than an octet, no length
of more than an octet. -/
def narrow : Ty → Phase → Option Phase
  | .boolean, P => inOctet 1 P
  | .integer c, P =>
    if c.ext then none
    else match c.lower, c.upper with
      | some l, some u => if l ≤ u then oneOf (u - l + 1).toNat P else none
      | _, _ => none
  | .enumerated ext root add, P => if ext then none else oneOf (root.length + add.length) P
  | .bitString c, P =>
    if c.ext then none
    else match c.lower, c.upper with
      | some l, some u => if l = u then inOctet l P else none
      | _, _ => none
  | .octetString c, P =>
    if c.ext then none
    else match c.lower, c.upper with
      | some l, some u => if l = u then inOctet (8 * l) P else none
      | _, _ => none
  | .seqOf c t, P =>
    if c.ext then none
    else match c.lower, c.upper with
      | some l, some u =>
        if l = u then (if l < 65536 then times (narrow t) l P else none)
        else if l < u then (oneOf (u - l + 1) P).bind (anyTimes (narrow t)) else none
      | _, _ => none
  | .choice ext r _ _, P => if ext then none else (oneOf r.length P).bind (narrowAny r)
  | .sequence ext r _ _, P => if ext then none else (inOctet (optionals r) P).bind (narrowAll r)
/-- One of the alternatives. -/
def narrowAny : Fields → Phase → Option Phase
  | .nil, _ => none
  | .cons _ _ t .nil, P => narrow t P
  | .cons _ _ t r, P => (narrow t P).bind fun Q => (narrowAny r P).map Q.or
/-- All the components, those that may be absent or not. -/
def narrowAll : Fields → Phase → Option Phase
  | .nil, P => some P
  | .cons _ k t r, P =>
    (narrow t P).bind fun Q => narrowAll r (if isOpt k || hasDefault k then P.or Q else Q)
end

/-! ### messages whose last field lies inside one octet

A field that is cut leaves the reader behind the end of its input, where nothing can be read.  So it is enough if the
last field of a message lies inside one octet. -/

/-- Where fields end that are aligned: INTEGER with more than 255 values, OCTET STRING without a greatest length or of
a fixed length.  (What is known about the ends of other types follows from `narrow` only.) -/
def landing : Ty → Phase → Phase
  | .integer c, _ =>
    if c.ext then none
    else match c.lower, c.upper with
      | some l, some u => if u - l + 1 ≤ 255 then none else some 0
      | _, _ => some 0
  | .octetString c, P =>
    if c.ext then none
    else match c.lower, c.upper with
      | some l, some u => if l = u then (if l ≤ 2 then P else some 0) else none
      | _, none => some 0
      | none, some _ => none
  | _, _ => none

/-- What is known about the position behind a value of the type. -/
def behind (t : Ty) (P : Phase) : Phase := (narrow t P).getD (landing t P)

mutual
/-- The last field of every value of the type lies inside one octet, if the value begins at a position as described. -/
def closing : Ty → Phase → Bool
  | .boolean, P => (narrow .boolean P).isSome
  | .integer c, P => (narrow (.integer c) P).isSome
  | .enumerated ext root add, P => (narrow (.enumerated ext root add) P).isSome
  | .bitString c, P => (narrow (.bitString c) P).isSome
  | .octetString c, P => (narrow (.octetString c) P).isSome
  | .seqOf c t, P => (narrow (.seqOf c t) P).isSome ||
    !c.ext && (match c.lower, c.upper with
      | some l, some u =>
        (if l = u then decide (l < 65536) else decide (l < u) && (oneOf (u - l + 1) P).isSome) && closing t none
      | _, _ => false)
  | .choice ext r a g, P => (narrow (.choice ext r a g) P).isSome ||
    !ext && (match oneOf r.length P with
      | some Q => closingAny r Q true
      | none => closingAny r none false)
  | .sequence ext r a g, P => (narrow (.sequence ext r a g) P).isSome ||
    !ext && (match inOctet (optionals r) P with
      | some Q => closingAll r Q true
      | none => closingAll r none false)
/-- The alternatives; `s`: what came before them ends with a field inside one octet. -/
def closingAny : Fields → Phase → Bool → Bool
  | .nil, _, _ => true
  | .cons _ _ t r, P, s => closing t P && (s || needsBit t) && closingAny r P s
/-- The components, whichever of them are absent. -/
def closingAll : Fields → Phase → Bool → Bool
  | .nil, _, s => s
  | .cons _ k t r, P, s =>
    if isOpt k || hasDefault k then closingAll r (P.or (behind t P)) (s && closing t P)
    else closingAll r (behind t P) (closing t P && (s || needsBit t))
end

end Verif.Spec
