import Verif.Types
/-!
# How large a value is, and how large what is received can be

Vocabulary of C56.
-/
namespace Verif.Spec

open Verif

mutual
/-- The size of a value: one for every component, element and alternative, present or not, and the bits of numbers and
strings. -/
def weight : Val → Nat
  | .bool _ => 1
  | .int z => 1 + z.natAbs.log2
  | .enum _ => 1
  | .bits b => 1 + b.length
  | .octets o => 1 + 8 * o.length
  | .seqOf vs => 1 + weights vs
  | .choice _ v => 1 + weight v
  | .seq cs => 1 + slots cs
def weights : List Val → Nat
  | [] => 0
  | v :: vs => weight v + weights vs
def slots : List (Option Val) → Nat
  | [] => 0
  | none :: cs => 1 + slots cs
  | some v :: cs => 1 + weight v + slots cs
end

mutual
/-- Types of which every value takes at least one bit. -/
def needsBit : Ty → Bool
  | .boolean => true
  | .integer c => c.ext || (match c.lower, c.upper with | some l, some u => l != u | _, _ => true)
  | .enumerated ext root add => ext || (root ++ add).length != 1
  | .bitString c => c.ext || c.upper != some 0
  | .octetString c => c.ext || c.upper != some 0
  | .seqOf c t => c.ext ||
    (match c.lower, c.upper with
     | some l, some u => if l = u then decide (0 < l) && decide (l < 65536) && needsBit t else true
     | _, _ => true)
  | .choice ext r _ _ => ext || bitAll r
  | .sequence ext r _ _ => ext || bitAny r
/-- For the alternatives of a CHOICE: there are several, or the only one takes a bit. -/
def bitAll : Fields → Bool
  | .nil => true
  | .cons _ _ t .nil => needsBit t
  | .cons _ _ _ (.cons _ _ _ _) => true
/-- For the components of a SEQUENCE: one can be left out, or one takes a bit. -/
def bitAny : Fields → Bool
  | .nil => false
  | .cons _ k t r => k.isOptional || k.isDefaulted || needsBit t || bitAny r
end

/-- What can be received: `fixed` whatever the message, `perBit` for every bit of it, and `short` once if the message
ends too early. -/
structure Cost where
  fixed : Nat
  perBit : Nat
  short : Nat
deriving DecidableEq, Repr

/-- One after the other. -/
def Cost.add (a b : Cost) : Cost := ⟨a.fixed + b.fixed, max a.perBit b.perBit, max a.short b.short⟩

/-- One or the other. -/
def Cost.alt (a b : Cost) : Cost := ⟨max a.fixed b.fixed, max a.perBit b.perBit, max a.short b.short⟩

/-- In an open type field of at most 16383 octets.  The field is filled up with zeros if the message ends in it, and its
contents can end too early also if the message does not. -/
def Cost.opened (a : Cost) : Cost := ⟨a.fixed + a.short, a.perBit, a.perBit * 131064⟩

/-- One more. -/
def Cost.more (n : Nat) (a : Cost) : Cost := ⟨n + a.fixed, a.perBit, a.short⟩

/-- Greatest length that can be announced. -/
def longest (c : SizeC) : Nat := c.lower.getD 0 + 65535

mutual
def cost : Ty → Cost
  | .boolean => ⟨1, 0, 0⟩
  | .integer c => ⟨18 + (c.lower.getD 0).natAbs.log2, 1, 524288⟩
  | .enumerated _ _ _ => ⟨1, 0, 0⟩
  | .bitString c => ⟨2, 1, longest c⟩
  | .octetString c => ⟨9, 1, 8 * longest c⟩
  | .seqOf c t =>
    let k := cost t
    if needsBit t then ⟨1, k.fixed + k.perBit, k.short⟩
    else ⟨1 + longest c * k.fixed, k.perBit, k.short⟩
  | .choice _ r a g => ((costAlt r).alt ((costAlt a).alt (costAltG g)).opened).more 1
  | .sequence _ r a g => ((costAll r).add ((costAdds a).add (costGroups g))).more 1
def costAlt : Fields → Cost
  | .nil => ⟨0, 0, 0⟩
  | .cons _ _ t r => (cost t).alt (costAlt r)
def costAltG : Groups → Cost
  | .nil => ⟨0, 0, 0⟩
  | .cons f g => (costAlt f).alt (costAltG g)
def costAll : Fields → Cost
  | .nil => ⟨0, 0, 0⟩
  | .cons _ _ t r => ((cost t).more 1).add (costAll r)
def costAdds : Fields → Cost
  | .nil => ⟨0, 0, 0⟩
  | .cons _ _ t r => ((cost t).opened.more 1).add (costAdds r)
def costGroups : Groups → Cost
  | .nil => ⟨0, 0, 0⟩
  | .cons f g => ((costAll f).opened).add (costGroups g)
end

end Verif.Spec
