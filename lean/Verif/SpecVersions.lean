import Verif.Spec
/-!
# Versions of a schema

Vocabulary of the exact statements of C26 and C42, and of C62.
-/
namespace Verif.Spec

open Verif

/-- The component is neither OPTIONAL nor DEFAULT. -/
def needed (k : Kind) : Bool := !isOpt k && !hasDefault k

/-- Some component is mandatory. -/
def obligatory : Fields → Bool
  | .nil => false
  | .cons _ k _ r => needed k || obligatory r

/-- Every addition group has a mandatory component: a group that is there holds something. -/
def firm : Groups → Bool
  | .nil => true
  | .cons f g => obligatory f && firm g

mutual
/-- The second type is a later version of the first: extensible ENUMERATEDs may have more items at the end, CHOICEs more
extension alternatives, anywhere inside; all else is the same. -/
def Later : Ty → Ty → Prop
  | .boolean, u => u = .boolean
  | .integer c, u => u = .integer c
  | .bitString c, u => u = .bitString c
  | .octetString c, u => u = .octetString c
  | .enumerated ext root add, u =>
    ∃ more, u = .enumerated ext root (add ++ more) ∧ (ext = true ∨ more = [])
  | .seqOf c t, u => ∃ t', u = .seqOf c t' ∧ Later t t'
  | .choice ext r a g, u =>
    ∃ r' a' g', u = .choice ext r' a' g' ∧ LaterAll r r' ∧
      ((g = .nil ∧ LaterSome a a') ∨ (LaterAll a a' ∧ LaterMore g g'))
  | .sequence ext r a g, u =>
    ∃ r' a' g', u = .sequence ext r' a' g' ∧ LaterAll r r' ∧ LaterAll a a' ∧ LaterGroups g g'
/-- The same components or alternatives, each in a later version. -/
def LaterAll : Fields → Fields → Prop
  | .nil, u => u = .nil
  | .cons n k t r, u => ∃ t' r', u = .cons n k t' r' ∧ Later t t' ∧ LaterAll r r'
/-- The same alternatives and perhaps more. -/
def LaterSome : Fields → Fields → Prop
  | .nil, _ => True
  | .cons n k t r, u => ∃ t' r', u = .cons n k t' r' ∧ Later t t' ∧ LaterSome r r'
/-- The same groups. -/
def LaterGroups : Groups → Groups → Prop
  | .nil, u => u = .nil
  | .cons f g, u => ∃ f' g', u = .cons f' g' ∧ LaterAll f f' ∧ LaterGroups g g'
/-- The same groups and perhaps more. -/
def LaterMore : Groups → Groups → Prop
  | .nil, _ => True
  | .cons f g, u => ∃ f' g', u = .cons f' g' ∧ LaterAll f f' ∧ LaterMore g g'
end

mutual
/-- The value uses only items and alternatives that the type has. -/
def known : Ty → Val → Bool
  | .enumerated _ root add, .enum z => (root ++ add).any (fun p => p.2 == z)
  | .seqOf _ t, .seqOf vs => vs.all (known t)
  | .choice _ r a g, .choice pos v =>
    if pos < r.length then knownAlt r pos v
    else if pos < r.length + a.length then knownAlt a (pos - r.length) v
    else knownAltG g (pos - (r.length + a.length)) v
  | .sequence _ r a g, .seq cs =>
    knownAll r cs && knownAll a (cs.drop r.length) && knownAllG g (cs.drop (r.length + a.length))
  | _, _ => true
def knownAlt : Fields → Nat → Val → Bool
  | .nil, _, _ => false
  | .cons _ _ t _, 0, v => known t v
  | .cons _ _ _ r, i + 1, v => knownAlt r i v
def knownAltG : Groups → Nat → Val → Bool
  | .nil, _, _ => false
  | .cons f g, i, v => if i < f.length then knownAlt f i v else knownAltG g (i - f.length) v
def knownAll : Fields → List (Option Val) → Bool
  | .nil, _ => true
  | .cons _ _ t r, cs => (match cs.head? with | some (some v) => known t v | _ => true) && knownAll r cs.tail
def knownAllG : Groups → List (Option Val) → Bool
  | .nil, _ => true
  | .cons f g, cs => knownAll f cs && knownAllG g (cs.drop f.length)
end

mutual
/-- Every DEFAULT value uses only items and alternatives that its type has. -/
def defaultsKnown : Ty → Bool
  | .seqOf _ t => defaultsKnown t
  | .choice _ r a g => defaultsKnownAll r && defaultsKnownAll a && defaultsKnownAllG g
  | .sequence _ r a g => defaultsKnownAll r && defaultsKnownAll a && defaultsKnownAllG g
  | _ => true
def defaultsKnownAll : Fields → Bool
  | .nil => true
  | .cons _ k t r => (match k with | .default d => known t d | _ => true) && defaultsKnown t && defaultsKnownAll r
def defaultsKnownAllG : Groups → Bool
  | .nil => true
  | .cons f g => defaultsKnownAll f && defaultsKnownAllG g
end

end Verif.Spec
