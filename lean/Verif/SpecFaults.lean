import Verif.Types
/-!
# What can go wrong when octets are decoded

Vocabulary of C58.
-/
namespace Verif.Spec

open Verif

/-- What comes of a range that is used although an end is missing, or although its ends are not in order. -/
def badRange {α : Type} [LT α] [DecidableRel (α := α) (· < ·)] (e : Err) (lo hi : Option α) : Bool :=
  match lo, hi with
  | some a, some b => e == .attributeError && decide (b < a)
  | _, _ => e == .typeError

mutual
/-- The exceptions, apart from `ValueError` and `NotImplemented`, that a message can cause: by the types that occur in the
type of the message.
* a value outside of a constraint without extension marker;
* `TypeError` for a number that no item of an ENUMERATED has, and for ranges that lack an end they need;
* `IndexError` for an alternative that a CHOICE does not have;
* `AttributeError` for empty ENUMERATEDs and CHOICEs, and for ranges that are empty. -/
def mayRaise (e : Err) : Ty → Bool
  | .boolean => false
  | .integer c => (!c.ext && e == .constraint) || ((c.ext || (c.lower.isSome && c.upper.isSome)) && badRange e c.lower c.upper)
  | .enumerated _ root _ => e == .typeError || (root.isEmpty && e == .attributeError)
  | .bitString c => (!c.ext && e == .constraint) || (c.upper.isSome && badRange e c.lower c.upper)
  | .octetString c => (!c.ext && e == .constraint) || (c.upper.isSome && badRange e c.lower c.upper)
  | .seqOf c t => ((c.ext || c.upper.isSome || c.lower.isNone) && badRange e c.lower c.upper) || mayRaise e t
  | .choice _ r a g => e == .indexError || ((match r with | .nil => true | _ => false) && e == .attributeError) || mayRaiseAny e r || mayRaiseAny e a || mayRaiseGroups e g
  | .sequence _ r a g => mayRaiseAny e r || mayRaiseAny e a || mayRaiseGroups e g
def mayRaiseAny (e : Err) : Fields → Bool
  | .nil => false
  | .cons _ _ t r => mayRaise e t || mayRaiseAny e r
def mayRaiseGroups (e : Err) : Groups → Bool
  | .nil => false
  | .cons f g => mayRaiseAny e f || mayRaiseGroups e g
end

mutual
/-- A BIT STRING of no bits is all there is, or can be chosen. -/
def canBeNothing : Ty → Bool
  | .bitString c => c.upper == some 0
  | .choice _ r a g => anyNothing r || anyNothing a || groupsNothing g
  | _ => false
def anyNothing : Fields → Bool
  | .nil => false
  | .cons _ _ t r => canBeNothing t || anyNothing r
def groupsNothing : Groups → Bool
  | .nil => false
  | .cons f g => anyNothing f || groupsNothing g
end

/-- A CHOICE is decoded, and what was chosen can be a BIT STRING of no bits. -/
def choosesNothing : Ty → Bool
  | .choice x r a g => canBeNothing (.choice x r a g)
  | _ => false

end Verif.Spec
