import Verif.Spec
import Verif.Generate
/-!
# Specification vocabulary: modules that make sense
-/
namespace Verif.Spec

/-- A range with its ends in order. -/
def Ordered {α : Type} [LE α] (lo hi : Option α) : Prop := ∀ l h, lo = some l → hi = some h → l ≤ h

mutual
/-- A class that makes sense: ranges have their ends in order, items are numbered by position and
named differently, every DEFAULT is a value of
its type; the same for the types inside. -/
def Sound : Ty → Prop
  | .boolean => True
  | .integer c => c = .noConstraint ∨ ∃ lo hi e, c = .valueRange lo hi e ∧ Ordered lo hi
  | .enumerated _ root add => Numbered root add ∧ ((root ++ add).map Prod.fst).Nodup
  | .bitString c => Ordered c.lower c.upper
  | .octetString c => Ordered c.lower c.upper
  | .seqOf _ t => Sound t
  | .choice _ r a g => SoundFields r ∧ SoundFields a ∧ SoundGroups g
  | .sequence _ r a g => SoundFields r ∧ SoundFields a ∧ SoundGroups g
def SoundFields : Fields → Prop
  | .nil => True
  | .cons _ k t r => Sound t ∧ (∀ d, k = .default d → conforms t d = true) ∧ SoundFields r
def SoundGroups : Groups → Prop
  | .nil => True
  | .cons f r => SoundFields f ∧ SoundGroups r
end

/-- What a name of a module may stand for: a class that makes sense, or a value of such a class. -/
def SoundObj : PyObj → Prop
  | .cls t => Sound t
  | .val t v => Sound t ∧ conforms t v = true

end Verif.Spec
