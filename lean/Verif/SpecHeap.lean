import Verif.Heap
/-!
# Objects that are what their classes say, and what a call may do to them
-/
namespace Verif.Spec

open Verif.Heap

/-- The types of the components of a class, in order. -/
def fieldTypes : Fields → List Ty
  | .nil => []
  | .cons _ _ t r => t :: fieldTypes r
def groupTypes : Groups → List Ty
  | .nil => []
  | .cons f g => fieldTypes f ++ groupTypes g
def componentTypes : Ty → List Ty
  | .seqOf _ t => [t]
  | .choice _ r a g => fieldTypes r ++ fieldTypes a ++ groupTypes g
  | .sequence _ r a g => fieldTypes r ++ fieldTypes a ++ groupTypes g
  | _ => []

mutual
/-- How deep a type is nested. -/
def height : Ty → Nat
  | .seqOf _ t => height t + 1
  | .choice _ r a g => max (heightFields r) (max (heightFields a) (heightGroups g)) + 1
  | .sequence _ r a g => max (heightFields r) (max (heightFields a) (heightGroups g)) + 1
  | _ => 1
def heightFields : Fields → Nat
  | .nil => 0
  | .cons _ _ t r => max (height t) (heightFields r)
def heightGroups : Groups → Nat
  | .nil => 0
  | .cons f g => max (heightFields f) (heightGroups g)
end

/-- There is an object of class `t` at `x`. -/
def Has (h : Heap) (x : Nat) (t : Ty) : Prop := ∃ c, h[x]? = some c ∧ c.cls = t

/-- Every object is made of objects of the classes that its class names, and the class has an object for each. -/
def WellFormed (h : Heap) : Prop :=
  ∀ (x : Nat) (c : Cell), h[x]? = some c →
    (∀ (i : Nat) (t : Ty), (componentTypes c.cls)[i]? = some t → ∃ a, c.attrs[i]? = some a ∧ Has h a t) ∧
    (∀ (i a : Nat), c.slots[i]? = some (some a) → ∀ t : Ty, (componentTypes c.cls)[i]? = some t → Has h a t) ∧
    (∀ i a, c.sel = some (i, a) → ∀ t : Ty, (componentTypes c.cls)[i]? = some t → Has h a t)

/-- An object after a call: its class and the objects of the class, its value, its elements and each component that was
set are what they were. -/
structure KeptCell (c c' : Cell) : Prop where
  cls : c'.cls = c.cls
  attrs : c'.attrs = c.attrs
  value : c'.value = c.value
  elems : c'.elems = c.elems
  slots : ∀ (i a : Nat), c.slots[i]? = some (some a) → c'.slots[i]? = some (some a)
  /-- Only a CHOICE selects anything else. -/
  sel : (∀ e r a g, c.cls ≠ .choice e r a g) → c'.sel = c.sel

/-- No object went away, and each is kept. -/
def KeptObjects (h h' : Heap) : Prop := ∀ (x : Nat) (c : Cell), h[x]? = some c → ∃ c', h'[x]? = some c' ∧ KeptCell c c'

end Verif.Spec
