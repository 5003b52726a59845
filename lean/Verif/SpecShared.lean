import Verif.Shared
import Verif.SpecLooking
/-!
# Programs whose objects share parts
-/
namespace Verif.Spec

open Verif.Shared

mutual
/-- DEFAULT is used with simple types only. -/
def light : Ty → Bool
  | .seqOf _ t => light t
  | .choice _ r a g => lightFields r && lightFields a && lightGroups g
  | .sequence _ r a g => lightFields r && lightFields a && lightGroups g
  | _ => true
def lightFields : Fields → Bool
  | .nil => true
  | .cons _ k t r => (match k with | .default _ => !isConstructed t | _ => true) && light t && lightFields r
def lightGroups : Groups → Bool
  | .nil => true
  | .cons f g => lightFields f && lightGroups g
end

/-- At the address there is an object of the type. -/
def IsA (h : Store) (t : Ty) (x : Nat) : Prop := h[x]?.map Cell.ty = some t

/-- The parts of an object have the types its class asks for. -/
def Formed (h : Store) : Ty → Body → Prop
  | .seqOf _ t, .list es => ∀ y, y ∈ es.getD [] → IsA h t y
  | .choice _ r a g, .choice sel => ∀ pos y, sel = some (pos, y) → ∃ k t, partAt r a g pos = some (k, t) ∧ IsA h t y
  | .sequence _ r a g, .seq s =>
    (places (r.length + a.length + g.size) s).length = r.length + a.length + g.size ∧
      ∀ i y, place (places (r.length + a.length + g.size) s) i = some y → ∃ k t, partAt r a g i = some (k, t) ∧ IsA h t y
  | t, .leaf _ => isConstructed t = false
  | _, _ => False

/-- What pyasn1's checks on assignment ensure: the parts of every object have the right types. -/
def WellTyped (h : Store) : Prop := ∀ (x : Nat) (c : Cell), h[x]? = some c → light c.ty = true ∧ Formed h c.ty c.body

/-- Something a program does with its objects.  Objects it makes on the way are taken to be there from the start. -/
inductive Deed where
  /-- `encode(x)` -/
  | encode (x : Nat)
  /-- `x.to_dict()` -/
  | dict (x : Nat)
  /-- `x[name][name]...` -/
  | look (x : Nat) (path : List Nat)
  /-- `x[name] = y` for a component of a SEQUENCE -/
  | set (x i y : Nat)
  /-- `x.append(y)` -/
  | append (x y : Nat)
  /-- `x[name] = y` for an alternative of a CHOICE -/
  | choose (x pos y : Nat)

/-- The objects are there, and what is assigned has the type of the component. -/
def Allowed (h : Store) : Deed → Prop
  | .encode x => ∃ t, IsA h t x
  | .dict x => ∃ t, IsA h t x
  | .look x _ => ∃ t, IsA h t x
  | .set x i y => ∃ e r a g k t, IsA h (.sequence e r a g) x ∧ partAt r a g i = some (k, t) ∧ IsA h t y
  | .append x y => ∃ c t, IsA h (.seqOf c t) x ∧ IsA h t y
  | .choose x pos y => ∃ e r a g k t, IsA h (.choice e r a g) x ∧ partAt r a g pos = some (k, t) ∧ IsA h t y

/-- What is encoded is of a type with the property. -/
def Sends (h : Store) (p : Ty → Bool) (d : Deed) : Prop := ∀ x t, d = .encode x → IsA h t x → p t = true

/-- What is turned into a dictionary is of a type with the property. -/
def Displays (h : Store) (p : Ty → Bool) (d : Deed) : Prop := ∀ x t, d = .dict x → IsA h t x → p t = true

/-- The program assigns nothing. -/
def Deed.reads : Deed → Bool
  | .encode _ => true
  | .dict _ => true
  | .look _ _ => true
  | _ => false

/-- The number of components of the SEQUENCE at an address. -/
def width (h : Store) (x : Nat) : Nat :=
  match h[x]?.map Cell.ty with
  | some (.sequence _ r a g) => r.length + a.length + g.size
  | _ => 0

/-- What was assigned. -/
def Deed.assigned (h : Store) : Deed → Store
  | .set x i y => setAt (width h x) x i y h
  | .append x y => appendAt x y h
  | .choose x pos y => chooseAt x pos y h
  | _ => h

/-- The objects afterwards. -/
def Deed.done (h : Store) : Deed → Store
  | .encode x => (encodeAt x h).2
  | .dict x => (toDictAt x h).2
  | .look x p => (readAt p x h).2
  | d => d.assigned h

/-- What the calls of `encode` give. -/
def performed : List Deed → Store → List (Except Err (List UInt8))
  | [], _ => []
  | .encode x :: l, h => (encodeAt x h).1 :: performed l (Deed.done h (.encode x))
  | d :: l, h => performed l (d.done h)

/-- What the calls of `to_dict` give. -/
def displayed : List Deed → Store → List (Except Err (Option Dict))
  | [], _ => []
  | .dict x :: l, h => (toDictAt x h).1 :: displayed l (Deed.done h (.dict x))
  | d :: l, h => displayed l (d.done h)

/-- `encode` of the object written out, in which no part is shared. -/
def encodeApart (h : Store) (x : Nat) : Except Err (List UInt8) :=
  match h[x]? with
  | none => .error .attributeError
  | some c => (encodeObj c.ty (treeOf c.ty h x)).1

/-- The same for `to_dict`. -/
def dictApart (h : Store) (x : Nat) : Except Err (Option Dict) :=
  match h[x]? with
  | none => .error .attributeError
  | some c => (dictObj c.ty true (treeOf c.ty h x)).1

/-- What the calls of `encode` should give: the encoding of what was assigned so far, as if no part were shared and nobody had
encoded or looked at an object before. -/
def envisaged : List Deed → Store → List (Except Err (List UInt8))
  | [], _ => []
  | .encode x :: l, h => encodeApart h x :: envisaged l h
  | d :: l, h => envisaged l (d.assigned h)

/-- The same for `to_dict`. -/
def pictured : List Deed → Store → List (Except Err (Option Dict))
  | [], _ => []
  | .dict x :: l, h => dictApart h x :: pictured l h
  | d :: l, h => pictured l (d.assigned h)

end Verif.Spec
