import Verif.Received
import Verif.SpecShared
/-!
# Programs that receive objects and send them on
-/
namespace Verif.Spec

open Verif.Shared

/-- The parts of every object have the types its class asks for (`WellTyped` without its restriction on DEFAULT). -/
def Typed (h : Store) : Prop := ∀ (x : Nat) (c : Cell), h[x]? = some c → Formed h c.ty c.body

/-- At the address there is an object of the type that holds the value. -/
def Holds (h : Store) (t : Ty) (v : Val) (x : Nat) : Prop := IsA h t x ∧ treeOf t h x = ofVal t v

/-- The objects after a program. -/
def doneAll : List Deed → Store → Store
  | [], h => h
  | d :: l, h => doneAll l (d.done h)

/-- The objects at addresses from `n` on are the same. -/
def SameFrom (n : Nat) (h h' : Store) : Prop := ∀ z, n ≤ z → h'[z]? = h[z]?

/-- The object at the first address is the one at the second, or contains it. -/
inductive Within (h : Store) : Nat → Nat → Prop
  | self (x : Nat) : Within h x x
  | element {z y x : Nat} {t : Ty} {es : List Nat} : h[z]? = some ⟨t, .list (some es)⟩ → y ∈ es → Within h y x → Within h z x
  | alternative {z y x pos : Nat} {t : Ty} : h[z]? = some ⟨t, .choice (some (pos, y))⟩ → Within h y x → Within h z x
  | component {z y x i : Nat} {t : Ty} {s : List (Option Nat)} : h[z]? = some ⟨t, .seq (some s)⟩ → place s i = some y →
    Within h y x → Within h z x

/-- The object a statement assigns to. -/
def target : Deed → Option Nat
  | .set x _ _ => some x
  | .append x _ => some x
  | .choose x _ _ => some x
  | _ => none

end Verif.Spec
