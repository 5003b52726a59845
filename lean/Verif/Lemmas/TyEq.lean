import Verif.Generate
/-!
# Equality of types can be decided
-/
namespace Verif

mutual
def Constr.beq : Constr → Constr → Bool
  | .noConstraint, .noConstraint => true
  | .extensionMarker a, .extensionMarker b => a == b
  | .valueRange a b c, .valueRange a' b' c' => a == a' && b == b' && c == c'
  | .singleValue a b, .singleValue a' b' => a == a' && b == b'
  | .union a b, .union a' b' => a == a' && Constr.beqL b b'
  | .inter a b, .inter a' b' => a == a' && Constr.beqL b b'
  | _, _ => false
def Constr.beqL : List Constr → List Constr → Bool
  | [], [] => true
  | a :: l, b :: m => Constr.beq a b && Constr.beqL l m
  | _, _ => false
end

mutual
theorem Constr.beq_iff : ∀ v w : Constr, Constr.beq v w = true ↔ v = w
  | .noConstraint, w => by cases w <;> simp [Constr.beq]
  | .extensionMarker _, w => by cases w <;> simp [Constr.beq]
  | .valueRange _ _ _, w => by cases w <;> simp [Constr.beq, and_assoc]
  | .singleValue _ _, w => by cases w <;> simp [Constr.beq]
  | .union _ a, w => by cases w <;> simp [Constr.beq, Constr.beqL_iff a]
  | .inter _ a, w => by cases w <;> simp [Constr.beq, Constr.beqL_iff a]
theorem Constr.beqL_iff : ∀ v w : List Constr, Constr.beqL v w = true ↔ v = w
  | [], w => by cases w <;> simp [Constr.beqL]
  | v :: vs, w => by cases w <;> simp [Constr.beqL, Constr.beq_iff v, Constr.beqL_iff vs]
end

instance : DecidableEq Constr := fun v w => decidable_of_iff _ (Constr.beq_iff v w)

deriving instance DecidableEq for Kind
deriving instance DecidableEq for Ty, Fields, Groups
deriving instance DecidableEq for PyObj

/-- What a name of a compiled module stands for. -/
def compiledTo (as : List Assign) (n : String) : Except GenErr (Option PyObj) := do
  return (← compile as).env.lookup n

end Verif
