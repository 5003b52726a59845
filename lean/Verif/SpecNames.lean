import Verif.Types
/-!
# Names of components

Vocabulary of C63.
-/
namespace Verif.Spec

open Verif

mutual
/-- In every SEQUENCE and CHOICE the names of all components, root and extensions, are distinct. -/
def wellNamed : Ty → Bool
  | .seqOf _ t => wellNamed t
  | .choice _ r a g =>
    decide (r.names ++ a.names ++ g.names).Nodup && wellNamedAll r && wellNamedAll a && wellNamedAllG g
  | .sequence _ r a g =>
    decide (r.names ++ a.names ++ g.names).Nodup && wellNamedAll r && wellNamedAll a && wellNamedAllG g
  | _ => true
def wellNamedAll : Fields → Bool
  | .nil => true
  | .cons _ _ t r => wellNamed t && wellNamedAll r
def wellNamedAllG : Groups → Bool
  | .nil => true
  | .cons f g => wellNamedAll f && wellNamedAllG g
end

mutual
/-- The type without the names of its components, alternatives and items. -/
def anonymous : Ty → Ty
  | .enumerated ext root add => .enumerated ext (root.map fun p => ("", p.2)) (add.map fun p => ("", p.2))
  | .seqOf c t => .seqOf c (anonymous t)
  | .choice ext r a g => .choice ext (anonymousAll r) (anonymousAll a) (anonymousAllG g)
  | .sequence ext r a g => .sequence ext (anonymousAll r) (anonymousAll a) (anonymousAllG g)
  | t => t
def anonymousAll : Fields → Fields
  | .nil => .nil
  | .cons _ k t r => .cons "" k (anonymous t) (anonymousAll r)
def anonymousAllG : Groups → Groups
  | .nil => .nil
  | .cons f g => .cons (anonymousAll f) (anonymousAllG g)
end

end Verif.Spec
