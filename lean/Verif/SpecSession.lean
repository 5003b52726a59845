import Verif.SpecCompiler
/-!
# Specification vocabulary: schemas that stand alone
-/
namespace Verif.Spec

mutual
/-- The words in DEFAULTs. -/
def defaultsIn : TObj → List String
  | .simple _ _ => []
  | .enumerated _ => []
  | .seqOf _ e => defaultsIn e
  | .sequence items => defaultsInItems items
  | .choice items => defaultsInItems items
  | .ref _ => []
def defaultsInItems : Items → List String
  | .nil => []
  | .comp _ t p r => defaultsIn t ++ (presNames p ++ defaultsInItems r)
  | .marker r => defaultsInItems r
  | .group cs r => defaultsInComps cs ++ defaultsInItems r
def defaultsInComps : Comps → List String
  | .nil => []
  | .cons _ t p r => defaultsIn t ++ (presNames p ++ defaultsInComps r)
end

/-- All types that the module uses are assigned in it. -/
def Closed (as : List Assign) : Prop :=
  (∀ n t, .type n t ∈ as → ∀ m ∈ typesIn t, m ∈ typeNames as) ∧
    ∀ n m l, .constant n m l ∈ as → m ∈ typeNames as

/-- Names of the values of named types. -/
def constantNames (as : List Assign) : List String :=
  as.filterMap fun a => match a with | .constant n _ _ => some n | _ => none

/-- No DEFAULT is one of these words, unless it is such a value of the module itself. -/
def Unaffected (words : List String) (as : List Assign) : Prop :=
  ∀ n t, .type n t ∈ as → ∀ s ∈ defaultsIn t, s ∈ words → s ∈ (constantNames as).map pyName

end Verif.Spec
