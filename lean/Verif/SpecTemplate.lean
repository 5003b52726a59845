import Verif.Template
/-!
# Specification vocabulary for the generated classes
-/
namespace Verif.Spec

/-! ## ENUMERATED -/

/-- `ENUMERATED { root }` or `ENUMERATED { root, ..., additions }` as the grammar hands it over. -/
def enumTokens (root : List String) : Option (List String) → List EnumItem
  | none => root.map .id
  | some adds => root.map .id ++ .id "..." :: adds.map .id

/-- An identifier: neither white space nor a marker. -/
def Identifier (s : String) : Prop := s ≠ "..." ∧ ∀ c ∈ s.toList, c ≠ ' ' ∧ c ≠ '\t' ∧ c ≠ '\n' ∧ c ≠ '\r'

/-! ## SEQUENCE and CHOICE -/

/-- What stands in a component list: a component, the marker, or a group in version brackets. -/
inductive Item (α : Type) where
  | comp (x : α)
  | marker
  | group (xs : List α)

variable {α : Type}

/-- How it is written. -/
def written : List (Item α) → List (Tok α)
  | [] => []
  | .comp x :: r => .comp x :: written r
  | .marker :: r => .marker :: written r
  | .group xs :: r => .left :: (xs.map .comp ++ .right :: written r)

/-- All components in the order in which they are written. -/
def declared : List (Item α) → List α
  | [] => []
  | .comp x :: r => x :: declared r
  | .marker :: r => declared r
  | .group xs :: r => xs ++ declared r

/-- Components before the marker. -/
def rootOf : List (Item α) → List α
  | [] => []
  | .comp x :: r => x :: rootOf r
  | .marker :: _ => []
  | .group _ :: r => rootOf r

/-- Components outside version brackets. -/
def singlesOf : List (Item α) → List α
  | [] => []
  | .comp x :: r => x :: singlesOf r
  | .marker :: r => singlesOf r
  | .group _ :: r => singlesOf r

/-- Components after the marker and outside version brackets. -/
def additionsOf : List (Item α) → List α
  | [] => []
  | .comp _ :: r => additionsOf r
  | .marker :: r => singlesOf r
  | .group _ :: r => additionsOf r

/-- No component outside version brackets follows one inside. -/
def unmixed : List (Item α) → Bool
  | [] => true
  | .comp _ :: r => unmixed r
  | .marker :: r => unmixed r
  | .group xs :: r => (xs.isEmpty || (singlesOf r).isEmpty) && unmixed r

/-- One list per pair of version brackets. -/
def groupsOf : List (Item α) → List (List α)
  | [] => []
  | .comp _ :: r => groupsOf r
  | .marker :: r => groupsOf r
  | .group xs :: r => xs :: groupsOf r

def hasMarker : List (Item α) → Bool
  | [] => false
  | .comp _ :: r => hasMarker r
  | .marker :: _ => true
  | .group _ :: r => hasMarker r

end Verif.Spec
