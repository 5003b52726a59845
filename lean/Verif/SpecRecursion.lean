import Verif.SpecGenerate
/-!
# Specification vocabulary: types that contain themselves
-/
namespace Verif.Spec

/-- A reference to a type. -/
def named : TObj → List String
  | .ref n => [n]
  | _ => []

def defaulted : Pres → Bool
  | .default _ => true
  | _ => false

mutual
/-- The types that are mentioned in a type, at any depth.  Not followed: components with a DEFAULT (in the schemas the
grammar reads, only values of types without components can be written), and elements of a SEQUENCE OF whose type is
written in place, which are `elementsIn`. -/
def builtFrom : TObj → List String
  | .simple _ _ => []
  | .enumerated _ => []
  | .seqOf _ e => named e
  | .sequence items => builtFromItems items
  | .choice items => builtFromItems items
  | .ref n => [n]
def builtFromItems : Items → List String
  | .nil => []
  | .comp _ t p r => (if defaulted p then [] else builtFrom t) ++ builtFromItems r
  | .marker r => builtFromItems r
  | .group cs r => builtFromComps cs ++ builtFromItems r
def builtFromComps : Comps → List String
  | .nil => []
  | .cons _ t p r => (if defaulted p then [] else builtFrom t) ++ builtFromComps r
end

/-- A type that is written in place and can mention others. -/
def inPlace : TObj → List TObj
  | .simple _ _ => []
  | .ref _ => []
  | t => [t]

mutual
/-- The element types that are written in place, at any depth; not those in other element types (finding F85). -/
def elementsIn : TObj → List TObj
  | .simple _ _ => []
  | .enumerated _ => []
  | .seqOf _ e => inPlace e
  | .sequence items => elementsInItems items
  | .choice items => elementsInItems items
  | .ref _ => []
def elementsInItems : Items → List TObj
  | .nil => []
  | .comp _ t p r => (if defaulted p then [] else elementsIn t) ++ elementsInItems r
  | .marker r => elementsInItems r
  | .group cs r => elementsInComps cs ++ elementsInItems r
def elementsInComps : Comps → List TObj
  | .nil => []
  | .cons _ t p r => (if defaulted p then [] else elementsIn t) ++ elementsInComps r
end

/-- The types that are mentioned in a type and in the element types written in place in it. -/
def mentions (t : TObj) : List String := builtFrom t ++ (elementsIn t).flatMap builtFrom

/-- The type `a` of the schema mentions the type `b`, directly or through other types. -/
inductive Contains (as : List Assign) : String → String → Prop
  | direct {a b : String} {t : TObj} : .type a t ∈ as → b ∈ mentions t → Contains as a b
  | through {a b c : String} : Contains as a b → Contains as b c → Contains as a c

end Verif.Spec
