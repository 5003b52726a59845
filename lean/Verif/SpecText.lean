import Verif.SpecGenerate
/-!
# Names that survive being written down

What the names in a module have to be like for its text to say what is meant.
-/
namespace Verif.Spec

/-- A Python identifier: letters (of ASCII), digits, underscores; no digit first. -/
def identifier (s : String) : Bool :=
  match s.toList with
  | [] => false
  | c :: r => (c.isAlpha || c = '_') && r.all fun c => c.isAlphanum || c = '_'

/-- Text that can stand between single quotes as it is. -/
def quotable (s : String) : Bool := s.toList.all fun c => c ≠ '\'' && c ≠ '\\' && !decide (c < ' ')

/-- The names every generated module imports. -/
def imported : List String :=
  ["IntegerType", "BooleanType", "OctetStringType", "BitStringType", "EnumeratedType", "SequenceOfType", "SequenceType",
   "ChoiceType", "NamedType", "NamedTypes", "OptionalNamedType", "DefaultedNamedType", "NamedValues", "UTF8String",
   "AdditiveNamedTypes", "MIN", "MAX", "NoConstraint", "ExtensionMarker", "SequenceOfValueSize", "ValueRange", "SingleValue",
   "ValueSize", "ConstraintOr", "ConstraintAnd"]

/-- A name of its own. -/
def fresh (s : String) : Bool := identifier s && !imported.contains s

/-- A value that is written as a string. -/
def quotableValue : Expr → Bool
  | .str s => quotable s
  | _ => true

def writableNT (nt : NT) : Bool := quotable nt.name && (match nt.kind with | .default e => quotableValue e | _ => true)

def mandatory (nt : NT) : Bool := match nt.kind with | .mandatory => true | _ => false

/-- The class of the library that a class is derived from. -/
def base : Code → String
  | .simple _ k _ => k.cls
  | .enumerated .. => "EnumeratedType"
  | .seqOf .. => "SequenceOfType"
  | .sequence .. => "SequenceType"
  | .choice .. => "ChoiceType"

mutual
/-- A class whose names can be written down.  Alternatives of a CHOICE have no OPTIONAL and no DEFAULT. -/
def writableCode : Code → Bool
  | .simple x _ _ => identifier x
  | .enumerated x _ _ _ => identifier x
  | .seqOf x _ _ => identifier x
  | .sequence x subs _ root add groups => identifier x && writableCodes subs && (root ++ add ++ groups.flatten).all writableNT
  | .choice x subs _ root add groups => identifier x && writableCodes subs &&
      (root ++ add ++ groups.flatten).all fun nt => writableNT nt && mandatory nt
def writableCodes : Codes → Bool
  | .nil => true
  | .cons c r => fresh c.name && writableCode c && writableCodes r
end

/-- A class of the module may have the name of the class it is derived from, as those of anonymous elements do. -/
def writable : Stmt → Bool
  | .cls c => (fresh c.name || c.name == base c) && writableCode c
  | .alias n _ => fresh n
  | .value n _ e => fresh n && quotableValue e

/-! ## schemas whose words are words -/

def WordedPres : Pres → Prop
  | .default (.word s) => quotable s = true
  | _ => True

mutual
/-- Components have identifiers for names, and DEFAULTs that are words can be quoted. -/
def Worded : TObj → Prop
  | .simple _ _ => True
  | .enumerated _ => True
  | .seqOf _ e => Worded e
  | .sequence items => WordedItems items
  | .choice items => WordedItems items
  | .ref _ => True
def WordedItems : Items → Prop
  | .nil => True
  | .comp id t p r => (LowerName id ∧ Worded t ∧ WordedPres p) ∧ WordedItems r
  | .marker r => WordedItems r
  | .group cs r => WordedComps cs ∧ WordedItems r
def WordedComps : Comps → Prop
  | .nil => True
  | .cons id t p r => (LowerName id ∧ Worded t ∧ WordedPres p) ∧ WordedComps r
end

/-- The same of an assignment; and its name is one of its own, in Python too. -/
def WordedAssign : Assign → Prop
  | .type n t => fresh (pyName n) = true ∧ Worded t
  | .value n _ l => fresh (pyName n) = true ∧ WordedPres (.default l)
  | .constant n _ l => fresh (pyName n) = true ∧ WordedPres (.default l)

end Verif.Spec
