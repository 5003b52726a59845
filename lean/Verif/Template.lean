import Verif.Types
/-!
# What the generated classes consist of

The data part of `fill_template`, i.e. the arguments handed to the Jinja templates, and the concatenation of
component lists in the generated classes.
-/
namespace Verif

/-! ## ENUMERATED -/

/-- What the grammar hands over: an identifier (also the marker `...`), or a group for `a(5)`;
parse_actions.py:172-176, asn_definitions/common_def.py:29-32. -/
inductive EnumItem where
  | id (s : String)
  | number (n s : String)
deriving DecidableEq

/-- `str(EnumerationItem)`; the setter makes a `dict` of a group, types/builtin/EnumeratedType.py:45-50. -/
def EnumItem.str : EnumItem → String
  | .id s => s
  | .number n s => "{'" ++ n ++ "': '" ++ s ++ "'}"

/-- `str.strip()` for the white space that can occur. -/
def pyStrip (s : String) : String :=
  let ws := fun c : Char => c == ' ' || c == '\t' || c == '\n' || c == '\r'
  String.ofList ((s.toList.dropWhile ws).reverse.dropWhile ws).reverse

/-- Local variables of `fill_template`. -/
structure EnumState where
  root : List (String × Int)
  addition : List (String × Int)
  marker : Bool
  index : Nat

/-- The loop body, types/builtin/EnumeratedType.py:17-27. -/
def enumStep (st : EnumState) (item : EnumItem) : EnumState :=
  if item = .id "..." then { st with marker := true }
  else if !st.marker then
    { st with root := st.root ++ [(pyStrip item.str, (st.index : Int))], index := st.index + 1 }
  else { st with addition := st.addition ++ [(pyStrip item.str, (st.index : Int))], index := st.index + 1 }

/-- types/builtin/EnumeratedType.py:12-27 -/
def enumItems (items : List EnumItem) : EnumState := items.foldl enumStep ⟨[], [], false, 0⟩

/-- The generated class, templates/files/EnumeratedType.txt. -/
def enumClass (items : List EnumItem) : Ty :=
  .enumerated (enumItems items).marker (enumItems items).root (enumItems items).addition

/-! ## SEQUENCE and CHOICE -/

/-- `ComponentTypeList` / `AlternativeTypeList`: components and the strings `...`, `[[`, `]]`. -/
inductive Tok (α : Type) where
  | comp (x : α)
  | marker
  | left
  | right

/-- Local variables of `fill_template`. -/
structure PartState (α : Type) where
  root : List α
  addition : List α
  groups : List (List α)
  single : List α
  inGroup : Bool
  marker : Bool

/-- The loop body, types/builtin/SequenceType.py:21-40 (ChoiceType.py:21-40 is the same).  `...` inside `[[ ]]` has no
attribute `identifier` and raises. -/
def partStep {α : Type} (st : PartState α) : Tok α → Except Err (PartState α)
  | .left => .ok { st with inGroup := true }
  | .right => .ok { st with inGroup := false, groups := st.groups ++ [st.single], single := [] }
  | .marker => if st.inGroup then .error .attributeError else .ok { st with marker := true }
  | .comp x =>
    if st.inGroup then .ok { st with single := st.single ++ [x] }
    else if !st.marker then .ok { st with root := st.root ++ [x] }
    else .ok { st with addition := st.addition ++ [x] }

/-- types/builtin/SequenceType.py:12-40, ChoiceType.py:12-40 -/
def parts {α : Type} (toks : List (Tok α)) : Except Err (PartState α) :=
  toks.foldlM partStep ⟨[], [], [], [], false, false⟩

/-! ## component lists -/

/-- Second operand of `+`: component lists or lists of them. -/
inductive Addend (α : Type) where
  | types (l : List α)
  | list (ls : List (List α))

/-- `AdditiveNamedTypes.__add__`, types/type.py:115-122 -/
def additiveAdd {α : Type} (self : List α) : Addend α → List α
  | .list ls => self ++ ls.foldl (fun all l => all ++ l) []
  | .types l => self ++ l

/-- `componentType` of a generated class, end of templates/files/SequenceType.txt and ChoiceType.txt. -/
def componentType {α : Type} (st : PartState α) : List α :=
  match st.addition.isEmpty, st.groups.isEmpty with
  | true, true => st.root
  | false, true => additiveAdd st.root (.types st.addition)
  | true, false => additiveAdd st.root (.list st.groups)
  | false, false => additiveAdd (additiveAdd st.root (.types st.addition)) (.list st.groups)

end Verif
