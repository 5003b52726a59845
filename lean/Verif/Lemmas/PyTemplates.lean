import Verif.Lemmas.PyShape
/-!
# The templates, read
-/
namespace Verif.Jinja

mutual
def Node.beq : Node → Node → Bool
  | .text s, .text t => s == t
  | .out e, .out f => decide (e = f)
  | .cond e a b, .cond f c d => decide (e = f) && (Node.beqL a c && Node.beqL b d)
  | .loop x e a, .loop y f b => decide (x = y) && (decide (e = f) && Node.beqL a b)
  | .indent a, .indent b => Node.beqL a b
  | _, _ => false
def Node.beqL : List Node → List Node → Bool
  | [], [] => true
  | a :: l, b :: m => Node.beq a b && Node.beqL l m
  | _, _ => false
end

mutual
theorem Node.eq_of_beq : ∀ a b : Node, Node.beq a b = true → a = b
  | .text _, b, h => by cases b <;> simp_all [Node.beq]
  | .out _, b, h => by cases b <;> simp_all [Node.beq]
  | .cond e a b, n, h => by
    cases n <;> simp [Node.beq] at h
    next f c d => rw [h.1, Node.eq_of_beqL a c h.2.1, Node.eq_of_beqL b d h.2.2]
  | .loop x e a, n, h => by
    cases n <;> simp [Node.beq] at h
    next y f b => rw [h.1, h.2.1, Node.eq_of_beqL a b h.2.2]
  | .indent a, n, h => by
    cases n <;> simp [Node.beq] at h
    next b => rw [Node.eq_of_beqL a b h]
theorem Node.eq_of_beqL : ∀ a b : List Node, Node.beqL a b = true → a = b
  | [], b, h => by cases b <;> simp_all [Node.beqL]
  | a :: l, n, h => by
    cases n with
    | nil => simp [Node.beqL] at h
    | cons b m =>
      simp only [Node.beqL, Bool.and_eq_true] at h
      rw [Node.eq_of_beq a b h.1, Node.eq_of_beqL l m h.2]
end

/-- A file is this template. -/
def isTemplate (name : String) (ns : List Node) : Bool :=
  match (Templates.file name).bind parseTemplate with
  | some ms => Node.beqL ms ns
  | Option.none => false

theorem fill_eq {name : String} {ns : List Node} (h : isTemplate name ns = true) (kwargs : Vars) :
    Render.fill name kwargs = renderNodes kwargs ns := by
  unfold isTemplate at h
  unfold Render.fill
  cases hf : Templates.file name with
  | none => simp [hf] at h
  | some f =>
    simp only [hf, Option.bind_some] at h
    cases hp : parseTemplate f with
    | none => simp [hp] at h
    | some ms =>
      rw [hp] at h
      simp [hp, Node.eq_of_beqL _ _ h]

end Verif.Jinja

namespace Verif.Python

/-- The beginning of a line. -/
def ln (i : Nat) (ps : List Piece) : List Char := '\n' :: (spaces i ++ textOf ps)

def var (x : String) : Jinja.Node := .out (.path x [])

def attr (x a : String) : Jinja.Node := .out (.path x [a])

def ends : List Char := ['\n', '\n', '\n']

/-- The first line of a class. -/
def classNodes : List Jinja.Node :=
  [.text ("class".toList ++ [' ']), var "class_name", .text ['('], var "class_type", .text [')', ':']]

def lower : Jinja.Expr := .path "constraint" ["lowerEndpoint"]

def upper : Jinja.Expr := .path "constraint" ["upperEndpoint"]

def specNodes (f : String) (no : List Jinja.Node) : Jinja.Node :=
  .cond (.and lower (.and upper (.path "constraint" ["extensionMarker"])))
    [.text (ln 4 (setTo "subtypeSpec" ++ [.name f, .op '('])), .out lower, .text [',', ' '], .out upper,
     .text (textOf [.op ',', .sp, .name "extensionMarker", .op '=', .name "True"] ++ [')'])]
    [.cond (.and lower upper)
      [.text (ln 4 (setTo "subtypeSpec" ++ [.name f, .op '('])), .out lower, .text [',', ' '], .out upper, .text [')']]
      no]

def simpleNodes (f : String) : List Jinja.Node :=
  classNodes ++ [specNodes f [.text (ln 4 [.name "pass"])], .text ends]

def booleanNodes : List Jinja.Node :=
  [.text ("class".toList ++ [' ']), var "class_name", .text ['('], var "class_type",
   .text ([')', ':'] ++ (ln 4 [.name "pass"] ++ ends))]

def seqOfNodes : List Jinja.Node :=
  classNodes ++ [specNodes "SequenceOfValueSize" [], .text (ln 4 (setTo "componentType")), var "field_type",
    .text (['(', ')'] ++ ends)]

def markerNode : Jinja.Node :=
  .cond (.path "extension_marker" [])
    [.text (ln 4 (setTo "subtypeSpec" ++ [.name "ExtensionMarker", .op '(', .name "True", .op ')']))] []

def itemNodes (l : String) : Jinja.Node :=
  .loop "named_value" (.path l [])
    [.text (ln 8 [.op '('] ++ ['\'']), attr "named_value" "field_name", .text ['\'', ',', ' '],
     attr "named_value" "field_index", .text [')', ',']]

def enumNodes : List Jinja.Node :=
  classNodes ++ [markerNode,
    .text (ln 4 (setTo "enumerationRoot" ++ [.name "NamedValues", .op '('])),
    itemNodes "root_named_values",
    .text (ln 4 [.op ')']),
    .cond (.path "addition_named_values" [])
      [.text (ln 4 (setTo "extensionAddition" ++ [.name "NamedValues", .op '('])),
       itemNodes "addition_named_values",
       .text (ln 4 [.op ')'])] [],
    .cond (.not (.path "addition_named_values" []))
      [.text (ln 4 (setTo "namedValues" ++ [.name "enumerationRoot"]))]
      [.text (ln 4 (setTo "namedValues" ++ (.name "enumerationRoot" :: plusPieces "extensionAddition")))],
    .text ends]

def subNodes : Jinja.Node := .indent [.loop "template" (.path "subtemplates" []) [.text ['\n'], var "template"]]

/-- A component without DEFAULT. -/
def plainNodes (f : String) (i : Nat) : List Jinja.Node :=
  [.text (ln i [.name f, .op '('] ++ ['\'']), attr "named_type" "field_name", .text ['\'', ',', ' '],
   attr "named_type" "field_type", .text ['(', ')', ')', ',']]

def constantNodes (j : Nat) : List Jinja.Node :=
  [.text (ln j [.name "DefaultedNamedType", .op '('] ++ ['\'']), attr "named_type" "field_name", .text ['\'', ',', ' '],
   attr "named_type" "default_value", .text [')', ',']]

def defaultNodes (j : Nat) : List Jinja.Node :=
  [.text (ln j [.name "DefaultedNamedType", .op '('] ++ ['\'']), attr "named_type" "field_name", .text ['\'', ',', ' '],
   attr "named_type" "field_type", .text ['('], attr "named_type" "default_value", .text [')', ')', ',']]

def ntNode (i j : Nat) : Jinja.Node :=
  .cond (.path "named_type" ["optional"]) (plainNodes "OptionalNamedType" i)
    [.cond (.path "named_type" ["default"])
      [.cond (.path "named_type" ["is_constant"]) (constantNodes j) (defaultNodes j)]
      (plainNodes "NamedType" i)]

/-- In the groups of a CHOICE. -/
def altNode : Jinja.Node :=
  .cond (.path "named_type" ["optional"]) (plainNodes "OptionalNamedType" 12)
    [.cond (.path "named_type" ["default"]) (defaultNodes 12) (plainNodes "NamedType" 12)]

def rootText : Jinja.Node := .text (ln 4 (setTo "rootComponent" ++ [.name "AdditiveNamedTypes", .op '(']))

def addText : Jinja.Node := .text (ln 4 (setTo "extensionAddition" ++ [.name "AdditiveNamedTypes", .op '(']))

def addNode (l : String) (body : List Jinja.Node) : Jinja.Node :=
  .cond (.path l []) [addText, .loop "named_type" (.path l []) body, .text (ln 4 [.op ')'])] []

def groupsNode (body : List Jinja.Node) : Jinja.Node :=
  .cond (.path "extension_addition_groups" [])
    [.text (ln 4 (setTo "extensionAdditionGroups" ++ [.op '['])),
     .loop "extenion_addition_group" (.path "extension_addition_groups" [])
      [.text (ln 8 [.name "AdditiveNamedTypes", .op '(']),
       .loop "named_type" (.path "extenion_addition_group" []) body,
       .text (ln 8 [.op ')', .op ','])],
     .text (ln 4 [.op ']'])] []

def sumText (ps : List Piece) : Jinja.Node := .text (ln 4 (setTo "componentType" ++ (.name "rootComponent" :: ps)))

def sumNode (l : String) : Jinja.Node :=
  .cond (.and (.not (.path l [])) (.not (.path "extension_addition_groups" []))) [sumText []]
    [.cond (.and (.path l []) (.not (.path "extension_addition_groups" []))) [sumText (plusPieces "extensionAddition")]
      [.cond (.and (.not (.path l [])) (.path "extension_addition_groups" []))
        [sumText (plusPieces "extensionAdditionGroups")]
        [sumText (plusPieces "extensionAddition" ++ plusPieces "extensionAdditionGroups")]]]

def sequenceNodes : List Jinja.Node :=
  classNodes ++ [subNodes, markerNode, rootText,
    .loop "named_type" (.path "root_named_types" []) [ntNode 8 8],
    .text (ln 4 [.op ')']),
    addNode "addition_named_types" [ntNode 8 12],
    groupsNode [ntNode 12 16],
    sumNode "addition_named_types", .text ends]

def choiceNodes : List Jinja.Node :=
  classNodes ++ [subNodes, markerNode, rootText,
    .loop "named_type" (.path "root_alternatives_types" []) (plainNodes "NamedType" 8),
    .text (ln 4 [.op ')']),
    addNode "addition_alternatives_types" (plainNodes "NamedType" 8),
    groupsNode [altNode],
    sumNode "addition_alternatives_types", .text ends]

def valueNodes : List Jinja.Node :=
  [var "valuereference", .text [' ', '=', ' '], var "class_type", .text ['('], var "value", .text ([')'] ++ ends)]

def aliasNodes : List Jinja.Node := [var "identifier", .text [' ', '=', ' '], var "typereference", .text ends]

theorem integer_template : Jinja.isTemplate "IntegerType.txt" (simpleNodes "ValueRange") = true := by decide +kernel
theorem octet_template : Jinja.isTemplate "OctetStringType.txt" (simpleNodes "ValueSize") = true := by decide +kernel
theorem bit_template : Jinja.isTemplate "BitStringType.txt" (simpleNodes "ValueSize") = true := by decide +kernel
theorem boolean_template : Jinja.isTemplate "BooleanType.txt" booleanNodes = true := by decide +kernel
theorem enum_template : Jinja.isTemplate "EnumeratedType.txt" enumNodes = true := by decide +kernel
theorem seqOf_template : Jinja.isTemplate "SequenceOfType.txt" seqOfNodes = true := by decide +kernel
theorem sequence_template : Jinja.isTemplate "SequenceType.txt" sequenceNodes = true := by decide +kernel
theorem choice_template : Jinja.isTemplate "ChoiceType.txt" choiceNodes = true := by decide +kernel
theorem value_template : Jinja.isTemplate "simple_value.txt" valueNodes = true := by decide +kernel
theorem alias_template : Jinja.isTemplate "type_type.txt" aliasNodes = true := by decide +kernel

end Verif.Python
