import Verif.Compiler
import Verif.Grammar
import Verif.Jinja
import Verif.TemplateFiles
/-!
# The text of the generated module

`fill_template` once more (`/repo/asn1PERser/classes/types/builtin/*.py`), now with the text the templates give.
-/
namespace Verif.Render

open Jinja (Value)

/-- `template_filler.fill`, classes/templates/creator.py:10-15 -/
def fill (file : String) (kwargs : Jinja.Vars) : Option (List Char) := do
  let template ← Jinja.parseTemplate (← Templates.file file)
  Jinja.renderNodes kwargs template

def str (s : String) : Value := .str s.toList

/-- An endpoint as the grammar hands it over: text. -/
def endText : End → List Char
  | .num z => Jinja.intText z
  | .min => "MIN".toList
  | .max => "MAX".toList
  | .ref s => s.toList

/-- `constraint={...}`, IntegerType.py:20-22; the endpoints of `NoConstraint` are `None`, types/constraint.py:9-14. -/
def constraintValue : Option CTuple → Value
  | none => .dict [("extensionMarker", .bool false), ("lowerEndpoint", .none), ("upperEndpoint", .none)]
  | some c => .dict [("extensionMarker", .bool c.ext), ("lowerEndpoint", .str (endText c.lower)),
      ("upperEndpoint", .str (endText c.upper))]

def binChar (b : Bool) : Char := if b then '1' else '0'

def hexChar (d : Fin 16) : Char := if d.val < 10 then Char.ofNat (d.val + 48) else Char.ofNat (d.val + 55)

/-- What `parse_value` returns, as text: types/type.py:19-20, BooleanType.py:28-31, OctetStringType.py:31-35,
BitStringType.py:31-35, EnumeratedType.py:52-53. -/
def exprText : Expr → Option (List Char)
  | .int z => some (Jinja.intText z)
  | .bool b => some (if b then "True" else "False").toList
  | .name s => some s.toList
  | .str s => some ('\'' :: s.toList ++ ['\''])
  | .bin b => some ("binValue='".toList ++ b.map binChar ++ ['\''])
  | .hex h => some ("hexValue='".toList ++ h.map hexChar ++ ['\''])
  | .junk => none

/-- `named_type_properties`, SequenceType.py:80-106 -/
def ntValue (nt : NT) : Option Value :=
  let dict (optional default constant : Bool) (value : List (String × Value)) : Value :=
    .dict ([("optional", .bool optional), ("default", .bool default), ("field_name", str nt.name),
      ("field_type", str nt.fieldType), ("is_constant", .bool constant)] ++ value)
  match nt.kind with
  | .mandatory => some (dict false false false [])
  | .optional => some (dict true false false [])
  | .default e => (exprText e).map fun v => dict false true false [("default_value", .str v)]
  | .constant s => some (dict false true true [("default_value", str s)])

/-- `named_type_properties`, ChoiceType.py:80-88 -/
def altValue (nt : NT) : Value := .dict [("field_name", str nt.name), ("field_type", str nt.fieldType)]

/-- An item, EnumeratedType.py:22-27 -/
def itemValue (i : String × Int) : Value := .dict [("field_name", str i.1), ("field_index", .int i.2)]

mutual
/-- `filled_template`: IntegerType.py:17-22, BooleanType.py:17-18, EnumeratedType.py:28-33, SequenceOfType.py:13-19,
SequenceType.py:56-63, ChoiceType.py:56-63. -/
def codeText : Code → Option (List Char)
  | .simple name .boolean _ => fill "BooleanType.txt" [("class_name", str name), ("class_type", str "BooleanType")]
  | .simple name k spec => fill (k.cls ++ ".txt")
      [("class_name", str name), ("class_type", str k.cls), ("constraint", constraintValue spec)]
  | .enumerated name marker root add => fill "EnumeratedType.txt"
      [("class_name", str name), ("class_type", str "EnumeratedType"), ("extension_marker", .bool marker),
       ("root_named_values", .list (root.map itemValue)), ("addition_named_values", .list (add.map itemValue))]
  | .seqOf name spec field => fill "SequenceOfType.txt"
      [("class_name", str name), ("class_type", str "SequenceOfType"), ("field_type", str field),
       ("constraint", constraintValue spec)]
  | .sequence name subs marker root add groups => do
    let subs ← codesTexts subs
    let groups ← groups.mapM fun g => g.mapM ntValue
    fill "SequenceType.txt"
      [("class_name", str name), ("class_type", str "SequenceType"), ("subtemplates", .list subs),
       ("extension_marker", .bool marker), ("root_named_types", .list (← root.mapM ntValue)),
       ("addition_named_types", .list (← add.mapM ntValue)),
       ("extension_addition_groups", .list (groups.map .list))]
  | .choice name subs marker root add groups => do
    let subs ← codesTexts subs
    fill "ChoiceType.txt"
      [("class_name", str name), ("class_type", str "ChoiceType"), ("subtemplates", .list subs),
       ("extension_marker", .bool marker), ("root_alternatives_types", .list (root.map altValue)),
       ("addition_alternatives_types", .list (add.map altValue)),
       ("extension_addition_groups", .list (groups.map fun g => .list (g.map altValue)))]
/-- `subtypes_templates`: without the last two characters, SequenceType.py:44, 48. -/
def codesTexts : Codes → Option (List Value)
  | .nil => some []
  | .cons c r => do
    let t ← codeText c
    return .str (t.take (t.length - 2)) :: (← codesTexts r)
end

/-- What a statement adds to the module: IntegerType.py:13-16, DefinedType.py:14-17, 26-29, 34-35. -/
def stmtText : Stmt → Option (List Char)
  | .cls c => codeText c
  | .alias n m => fill "type_type.txt" [("identifier", str n), ("typereference", str m)]
  | .value n m e => do
    fill "simple_value.txt" [("valuereference", str n), ("value", .str (← exprText e)), ("class_type", str m)]

def stmtsText : List Stmt → Option (List Char)
  | [] => some []
  | s :: r => do return (← stmtText s) ++ (← stmtsText r)

/-- `ModuleDefinition.fill_template`, module.py:31-37; the header is classes/templates/__init__.py:5-6. -/
def moduleText (prog : List Stmt) : Option (List Char) := do
  return (← fill "header.txt" []) ++ (← stmtsText prog)

/-- The text for a schema, `parse_asn1_schema`, `/repo/asn1PERser/__init__.py:12-15`, as `create_python_template` gives it
(module.py:24-29): without comments, parsed, its assignments sorted, and each filled in. -/
def pythonOf (schema : List Char) : Except Parse.PErr (Option (List Char)) := do
  let as ← Parse.parseModule (removeComments schema)
  match generate (moduleBody as).1 with
  | .ok prog => return moduleText prog
  | .error e => .error (.raised e)

end Verif.Render
