import Verif.Generate
import Verif.Module
/-!
# The schema compiler as a whole

`parse_asn1_schema` (`/repo/asn1PERser/__init__.py`) after the grammar: the assignments are sorted
(`/repo/asn1PERser/classes/module.py`), then written and loaded (`Verif.Generate`).
-/
namespace Verif

mutual
/-- What `module.py` looks at in a parsed type (parse_actions.py:45-176, types/builtin/*.py): `typereference` is the
name of the class, or the name that is referred to. -/
def TObj.node (id : String) : TObj → Node
  | .simple k _ => .type .simple k.cls id "" []
  | .enumerated _ => .type .simple "EnumeratedType" id "" []
  -- SequenceOfType.py:38-39
  | .seqOf _ e => .type .component "SequenceOfType" id "" [e.node ""]
  | .sequence items => .type .component "SequenceType" id "" items.nodes
  | .choice items => .type .component "ChoiceType" id "" items.nodes
  | .ref n => .type .defined n id "" []
/-- SequenceType.py and ChoiceType.py, `__getitem__`: the list as it was parsed. -/
def Items.nodes : Items → List Node
  | .nil => []
  | .comp id t _ r => t.node id :: r.nodes
  | .marker r => .text "..." :: r.nodes
  | .group cs r => .text "[[" :: (cs.nodes ++ .text "]]" :: r.nodes)
def Comps.nodes : Comps → List Node
  | .nil => []
  | .cons id t _ r => t.node id :: r.nodes
end

/-- parse_actions.py:37-40 -/
def Node.assigned (n : String) : Node → Node
  | .type c t i v subs => if builtinTypes.contains t then .type c n i v subs else .type c t n v subs
  | .text s => .text s

/-- `parse_TypeAssignment`, `parse_ValueAssignment`, parse_actions.py:24-42 -/
def Assign.node : Assign → Node
  | .type n t => (t.node "").assigned n
  | .value n k _ => .type .simple k.cls "" (mangle n) []
  | .constant n m _ => .type .defined m "" (mangle n) []

/-- The setter of `ModuleBody`, module.py:179-181. -/
def moduleBody (as : List Assign) : List Assign × Bool := sortAssignments Assign.node as

/-- From parsed assignments to the loaded module.  The dictionaries of module.py:10-13 are filled before the assignments
are sorted; this is only noticed if a name is assigned twice. -/
def compileModule (as : List Assign) : Except GenErr Loaded := compile (moduleBody as).1

end Verif
