import Verif.Grammar
/-!
# Several schemas in one process

The dictionaries of `/repo/asn1PERser/classes/module.py:10-12` are never cleared: a schema is compiled with what earlier
ones have left in them.
-/
namespace Verif

/-- `typereference_to_type`, `constants` (module.py:10, 12), the older entries first, and the attributes that values of
named types have left in the objects of the first (`Objs`).  `valuereference_to_type` (module.py:11) is not used. -/
structure Globals where
  types : List (String × TObj)
  constants : List String
  objs : Objs

/-- A new process. -/
def Globals.fresh : Globals := ⟨[], [], []⟩

/-- After parsing a module (parse_actions.py:41) and sorting its assignments (module.py:54).  A type that is assigned again
has a new object. -/
def Globals.parsed (g : Globals) (as : List Assign) : Globals :=
  let own := ctxOf as
  ⟨g.types ++ own.types, g.constants ++ own.constants, g.objs.filter fun o => !(own.types.map Prod.fst).contains o.1⟩

/-- `ModuleDefinition.fill_template`, module.py:31-37; `already_filled_template` is cleared there. -/
def generateIn (g : Globals) (as : List Assign) : Except GenErr (Objs × List Plan) :=
  let g' := g.parsed as
  as.foldlM (genStep ⟨g'.types, g'.constants⟩) (g'.objs, [])

/-- `compileModule` in a process that has compiled other modules. -/
def compileIn (g : Globals) (as : List Assign) : Except GenErr Loaded := do
  load (← emitted (← generateIn g (moduleBody as).1).2)

/-- The dictionaries afterwards.  If an assignment raises, what the ones before it have left in the objects stays; here it
is left out, see `Verif.Props.C54_alone_partial` for any `Objs`. -/
def Globals.after (g : Globals) (as : List Assign) : Globals :=
  let as := (moduleBody as).1
  let g' := g.parsed as
  match generateIn g as with
  | .ok (objs, _) => { g' with objs := objs }
  | .error _ => g'

/-- One module after the other. -/
def session (g : Globals) : List (List Assign) → List (Except GenErr Loaded)
  | [] => []
  | as :: rest => compileIn g as :: session (g.after as) rest

/-- `parse_asn1_schema`, `/repo/asn1PERser/__init__.py`, in a process that has compiled other modules. -/
def compileTextIn (g : Globals) (text : List Char) : Except Parse.PErr Loaded := do
  let as ← Parse.parseModule (removeComments text)
  match compileIn g as with
  | .ok st => return st
  | .error e => .error (.raised e)

end Verif
