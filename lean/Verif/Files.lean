import Verif.Render
import Verif.Python
/-!
# The file that a module is written to

`parse_asn1_schema(asn1_schema, output_folder)`, `/repo/asn1PERser/__init__.py:12-15`, and `create_python_template`,
`/repo/asn1PERser/classes/module.py:24-29`, with a file system.

Simplified: paths are those of POSIX without symbolic links; a file holds characters (which encoding `open` chooses is
left out, as are permissions and full disks).
-/
namespace Verif.Files

open Parse

/-! ## paths and disks -/

abbrev Path := List Char

/-- The text between slashes. -/
def pieces : Path → List Path
  | [] => [[]]
  | c :: s =>
    if c = '/' then [] :: pieces s
    else
      match pieces s with
      | [] => [[c]]
      | p :: ps => (c :: p) :: ps

/-- What a path leads to: whether it starts at the root, and the names on the way.  Empty names and `.` lead nowhere. -/
structure Place where
  root : Bool
  names : List Path
deriving DecidableEq

def place (p : Path) : Place := ⟨p.head? == some '/', (pieces p).filter fun n => n != [] && n != ['.']⟩

/-- The folder that something is in. -/
def Place.parent (p : Place) : Place := ⟨p.root, p.names.dropLast⟩

/-- The folders that exist, and the files with what they hold. -/
structure Disk where
  folder : Place → Bool
  file : Place → Option (List Char)

/-- Another text for a file. -/
def Disk.put (d : Disk) (p : Place) (text : List Char) : Disk :=
  { d with file := fun q => if q = p then some text else d.file q }

/-- `os.path.join(a, b)` -/
def join (a b : Path) : Path :=
  if b.head? = some '/' then b
  else if a = [] ∨ a.getLast? = some '/' then a ++ b
  else a ++ '/' :: b

/-! ## modules -/

/-- Exceptions. -/
inductive Fault where
  | parse (e : PErr)
  /-- `FileNotFoundError`, `IsADirectoryError` -/
  | noFile
deriving DecidableEq

/-- `with open(p, 'w') as f: f.write(text)`, module.py:28-29: the file is emptied (or made), then filled. -/
def write (p : Path) (text : List Char) (d : Disk) : Except Fault Unit × Disk :=
  let at' := place p
  if d.folder at'.parent && !d.folder at' then (.ok (), (d.put at' []).put at' text) else (.error .noFile, d)

/-- `toks['ModuleIdentifier'][0]`, parse_actions.py:16: the identifier is the first element of module_def.py:196-208 -/
def nameOf : List Parse.Tok → String
  | .str n :: _ => n
  | _ => ""

/-- `ModuleDefinition.parseString`, as in `parseModule`, with the name of the module -/
def parseNamed (text : List Char) : Except PErr (String × List Assign) := do
  let s := expandTabs 0 text
  let fuel := s.length + 1
  let (toks, _) ← (moduleDefinition (type fuel fuel) (value fuel)).run s
  return (nameOf toks, bodyOf toks)

/-- `ModuleDefinition.create_python_template`, module.py:24-29: the text is made before the file is opened.  Without a
folder (`not path`: `None` or the empty string) it is returned. -/
def createTemplate (name : String) (as : List Assign) (folder : Option Path) (d : Disk) :
    Except Fault (Option (List Char)) × Disk :=
  match generate (moduleBody as).1 with
  | .error e => (.error (.parse (.raised e)), d)
  | .ok prog =>
    match Render.moduleText prog with
    | none => (.error (.parse (.raised .unmodelled)), d)
    | some text =>
      match folder with
      | none => (.ok (some text), d)
      | some [] => (.ok (some text), d)
      | some (c :: p) =>
        match write (join (c :: p) (name.toList ++ ['.', 'p', 'y'])) text d with
        | (.error e, d) => (.error e, d)
        | (.ok (), d) => (.ok none, d)

/-- `parse_asn1_schema`, `/repo/asn1PERser/__init__.py:12-15` -/
def parseSchema (schema : List Char) (folder : Option Path) (d : Disk) : Except Fault (Option (List Char)) × Disk :=
  match parseNamed (removeComments schema) with
  | .error e => (.error (.parse e), d)
  | .ok (name, as) => createTemplate name as folder d

/-- `import name` with the folder in `sys.path`: only what Python reads as one name can stand there. -/
def importModule (folder : Path) (name : String) (d : Disk) : Except GenErr Python.Env :=
  if Python.lex .idle name.toList == some [.name name] && Python.usable name then
    match d.file (place (join folder (name.toList ++ ['.', 'p', 'y']))) with
    | some text => Python.run text
    | none => .error .nameError
  else .error .syntaxError

end Verif.Files
