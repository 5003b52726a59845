import Verif.Render
import Verif.Lemmas.PyLex
/-!
# The lines of a generated module

The same lines as characters, as tokens and as statements.
-/
namespace Verif.Python

/-! ## pieces of a line -/

inductive Piece where
  | name (s : String)
  | num (n : Nat)
  | str (s : String)
  | op (c : Char)
  | sp

def Piece.text : Piece → List Char
  | .name s => s.toList
  | .num n => n.repr.toList
  | .str s => '\'' :: (s.toList ++ ['\''])
  | .op c => [c]
  | .sp => [' ']

def Piece.toks : Piece → List Tok
  | .name s => [.name s]
  | .num n => [.num n]
  | .str s => [.str s]
  | .op c => [.op c]
  | .sp => []

def textOf (ps : List Piece) : List Char := ps.flatMap Piece.text

def toksOf (ps : List Piece) : List Tok := ps.flatMap Piece.toks

/-- A line: indentation and pieces; a blank line has none. -/
abbrev SLine := Nat × List Piece

def spaces (n : Nat) : List Char := List.replicate n ' '

def lineText (l : SLine) : List Char := if l.2.isEmpty then [] else spaces l.1 ++ textOf l.2

/-- Indented. -/
def shift (k : Nat) (l : SLine) : SLine := (l.1 + k, l.2)

/-! ## lines of the templates -/

def intPieces (z : Int) : List Piece := if z < 0 then [.op '-', .num z.natAbs] else [.num z.natAbs]

def endPieces : End → List Piece
  | .num z => intPieces z
  | .min => [.name "MIN"]
  | .max => [.name "MAX"]
  | .ref s => [.name s]

def classLine (x b : String) : List Piece :=
  [.name "class", .sp, .name x, .op '(', .name b, .op ')', .op ':']

/-- `x = ` -/
def setTo (x : String) : List Piece := [.name x, .sp, .op '=', .sp]

def specLine (f : String) (c : CTuple) : SLine :=
  (4, setTo "subtypeSpec" ++ ([.name f, .op '('] ++ (endPieces c.lower ++ ([.op ',', .sp] ++ (endPieces c.upper ++
    ((if c.ext then [.op ',', .sp, .name "extensionMarker", .op '=', .name "True"] else []) ++ [.op ')']))))))

def specLines (f : String) : Option CTuple → List SLine
  | none => [(4, [.name "pass"])]
  | some c => [specLine f c]

def exprPieces : Expr → List Piece
  | .int z => intPieces z
  | .bool b => [.name (if b then "True" else "False")]
  | .name s => [.name s]
  | .str s => [.str s]
  | .bin b => [.name "binValue", .op '=', .str (String.ofList (b.map Render.binChar))]
  | .hex h => [.name "hexValue", .op '=', .str (String.ofList (h.map Render.hexChar))]
  | .junk => []

def markerLines (b : Bool) : List SLine :=
  if b then [(4, setTo "subtypeSpec" ++ [.name "ExtensionMarker", .op '(', .name "True", .op ')'])] else []

def itemLine (i : String × Int) : SLine :=
  (8, [.op '(', .str i.1, .op ',', .sp] ++ (intPieces i.2 ++ [.op ')', .op ',']))

/-- A line with `NamedType(...)` and the like: `i` and `j` are its indentation. -/
def ntLine (i j : Nat) (nt : NT) : SLine :=
  match nt.kind with
  | .mandatory => (i, [.name "NamedType", .op '(', .str nt.name, .op ',', .sp, .name nt.fieldType, .op '(', .op ')',
      .op ')', .op ','])
  | .optional => (i, [.name "OptionalNamedType", .op '(', .str nt.name, .op ',', .sp, .name nt.fieldType, .op '(', .op ')',
      .op ')', .op ','])
  | .default e => (j, [.name "DefaultedNamedType", .op '(', .str nt.name, .op ',', .sp, .name nt.fieldType, .op '('] ++
      (exprPieces e ++ [.op ')', .op ')', .op ',']))
  | .constant s => (j, [.name "DefaultedNamedType", .op '(', .str nt.name, .op ',', .sp, .name s, .op ')', .op ','])

def groupLines (g : List NT) : List SLine :=
  (8, [.name "AdditiveNamedTypes", .op '(']) :: (g.map (ntLine 12 16) ++ [(8, [.op ')', .op ','])])

/-- `a + b` -/
def plusPieces (b : String) : List Piece := [.sp, .op '+', .sp, .name b]

def partsLines (root add : List NT) (groups : List (List NT)) : List SLine :=
  (4, setTo "rootComponent" ++ [.name "AdditiveNamedTypes", .op '(']) :: (root.map (ntLine 8 8) ++ ((4, [.op ')']) ::
  ((if add.isEmpty then [] else
      (4, setTo "extensionAddition" ++ [.name "AdditiveNamedTypes", .op '(']) ::
        (add.map (ntLine 8 12) ++ [(4, [.op ')'])])) ++
  ((if groups.isEmpty then [] else
      (4, setTo "extensionAdditionGroups" ++ [.op '[']) :: (groups.flatMap groupLines ++ [(4, [.op ']'])])) ++
  [(4, setTo "componentType" ++ (.name "rootComponent" ::
    ((if add.isEmpty then [] else plusPieces "extensionAddition") ++
     (if groups.isEmpty then [] else plusPieces "extensionAdditionGroups"))))]))))

/-- The constraint class in the templates of the simple types. -/
def specClass : Simple → String
  | .integer => "ValueRange"
  | _ => "ValueSize"

mutual
/-- The lines of a class. -/
def codeLines : Code → List SLine
  | .simple x k spec => (0, classLine x k.cls) :: specLines (specClass k) (shown k spec)
  | .enumerated x marker root add =>
    (0, classLine x "EnumeratedType") :: (markerLines marker ++
      ((4, setTo "enumerationRoot" ++ [.name "NamedValues", .op '(']) :: (root.map itemLine ++ ((4, [.op ')']) ::
      ((if add.isEmpty then [] else
        (4, setTo "extensionAddition" ++ [.name "NamedValues", .op '(']) :: (add.map itemLine ++ [(4, [.op ')'])])) ++
      [(4, setTo "namedValues" ++ (.name "enumerationRoot" ::
        (if add.isEmpty then [] else plusPieces "extensionAddition")))])))))
  | .seqOf x spec f =>
    (0, classLine x "SequenceOfType") :: ((match spec with | none => [] | some c => [specLine "SequenceOfValueSize" c]) ++
      [(4, setTo "componentType" ++ [.name f, .op '(', .op ')'])])
  | .sequence x subs marker root add groups =>
    (0, classLine x "SequenceType") :: (codesLines subs ++ (markerLines marker ++ partsLines root add groups))
  | .choice x subs marker root add groups =>
    (0, classLine x "ChoiceType") :: (codesLines subs ++ (markerLines marker ++ partsLines root add groups))
/-- The lines of nested classes. -/
def codesLines : Codes → List SLine
  | .nil => []
  | .cons c r => (codeLines c).map (shift 4) ++ ((0, []) :: codesLines r)
end

def stmtLines : Stmt → List SLine
  | .cls c => codeLines c
  | .alias n m => [(0, setTo n ++ [.name m])]
  | .value n m e => [(0, setTo n ++ ([.name m, .op '('] ++ (exprPieces e ++ [.op ')'])))]

/-! ## what the lines are made of -/

/-- A piece that is read as one token, as long as something else follows. -/
def Piece.Good : Piece → Prop
  | .name s => Ident s
  | .num _ => True
  | .str s => Quotable s.toList
  | .op c => isOp c = true
  | .sp => True

/-- Names and numbers do not touch each other. -/
def Apart : List Piece → Prop
  | [] => True
  | .name _ :: r => (∀ p, r.head? = some p → p = .sp ∨ ∃ c, p = .op c ∧ c ≠ '.') ∧ Apart r
  | .num _ :: r => (∀ p, r.head? = some p → p = .sp ∨ ∃ c, p = .op c ∧ c ≠ '.') ∧ Apart r
  | _ :: r => Apart r

end Verif.Python
