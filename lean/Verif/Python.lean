import Verif.Jinja
import Verif.Lemmas.TyEq
/-!
# Reading and running generated Python

Python as far as `/repo/asn1PERser/classes/templates/files/*.txt` use it: what `import` makes of the text of a generated
module.  A text this does not read may still be Python; the other way round, everything this reads is read the same way by
Python.

* physical lines are put together to logical lines (brackets, a backslash at the end), indented by spaces;
* statements are `pass`, `from m import a, b`, `from m import *`, `x = e`, `class x(b):` and a block;
* expressions are names, numbers, strings in single quotes, calls of a name, tuples, lists, `+` and `-`.
-/
namespace Verif.Python

/-! ## tokens -/

inductive Tok where
  | name (s : String)
  | num (n : Nat)
  | str (s : String)
  | op (c : Char)
deriving DecidableEq

def nameStart (c : Char) : Bool := c.isAlpha || c = '_'

def nameChar (c : Char) : Bool := c.isAlphanum || c = '_'

def isOp (c : Char) : Bool := c ∈ ['(', ')', '[', ']', ',', '=', '+', '-', '*', ':', '.', '\\']

/-- What the lexer is in the middle of; what has been read of it, backwards. -/
inductive Mode where
  | idle
  | name (acc : List Char)
  | num (acc : List Char)
  | str (acc : List Char)

/-- A number has no leading zeros. -/
def numTok (acc : List Char) : Option Tok :=
  match acc.reverse with
  | ['0'] => some (.num 0)
  | '0' :: _ => none
  | ds => some (.num (ds.foldl (fun n c => 10 * n + (c.toNat - '0'.toNat)) 0))

/-- The first character of a token, or a space. -/
def begin (c : Char) : Option (Mode × List Tok) :=
  if c = ' ' then some (.idle, [])
  else if nameStart c then some (.name [c], [])
  else if c.isDigit then some (.num [c], [])
  else if c = '\'' then some (.str [], [])
  else if isOp c then some (.idle, [.op c])
  else none

/-- One character more. -/
def step (m : Mode) (c : Char) : Option (Mode × List Tok) :=
  match m with
  | .idle => begin c
  | .name acc =>
    if nameChar c then some (.name (c :: acc), [])
    -- a quote would make it a prefix of the string
    else if c = '\'' then none
    else do
      let (m, ts) ← begin c
      return (m, .name (String.ofList acc.reverse) :: ts)
  | .num acc =>
    if c.isDigit then some (.num (c :: acc), [])
    else if nameChar c || c = '.' || c = '\'' then none
    else do
      let t ← numTok acc
      let (m, ts) ← begin c
      return (m, t :: ts)
  | .str acc =>
    if c = '\'' then some (.idle, [.str (String.ofList acc.reverse)])
    else if c = '\\' || c < ' ' then none
    else some (.str (c :: acc), [])

/-- The end of a line. -/
def flush : Mode → Option (List Tok)
  | .idle => some []
  | .name acc => some [.name (String.ofList acc.reverse)]
  | .num acc => (numTok acc).map ([·])
  | .str _ => none

def lex (m : Mode) : List Char → Option (List Tok)
  | [] => flush m
  | c :: r => do
    let (m, ts) ← step m c
    return ts ++ (← lex m r)

/-! ## lines -/

/-- A line: its indentation and its tokens. -/
abbrev Line := Nat × List Tok

def physical (s : List Char) : Option Line := do
  return ((s.takeWhile (· = ' ')).length, ← lex .idle (s.dropWhile (· = ' ')))

def physicals (text : List Char) : Option (List Line) := (Jinja.splitBy Jinja.isLineEnd text).mapM physical

/-- Brackets that are open afterwards. -/
def depth (d : Nat) : List Tok → Option Nat
  | [] => some d
  | .op c :: r =>
    if c = '(' || c = '[' then depth (d + 1) r
    else if c = ')' || c = ']' then
      match d with
      | 0 => none
      | d + 1 => depth d r
    else depth d r
  | _ :: r => depth d r

/-- A backslash at the end of a line. -/
def backslash (ts : List Tok) : Bool := ts.getLast? == some (.op '\\')

/-- A logical line, its indentation `i`, that goes on with `ts`; `next` is what comes after it. -/
def joinLine (i : Nat) (acc : List Tok) (d : Nat) (ts : List Tok) (next : Option (Line × Nat) → Option (List Line)) :
    Option (List Line) := do
  let ts' := if backslash ts then ts.dropLast else ts
  let d' ← depth d ts'
  if d' = 0 && !backslash ts then return (i, acc ++ ts') :: (← next none)
  else next (some ((i, acc ++ ts'), d'))

/-- Logical lines: `cur` is the line that is not finished, with the brackets that are open. -/
def logical (cur : Option (Line × Nat)) : List Line → Option (List Line)
  | [] =>
    match cur with
    | none => some []
    | some _ => none
  | (i, ts) :: r =>
    match cur with
    | none => if ts.isEmpty then logical none r else joinLine i [] 0 ts fun c => logical c r
    | some ((i', acc), d) => joinLine i' acc d ts fun c => logical c r

/-! ## expressions -/

inductive PExpr where
  | name (s : String)
  | num (n : Nat)
  | str (s : String)
  | neg (e : PExpr)
  | add (a b : PExpr)
  | sub (a b : PExpr)
  | call (f : String) (args : List (Option String × PExpr))
  | tuple (es : List PExpr)
  | list (es : List PExpr)

/-- A name that is not a reserved word. -/
def usable (s : String) : Bool := !keywords.contains s

/-- Positional arguments come first. -/
def ordered : List (Option String × PExpr) → Bool
  | [] => true
  | (none, _) :: r => ordered r
  | (some _, _) :: r => r.all fun a => a.1.isSome

/-- An argument without a name. -/
def positional : Option String × PExpr → Option PExpr
  | (none, e) => some e
  | _ => none

mutual
def parseExpr : Nat → List Tok → Option (PExpr × List Tok)
  | 0, _ => none
  | n + 1, ts => do
    let (a, r) ← parseUnary n ts
    parseRest n a r
/-- `+` and `-` associate to the left. -/
def parseRest : Nat → PExpr → List Tok → Option (PExpr × List Tok)
  | 0, _, _ => none
  | n + 1, a, ts =>
    match ts with
    | .op '+' :: r => do
      let (b, r) ← parseUnary n r
      parseRest n (.add a b) r
    | .op '-' :: r => do
      let (b, r) ← parseUnary n r
      parseRest n (.sub a b) r
    | ts => some (a, ts)
def parseUnary : Nat → List Tok → Option (PExpr × List Tok)
  | 0, _ => none
  | n + 1, ts =>
    match ts with
    | .op '-' :: r => do
      let (e, r) ← parseUnary n r
      return (.neg e, r)
    | .num k :: r => some (.num k, r)
    | .str s :: r => some (.str s, r)
    | .name f :: .op '(' :: r =>
      if usable f then do
        let (args, _, r) ← parseArgs n ')' r
        if ordered args then return (.call f args, r) else none
      else none
    | .name x :: r => if usable x || x == "True" || x == "False" then some (.name x, r) else none
    | .op '(' :: r => do
      let (args, comma, r) ← parseArgs n ')' r
      let es ← args.mapM positional
      match es, comma with
      | [e], false => return (e, r)
      | es, _ => return (.tuple es, r)
    | .op '[' :: r => do
      let (args, _, r) ← parseArgs n ']' r
      let es ← args.mapM positional
      return (.list es, r)
    | _ => none
/-- Arguments up to the closing bracket; whether a comma follows the last one. -/
def parseArgs : Nat → Char → List Tok → Option (List (Option String × PExpr) × Bool × List Tok)
  | 0, _, _ => none
  | n + 1, close, ts =>
    match ts with
    | .op c :: r => if c = close then some ([], true, r) else parseArg n close none (.op c :: r)
    | .name k :: .op '=' :: r => if usable k then parseArg n close (some k) r else none
    | ts => parseArg n close none ts
def parseArg : Nat → Char → Option String → List Tok → Option (List (Option String × PExpr) × Bool × List Tok)
  | 0, _, _, _ => none
  | n + 1, close, k, ts => do
    let (e, r) ← parseExpr n ts
    match r with
    | .op c :: r =>
      if c = ',' then do
        let (args, comma, r) ← parseArgs n close r
        return ((k, e) :: args, comma, r)
      else if c = close then return ([(k, e)], false, r)
      else none
    | _ => none
end

/-! ## statements -/

inductive PStmt where
  | pass
  | assign (x : String) (e : PExpr)
  | importNames (module : List String) (names : List String)
  | importAll (module : List String)
  | cls (x base : String) (body : List PStmt)

/-- A line: a statement, or the beginning of a class. -/
inductive Head where
  | simple (s : PStmt)
  | cls (x base : String)

/-- `a.b.c import` -/
def parseDotted : List Tok → Option (List String × List Tok)
  | .name x :: .op '.' :: r => do
    let (xs, r) ← parseDotted r
    return (x :: xs, r)
  | .name x :: .name "import" :: r => some ([x], r)
  | _ => none

def parseNames : List Tok → Option (List String)
  | [.name x] => some [x]
  | .name x :: .op ',' :: r => do return x :: (← parseNames r)
  | _ => none

def parseLine : List Tok → Option Head
  | [.name "pass"] => some (.simple .pass)
  | .name "from" :: r => do
    let (m, r) ← parseDotted r
    match r with
    | [.op '*'] => return .simple (.importAll m)
    | r => return .simple (.importNames m (← parseNames r))
  | [.name "class", .name x, .op '(', .name b, .op ')', .op ':'] =>
    if usable x && usable b then some (.cls x b) else none
  | .name x :: .op '=' :: r =>
    if usable x then do
      match ← parseExpr (4 * r.length + 4) r with
      | (e, []) => return .simple (.assign x e)
      | _ => none
    else none
  | _ => none

/-- Statements that are indented by `ind`, and the lines that follow the block. -/
def parseBlock : Nat → Nat → List Line → Option (List PStmt × List Line)
  | 0, _, _ => none
  | _ + 1, _, [] => some ([], [])
  | n + 1, ind, (i, ts) :: r =>
    if i < ind then some ([], (i, ts) :: r)
    else if ind < i then none
    else do
      match ← parseLine ts with
      | .simple s =>
        let (ss, r) ← parseBlock n ind r
        return (s :: ss, r)
      | .cls x b =>
        match r with
        | (j, _) :: _ =>
          if ind < j then
            let (body, r) ← parseBlock n j r
            let (ss, r) ← parseBlock n ind r
            return (.cls x b body :: ss, r)
          else none
        | [] => none

/-- A module from its text. -/
def parse (text : List Char) : Option (List PStmt) := do
  let ls ← logical none (← physicals text)
  match ← parseBlock (2 * ls.length + 1) 0 ls with
  | (ss, []) => return ss
  | _ => none

/-! ## running -/

/-- Components: name, presence, type. -/
abbrev Component := String × Kind × Ty

/-- Python objects at run time. -/
inductive Obj where
  | int (z : Int)
  | bool (b : Bool)
  | str (s : String)
  /-- `MIN`, `float('-inf')` -/
  | min
  /-- `MAX`, `float('inf')` -/
  | max
  /-- something of the library that can be called -/
  | lib (f : String)
  /-- a class of the library or of the module, or an object of one that has a value -/
  | obj (o : PyObj)
  /-- an object without a value: `T()` -/
  | schema (t : Ty)
  /-- `ValueRange` -/
  | range (lo hi : Option Int) (ext : Bool)
  /-- `ValueSize` -/
  | size (c : SizeC)
  /-- `SequenceOfValueSize` -/
  | listSize (c : SizeC)
  /-- `ExtensionMarker` -/
  | marker (b : Bool)
  /-- `NamedType`, `OptionalNamedType`, `DefaultedNamedType` -/
  | named (c : Component)
  /-- `AdditiveNamedTypes` -/
  | namedTypes (l : List Component)
  /-- a list of them -/
  | groups (l : List (List Component))
  | pair (s : String) (z : Int)
  | namedValues (l : List (String × Int))

abbrev Env := List (String × Obj)

/-- What can be imported: pyasn1, `/repo/asn1PERser/classes/data/builtin/__init__.py`, `classes/types/type.py:110-124`,
`classes/types/constraint.py`. -/
def exports (module : List String) : Option Env :=
  if module = ["pyasn1", "type", "namedtype"] then
    some [("NamedType", .lib "NamedType"), ("NamedTypes", .lib "NamedTypes"),
      ("OptionalNamedType", .lib "OptionalNamedType"), ("DefaultedNamedType", .lib "DefaultedNamedType")]
  else if module = ["pyasn1", "type", "namedval"] then some [("NamedValues", .lib "NamedValues")]
  else if module = ["asn1PERser", "classes", "data", "builtin"] then
    some (header.map (fun x => (x.1, .obj x.2)) ++ [("UTF8String", .lib "UTF8String")])
  else if module = ["asn1PERser", "classes", "types", "type"] then
    some [("AdditiveNamedTypes", .lib "AdditiveNamedTypes")]
  else if module = ["asn1PERser", "classes", "types", "constraint"] then
    some [("MIN", .min), ("MAX", .max), ("NoConstraint", .lib "NoConstraint"), ("ExtensionMarker", .lib "ExtensionMarker"),
      ("SequenceOfValueSize", .lib "SequenceOfValueSize"), ("ValueRange", .lib "ValueRange"),
      ("SingleValue", .lib "SingleValue"), ("ValueSize", .lib "ValueSize"), ("ConstraintOr", .lib "ConstraintOr"),
      ("ConstraintAnd", .lib "ConstraintAnd")]
  else none

/-- A lower endpoint, types/constraint.py:45, 53, 81: `None` for `MIN`.  A value of the module stands for its number. -/
def lowerEnd : Obj → Except GenErr (Option Int)
  | .int z => .ok (some z)
  | .min => .ok none
  | .obj (.val _ (.int z)) => .ok (some z)
  | .max => .error .unmodelled
  | _ => .error .typeError

/-- An upper endpoint, types/constraint.py:46, 54, 82: `None` for `MAX`. -/
def upperEnd : Obj → Except GenErr (Option Int)
  | .int z => .ok (some z)
  | .max => .ok none
  | .obj (.val _ (.int z)) => .ok (some z)
  | .min => .error .unmodelled
  | _ => .error .typeError

/-- `(lower_endpoint, upper_endpoint, extensionMarker=False)` -/
def endpoints : List (Option String × Obj) → Except GenErr ((Option Int × Option Int) × Bool)
  | [(none, lo), (none, hi)] => do return ((← lowerEnd lo, ← upperEnd hi), false)
  | [(none, lo), (none, hi), (some "extensionMarker", .bool b)] => do return ((← lowerEnd lo, ← upperEnd hi), b)
  | _ => .error .typeError

/-- Digits of `binValue`. -/
def binDigits (s : String) : Option Bits :=
  s.toList.mapM fun c => if c = '0' then some false else if c = '1' then some true else none

/-- Digits of `hexValue`. -/
def hexDigits (s : String) : Option (List (Fin 16)) :=
  s.toList.mapM fun c =>
    if c.isDigit then some (Fin.ofNat 16 (c.toNat - 48))
    else if 'A' ≤ c ∧ c ≤ 'F' then some (Fin.ofNat 16 (c.toNat - 55)) else none

/-- The value of `T(...)`, pyasn1; see `Verif.construct`. -/
def make (t : Ty) : List (Option String × Obj) → Except GenErr Val
  | [(none, v)] =>
    match t, v with
    | .integer c, .int z => if c.test z then .ok (.int z) else .error .constraint
    | .boolean, .bool b => .ok (.bool b)
    | .enumerated _ root add, .str s =>
      match (root ++ add).lookup s with
      | some z => .ok (.enum z)
      | none => .error .constraint
    | .integer c, .obj (.val _ (.int z)) => if c.test z then .ok (.int z) else .error .constraint
    | .boolean, .obj (.val _ (.bool b)) => .ok (.bool b)
    | .bitString c, .obj (.val _ (.bits b)) => if c.test b.length then .ok (.bits b) else .error .constraint
    | .octetString c, .obj (.val _ (.octets o)) => if c.test o.length then .ok (.octets o) else .error .constraint
    | _, _ => .error .unmodelled
  | [(some "binValue", .str s)] =>
    match t, binDigits s with
    | .bitString c, some b => if c.test b.length then .ok (.bits b) else .error .constraint
    | .octetString c, some b => if c.test (binOctets b).length then .ok (.octets (binOctets b)) else .error .constraint
    | _, _ => .error .unmodelled
  | [(some "hexValue", .str s)] =>
    match t, hexDigits s with
    | .bitString c, some h => if c.test (hexBits h).length then .ok (.bits (hexBits h)) else .error .constraint
    | .octetString c, some h => if c.test (hexOctets h).length then .ok (.octets (hexOctets h)) else .error .constraint
    | _, _ => .error .unmodelled
  | _ => .error .unmodelled

/-- `AdditiveNamedTypes(...)`, types/type.py:111-113 -/
def componentsOf : List (Option String × Obj) → Except GenErr (List Component)
  | [] => .ok []
  | (none, .named c) :: r => do return c :: (← componentsOf r)
  | _ => .error .unmodelled

/-- `NamedValues(...)` -/
def pairsOf : List (Option String × Obj) → Except GenErr (List (String × Int))
  | [] => .ok []
  | (none, .pair s z) :: r => do return (s, z) :: (← pairsOf r)
  | _ => .error .unmodelled

def groupsOf : List Obj → Except GenErr (List (List Component))
  | [] => .ok []
  | .namedTypes l :: r => do return l :: (← groupsOf r)
  | _ => .error .unmodelled

/-- A call. -/
def apply (f : Obj) (args : List (Option String × Obj)) : Except GenErr Obj :=
  match f with
  | .obj (.cls t) => if args.isEmpty then .ok (.schema t) else do return .obj (.val t (← make t args))
  | .lib "ValueRange" => do
    let (p, ext) ← endpoints args
    let p ← checked p
    return .range p.1 p.2 ext
  | .lib "ValueSize" => do
    let (p, ext) ← endpoints args
    return .size (← sizeConstraint ext (← checked p))
  | .lib "SequenceOfValueSize" => do
    let (p, ext) ← endpoints args
    return .listSize (← sizeConstraint ext p)
  | .lib "ExtensionMarker" =>
    match args with
    | [(none, .bool b)] => .ok (.marker b)
    | _ => .error .unmodelled
  | .lib "NamedType" =>
    match args with
    | [(none, .str s), (none, .schema t)] => .ok (.named (s, .mandatory, t))
    | _ => .error .unmodelled
  | .lib "OptionalNamedType" =>
    match args with
    | [(none, .str s), (none, .schema t)] => .ok (.named (s, .optional, t))
    | _ => .error .unmodelled
  | .lib "DefaultedNamedType" =>
    match args with
    | [(none, .str s), (none, .obj (.val t v))] => .ok (.named (s, .default v, t))
    | _ => .error .unmodelled
  | .lib "AdditiveNamedTypes" => do return .namedTypes (← componentsOf args)
  | .lib "NamedValues" => do return .namedValues (← distinct (← pairsOf args))
  | _ => .error .typeError

/-- `a + b`: `AdditiveNamedTypes.__add__`, types/type.py:115-124; pyasn1's `NamedValues.__add__`. -/
def plus : Obj → Obj → Except GenErr Obj
  | .namedTypes a, .namedTypes b => .ok (.namedTypes (a ++ b))
  | .namedTypes a, .groups b => .ok (.namedTypes (a ++ b.flatten))
  | .namedValues a, .namedValues b => do return .namedValues (← distinct (a ++ b))
  | _, _ => .error .unmodelled

/-- `a - b`: pyasn1's `Integer.__sub__` gives an object of the class of `a`. -/
def minus : Obj → Obj → Except GenErr Obj
  | .obj (.val t (.int a)), .obj (.val _ (.int b)) => do return .obj (.val t (← make t [(none, .int (a - b))]))
  | _, _ => .error .unmodelled

mutual
/-- Value of an expression. -/
def eval (env : Env) : PExpr → Except GenErr Obj
  | .name x =>
    if x = "True" then .ok (.bool true)
    else if x = "False" then .ok (.bool false)
    else
      match env.lookup x with
      | some o => .ok o
      | none => .error .nameError
  | .num n => .ok (.int n)
  | .str s => .ok (.str s)
  | .neg e => do
    match ← eval env e with
    | .int z => return .int (-z)
    | _ => .error .unmodelled
  | .add a b => do plus (← eval env a) (← eval env b)
  | .sub a b => do minus (← eval env a) (← eval env b)
  | .call f args => do
    match env.lookup f with
    | some o => apply o (← evalArgs env args)
    | none => .error .nameError
  | .tuple es => do
    match ← evalList env es with
    | [.str s, .int z] => return .pair s z
    | _ => .error .unmodelled
  | .list es => do return .groups (← groupsOf (← evalList env es))
def evalArgs (env : Env) : List (Option String × PExpr) → Except GenErr (List (Option String × Obj))
  | [] => .ok []
  | (k, e) :: r => do
    let v ← eval env e
    return (k, v) :: (← evalArgs env r)
def evalList (env : Env) : List PExpr → Except GenErr (List Obj)
  | [] => .ok []
  | e :: r => do
    let v ← eval env e
    return v :: (← evalList env r)
end

/-! ### classes -/

/-- The extension marker of ENUMERATED, SEQUENCE and CHOICE: `subtypeSpec`. -/
def extOf (ext : Bool) (d : Env) : Except GenErr Bool :=
  match d.lookup "subtypeSpec" with
  | none => .ok ext
  | some (.marker b) => .ok b
  | some _ => .error .unmodelled

/-- An attribute that is an `AdditiveNamedTypes`. -/
def typesOf (a : String) (inherited : List Component) (d : Env) : Except GenErr (List Component) :=
  match d.lookup a with
  | none => .ok inherited
  | some (.namedTypes l) => .ok l
  | some _ => .error .unmodelled

/-- The components in `componentType` are those of the other attributes; nothing is said about classes for which this
is not so. -/
def partsOk (d : Env) (all : List Component) : Bool :=
  match d.lookup "componentType" with
  | some (.namedTypes l) => decide (l = all)
  | _ => false

/-- The attributes of a SEQUENCE or CHOICE: `rootComponent`, `extensionAddition`, `extensionAdditionGroups`. -/
def attributesOf (ext : Bool) (add : List Component) (groups : List (List Component)) (d : Env) :
    Except GenErr (Bool × List Component × List Component × List (List Component)) := do
  let ext ← extOf ext d
  let root ← match d.lookup "rootComponent" with
    | some (.namedTypes l) => pure l
    | _ => .error .unmodelled
  let add ← typesOf "extensionAddition" add d
  let groups ← match d.lookup "extensionAdditionGroups" with
    | none => pure groups
    | some (.groups l) => pure l
    | some _ => .error .unmodelled
  if partsOk d (root ++ add ++ groups.flatten) then return (ext, root, add, groups) else .error .unmodelled

/-- The type a class stands for, from its base class and what its body defines.  Attributes that are not set are those of the
base class. -/
def classType (base : Ty) (d : Env) : Except GenErr Ty :=
  match base with
  | .integer c =>
    match d.lookup "subtypeSpec" with
    | none => .ok (.integer c)
    | some (.range lo hi ext) => .ok (.integer (.valueRange lo hi ext))
    | some _ => .error .unmodelled
  | .boolean =>
    match d.lookup "subtypeSpec" with
    | none => .ok .boolean
    | some _ => .error .unmodelled
  | .octetString c =>
    match d.lookup "subtypeSpec" with
    | none => .ok (.octetString c)
    | some (.size c) => .ok (.octetString c)
    | some _ => .error .unmodelled
  | .bitString c =>
    match d.lookup "subtypeSpec" with
    | none => .ok (.bitString c)
    | some (.size c) => .ok (.bitString c)
    | some _ => .error .unmodelled
  | .enumerated ext _ [] => do
    let ext ← extOf ext d
    let add ← match d.lookup "extensionAddition" with
      | none => pure []
      | some (.namedValues l) => pure l
      | some _ => .error .unmodelled
    match d.lookup "enumerationRoot", d.lookup "namedValues" with
    | some (.namedValues root), some (.namedValues all) =>
      if all = root ++ add then return .enumerated ext root add else .error .unmodelled
    | _, _ => .error .unmodelled
  | .seqOf c _ => do
    let c ← match d.lookup "subtypeSpec" with
      | none => pure c
      | some (.listSize c) => pure c
      | some _ => .error .unmodelled
    match d.lookup "componentType" with
    | some (.schema t) => return .seqOf c t
    | _ => .error .unmodelled
  | .sequence ext _ .nil .nil => do
    let (ext, root, add, groups) ← attributesOf ext [] [] d
    return .sequence ext (Fields.ofList root) (Fields.ofList add) (Groups.ofList groups)
  | .choice ext _ .nil .nil => do
    let (ext, root, add, groups) ← attributesOf ext [] [] d
    return .choice ext (Fields.ofList root) (Fields.ofList add) (Groups.ofList groups)
  | _ => .error .unmodelled

/-- Attributes that make a class what it is; see also `Verif.attributes`. -/
def own : List String :=
  ["subtypeSpec", "rootComponent", "extensionAddition", "extensionAdditionGroups", "componentType", "enumerationRoot",
   "namedValues"]

/-- A class by name. -/
def baseOf (env : Env) (b : String) : Except GenErr Ty :=
  match env.lookup b with
  | some (.obj (.cls t)) => .ok t
  | some _ => .error .typeError
  | none => .error .nameError

mutual
/-- A statement in the body of a class: `d` are the names defined there so far.  The body of a class inside it is run with the
names of the module only. -/
def execIn (globals d : Env) : PStmt → Except GenErr Env
  | .pass => .ok d
  | .assign x e => do
    if own.contains x then return (x, ← eval (d ++ globals) e) :: d else .error .unmodelled
  | .cls x b body => do
    let t ← baseOf (d ++ globals) b
    nestable x
    let d' ← execBody globals [] body
    return (x, .obj (.cls (← classType t d'))) :: d
  | _ => .error .unmodelled
def execBody (globals d : Env) : List PStmt → Except GenErr Env
  | [] => .ok d
  | s :: ss => do execBody globals (← execIn globals d s) ss
end

/-- A statement of the module. -/
def exec (env : Env) : PStmt → Except GenErr Env
  | .pass => .ok env
  | .assign x e => do
    bindable x
    return (x, ← eval env e) :: env
  | .importNames m names => do
    match exports m with
    | some ex =>
      let new ← names.mapM fun x =>
        match ex.lookup x with
        | some o => (.ok (x, o) : Except GenErr (String × Obj))
        | none => .error .nameError
      return new.reverse ++ env
    | none => .error .unmodelled
  | .importAll m =>
    match exports m with
    | some ex => .ok (ex ++ env)
    | none => .error .unmodelled
  | .cls x b body => do
    let t ← baseOf env b
    bindable x
    let d ← execBody env [] body
    return (x, .obj (.cls (← classType t d))) :: env

def execAll (env : Env) : List PStmt → Except GenErr Env
  | [] => .ok env
  | s :: ss => do execAll (← exec env s) ss

/-- `import` of a module with this text: its global variables. -/
def run (text : List Char) : Except GenErr Env :=
  match parse text with
  | some ss => execAll [] ss
  | none => .error .syntaxError

end Verif.Python
