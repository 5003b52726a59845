import Verif.Template
/-!
# From parsed schema to loaded classes

`/repo/asn1PERser/classes/parse_actions.py`, `classes/types/builtin/*.py` (`fill_template`, `parse_value`),
`classes/templates/`, and what Python makes of the generated module when it is imported.

What the grammar hands over is structured (numbers, words, ...) instead of text.  Three steps:
`Con.tuple` is `parse_Constraint`; `fillTop` is `fill_template`, with the arguments of the templates in place of
the rendered text (`Stmt`, `Code`); `load` executes the generated statements.
-/
namespace Verif

/-- Errors of the generator, and of Python when it loads the generated module. -/
inductive GenErr where
  | attributeError
  | indexError
  | keyError
  | nameError
  | typeError
  /-- pyasn1: the constraint is malformed, or the value violates it -/
  | constraint
  | syntaxError
  /-- the generator does not terminate -/
  | hang
  /-- the model does not say what happens -/
  | unmodelled
deriving DecidableEq, Repr

/-! ## constraints -/

/-- `LowerEndValue` / `UpperEndValue` / `SingleValue`, asn_definitions/constraint_def.py:30-61. -/
inductive End where
  | num (z : Int)
  | min
  | max
  | ref (s : String)
deriving DecidableEq

/-- `SubtypeElements`, constraint_def.py:47-95: a value, or a range whose ends may be excluded by `<`. -/
inductive Elem where
  | value (e : End)
  | range (lo : End) (loOpen : Bool) (hi : End) (hiOpen : Bool)
deriving DecidableEq

/-- `ElementSetSpecs`, constraint_def.py:109-181: a union of intersections (without inner parentheses, `EXCEPT`
and `ALL`), the marker, and the additional set. -/
structure Notation where
  root : List (List Elem)
  marker : Bool
  additional : List (List Elem)
deriving DecidableEq

/-- A constraint: `( ... )`, or `(SIZE( ... ))`, the latter perhaps with a marker after it. -/
inductive Con where
  | value (n : Notation)
  | size (n : Notation) (outer : Bool)
deriving DecidableEq

/-- Tokens of a parsed constraint; the grammar drops parentheses and commas. -/
inductive CTok where
  | value (e : End)
  | dots
  | less
  | caret
  | bar
  | ellipsis
deriving DecidableEq

def Elem.toks : Elem → List CTok
  | .value e => [.value e]
  | .range lo lo' hi hi' =>
    .value lo :: ((if lo' then [.less] else []) ++ .dots :: ((if hi' then [.less] else []) ++ [.value hi]))

/-- Intersections, constraint_def.py:134-141. -/
def interToks : List Elem → List CTok
  | [] => []
  | [e] => e.toks
  | e :: es => e.toks ++ .caret :: interToks es

/-- Unions, constraint_def.py:149-154. -/
def unionToks : List (List Elem) → List CTok
  | [] => []
  | [i] => interToks i
  | i :: is => interToks i ++ .bar :: unionToks is

/-- `Constraint.parseString(...)`. -/
def Notation.toks (n : Notation) : List CTok :=
  unionToks n.root ++ (if n.marker then .ellipsis :: unionToks n.additional else [])

/-- `constraint_tuple`, parse_actions.py:11 -/
structure CTuple where
  lower : End
  upper : End
  ext : Bool
deriving DecidableEq

/-- parse_actions.py:182-188 -/
def parseConstraint (toks : List CTok) : Except GenErr CTuple :=
  let parsed := toks.erase .ellipsis
  match parsed.head?, parsed.getLast? with
  | some (.value lo), some (.value hi) => .ok ⟨lo, hi, toks.contains .ellipsis⟩
  | none, _ => .error .indexError
  | _, _ => .error .unmodelled

/-- `parse_Constraint`, parse_actions.py:178-188: of a size constraint only the inner parentheses matter. -/
def Con.tuple : Con → Except GenErr CTuple
  | .value n => parseConstraint n.toks
  | .size n _ => parseConstraint n.toks

/-! ## parsed types -/

/-- The types whose classes have no members: `IntegerType`, `BooleanType`, `OctetStringType`, `BitStringType`. -/
inductive Simple where
  | integer
  | boolean
  | octetString
  | bitString
deriving DecidableEq

def Simple.cls : Simple → String
  | .integer => "IntegerType"
  | .boolean => "BooleanType"
  | .octetString => "OctetStringType"
  | .bitString => "BitStringType"

/-- Values in a schema: numbers, words (`TRUE`, `FALSE`, identifiers), `'...'B`, `'...'H`; `{ }` is not modelled. -/
inductive Lit where
  | num (z : Int)
  | word (s : String)
  | bin (b : Bits)
  | hex (digits : List (Fin 16))
deriving DecidableEq

/-- `parse_ComponentType`, parse_actions.py:113-124 -/
inductive Pres where
  | mandatory
  | optional
  | default (l : Lit)
deriving DecidableEq

mutual
/-- Parsed types, parse_actions.py:42-176. -/
inductive TObj where
  | simple (k : Simple) (c : Option Con)
  | enumerated (items : List EnumItem)
  | seqOf (c : Option Con) (e : TObj)
  | sequence (items : Items)
  | choice (items : Items)
  /-- `DefinedType` -/
  | ref (n : String)
/-- `ComponentTypeList` / `AlternativeTypeList` with its markers and version brackets. -/
inductive Items where
  | nil
  | comp (id : String) (t : TObj) (p : Pres) (rest : Items)
  | marker (rest : Items)
  | group (cs : Comps) (rest : Items)
/-- Components inside version brackets. -/
inductive Comps where
  | nil
  | cons (id : String) (t : TObj) (p : Pres) (rest : Comps)
end

/-- What is assigned in a module, parse_actions.py:24-40. -/
inductive Assign where
  /-- `Name ::= Type` -/
  | type (n : String) (t : TObj)
  /-- `name INTEGER ::= 5` -/
  | value (n : String) (k : Simple) (l : Lit)
  /-- `name Type ::= 5` -/
  | constant (n : String) (type : String) (l : Lit)

/-- `s.replace('-', '_')`: class names (classes/templates/__init__.py:8-14), value names (types/type.py:49-51). -/
def mangle (s : String) : String := String.ofList (s.toList.map fun c => if c = '-' then '_' else c)

/-- Global variables of classes/module.py:10-13 after parsing: `typereference_to_type`, keys of `constants`. -/
structure Ctx where
  types : List (String × TObj)
  constants : List String

/-- `d[key]` of a `dict` filled in list order. -/
def lookupLast {α : Type} (l : List (String × α)) (key : String) : Option α := l.reverse.lookup key

/-! ## generated code -/

/-- Python expressions between the parentheses of a generated constructor call. -/
inductive Expr where
  | int (z : Int)
  | bool (b : Bool)
  | name (s : String)
  | str (s : String)
  | bin (b : Bits)
  | hex (digits : List (Fin 16))
  /-- anything that Python rejects -/
  | junk
deriving DecidableEq

/-- `parse_value`: types/type.py:19-20, BooleanType.py:28-31, OctetStringType.py:31-35, BitStringType.py,
EnumeratedType.py:52-53.  `none` is Python's `None`.  A word that ends in `B` or `H` is taken for a string. -/
def parseValue : TObj → Lit → Option Expr
  | .simple .boolean _, .word s => some (.bool (s == "TRUE"))
  | .simple .boolean _, _ => some (.bool false)
  | .simple .octetString _, .bin b => some (.bin b)
  | .simple .octetString _, .hex h => some (.hex h)
  | .simple .octetString _, .word s => if s.endsWith "B" || s.endsWith "H" then some .junk else none
  | .simple .octetString _, .num _ => none
  | .simple .bitString _, .bin b => some (.bin b)
  | .simple .bitString _, .hex h => some (.hex h)
  | .simple .bitString _, .word s => if s.endsWith "B" || s.endsWith "H" then some .junk else none
  | .simple .bitString _, .num _ => none
  | .enumerated _, .word s => some (.str s)
  | .enumerated _, _ => some .junk
  | _, .num z => some (.int z)
  | _, .word s => some (.name s)
  | _, _ => some .junk

/-- How a component is rendered, files/SequenceType.txt. -/
inductive NTKind where
  | mandatory
  | optional
  | default (e : Expr)
  /-- `is_constant` -/
  | constant (s : String)
deriving DecidableEq

/-- Result of `_fill_named_types`. -/
structure NT where
  name : String
  fieldType : String
  kind : NTKind
deriving DecidableEq

mutual
/-- Arguments of the class templates. -/
inductive Code where
  /-- files/IntegerType.txt, BitStringType.txt, OctetStringType.txt, BooleanType.txt -/
  | simple (name : String) (k : Simple) (spec : Option CTuple)
  /-- files/EnumeratedType.txt -/
  | enumerated (name : String) (marker : Bool) (root add : List (String × Int))
  /-- files/SequenceOfType.txt -/
  | seqOf (name : String) (spec : Option CTuple) (fieldType : String)
  /-- files/SequenceType.txt -/
  | sequence (name : String) (subs : Codes) (marker : Bool) (root add : List NT) (groups : List (List NT))
  /-- files/ChoiceType.txt -/
  | choice (name : String) (subs : Codes) (marker : Bool) (root add : List NT) (groups : List (List NT))
/-- `subtypes_templates` -/
inductive Codes where
  | nil
  | cons (c : Code) (rest : Codes)
end

deriving instance DecidableEq for Code, Codes

/-- `class` statement's name. -/
def Code.name : Code → String
  | .simple n _ _ => n
  | .enumerated n _ _ _ => n
  | .seqOf n _ _ => n
  | .sequence n _ _ _ _ _ => n
  | .choice n _ _ _ _ _ => n

/-- Statements of the generated module. -/
inductive Stmt where
  | cls (c : Code)
  /-- files/type_type.txt, DefinedType.txt -/
  | alias (n m : String)
  /-- files/simple_value.txt -/
  | value (n cls : String) (e : Expr)
deriving DecidableEq

/-- What `fill_template` is about to add to the module; what it adds depends on `already_filled_template`, see `emitted`. -/
inductive Plan where
  /-- a class, and what `fill_template` of the types it needs adds before it -/
  | cls (c : Code) (pre : List Plan)
  /-- the class of a type that is assigned elsewhere -/
  | again (c : Code)
  | alias (n m : String)
  | value (n cls : String) (e : Expr)

/-- `typereference` of a type inside another one, types/builtin/*.py `__init__`. -/
def TObj.cls : TObj → String
  | .simple k _ => k.cls
  | .enumerated _ => "EnumeratedType"
  | .seqOf _ _ => "SequenceOfType"
  | .sequence _ => "SequenceType"
  | .choice _ => "ChoiceType"
  | .ref n => n

/-- `field_type` of `_fill_named_types`, SequenceType.py:81-91, ChoiceType.py:81-88. -/
def fieldType (id : String) : TObj → String
  | .simple k none => k.cls
  | .ref n => mangle n
  | _ => mangle id

/-- The DEFAULT branch, SequenceType.py:94-103. -/
def defaultKind (ctx : Ctx) (t : TObj) (l : Lit) : NTKind :=
  match parseValue t l with
  | none => .mandatory
  | some e =>
    match e with
    | .name s => if ctx.constants.contains s then .constant s else viaType t e
    | _ => viaType t e
where
  /-- SequenceType.py:100-103 -/
  viaType (t : TObj) (e : Expr) : NTKind :=
    match t with
    | .ref n =>
      match lookupLast ctx.types n with
      | some t' => .default ((parseValue t' l).getD .junk)
      | none => .default e
    | _ => .default e

/-- `_fill_named_types` of a SEQUENCE, SequenceType.py:80-106. -/
def fillNamed (ctx : Ctx) (id : String) (t : TObj) (p : Pres) : NT :=
  ⟨id, fieldType id t, match p with
    | .mandatory => .mandatory
    | .optional => .optional
    | .default l => defaultKind ctx t l⟩

/-- `_fill_named_types` of a CHOICE, ChoiceType.py:80-88. -/
def fillNamedAlt (id : String) (t : TObj) (_ : Pres) : NT := ⟨id, fieldType id t, .mandatory⟩

/-- Components inside brackets, named types in place of the parsed components. -/
def Comps.toks (f : String → TObj → Pres → NT) : Comps → List (Tok NT)
  | .nil => []
  | .cons id t p r => .comp (f id t p) :: r.toks f

/-- The list the loop of `fill_template` runs over, named types in place of the parsed components. -/
def Items.toks (f : String → TObj → Pres → NT) : Items → List (Tok NT)
  | .nil => []
  | .comp id t p r => .comp (f id t p) :: r.toks f
  | .marker r => .marker :: r.toks f
  | .group cs r => .left :: (cs.toks f ++ .right :: r.toks f)

def constraintOf : Option Con → Except GenErr (Option CTuple)
  | none => .ok none
  | some c => c.tuple.map some

/-- Result of the loop over the components, as arguments of the template. -/
def partsOf (toks : List (Tok NT)) : Except GenErr (PartState NT) :=
  match parts toks with
  | .ok st => .ok st
  | .error _ => .error .attributeError

/-- A class is nested for this component: SequenceType.py:41-52. -/
def nested : TObj → Bool
  | .simple _ none => false
  | .ref _ => false
  | _ => true

/-- files/BooleanType.txt does not show a constraint. -/
def shown : Simple → Option CTuple → Option CTuple
  | .boolean, _ => none
  | _, c => c

mutual
/-- The filled template of a type (`fill_template(has_parent=True)[1]`): IntegerType.py:17-20, EnumeratedType.py:12-33,
SequenceOfType.py:13-19, SequenceType.py:12-63, ChoiceType.py:12-63. -/
def classOf (ctx : Ctx) (name : String) : TObj → Except GenErr Code
  | .simple k c => do return .simple name k (shown k (← constraintOf c))
  | .enumerated items =>
    let st := enumItems items
    .ok (.enumerated name st.marker st.root st.addition)
  | .seqOf c e => do return .seqOf name (← constraintOf c) (mangle e.cls)
  | .sequence items => do
    let subs ← subsItems ctx items
    let st ← partsOf (items.toks (fillNamed ctx))
    return .sequence name subs st.marker st.root st.addition st.groups
  | .choice items => do
    let subs ← subsItems ctx items
    let st ← partsOf (items.toks fillNamedAlt)
    return .choice name subs st.marker st.root st.addition st.groups
  | .ref _ => .error .unmodelled
/-- `subtypes_templates` -/
def subsItems (ctx : Ctx) : Items → Except GenErr Codes
  | .nil => .ok .nil
  | .comp id t _ r => do
    let rest ← subsItems ctx r
    if nested t then return .cons (← classOf ctx (mangle id) t) rest else return rest
  | .marker r => subsItems ctx r
  | .group cs r => do
    let rest ← subsItems ctx r
    subsComps ctx cs rest
def subsComps (ctx : Ctx) : Comps → Codes → Except GenErr Codes
  | .nil, rest => .ok rest
  | .cons id t _ r, rest => do
    let rest ← subsComps ctx r rest
    if nested t then return .cons (← classOf ctx (mangle id) t) rest else return rest
end

/-- A component that is a reference, SequenceType.py:72-75: nothing is emitted for a type that is assigned somewhere
or has a DEFAULT, otherwise `DefinedType.fill_template` raises. -/
def needsType (ctx : Ctx) (n : String) (p : Pres) : Except GenErr (List Plan) :=
  match lookupLast ctx.types n with
  | some _ => .ok []
  | none => match p with
    | .default _ => .ok []
    | _ => .error .keyError

/-- Attributes `valuereference`, `typereference`, `Value` of the objects in `typereference_to_type`, latest first:
`foo A ::= 5` leaves them behind in the object found there for `A`, DefinedType.py:22-24.  It is a copy
(parse_actions.py:41) of the object that is emitted for the assignment of `A`. -/
abbrev Objs := List (String × String × String × Option Expr)

/-- `DefinedType.fill_template` of the element type of an assigned SEQUENCE OF, DefinedType.py:11-35.  A type that
has not been emitted yet would be emitted here; a type with a value is emitted as that value, IntegerType.py:13-16. -/
def refStmts (ctx : Ctx) (objs : Objs) (n : String) : Except GenErr (List Plan) :=
  match lookupLast ctx.types n with
  | none => .error .keyError
  | some (.ref _) => .ok [.alias (mangle n) (mangle n)]
  | some (.simple k c) =>
    match objs.lookup n with
    | none => do return [.again (← classOf ctx (mangle n) (.simple k c))]
    | some (v, m, some e) => .ok [.value v m e]
    | some (_, m, none) => do return [.again (← classOf ctx m (.simple k c))]
  | some t => do return [.again (← classOf ctx (mangle n) t)]

mutual
/-- `fill_template()` of a type that is assigned to a name, or emitted on the way. -/
def fillTop (ctx : Ctx) (objs : Objs) (name : String) : TObj → Except GenErr (List Plan)
  | .simple k c => do return [.cls (← classOf ctx name (.simple k c)) []]
  | .enumerated items => do return [.cls (← classOf ctx name (.enumerated items)) []]
  | .seqOf c e => do
    let code ← classOf ctx name (.seqOf c e)
    let pre ← elemStmts ctx objs e
    return [.cls code pre]
  | .sequence items => do
    let code ← classOf ctx name (.sequence items)
    let pre ← itemsStmts ctx objs items
    return [.cls code pre]
  | .choice items => do
    let code ← classOf ctx name (.choice items)
    let pre ← itemsStmts ctx objs items
    return [.cls code pre]
  | .ref _ => .error .unmodelled
/-- The element type of an assigned SEQUENCE OF, SequenceOfType.py:25-28. -/
def elemStmts (ctx : Ctx) (objs : Objs) : TObj → Except GenErr (List Plan)
  | .simple _ _ => .ok []
  | .ref n => refStmts ctx objs n
  | .enumerated items => do return [.cls (← classOf ctx "EnumeratedType" (.enumerated items)) []]
  | .seqOf c e => do
    let code ← classOf ctx "SequenceOfType" (.seqOf c e)
    let pre ← elemStmts ctx objs e
    return [.cls code pre]
  | .sequence items => do
    let code ← classOf ctx "SequenceType" (.sequence items)
    let pre ← itemsStmts ctx objs items
    return [.cls code pre]
  | .choice items => do
    let code ← classOf ctx "ChoiceType" (.choice items)
    let pre ← itemsStmts ctx objs items
    return [.cls code pre]
/-- `components_templates` of a component, SequenceType.py:41-55, and its statements. -/
def compStmts (ctx : Ctx) (objs : Objs) (p : Pres) : TObj → Except GenErr (List Plan)
  | .simple _ _ => .ok []
  | .enumerated _ => .ok []
  | .ref n => needsType ctx n p
  -- the element type itself is in the list, SequenceOfType.py:20-21
  | .seqOf _ e => innerStmts ctx objs e
  | .sequence items => itemsStmts ctx objs items
  | .choice items => itemsStmts ctx objs items
/-- The element type of a SEQUENCE OF that is a component: `fill_template()` of an anonymous type, SequenceType.py:72-75. -/
def innerStmts (ctx : Ctx) (objs : Objs) : TObj → Except GenErr (List Plan)
  | .ref n => needsType ctx n .mandatory
  | .simple k c => do return [.cls (← classOf ctx k.cls (.simple k c)) []]
  | .enumerated items => do return [.cls (← classOf ctx "EnumeratedType" (.enumerated items)) []]
  | .seqOf c e => do
    let code ← classOf ctx "SequenceOfType" (.seqOf c e)
    let pre ← elemStmts ctx objs e
    return [.cls code pre]
  | .sequence items => do
    let code ← classOf ctx "SequenceType" (.sequence items)
    let pre ← itemsStmts ctx objs items
    return [.cls code pre]
  | .choice items => do
    let code ← classOf ctx "ChoiceType" (.choice items)
    let pre ← itemsStmts ctx objs items
    return [.cls code pre]
def itemsStmts (ctx : Ctx) (objs : Objs) : Items → Except GenErr (List Plan)
  | .nil => .ok []
  | .comp _ t p r => do
    let a ← compStmts ctx objs p t
    let b ← itemsStmts ctx objs r
    return a ++ b
  | .marker r => itemsStmts ctx objs r
  | .group cs r => do
    let a ← compsStmts ctx objs cs
    let b ← itemsStmts ctx objs r
    return a ++ b
def compsStmts (ctx : Ctx) (objs : Objs) : Comps → Except GenErr (List Plan)
  | .nil => .ok []
  | .cons _ t p r => do
    let a ← compStmts ctx objs p t
    let b ← compsStmts ctx objs r
    return a ++ b
end

/-- `builtin_types`, types/builtin/__init__.py:19-21 -/
def builtinTypes : List String :=
  ["BitStringType", "BooleanType", "ChoiceType", "DateType", "EnumeratedType", "IA5String", "IntegerType",
   "NullType", "NumericString", "OctetStringType", "RealType", "SequenceType", "SequenceOfType",
   "UTF8String", "VisibleString"]

/-- The loop DefinedType.py:12, 20-21 that looks for the type behind a name: its own name and the type; `fuel` bounds the
number of aliases that can be followed without coming back to one of them. -/
def behind (ctx : Ctx) : Nat → String → Except GenErr (String × TObj)
  | 0, _ => .error .hang
  | fuel + 1, n =>
    match lookupLast ctx.types n with
    | none => .error .keyError
    | some (.simple k c) => .ok (n, .simple k c)
    -- the `typereference` of `n ::= m` is `n`, see `fillAssign`
    | some (.ref m) => if builtinTypes.contains m then .error .hang else behind ctx fuel m
    -- its `typereference` is its own name: the loop finds the same object again
    | some _ => .error .hang

/-- `fill_template` of an assignment: the statements, and the attributes afterwards. -/
def fillAssign (ctx : Ctx) (objs : Objs) : Assign → Except GenErr (Objs × List Plan)
  | .type n (.ref m) =>
    -- parse_actions.py:37-38 takes the reference for a builtin type and overwrites its name; DefinedType.py:36-37
    if builtinTypes.contains m then .ok (objs, [.alias (mangle n) (mangle n)])
    else
      match lookupLast ctx.types m with
      | none => .error .keyError
      | some _ => .ok (objs, [.alias (mangle n) (mangle m)])
  | .type n t => do return (objs, ← fillTop ctx objs (mangle n) t)
  -- IntegerType.py:13-16 and the like; without a value the class is rendered
  | .value n k l =>
    match parseValue (.simple k none) l with
    | some e => .ok (objs, [.value (mangle n) k.cls e])
    | none => .ok (objs, [.cls (.simple k.cls k none) []])
  -- DefinedType.py:19-29
  | .constant n m l => do
    let (a, t) ← behind ctx (ctx.types.length + 1) m
    let value := parseValue t l
    return ((a, mangle n, mangle m, value) :: objs, [.value (mangle n) (mangle m) (value.getD .junk)])

/-- parse_actions.py:39, module.py:53-54: the globals after parsing a module. -/
def ctxOf (as : List Assign) : Ctx :=
  ⟨as.filterMap fun a => match a with | .type n t => some (n, t) | _ => none,
   as.filterMap fun a => match a with | .constant n _ _ => some (mangle n) | _ => none⟩

/-- One assignment more, module.py:35-36. -/
def genStep (ctx : Ctx) (st : Objs × List Plan) (a : Assign) : Except GenErr (Objs × List Plan) := do
  let (objs, stmts) ← fillAssign ctx st.1 a
  return (objs, st.2 ++ stmts)

mutual
/-- What is added to the module: the end of `fill_template`, IntegerType.py:21-26, EnumeratedType.py:28-33,
SequenceOfType.py:20-28, SequenceType.py:66-78, ChoiceType.py.  `already_filled_template` has the classes that were added,
from the moment on when `fill_template` turns to what they need; such a class is not added again, nor what it needs.
The set has the text of the classes (`Verif.Render.codeText`), for which `Code` stands here. -/
def emitPlan (done : List Code) : Plan → Except GenErr (List Code × List Stmt)
  | .cls c pre =>
    if done.contains c then .ok (done, [])
    else do
      let (done, stmts) ← emitPlans (c :: done) pre
      return (done, stmts ++ [.cls c])
  -- a type that has not been emitted yet would be emitted here
  | .again c => if done.contains c then .ok (done, []) else .error .unmodelled
  | .alias n m => .ok (done, [.alias n m])
  | .value n m e => .ok (done, [.value n m e])
def emitPlans (done : List Code) : List Plan → Except GenErr (List Code × List Stmt)
  | [] => .ok (done, [])
  | p :: ps => do
    let (done, a) ← emitPlan done p
    let (done, b) ← emitPlans done ps
    return (done, a ++ b)
end

/-- module.py:32: `already_filled_template` is cleared for every module. -/
def emitted (plans : List Plan) : Except GenErr (List Stmt) := do return (← emitPlans [] plans).2

/-- `ModuleDefinition.fill_template`, module.py:31-37, for the assignments in the order of `ModuleBody`. -/
def generate (as : List Assign) : Except GenErr (List Stmt) := do
  let st ← as.foldlM (genStep (ctxOf as)) ([], [])
  emitted st.2

/-! ## loading the module -/

/-- Python objects: a class, or an object of a class. -/
inductive PyObj where
  | cls (t : Ty)
  | val (t : Ty) (v : Val)

/-- Global variables of the generated module, latest first. -/
structure Loaded where
  env : List (String × PyObj)

/-- files/header.txt: data/builtin/*.py -/
def header : List (String × PyObj) :=
  [("IntegerType", .cls (.integer .noConstraint)),
   ("BooleanType", .cls .boolean),
   ("OctetStringType", .cls (.octetString ⟨false, none, none⟩)),
   ("BitStringType", .cls (.bitString ⟨false, none, none⟩)),
   ("EnumeratedType", .cls (.enumerated false [] [])),
   ("SequenceOfType", .cls (.seqOf ⟨false, some 0, none⟩ .boolean)),
   ("SequenceType", .cls (.sequence false .nil .nil .nil)),
   ("ChoiceType", .cls (.choice false .nil .nil .nil))]

/-- Reserved words of Python. -/
def keywords : List String :=
  ["False", "None", "True", "and", "as", "assert", "async", "await", "break", "class", "continue", "def", "del", "elif",
   "else", "except", "finally", "for", "from", "global", "if", "import", "in", "is", "lambda", "nonlocal", "not", "or",
   "pass", "raise", "return", "try", "while", "with", "yield"]

/-- The other names of files/header.txt, which the statements that follow use, and the names of variables of the classes
in files/SequenceType.txt and files/ChoiceType.txt. -/
def headerNames : List String :=
  ["NamedType", "NamedTypes", "OptionalNamedType", "DefaultedNamedType", "NamedValues", "UTF8String",
   "AdditiveNamedTypes", "MIN", "MAX", "NoConstraint", "ExtensionMarker", "SequenceOfValueSize", "ValueRange",
   "SingleValue", "ValueSize", "ConstraintOr", "ConstraintAnd",
   "subtypeSpec", "rootComponent", "extensionAddition", "extensionAdditionGroups", "componentType"]

/-- Attributes of the classes `SequenceType`, `ChoiceType` (data/builtin/SequenceType.py, ChoiceType.py) and of their base
classes in pyasn1: a nested class of that name takes their place. -/
def attributes : List String :=
  ["subtypeSpec", "rootComponent", "extensionAddition", "extensionAdditionGroups", "componentType", "isValue",
   "fill_field_list", "create_field_list", "to_dict", "tagSet", "sizeSpec", "typeId", "strictConstraints", "hasValue",
   "isInconsistent", "componentTagMap", "effectiveTagSet", "tagMap", "minTagSet", "readOnly", "isSameTypeWith",
   "isSuperTypeOf", "isNoValue", "getTagSet", "getEffectiveTagSet", "getTagMap", "getSubtypeSpec", "components",
   "clear", "reset", "clone", "subtype", "items", "keys", "values", "update", "prettyPrint", "prettyPrintType",
   "prettyOut", "getComponentByName", "getComponentByPosition", "getComponentByType", "setComponentByName",
   "setComponentByPosition", "setComponentByType", "setComponents", "setDefaultComponents", "getComponentType",
   "getComponentTypeMap", "getComponentTypeMapNearPosition", "getComponentPositionByName",
   "getComponentPositionByType", "getComponentPositionNearType", "getNameByPosition", "getComponentTagMap",
   "getComponent", "getName", "setComponent", "verifySizeSpec", "isOptionalComponent", "DynamicNames"]

/-- Binding a name in the module. -/
def bindable (n : String) : Except GenErr Unit :=
  if keywords.contains n then .error .syntaxError
  else if headerNames.contains n then .error .unmodelled else .ok ()

/-- Binding a name in the body of a class. -/
def nestable (n : String) : Except GenErr Unit :=
  if keywords.contains n then .error .syntaxError
  else if attributes.contains n then .error .unmodelled else .ok ()

section
variable (env : List (String × PyObj))

/-- Value of an endpoint; `-` in a name would be read as subtraction. -/
def endValue : End → Except GenErr (Option Int)
  | .num z => .ok (some z)
  | .min => .ok none
  | .max => .ok none
  | .ref s =>
    match env.lookup s with
    | some (.val _ (.int z)) => .ok (some z)
    | some _ => .error .typeError
    | none => .error .nameError

/-- Endpoints of `ValueRange(...)` and the like; `MAX` as lower or `MIN` as upper end is not modelled. -/
def endpointsOf (c : CTuple) : Except GenErr (Option Int × Option Int) :=
  if c.lower = .max || c.upper = .min then .error .unmodelled
  else do return (← endValue env c.lower, ← endValue env c.upper)

/-- pyasn1 `ValueRangeConstraint._setValues` refuses endpoints in the wrong order. -/
def checked (p : Option Int × Option Int) : Except GenErr (Option Int × Option Int) :=
  match p with
  | (some l, some h) => if l ≤ h then .ok p else .error .constraint
  | _ => .ok p

/-- Sizes are natural numbers. -/
def sizeEnd : Option Int → Except GenErr (Option Nat)
  | none => .ok none
  | some z => if 0 ≤ z then .ok (some z.toNat) else .error .unmodelled

def sizeConstraint (ext : Bool) (p : Option Int × Option Int) : Except GenErr SizeC := do
  return ⟨ext, ← sizeEnd p.1, ← sizeEnd p.2⟩

/-- Octets of a binary string, pyasn1 `OctetString.fromBinaryString`: filled up with zeros on the right. -/
def binOctets (b : Bits) : List UInt8 := toOctets (if b.isEmpty then [false] else b)
where
  toOctets (b : Bits) : List UInt8 := (chunks ((b.length + 7) / 8) b).map fun c =>
    UInt8.ofNat (bitsToNat (c ++ List.replicate (8 - c.length) false))
  chunks : Nat → Bits → List Bits
    | 0, _ => []
    | n + 1, b => b.take 8 :: chunks n (b.drop 8)

/-- pyasn1 `OctetString.fromHexString` -/
def hexOctets : List (Fin 16) → List UInt8
  | [] => []
  | [a] => [UInt8.ofNat (a.val * 16)]
  | a :: b :: r => UInt8.ofNat (a.val * 16 + b.val) :: hexOctets r

/-- pyasn1 `BitString.fromHexString` -/
def hexBits (h : List (Fin 16)) : Bits := h.flatMap fun d => natToBits 4 d.val

/-- `Class(expression)`: the object's value. -/
def construct (t : Ty) (e : Expr) : Except GenErr Val :=
  match t, e with
  | .integer c, .int z => if c.test z then .ok (.int z) else .error .constraint
  | .boolean, .bool b => .ok (.bool b)
  | .enumerated _ root add, .str s =>
    match (root ++ add).lookup s with
    | some z => .ok (.enum z)
    | none => .error .constraint
  | .bitString c, .bin b => if c.test b.length then .ok (.bits b) else .error .constraint
  | .bitString c, .hex h => if c.test (hexBits h).length then .ok (.bits (hexBits h)) else .error .constraint
  | .octetString c, .bin b => if c.test (binOctets b).length then .ok (.octets (binOctets b)) else .error .constraint
  | .octetString c, .hex h => if c.test (hexOctets h).length then .ok (.octets (hexOctets h)) else .error .constraint
  | t, .name s =>
    match t, env.lookup s with
    | .integer c, some (.val _ (.int z)) => if c.test z then .ok (.int z) else .error .constraint
    | .boolean, some (.val _ (.bool b)) => .ok (.bool b)
    | .bitString c, some (.val _ (.bits b)) => if c.test b.length then .ok (.bits b) else .error .constraint
    | .octetString c, some (.val _ (.octets o)) => if c.test o.length then .ok (.octets o) else .error .constraint
    | _, some _ => .error .unmodelled
    | _, none => .error .nameError
  | _, _ => .error .unmodelled

/-- A class by name. -/
def classNamed (n : String) : Except GenErr Ty :=
  match env.lookup n with
  | some (.cls t) => .ok t
  | some (.val _ _) => .error .typeError
  | none => .error .nameError

/-- One of the `NamedType(...)` lines. -/
def loadNT (nt : NT) : Except GenErr (String × Kind × Ty) :=
  match nt.kind with
  | .mandatory => do return (nt.name, .mandatory, ← classNamed env nt.fieldType)
  | .optional => do return (nt.name, .optional, ← classNamed env nt.fieldType)
  | .default e => do
    let t ← classNamed env nt.fieldType
    return (nt.name, .default (← construct env t e), t)
  | .constant s =>
    match env.lookup s with
    | some (.val t v) => .ok (nt.name, .default v, t)
    | some (.cls _) => .error .unmodelled
    | none => .error .nameError

def loadNTs (l : List NT) : Except GenErr Fields := do return Fields.ofList (← l.mapM (loadNT env))

end

/-- A string that can stand between single quotes as it is, as files/EnumeratedType.txt and the like have it. -/
def quotable (s : String) : Bool := s.toList.all fun c => c ≠ '\'' && c ≠ '\\' && !decide (c < ' ')

/-- pyasn1 `NamedValues.__init__` refuses names and numbers that occur twice. -/
def distinct (l : List (String × Int)) : Except GenErr (List (String × Int)) :=
  if (l.map Prod.fst).Nodup ∧ (l.map Prod.snd).Nodup then .ok l else .error .constraint

mutual
/-- A `class` statement.  An attribute that is not set is the one of the base class, which is looked up by name like
everything else; names in a class body are looked up in it and then in the module. -/
def loadCode (env : List (String × PyObj)) : Code → Except GenErr Ty
  | .simple _ k spec => do
    let base ← classNamed env k.cls
    match spec, k with
    | none, _ => return base
    | some _, .boolean => return base
    | some c, .integer => do
      let p ← checked (← endpointsOf env c)
      return .integer (.valueRange p.1 p.2 c.ext)
    | some c, .octetString => do
      return .octetString (← sizeConstraint c.ext (← checked (← endpointsOf env c)))
    | some c, .bitString => do
      return .bitString (← sizeConstraint c.ext (← checked (← endpointsOf env c)))
  | .enumerated _ marker root add => do
    match ← classNamed env "EnumeratedType" with
    | .enumerated ext _ [] =>
      if (root ++ add).all fun i => quotable i.1 then do
        let _ ← distinct (root ++ add)
        return .enumerated (marker || ext) root add
      else .error .syntaxError
    | _ => .error .unmodelled
  | .seqOf _ spec f => do
    match ← classNamed env "SequenceOfType" with
    | .seqOf c' _ =>
      let c ← match spec with
        | none => pure c'
        | some c => do sizeConstraint c.ext (← endpointsOf env c)
      return .seqOf c (← classNamed env f)
    | _ => .error .unmodelled
  | .sequence _ subs marker root add groups => do
    match ← classNamed env "SequenceType" with
    | .sequence ext _ .nil .nil =>
      let env' := (← loadCodes env subs) ++ env
      return .sequence (marker || ext) (← loadNTs env' root) (← loadNTs env' add)
        (Groups.ofList (← groups.mapM fun g => g.mapM (loadNT env')))
    | _ => .error .unmodelled
  | .choice _ subs marker root add groups => do
    match ← classNamed env "ChoiceType" with
    | .choice ext _ .nil .nil =>
      let env' := (← loadCodes env subs) ++ env
      return .choice (marker || ext) (← loadNTs env' root) (← loadNTs env' add)
        (Groups.ofList (← groups.mapM fun g => g.mapM (loadNT env')))
    | _ => .error .unmodelled
/-- The nested classes, latest first. -/
def loadCodes (env : List (String × PyObj)) : Codes → Except GenErr (List (String × PyObj))
  | .nil => .ok []
  | .cons c r => do
    nestable c.name
    let t ← loadCode env c
    let rest ← loadCodes env r
    return rest ++ [(c.name, .cls t)]
end

/-- One statement of the module. -/
def loadStmt (st : Loaded) : Stmt → Except GenErr Loaded
  | .cls c => do
    bindable c.name
    return ⟨(c.name, .cls (← loadCode st.env c)) :: st.env⟩
  | .alias n m => do
    bindable n
    match st.env.lookup m with
    | some o => .ok ⟨(n, o) :: st.env⟩
    | none => .error .nameError
  | .value n m e => do
    bindable n
    let t ← classNamed st.env m
    return ⟨(n, .val t (← construct st.env t e)) :: st.env⟩

/-- `import` of the generated module. -/
def load (prog : List Stmt) : Except GenErr Loaded := prog.foldlM loadStmt ⟨header⟩

/-- Generating and importing. -/
def compile (as : List Assign) : Except GenErr Loaded := do load (← generate as)

end Verif
