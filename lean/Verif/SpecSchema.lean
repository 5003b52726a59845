import Verif.SpecGenerate
/-!
# Specification vocabulary: how a schema is written

The lexical items of a schema (X.680 clause 12) and the text they can be laid out in.
-/
namespace Verif.Spec

/-! ## lexical items -/

/-- Numbers. -/
def numberItems (z : Int) : List String := if z < 0 then ["-", z.natAbs.repr] else [z.natAbs.repr]

/-- With something between them. -/
def between {α : Type} (sep : String) (f : α → List String) : List α → List String
  | [] => []
  | [x] => f x
  | x :: xs => f x ++ sep :: between sep f xs

def endItems : End → List String
  | .num z => numberItems z
  | .min => ["MIN"]
  | .max => ["MAX"]
  | .ref s => [s]

def elemItems : Elem → List String
  | .value e => endItems e
  | .range lo lo' hi hi' =>
    endItems lo ++ (if lo' then ["<"] else []) ++ ".." :: ((if hi' then ["<"] else []) ++ endItems hi)

def setItems (u : List (List Elem)) : List String := between "|" (between "^" elemItems) u

def notationItems (n : Notation) : List String :=
  setItems n.root ++ (if n.marker then "," :: "..." :: (if n.additional = [] then [] else "," :: setItems n.additional)
    else [])

/-- Constraints: `( ... )`, `(SIZE( ... ))`, `(SIZE( ... ), ...)`. -/
def conItems : Con → List String
  | .value n => "(" :: (notationItems n ++ [")"])
  | .size n outer => "(" :: "SIZE" :: "(" :: (notationItems n ++ ")" :: ((if outer then [",", "..."] else []) ++ [")"]))

/-- Binary and hexadecimal strings are one item each. -/
def binItem (b : Bits) : String := String.ofList ('\'' :: (b.map (fun x => if x then '1' else '0') ++ ['\'', 'B']))
def hexItem (h : List (Fin 16)) : String :=
  String.ofList ('\'' :: (h.map (fun d => "0123456789ABCDEF".toList.getD d.val '0') ++ ['\'', 'H']))

def litItems : Lit → List String
  | .num z => numberItems z
  | .word s => [s]
  | .bin b => [binItem b]
  | .hex h => [hexItem h]

/-- `a` or `a(5)`; the number is kept as text. -/
def namedItems : EnumItem → List String
  | .id s => [s]
  | .number n s => s :: "(" :: ((match n.toList with | '-' :: r => ["-", String.ofList r] | _ => [n]) ++ [")"])

/-- `BIT STRING` and the like count as one item here, with exactly one space inside. -/
def simpleItem : Simple → String
  | .integer => "INTEGER"
  | .boolean => "BOOLEAN"
  | .octetString => "OCTET STRING"
  | .bitString => "BIT STRING"

def presItems : Pres → List String
  | .mandatory => []
  | .optional => ["OPTIONAL"]
  | .default l => "DEFAULT" :: litItems l

mutual
def typeItems : TObj → List String
  | .simple k none => [simpleItem k]
  | .simple k (some c) => simpleItem k :: conItems c
  | .enumerated items => "ENUMERATED" :: "{" :: (between "," namedItems items ++ ["}"])
  | .seqOf none e => "SEQUENCE OF" :: typeItems e
  | .seqOf (some c) e => "SEQUENCE" :: (conItems c ++ "OF" :: typeItems e)
  | .sequence items => "SEQUENCE" :: "{" :: ((restItems items).drop 1 ++ ["}"])
  | .choice items => "CHOICE" :: "{" :: ((restItems items).drop 1 ++ ["}"])
  | .ref n => [n]
/-- Each with a comma in front. -/
def restItems : Items → List String
  | .nil => []
  | .comp id t p r => "," :: id :: (typeItems t ++ (presItems p ++ restItems r))
  | .marker r => "," :: "..." :: restItems r
  | .group cs r => "," :: "[[" :: ((groupItems cs).drop 1 ++ "]]" :: restItems r)
def groupItems : Comps → List String
  | .nil => []
  | .cons id t p r => "," :: id :: (typeItems t ++ (presItems p ++ groupItems r))
end

def assignItems : Assign → List String
  | .type n t => n :: "::=" :: typeItems t
  | .value n k l => n :: simpleItem k :: "::=" :: litItems l
  | .constant n m l => n :: m :: "::=" :: litItems l

/-- `M DEFINITIONS AUTOMATIC TAGS ::= BEGIN ... END` -/
def moduleItems (name : String) (tags : Bool) (as : List Assign) : List String :=
  name :: "DEFINITIONS" :: ((if tags then ["AUTOMATIC TAGS"] else []) ++ "::=" :: "BEGIN" ::
    (as.flatMap assignItems ++ ["END"]))

/-! ## layout -/

def Blank (c : Char) : Prop := c = ' ' ∨ c = '\n' ∨ c = '\t' ∨ c = '\r'

/-- The text would continue the word before it. -/
def Joins (l : String) (r : List Char) : Prop :=
  (∃ c, l.toList.getLast? = some c ∧ c.isAlphanum = true) ∧
    ∃ c, r.head? = some c ∧ (c.isAlphanum = true ∨ c = '-' ∨ c = '–')

/-- The text consists of the items, with white space behind each, not necessarily any. -/
def Laid : List String → List Char → Prop
  | [], s => s = []
  | l :: ls, s => (∀ c, s.head? = some c → ¬ Blank c) ∧ ∃ w r, s = l.toList ++ (w ++ r) ∧ (∀ c ∈ w, Blank c) ∧
      (w = [] → ¬ Joins l r) ∧ Laid ls r

/-- The text is a module with these assignments. -/
def Written (name : String) (tags : Bool) (as : List Assign) (text : List Char) : Prop :=
  ∃ w s, text = w ++ s ∧ (∀ c ∈ w, Blank c) ∧ Laid (moduleItems name tags as) s

/-! ## what can be written -/

/-- A word does not end in a hyphen. -/
def Ends (s : String) : Prop := s.toList.getLast? ≠ some '-'

/-- Reserved words of the language that look like names of types (X.680 12.38). -/
def reservedWords : List String :=
  ["ABSENT", "ABSTRACT-SYNTAX", "ALL", "APPLICATION", "AUTOMATIC", "BEGIN", "BIT", "BMPString", "BOOLEAN", "BY",
   "CHARACTER", "CHOICE", "CLASS", "COMPONENT", "COMPONENTS", "CONSTRAINED", "CONTAINING", "DATE", "DATE-TIME", "DEFAULT",
   "DEFINITIONS", "DURATION", "EMBEDDED", "ENCODED", "ENCODING-CONTROL", "END", "ENUMERATED", "EXCEPT", "EXPLICIT",
   "EXPORTS", "EXTENSIBILITY", "EXTERNAL", "FALSE", "FROM", "GeneralizedTime", "GeneralString", "GraphicString",
   "IA5String", "IDENTIFIER", "IMPLICIT", "IMPLIED", "IMPORTS", "INCLUDES", "INSTANCE", "INSTRUCTIONS", "INTEGER",
   "INTERSECTION", "ISO646String", "MAX", "MIN", "MINUS-INFINITY", "NOT-A-NUMBER", "NULL", "NumericString", "OBJECT",
   "ObjectDescriptor", "OCTET", "OF", "OID-IRI", "OPTIONAL", "PATTERN", "PDV", "PLUS-INFINITY", "PRESENT",
   "PrintableString", "PRIVATE", "REAL", "RELATIVE-OID", "RELATIVE-OID-IRI", "SEQUENCE", "SET", "SETTINGS", "SIZE",
   "STRING", "SYNTAX", "T61String", "TAGS", "TeletexString", "TIME", "TIME-OF-DAY", "TRUE", "TYPE-IDENTIFIER", "UNION",
   "UNIQUE", "UNIVERSAL", "UniversalString", "UTCTime", "UTF8String", "VideotexString", "VisibleString", "WITH"]

def ValueName (s : String) : Prop := LowerName s ∧ Ends s
def TypeName (s : String) : Prop := UpperName s ∧ Ends s ∧ s ∉ reservedWords

def WritableLit : Lit → Prop
  | .word s => ValueName s ∨ s = "TRUE" ∨ s = "FALSE"
  | _ => True

def WritableValue : End → Prop
  | .num _ => True
  | .ref s => ValueName s
  | _ => False

def WritableElem : Elem → Prop
  | .value e => WritableValue e
  | .range lo _ hi _ => (WritableValue lo ∨ lo = .min) ∧ (WritableValue hi ∨ hi = .max)

/-- Unions of intersections of at most two. -/
def WritableSet (u : List (List Elem)) : Prop :=
  u ≠ [] ∧ ∀ i ∈ u, i ≠ [] ∧ i.length ≤ 2 ∧ ∀ e ∈ i, WritableElem e

def WritableNotation (n : Notation) : Prop :=
  WritableSet n.root ∧ (n.additional ≠ [] → n.marker = true ∧ WritableSet n.additional)

def WritableCon : Con → Prop
  | .value n => WritableNotation n
  | .size n _ => WritableNotation n

/-- Digits, perhaps with a sign, or the name of a value. -/
def WritableNumber (n : String) : Prop :=
  (∃ k : Nat, n = k.repr ∨ n = "-" ++ k.repr) ∨ ValueName n

def WritableItem : EnumItem → Prop
  | .id s => ValueName s
  | .number n s => ValueName s ∧ WritableNumber n

/-- Items, then perhaps a marker, then perhaps more of them. -/
def WritableEnum (items : List EnumItem) : Prop :=
  ∃ root adds, (items = root ∨ items = root ++ .id "..." :: adds) ∧ root ≠ [] ∧ (∀ i ∈ root ++ adds, WritableItem i)

inductive Part where
  | root
  | additions
  | end

/-- Components, a marker, additions and groups, a second marker, and (not in a CHOICE) components again. -/
def Shape (choice : Bool) : Part → Items → Prop
  | _, .nil => True
  | .root, .comp _ _ _ r => Shape choice .root r
  | .root, .marker r => Shape choice .additions r
  | .additions, .comp _ _ _ r => Shape choice .additions r
  | .additions, .group cs r => cs ≠ .nil ∧ Shape choice .additions r
  | .additions, .marker r => Shape choice .end r
  | .end, .comp _ _ _ r => choice = false ∧ Shape choice .end r
  | _, _ => False

def WritablePres (choice : Bool) : Pres → Prop
  | .mandatory => True
  | .optional => choice = false
  | .default l => choice = false ∧ WritableLit l

mutual
def Writable : TObj → Prop
  | .simple _ none => True
  | .simple _ (some c) => WritableCon c
  | .enumerated items => WritableEnum items
  | .seqOf none e => Writable e
  | .seqOf (some c) e => WritableCon c ∧ Writable e
  | .sequence items => Shape false .root items ∧ WritableItems false items
  | .choice items => (∃ id t p r, items = .comp id t p r) ∧ Shape true .root items ∧ WritableItems true items
  | .ref n => TypeName n
def WritableItems (choice : Bool) : Items → Prop
  | .nil => True
  | .comp id t p r => (ValueName id ∧ Writable t ∧ WritablePres choice p) ∧ WritableItems choice r
  | .marker r => WritableItems choice r
  | .group cs r => WritableComps choice cs ∧ WritableItems choice r
def WritableComps (choice : Bool) : Comps → Prop
  | .nil => True
  | .cons id t p r => (ValueName id ∧ Writable t ∧ WritablePres choice p) ∧ WritableComps choice r
end

def WritableAssign : Assign → Prop
  | .type n t => TypeName n ∧ Writable t
  | .value n _ l => ValueName n ∧ WritableLit l
  | .constant n m l => ValueName n ∧ TypeName m ∧ WritableLit l

/-! ## what is kept -/

/-- The compiler keeps the ends of a constraint and whether it has a marker: a constraint with the same ones. -/
def plainCon (c : Con) : Con :=
  match c.tuple with
  | .ok t => .value ⟨[[.range t.lower false t.upper false]], t.ext, []⟩
  | .error _ => c

mutual
/-- The type with such constraints. -/
def plainType : TObj → TObj
  | .simple k c => .simple k (c.map plainCon)
  | .enumerated items => .enumerated items
  | .seqOf c e => .seqOf (c.map plainCon) (plainType e)
  | .sequence items => .sequence (plainItems items)
  | .choice items => .choice (plainItems items)
  | .ref n => .ref n
def plainItems : Items → Items
  | .nil => .nil
  | .comp id t p r => .comp id (plainType t) p (plainItems r)
  | .marker r => .marker (plainItems r)
  | .group cs r => .group (plainComps cs) (plainItems r)
def plainComps : Comps → Comps
  | .nil => .nil
  | .cons id t p r => .cons id (plainType t) p (plainComps r)
end

def plainAssign : Assign → Assign
  | .type n t => .type n (plainType t)
  | a => a

end Verif.Spec
