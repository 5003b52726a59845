import Verif.Generate
import Verif.SpecTemplate
/-!
# Specification vocabulary: what a schema means

The meaning of a schema (X.680) as far as it concerns the encoding: a relation between notation and types.
`τ` are the types and `ν` the values assigned so far.
-/
namespace Verif.Spec

/-! ## names -/

/-- A word of the schema language: letters, digits and hyphens. -/
def Word (s : String) : Prop := ∀ c ∈ s.toList, c.isAlphanum = true ∨ c = '-'

/-- Identifiers and value names start with a lower-case letter. -/
def LowerName (s : String) : Prop := Word s ∧ ∃ c r, s.toList = c :: r ∧ c.isLower = true

/-- Type names start with an upper-case letter. -/
def UpperName (s : String) : Prop := Word s ∧ ∃ c r, s.toList = c :: r ∧ c.isUpper = true

/-- What Python calls it. -/
def pyName (s : String) : String := s.map fun c => if c == '-' then '_' else c

/-! ## constraints -/

variable (τ : List (String × Ty)) (ν : List (String × Ty × Val))

/-- The number an endpoint stands for. -/
inductive EndIs : End → Int → Prop
  | num {z} : EndIs (.num z) z
  | ref {s T z} : ν.lookup s = some (T, .int z) → EndIs (.ref s) z

/-- `z` is above a lower endpoint. -/
def Above (e : End) (excluded : Bool) (z : Int) : Prop :=
  e = .min ∨ ∃ a, EndIs ν e a ∧ if excluded then a < z else a ≤ z

/-- `z` is below an upper endpoint. -/
def Below (e : End) (excluded : Bool) (z : Int) : Prop :=
  e = .max ∨ ∃ b, EndIs ν e b ∧ if excluded then z < b else z ≤ b

/-- The values of a single value or range. -/
def InElem : Elem → Int → Prop
  | .value e, z => EndIs ν e z
  | .range lo lo' hi hi', z => Above ν lo lo' z ∧ Below ν hi hi' z

/-- The values of a union of intersections. -/
def InSet (u : List (List Elem)) (z : Int) : Prop := ∃ i ∈ u, i ≠ [] ∧ ∀ e ∈ i, InElem ν e z

/-- `lo` and `hi` are the least and the greatest element; `none`: there is none. -/
def Hull (S : Int → Prop) (lo hi : Option Int) : Prop :=
  (∃ z, S z) ∧
  (match lo with
   | some l => S l ∧ ∀ z, S z → l ≤ z
   | none => ∀ b, ∃ z, S z ∧ z < b) ∧
  (match hi with
   | some h => S h ∧ ∀ z, S z → z ≤ h
   | none => ∀ b, ∃ z, S z ∧ b < z)

/-- The range a constraint gives to an INTEGER: bounds of the root, and whether there is a marker. -/
def RangeOf (n : Notation) (lo hi : Option Int) (ext : Bool) : Prop :=
  Hull (InSet ν n.root) lo hi ∧ ext = n.marker

/-- The sizes a constraint allows. -/
def SizeOf (c : Con) (s : SizeC) : Prop :=
  ∃ n outer, c = .size n outer ∧ s.ext = (n.marker || outer) ∧
    Hull (fun z => 0 ≤ z ∧ InSet ν n.root z) (s.lower.map Int.ofNat) (s.upper.map Int.ofNat)

/-! ## values -/

/-- The constraint allows the number. -/
def permits : Constr → Int → Prop
  | .noConstraint, _ => True
  | .valueRange lo hi ext, z => ext = true ∨ ((∀ l, lo = some l → l ≤ z) ∧ ∀ h, hi = some h → z ≤ h)
  | _, _ => False

/-- The constraint allows the size. -/
def permitsSize (c : SizeC) (n : Nat) : Prop :=
  c.ext = true ∨ ((∀ l, c.lower = some l → l ≤ n) ∧ ∀ h, c.upper = some h → n ≤ h)

/-- The four bits of a hexadecimal digit. -/
def digitBits (d : Fin 16) : Bits := [8 ≤ d.val, 4 ≤ d.val % 8, 2 ≤ d.val % 4, d.val % 2 = 1]

/-- The two digits of an octet. -/
def octetDigits (o : UInt8) : List (Fin 16) :=
  [⟨o.toNat / 16, by have := o.toNat_lt; omega⟩, ⟨o.toNat % 16, by omega⟩]

/-- What a value notation means for a type. -/
inductive LitIs : Ty → Lit → Val → Prop
  | int {c z} : permits c z → LitIs (.integer c) (.num z) (.int z)
  | tt : LitIs .boolean (.word "TRUE") (.bool true)
  | ff : LitIs .boolean (.word "FALSE") (.bool false)
  | item {ext root add s z} : (s, z) ∈ root ++ add → LitIs (.enumerated ext root add) (.word s) (.enum z)
  | bits {c b} : permitsSize c b.length → LitIs (.bitString c) (.bin b) (.bits b)
  | hexBits {c h} : permitsSize c (4 * h.length) → LitIs (.bitString c) (.hex h) (.bits (h.flatMap digitBits))
  | octets {c o} : permitsSize c o.length → o ≠ [] →
      LitIs (.octetString c) (.bin ((o.flatMap octetDigits).flatMap digitBits)) (.octets o)
  | hexOctets {c o} : permitsSize c o.length → LitIs (.octetString c) (.hex (o.flatMap octetDigits)) (.octets o)
  | intRef {c s T z} : ν.lookup s = some (T, .int z) → permits c z → LitIs (.integer c) (.word s) (.int z)
  | boolRef {s T b} : ν.lookup s = some (T, .bool b) → LitIs .boolean (.word s) (.bool b)
  | bitsRef {c s T b} : ν.lookup s = some (T, .bits b) → permitsSize c b.length →
      LitIs (.bitString c) (.word s) (.bits b)
  | octetsRef {c s T o} : ν.lookup s = some (T, .octets o) → permitsSize c o.length →
      LitIs (.octetString c) (.word s) (.octets o)

/-! ## types -/

/-- Components as a list. -/
def compList : Comps → List (String × TObj × Pres)
  | .nil => []
  | .cons id t p r => (id, t, p) :: compList r

/-- Component lists as lists. -/
def itemList : Items → List (Item (String × TObj × Pres))
  | .nil => []
  | .comp id t p r => .comp (id, t, p) :: itemList r
  | .marker r => .marker :: itemList r
  | .group cs r => .group (compList cs) :: itemList r

variable {α : Type}

/-- What comes before the marker. -/
def upTo : List (Item α) → List (Item α)
  | [] => []
  | .marker :: _ => []
  | .comp x :: r => .comp x :: upTo r
  | .group xs :: r => .group xs :: upTo r

/-- What comes after the marker. -/
def past : List (Item α) → List (Item α)
  | [] => []
  | .marker :: r => r
  | .comp _ :: r => past r
  | .group _ :: r => past r

/-- Items of an ENUMERATED with their numbers. -/
def numberFrom : Nat → List String → List (String × Int)
  | _, [] => []
  | k, s :: r => (s, (k : Int)) :: numberFrom (k + 1) r

mutual
/-- What a type notation means. -/
inductive Means : TObj → Ty → Prop
  | boolean : Means (.simple .boolean none) .boolean
  | integer : Means (.simple .integer none) (.integer .noConstraint)
  | range {n lo hi ext} : RangeOf ν n lo hi ext →
      Means (.simple .integer (some (.value n))) (.integer (.valueRange lo hi ext))
  | octetString : Means (.simple .octetString none) (.octetString ⟨false, none, none⟩)
  | octetStringSize {c s} : SizeOf ν c s → Means (.simple .octetString (some c)) (.octetString s)
  | bitString : Means (.simple .bitString none) (.bitString ⟨false, none, none⟩)
  | bitStringSize {c s} : SizeOf ν c s → Means (.simple .bitString (some c)) (.bitString s)
  /-- items are distinct identifiers, numbered in the order in which they are written -/
  | enumerated {root : List String} {adds : Option (List String)} :
      (∀ s ∈ root ++ adds.getD [], LowerName s) → (root ++ adds.getD []).Nodup →
      Means (.enumerated (enumTokens root adds))
        (.enumerated adds.isSome (numberFrom 0 root) (numberFrom root.length (adds.getD [])))
  | sequenceOf {e T} : Means e T → Means (.seqOf none e) (.seqOf ⟨false, some 0, none⟩ T)
  | sequenceOfSize {e T c s} : Means e T → SizeOf ν c s → Means (.seqOf (some c) e) (.seqOf s T)
  /-- the root surrounds the additions: `SEQUENCE { root, ..., additions, ..., root }` -/
  | sequence {items r a g} :
      MeansAll (singlesOf (upTo (itemList items)) ++ singlesOf (past (past (itemList items)))) r →
      MeansAll (singlesOf (upTo (past (itemList items)))) a →
      MeansGroups (groupsOf (upTo (past (itemList items)))) g →
      Means (.sequence items) (.sequence (hasMarker (itemList items)) r a g)
  | choice {items r a g} : (∀ c ∈ declared (itemList items), c.2.2 = .mandatory) →
      MeansAll (singlesOf (upTo (itemList items))) r →
      MeansAll (singlesOf (upTo (past (itemList items)))) a →
      MeansGroups (groupsOf (upTo (past (itemList items)))) g →
      Means (.choice items) (.choice (hasMarker (itemList items)) r a g)
  | ref {n T} : τ.lookup n = some T → Means (.ref n) T
/-- Components in order. -/
inductive MeansAll : List (String × TObj × Pres) → Fields → Prop
  | nil : MeansAll [] .nil
  | mandatory {id t T l f} : Means t T → MeansAll l f → MeansAll ((id, t, .mandatory) :: l) (.cons id .mandatory T f)
  | optional {id t T l f} : Means t T → MeansAll l f → MeansAll ((id, t, .optional) :: l) (.cons id .optional T f)
  | default {id t T d v l f} : Means t T → LitIs ν T d v → MeansAll l f →
      MeansAll ((id, t, .default d) :: l) (.cons id (.default v) T f)
inductive MeansGroups : List (List (String × TObj × Pres)) → Groups → Prop
  | nil : MeansGroups [] .nil
  | cons {l f ls g} : MeansAll l f → MeansGroups ls g → MeansGroups (l :: ls) (.cons f g)
end

/-- What a module declares, in the order of its assignments; `Q` is demanded of every assignment. -/
inductive Declares (Q : List (String × Ty) → List (String × Ty × Val) → Assign → Prop) :
    List Assign → List (String × Ty) → List (String × Ty × Val) → Prop
  | nil : Declares Q [] [] []
  | type {as τ ν n t T} : Declares Q as τ ν → Q τ ν (.type n t) → Means τ ν t T →
      Declares Q (as ++ [.type n t]) ((n, T) :: τ) ν
  | value {as τ ν n k l T v} : Declares Q as τ ν → Q τ ν (.value n k l) → Means τ ν (.simple k none) T → LitIs ν T l v →
      Declares Q (as ++ [.value n k l]) τ ((n, T, v) :: ν)
  | constant {as τ ν n m l T v} : Declares Q as τ ν → Q τ ν (.constant n m l) → τ.lookup m = some T → LitIs ν T l v →
      Declares Q (as ++ [.constant n m l]) τ ((n, T, v) :: ν)

/-! ## schemas the generator copes with -/

def Elem.lower : Elem → End
  | .value e => e
  | .range lo _ _ _ => lo

def Elem.upper : Elem → End
  | .value e => e
  | .range _ _ hi _ => hi

/-- No `<`. -/
def Elem.closed : Elem → Prop
  | .value _ => True
  | .range _ lo' _ hi' => lo' = false ∧ hi' = false

/-- A union of values and ranges, none of them empty, that starts with the least and ends with the greatest end; no
`<`, no intersection, no additional set, no hyphen in the names used. -/
structure Ascending (n : Notation) : Prop where
  elems : ∃ es : List Elem, n.root = es.map (fun e => [e]) ∧ (∀ e ∈ es, Elem.closed e ∧ ∃ z, InElem ν e z) ∧
    ∃ first last, es.head? = some first ∧ es.getLast? = some last ∧
      (∀ z, InSet ν n.root z → Above ν (Elem.lower first) false z ∧ Below ν (Elem.upper last) false z) ∧
      (∀ s, Elem.lower first = .ref s ∨ Elem.upper last = .ref s → '-' ∉ s.toList)
  additional : n.additional = []

/-- A size constraint of that kind with a lower end that is not negative (and not `MIN`), and the marker inside. -/
def AscendingSize : Con → Prop
  | .size n outer => Ascending ν n ∧ outer = false ∧
      ∀ i e, n.root.head? = some i → e ∈ i → ∃ a, 0 ≤ a ∧ EndIs ν (Elem.lower e) a
  | .value _ => False

/-- The names that are assigned. -/
def typeNames (as : List Assign) : List String :=
  as.filterMap fun a => match a with | .type n _ => some n | _ => none

def valueNames (as : List Assign) : List String :=
  as.filterMap fun a => match a with | .value n _ _ => some n | .constant n _ _ => some n | _ => none

/-- DEFAULTs (and values) the generator understands for a type that is not a reference: literals; names of plain values
for an INTEGER, if they have no hyphen and are not the name of a component (`ids`). -/
inductive LiteralFor (as : List Assign) (ids : List String) : TObj → Lit → Prop
  | num {c z} : LiteralFor as ids (.simple .integer c) (.num z)
  | name {c s} : (∀ m l, .constant s m l ∉ as) → '-' ∉ s.toList → s ∉ ids.map pyName →
      LiteralFor as ids (.simple .integer c) (.word s)
  | tt {c} : LiteralFor as ids (.simple .boolean c) (.word "TRUE")
  | ff {c} : LiteralFor as ids (.simple .boolean c) (.word "FALSE")
  | octets {c b} : LiteralFor as ids (.simple .octetString c) (.bin b)
  | hexOctets {c h} : LiteralFor as ids (.simple .octetString c) (.hex h)
  | bits {c b} : LiteralFor as ids (.simple .bitString c) (.bin b)
  | hexBits {c h} : LiteralFor as ids (.simple .bitString c) (.hex h)
  | item {items s} : (∀ m l, .constant s m l ∉ as) → LiteralFor as ids (.enumerated items) (.word s)

/-- The same for a component: the type may be a reference to such a type (but not to an alias), and the DEFAULT the name
of a constant of the referenced type. -/
inductive DefaultFor (as : List Assign) (ids : List String) : TObj → Lit → Prop
  | direct {t l} : LiteralFor as ids t l → DefaultFor as ids t l
  | behind {n t l} : .type n t ∈ as → LiteralFor as ids t l → DefaultFor as ids (.ref n) l
  | constant {n s l} : .constant s n l ∈ as → '-' ∉ s.toList → s ∉ ids.map pyName →
      DefaultFor as ids (.ref n) (.word s)

/-- Identifiers are distinct; nothing after a second marker; groups only after the marker. -/
def RegularList (l : List (Item (String × TObj × Pres))) : Prop :=
  ((declared l).map Prod.fst).Nodup ∧ (∀ c ∈ declared l, LowerName c.1) ∧
  singlesOf (past (past l)) = [] ∧ groupsOf (past (past l)) = [] ∧ groupsOf (upTo l) = []

/-- A component that is neither of a plain type nor of a named one does not have the name of a reserved word of Python or
of an attribute of the classes of the library. -/
def Nameable (l : List (Item (String × TObj × Pres))) : Prop :=
  ∀ c ∈ declared l, (∃ k, c.2.1 = .simple k none) ∨ (∃ n, c.2.1 = .ref n) ∨
    (pyName c.1 ∉ keywords ∧ pyName c.1 ∉ attributes)

mutual
/-- Types the generator copes with; `as` are all assignments. -/
def Regular (as : List Assign) : TObj → Prop
  | .simple _ none => True
  | .simple .integer (some (.value n)) => Ascending ν n
  | .simple .octetString (some c) => AscendingSize ν c
  | .simple .bitString (some c) => AscendingSize ν c
  | .simple _ (some _) => False
  | .enumerated _ => True
  | .seqOf c e => (∀ c', c = some c' → AscendingSize ν c') ∧ ((∃ k, e = .simple k none) ∨ ∃ n, e = .ref n)
  | .sequence items => RegularItems as ((declared (itemList items)).map Prod.fst) items ∧ RegularList (itemList items) ∧
      Nameable (itemList items)
  | .choice items => RegularItems as ((declared (itemList items)).map Prod.fst) items ∧ RegularList (itemList items) ∧
      Nameable (itemList items)
  | .ref _ => True
def RegularItems (as : List Assign) (ids : List String) : Items → Prop
  | .nil => True
  | .comp _ t p r => (Regular as t ∧ ∀ l, p = .default l → DefaultFor as ids t l) ∧ RegularItems as ids r
  | .marker r => RegularItems as ids r
  | .group cs r => RegularComps as ids cs ∧ RegularItems as ids r
def RegularComps (as : List Assign) (ids : List String) : Comps → Prop
  | .nil => True
  | .cons _ t p r => (Regular as t ∧ ∀ l, p = .default l → DefaultFor as ids t l) ∧ RegularComps as ids r
end

/-- Assignments the generator copes with. -/
def RegularAssign (as : List Assign) : List (String × Ty) → List (String × Ty × Val) → Assign → Prop
  | _, ν, .type _ t => Regular ν as t
  | _, _, .value _ k l => LiteralFor as [] (.simple k none) l
  | _, _, .constant _ m l => ∃ k c, .type m (.simple k c) ∈ as ∧ LiteralFor as [] (.simple k c) l

/-- The names of a module: words, and distinct. -/
structure SchemaNames (as : List Assign) : Prop where
  types : ∀ n ∈ typeNames as, UpperName n
  values : ∀ n ∈ valueNames as, LowerName n
  distinct : (typeNames as).Nodup ∧ (valueNames as).Nodup

/-- None of them is a reserved word of Python or a name the generated module uses otherwise. -/
structure Names (as : List Assign) : Prop extends SchemaNames as where
  library : ∀ n ∈ typeNames as, n ∉ ["IntegerType", "BooleanType", "OctetStringType", "BitStringType",
    "EnumeratedType", "SequenceOfType", "SequenceType", "ChoiceType",
    "DateType", "IA5String", "NullType", "NumericString", "RealType", "UTF8String", "VisibleString"]
  python : ∀ n, n ∈ typeNames as ∨ n ∈ valueNames as → pyName n ∉ keywords ∧ pyName n ∉ headerNames

end Verif.Spec
