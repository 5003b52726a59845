import Verif.Pyparsing
import Verif.Compiler
/-!
# The grammar of schemas

`/repo/asn1PERser/asn_definitions/` and `/repo/asn1PERser/classes/parse_actions.py`: from the text of a schema to the
assignments that `Verif.Compiler` starts from.  One definition per production, named as in `/repo`; `T`, `V`, `C` are the
elements `Type`, `Value`, `Constraint` that are recursive there (`Forward`).
-/
namespace Verif.Parse

/-! ## lexical_items.py -/

/-- `chr(8211)`, character_and_word_set.py:130 -/
def nonBreakingHyphen : Char := '–'

/-- lexical_items.py:11-13, 21-22 -/
def isBody (c : Char) : Bool := c.isAlphanum || c == '-' || c == nonBreakingHyphen

def typereference : P := word Char.isUpper isBody
def identifier : P := word Char.isLower isBody
/-- lexical_items.py:30 -/
def valuereference : P := identifier
/-- lexical_items.py:37 -/
def modulereference : P := typereference
/-- lexical_items.py:67 -/
def number : P := terminal matchDigits
/-- lexical_items.py:76 -/
def realnumber : P := terminal matchReal
/-- lexical_items.py:85 -/
def bstring : P := terminal (matchQuoted '\'' (fun c => c == '0' || c == '1' || isSpace c) ['B'])
/-- lexical_items.py:95 -/
def hstring : P :=
  terminal (matchQuoted '\'' (fun c => ('A' ≤ c && c ≤ 'F') || c.isDigit || isSpace c) ['H'])
/-- lexical_items.py:105 -/
def cstring : P := terminal (matchQuoted '"' (fun c => c.isAlphanum || isSpace c) [])
/-- lexical_items.py:178-179 -/
def encodingreference : P := word Char.isUpper fun c => c.isUpper || c == '-' || c == nonBreakingHyphen
/-- lexical_items.py:183-191 -/
def leftCurly : P := (lit "{").drop
def rightCurly : P := (lit "}").drop
def comma : P := (lit ",").drop
def leftParen : P := (lit "(").drop
def rightParen : P := (lit ")").drop

/-! ## common_def.py -/

/-- The tokens as text. -/
def texts : List Tok → Option (List String)
  | [] => some []
  | .str s :: r => (texts r).map (s :: ·)
  | _ :: _ => none

/-- `lambda toks: ''.join(toks)` -/
def joined (toks : List Tok) : Except PErr (List Tok) :=
  match texts toks with
  | some l => .ok [.str (String.join l)]
  | none => .error (.raised .typeError)

/-- common_def.py:11-14 -/
def signedNumber : P := (or [number, seq (lit "-") number]).act joined
/-- common_def.py:18 -/
def externalValueReference : P := seqs [modulereference, lit ".", valuereference]
/-- common_def.py:22-26 -/
def definedValue : P := or [externalValueReference, valuereference]
/-- common_def.py:30-33 -/
def namedNumber : P := or
  [(seqs [identifier, leftParen, signedNumber, rightParen]).group,
   (seqs [identifier, leftParen, definedValue, rightParen]).group]
/-- common_def.py:37-41 -/
def namedNumberList : P := or [seq namedNumber (many (seq comma namedNumber))]
/-- common_def.py:53 -/
def tuple : P := seqs [leftCurly, number, comma, number, rightCurly]
/-- common_def.py:73 -/
def quadruple : P := seqs [leftCurly, number, comma, number, comma, number, comma, number, rightCurly]
/-- common_def.py:77-82 -/
def charsDefn : P := or [cstring, quadruple, tuple, definedValue]
/-- common_def.py:86-90 -/
def charSyms : P := or [seq charsDefn (many (seq comma charsDefn))]
/-- common_def.py:94 -/
def characterStringList : P := seqs [leftCurly, charSyms, rightCurly]

/-! ## value_def.py -/

section
variable (V : P)

/-- value_def.py:20 -/
def namedValue : P := seq identifier V
/-- value_def.py:24-28 -/
def componentValueList : P := or [seq (namedValue V) (many (seq comma (namedValue V)))]
/-- value_def.py:32-35 -/
def sequenceValue : P := or [seqs [leftCurly, componentValueList V, rightCurly], seq leftCurly rightCurly]
/-- value_def.py:39-43 -/
def specialRealValue : P := or [lit "PLUS-INFINITY", lit "MINUS-INFINITY", lit "NOT-A-NUMBER"]
/-- value_def.py:47-51 -/
def numericRealValue : P := or [realnumber, seq (lit "-") realnumber, sequenceValue V]
/-- value_def.py:55-58 -/
def realValue : P := or [numericRealValue V, specialRealValue]
/-- value_def.py:62-65 -/
def referencedValue : P := or [definedValue]
/-- value_def.py:69-72 -/
def integerValue : P := or [signedNumber, identifier]
/-- value_def.py:76-80 -/
def octetStringValue : P := or [bstring, hstring, seq (lit "CONTAINING") V]
/-- value_def.py:84-87 -/
def booleanValue : P := or [lit "TRUE", lit "FALSE"]
/-- value_def.py:95-100, 104-107 -/
def restrictedCharacterStringValue : P := or [cstring, characterStringList, quadruple, tuple]
def characterStringValue : P := or [restrictedCharacterStringValue]
/-- value_def.py:111-134; `NULL` is common_def.py:7 -/
def builtinValue : P := or
  [booleanValue, characterStringValue, integerValue, lit "NULL", octetStringValue V, realValue V, sequenceValue V]
end

/-- value_def.py:138-142 -/
def value : Nat → P
  | 0 => nothing
  | n + 1 => or [builtinValue (value n), referencedValue]

/-! ## constraint_def.py -/

section
variable (V : P)

/-- constraint_def.py:31-34 -/
def upperEndValue : P := or [V, lit "MAX"]
/-- constraint_def.py:38-41 -/
def lowerEndValue : P := or [V, lit "MIN"]
/-- constraint_def.py:44-47 -/
def upperEndpoint : P := or [upperEndValue V, seq (lit "<") (upperEndValue V)]
/-- constraint_def.py:51-54 -/
def lowerEndpoint : P := or [lowerEndValue V, seq (lowerEndValue V) (lit "<")]
/-- constraint_def.py:62 -/
def valueRange : P := seqs [lowerEndpoint V, lit "..", upperEndpoint V]

variable (C E : P)

/-- constraint_def.py:66 -/
def sizeConstraint : P := seq (lit "SIZE") C
/-- constraint_def.py:58, 78-91 -/
def subtypeElements : P := or [V, valueRange V, sizeConstraint C]
/-- constraint_def.py:96-100; `E` is `ElementSetSpec` -/
def elements : P := or [subtypeElements V C, seqs [leftParen, E, rightParen]]
/-- constraint_def.py:104-107 -/
def intersectionMark : P := or [lit "^", lit "INTERSECTION"]
/-- constraint_def.py:111-114 -/
def unionMark : P := or [lit "|", lit "UNION"]
/-- constraint_def.py:118 -/
def exclusions : P := seq (lit "EXCEPT") (elements V C E)
/-- constraint_def.py:122-125 -/
def intersectionElements : P := or [seq (elements V C E) (opt (exclusions V C E))]
/-- constraint_def.py:133-137 -/
def intersections : P := or
  [many1 (seq (intersectionElements V C E) (opt (seq intersectionMark (intersectionElements V C E))))]
/-- constraint_def.py:144-148 -/
def unions : P := or [many1 (seq (intersections V C E) (opt unionMark))]
/-- constraint_def.py:156-159 -/
def elementSetSpecBody : P := or [unions V C E, seq (lit "ALL") (exclusions V C E)]
/-- constraint_def.py:171-175, 195, 199-202 -/
def elementSetSpecs : P := or
  [E, seqs [E, comma, lit "..."], seqs [E, comma, lit "...", comma, E]]
def constraintSpec : P := or [elementSetSpecs E]
/-- constraint_def.py:188-191, 206 -/
def constraintBody : P := seqs [leftParen, constraintSpec E, or [empty], rightParen]
end

/-- constraint_def.py:156 -/
def elementSetSpec (V : P) : Nat → P
  | 0 => nothing
  | n + 1 => let E := elementSetSpec V n; elementSetSpecBody V (constraintBody E) E
/-- constraint_def.py:206, `Constraint` -/
def constraintDef (V : P) (n : Nat) : P := constraintBody (elementSetSpec V n)

/-! ## parse_actions.py -/

/-- A number as the templates print it; Python rejects leading zeros. -/
def intOf (s : List Char) : Option Int :=
  match s with
  | ['0'] => some 0
  | c :: r =>
    if c = '-' then
      if r ≠ [] ∧ r.all Char.isDigit ∧ (r.head? ≠ some '0' ∨ r = ['0']) then some (-(natOf r : Int)) else none
    else if s.all Char.isDigit ∧ c ≠ '0' then some (natOf s : Int) else none
  | [] => none
where
  natOf (l : List Char) : Nat := l.foldl (fun n c => 10 * n + (c.toNat - '0'.toNat)) 0

/-- Does the token start like a name? -/
def isName (s : List Char) : Bool := s.head?.any Char.isAlpha

/-- The ends of a constraint are kept as text; this is what they mean in the generated module. -/
def endOf (s : String) : Except PErr End :=
  if s = "MIN" then .ok .min
  else if s = "MAX" then .ok .max
  else
    match intOf s.toList with
    | some z => .ok (.num z)
    | none => if s.toList.head?.any Char.isLower then .ok (.ref s) else .error (.raised .unmodelled)

/-- A hexadecimal digit. -/
def hexDigit (c : Char) : Option (Fin 16) :=
  if c.isDigit then some (Fin.ofNat 16 (c.toNat - '0'.toNat))
  else if 'A' ≤ c ∧ c ≤ 'F' then some (Fin.ofNat 16 (c.toNat - 'A'.toNat + 10))
  else none

/-- A binary digit. -/
def binDigit (c : Char) : Option Bool := if c = '0' then some false else if c = '1' then some true else none

/-- Values are kept as text; this is what `parse_value` distinguishes (`Verif.Generate.parseValue`). -/
def litOf (s : String) : Except PErr Lit :=
  match intOf s.toList with
  | some z => .ok (.num z)
  | none =>
    if isName s.toList then .ok (.word s)
    else
      match s.toList with
      | '\'' :: r =>
        match r.reverse with
        | 'B' :: '\'' :: d =>
          match d.reverse.mapM binDigit with
          | some b => .ok (.bin b)
          | none => .error (.raised .unmodelled)
        | 'H' :: '\'' :: d =>
          match d.reverse.mapM hexDigit with
          | some h => .ok (.hex h)
          | none => .error (.raised .unmodelled)
        | _ => .error (.raised .unmodelled)
      | _ => .error (.raised .unmodelled)

/-- `toks[i][0]` where a type is expected; text has no such attributes. -/
def typeIn : Option Tok → Except PErr TObj
  | some (.group (.type t :: _)) => .ok t
  | some _ => .error (.raised .attributeError)
  | none => .error .noMatch

/-- `parse_ValueAssignment`, parse_actions.py:24-30; the constraint of the type is not used, IntegerType.py:13-16. -/
def parseValueAssignment (toks : List Tok) : Except PErr (List Tok) :=
  match toks.head?, toks.getLast? with
  | some (.str n), some (.str v) => do
    let t ← typeIn toks[1]?
    let l ← litOf v
    match t with
    | .simple k _ => return [.assign (.value n k l)]
    | .ref m => return [.assign (.constant n m l)]
    | _ => .error (.raised .unmodelled)
  | _, _ => .error (.raised .unmodelled)

/-- `parse_TypeAssignment`, parse_actions.py:33-42 -/
def parseTypeAssignment (toks : List Tok) : Except PErr (List Tok) :=
  match toks.head? with
  | some (.str n) => do return [.assign (.type n (← typeIn toks[2]?))]
  | _ => .error (.raised .unmodelled)

/-- `parse_BitStringType` and the like, parse_actions.py:45-50, 92-110: what is in braces is dropped. -/
def returns (t : TObj) (_ : List Tok) : Except PErr (List Tok) := .ok [.type t]

/-- Types that are parsed but not modelled: character strings, `REAL`, `DATE`. -/
def unmodelled (_ : List Tok) : Except PErr (List Tok) := .error (.raised .unmodelled)

mutual
/-- `ComponentTypeList` as the generator goes through it, SequenceType.py:21-55: components and three kinds of text. -/
def itemsOf : List Tok → Except PErr Items
  | [] => .ok .nil
  | .comp id t p :: r => do return .comp id t p (← itemsOf r)
  | .str s :: r =>
    if s = "..." then do return .marker (← itemsOf r)
    else if s = "[[" then do
      let (cs, is) ← groupOf r
      return .group cs is
    else .error (.raised .attributeError)
  | _ => .error (.raised .attributeError)
def groupOf : List Tok → Except PErr (Comps × Items)
  | .comp id t p :: r => do
    let (cs, is) ← groupOf r
    return (.cons id t p cs, is)
  | .str s :: r => if s = "]]" then do return (.nil, ← itemsOf r) else .error (.raised .attributeError)
  | _ => .error (.raised .attributeError)
end

/-- `parse_SequenceType`, parse_actions.py:53-57 -/
def parseSequenceType (toks : List Tok) : Except PErr (List Tok) := do return [.type (.sequence (← itemsOf toks.tail))]

/-- `parse_SequenceOfType`, parse_actions.py:60-64; of `SEQUENCE OF a B` it takes the first character of `a`. -/
def parseSequenceOfType (toks : List Tok) : Except PErr (List Tok) := do
  return [.type (.seqOf none (← typeIn toks[1]?))]

/-- `parse_ChoiceType`, parse_actions.py:67-71 -/
def parseChoiceType (toks : List Tok) : Except PErr (List Tok) := do return [.type (.choice (← itemsOf toks.tail))]

/-- `parse_DefinedType`, parse_actions.py:74-75: of `Module.Type` it takes the module. -/
def parseDefinedType (toks : List Tok) : Except PErr (List Tok) :=
  match toks.head? with
  | some (.str n) => .ok [.type (.ref n)]
  | _ => .error (.raised .unmodelled)

/-- `parse_ComponentType`, parse_actions.py:113-124; the `IndexError` for a DEFAULT without tokens is caught there. -/
def parseComponentType (toks : List Tok) : Except PErr (List Tok) :=
  match toks with
  | .str id :: ty :: rest => do
    let t ← typeIn (some ty)
    match rest with
    | [] => return [.comp id t .mandatory]
    | .str k :: r =>
      if k = "OPTIONAL" then return [.comp id t .optional]
      else if k = "DEFAULT" then
        match r with
        | [] => return [.comp id t .mandatory]
        | .str v :: _ => do return [.comp id t (.default (← litOf v))]
        | _ => .error (.raised .unmodelled)
      else return [.comp id t .mandatory]
    | _ => return [.comp id t .mandatory]
  | _ => .error .noMatch

/-- The constraint with these ends. -/
def CTuple.con (c : CTuple) : Con := .value ⟨[[.range c.lower false c.upper false]], c.ext, []⟩

/-- `Type.constraint = ...`, types/type.py:76-78; classes without it in their template do not care. -/
def constrain (c : CTuple) : TObj → TObj
  | .simple k _ => .simple k (some (CTuple.con c))
  | .seqOf _ e => .seqOf (some (CTuple.con c)) e
  | t => t

/-- `parse_ConstrainedType`, parse_actions.py:131-135; text in place of the tuple fails in the templates. -/
def parseConstrainedType (toks : List Tok) : Except PErr (List Tok) :=
  match toks with
  | .type t :: .con c :: _ => .ok [.type (constrain c t)]
  | _ :: _ :: _ => .error (.raised .attributeError)
  | _ => .error .noMatch

/-- `parse_TypeWithConstraint`, parse_actions.py:138-145; `raise NotImplemented` is a `TypeError`. -/
def parseTypeWithConstraint (toks : List Tok) : Except PErr (List Tok) :=
  match toks with
  | .str k :: c :: _ :: ty :: _ =>
    if k = "SET" then .error (.raised .typeError)
    else do return [.type (.seqOf none (← typeIn (some ty))), c]
  | _ => .error .noMatch

/-- `zip(toks[0::2], toks[1::2])`, parse_actions.py:152-158 -/
def pairs : List Tok → Except PErr (List Tok)
  | .str id :: ty :: r => do
    let t ← typeIn (some ty)
    return .comp id t .mandatory :: (← pairs r)
  | [] => .ok []
  | [_] => .ok []
  | _ => .error (.raised .attributeError)

/-- Is the token this text? -/
def Tok.is (s : String) : Tok → Bool
  | .str t => t == s
  | _ => false

/-- `list.remove` -/
def removeFirst (s : String) : List Tok → List Tok
  | [] => []
  | t :: r => if t.is s then r else t :: removeFirst s r

/-- `parse_ExtensionAdditionAlternativesList`, parse_actions.py:161-177 -/
def parseAdditions (toks : List Tok) : Except PErr (List Tok) := do
  if toks.any (Tok.is "[[") then
    return .str "[[" :: ((← pairs (removeFirst "]]" (removeFirst "[[" toks))) ++ [.str "]]"])
  else pairs toks

/-- `parse_EnumeratedType` and the setter of `EnumerationItems`, parse_actions.py:180-184, EnumeratedType.py:45-50 -/
def enumItemsOf : List Tok → Except PErr (List EnumItem)
  | [] => .ok []
  | .str s :: r => do return .id s :: (← enumItemsOf r)
  | .group (.str s :: .str n :: _) :: r => do return .number n s :: (← enumItemsOf r)
  | _ => .error (.raised .unmodelled)

def parseEnumeratedType (toks : List Tok) : Except PErr (List Tok) := do
  return [.type (.enumerated (← enumItemsOf toks.tail))]

/-- `parse_Constraint`, parse_actions.py:187-198: of `(SIZE (...) ...)` the inner parentheses, otherwise the words in
parentheses are parsed again by the grammar of constraints, and the first and the last token kept.  `fuel` bounds the
recursion of that grammar. -/
def parseConstraintAction (fuel : Nat) (toks : List Tok) : Except PErr (List Tok) :=
  match toks with
  | .group l :: _ =>
    match l with
    | [] => .error .noMatch
    | t :: r =>
      if t.is "SIZE" then
        match r with
        | c :: _ => .ok [c]
        | [] => .error .noMatch
      else
        match texts l with
        | none => .error (.raised .typeError)
        | some ws => do
          let text := '(' :: ((" ".intercalate ws).toList ++ [')'])
          let (parsed, _) ← (constraintDef (value fuel) fuel).run text
          let rest := removeFirst "..." parsed
          match rest.head?, rest.getLast? with
          | some (.str lo), some (.str hi) => return [.con ⟨← endOf lo, ← endOf hi, parsed.any (Tok.is "...")⟩]
          | none, _ => .error .noMatch
          | _, _ => .error (.raised .unmodelled)
  | _ => .error .noMatch

/-! ## type_def.py -/

/-- type_def.py:49-58 -/
def definedType : P := (or [seqs [modulereference, lit ".", typereference], typereference]).act parseDefinedType
/-- type_def.py:82-88 -/
def referencedType : P := or [definedType]

section
variable (T V : P)

/-- type_def.py:62-73 -/
def exceptionSpec : P := or
  [seq (lit "!") (or [signedNumber, definedValue, seqs [T, lit ":", V]]), empty]
/-- type_def.py:92 -/
def namedType : P := seq identifier T
/-- type_def.py:101-104 -/
def integerType : P := (or [lit "INTEGER", seqs [lit "INTEGER", leftCurly, namedNumberList, rightCurly]]).act
  (returns (.simple .integer none))
/-- type_def.py:108-111 -/
def enumerationItem : P := or [identifier, namedNumber]
/-- type_def.py:115-127 -/
def enumeration : P := or [seq enumerationItem (many (seq comma enumerationItem))]
/-- type_def.py:131-135 -/
def enumerations : P := or
  [enumeration, seqs [enumeration, comma, lit "...", exceptionSpec T V],
   seqs [enumeration, comma, lit "...", exceptionSpec T V, comma, enumeration]]
/-- type_def.py:139-140 -/
def enumeratedType : P := (seqs [lit "ENUMERATED", leftCurly, enumerations T V, rightCurly]).act parseEnumeratedType
/-- type_def.py:144-147 -/
def namedBit : P := or
  [seqs [identifier, leftParen, number, rightParen], seqs [identifier, leftParen, definedType, rightParen]]
/-- type_def.py:151-155 -/
def namedBitList : P := or [seq namedBit (many (seq comma namedBit))]
/-- type_def.py:159-162 -/
def bitStringType : P := (or [lit "BIT STRING", seqs [lit "BIT STRING", leftCurly, namedBitList, rightCurly]]).act
  (returns (.simple .bitString none))
/-- type_def.py:174-177 -/
def versionNumber : P := or [empty, seq number (lit ":")]
/-- type_def.py:181-184 -/
def extensionAndException : P := or [lit "...", seq (lit "...") (exceptionSpec T V)]
/-- type_def.py:188-191 -/
def optionalExtensionMarker : P := or [seq comma (lit "..."), empty]
/-- type_def.py:199-204 -/
def componentType : P := (or
  [namedType T, seq (namedType T) (lit "OPTIONAL"), seqs [namedType T, lit "DEFAULT", V]]).act parseComponentType
/-- type_def.py:208-217 -/
def componentTypeList : P := or [seq (componentType T V) (many (seq comma (componentType T V)))]
/-- type_def.py:221-226 -/
def extensionAdditionGroup : P := seqs [lit "[[", versionNumber, componentTypeList T V, lit "]]"]
/-- type_def.py:230-233 -/
def extensionAddition : P := or [componentType T V, extensionAdditionGroup T V]
/-- type_def.py:237-241 -/
def extensionAdditionList : P := or [seq (extensionAddition T V) (many (seq comma (extensionAddition T V)))]
/-- type_def.py:245-248 -/
def extensionAdditions : P := or [seq comma (extensionAdditionList T V), empty]
/-- type_def.py:195, 252-262 -/
def componentTypeLists : P := or
  [componentTypeList T V,
   seqs [componentTypeList T V, comma, extensionAndException T V, extensionAdditions T V, optionalExtensionMarker],
   seqs [componentTypeList T V, comma, extensionAndException T V, extensionAdditions T V, comma, lit "...", comma,
     componentTypeList T V],
   seqs [extensionAndException T V, extensionAdditions T V, comma, lit "...", comma, componentTypeList T V],
   seqs [extensionAndException T V, extensionAdditions T V, optionalExtensionMarker]]
/-- type_def.py:266-271 -/
def sequenceType : P := (or
  [seqs [lit "SEQUENCE", leftCurly, rightCurly],
   seqs [lit "SEQUENCE", leftCurly, componentTypeLists T V, rightCurly]]).act parseSequenceType
/-- type_def.py:275-278 -/
def sequenceOfType : P := (or [seq (lit "SEQUENCE OF") T, seq (lit "SEQUENCE OF") (namedType T)]).act parseSequenceOfType
/-- type_def.py:282-286, 325 -/
def alternativeTypeList : P := (or [seq (namedType T) (many (seq comma (namedType T)))]).act pairs
/-- type_def.py:290-299 -/
def additionAlternativesGroup : P :=
  seqs [lit "[[", versionNumber, or [seq (namedType T) (many (seq comma (namedType T)))], lit "]]"]
/-- type_def.py:303-306 -/
def additionAlternative : P := (or [additionAlternativesGroup T, namedType T]).act parseAdditions
/-- type_def.py:310-314 -/
def additionAlternativesList : P := or [seq (additionAlternative T) (many (seq comma (additionAlternative T)))]
/-- type_def.py:318-321 -/
def additionAlternatives : P := or [seq comma (additionAlternativesList T), empty]
/-- type_def.py:329-333 -/
def alternativeTypeLists : P := or
  [alternativeTypeList T,
   seqs [alternativeTypeList T, comma, extensionAndException T V, additionAlternatives T, optionalExtensionMarker]]
/-- type_def.py:337-338 -/
def choiceType : P := (seqs [lit "CHOICE", leftCurly, alternativeTypeLists T V, rightCurly]).act parseChoiceType
/-- type_def.py:347-370 -/
def tag : P := seqs
  [lit "[", or [seq encodingreference (lit ":"), empty], or [lit "UNIVERSAL", lit "APPLICATION", lit "PRIVATE", empty],
   or [number, definedValue], lit "]"]
/-- type_def.py:374-385 -/
def taggedType : P := or [seq tag T, seqs [tag, lit "IMPLICIT", T], seqs [tag, lit "EXPLICIT", T]]
def prefixedType : P := or [taggedType T]
/-- type_def.py:389-410 -/
def characterStringType : P := or [or
  [(lit "IA5String").act unmodelled, (lit "NumericString").act unmodelled, (lit "UTF8String").act unmodelled,
   (lit "VisibleString").act unmodelled]]
/-- type_def.py:414-442 -/
def builtinType : P := or
  [bitStringType, (lit "BOOLEAN").act (returns (.simple .boolean none)), characterStringType, choiceType T V,
   (lit "DATE").act unmodelled, enumeratedType T V, integerType, lit "NULL",
   (lit "OCTET STRING").act (returns (.simple .octetString none)), (lit "REAL").act unmodelled, sequenceType T V,
   sequenceOfType T, prefixedType T]

variable (C : P)

/-- type_def.py:446-455 -/
def typeWithConstraint : P := (or
  [seqs [lit "SET", C, lit "OF", T], seqs [lit "SEQUENCE", C, lit "OF", T],
   seqs [lit "SET", C, lit "OF", namedType T], seqs [lit "SEQUENCE", C, lit "OF", namedType T]]).act
  parseTypeWithConstraint
/-- type_def.py:459-464 -/
def constrainedType : P := (or [seq (builtinType T V) C, typeWithConstraint T C]).act parseConstrainedType
/-- type_def.py:468-472 -/
def typeBody : P := or [(builtinType T V).group, referencedType.group, (constrainedType T V C).group]
end

/-- type_def.py:19, `Constraint` -/
def constraint (fuel : Nat) : P := nestedExpr (parseConstraintAction fuel) fuel

/-- type_def.py:18, 468; `fuel` bounds the other recursions -/
def type (fuel : Nat) : Nat → P
  | 0 => nothing
  | n + 1 => typeBody (type fuel n) (value fuel) (constraint fuel)

/-! ## assignment_def.py, module_def.py -/

/-- assignment_def.py:8 -/
def valueAssignment (T V : P) : P := (seqs [valuereference, T, lit "::=", V]).act parseValueAssignment
/-- assignment_def.py:12 -/
def typeAssignment (T : P) : P := (seqs [typereference, lit "::=", T]).act parseTypeAssignment
/-- module_def.py:20-38 -/
def assignmentList (T V : P) : P := many (or [typeAssignment T, valueAssignment T V])
/-- module_def.py:119-122; `Exports` and `Imports` (module_def.py:97-115) are empty -/
def moduleBodyDef (T V : P) : P := or [seqs [or [empty], or [empty], assignmentList T V], empty]
/-- module_def.py:190-208 -/
def moduleDefinition (T V : P) : P := seqs
  [seqs [modulereference], lit "DEFINITIONS", or [empty], or [lit "AUTOMATIC TAGS", empty], or [empty], lit "::=",
   lit "BEGIN", (moduleBodyDef T V).group, lit "END"]

/-- The assignments in a list of tokens. -/
def assigns : List Tok → List Assign
  | [] => []
  | .assign a :: r => a :: assigns r
  | _ :: r => assigns r

/-- `toks['ModuleBody']`, parse_actions.py:14-21 -/
def bodyOf (toks : List Tok) : List Assign :=
  toks.flatMap fun t => match t with | .group l => assigns l | _ => []

/-- `ModuleDefinition.parseString`, up to the assignments; a recursion of the grammar always consumes characters, so the
length of the text bounds it. -/
def parseModule (text : List Char) : Except PErr (List Assign) := do
  let s := expandTabs 0 text
  let fuel := s.length + 1
  let (toks, _) ← (moduleDefinition (type fuel fuel) (value fuel)).run s
  return bodyOf toks

/-- `parse_asn1_schema`, `/repo/asn1PERser/__init__.py`, and the import of what it returns -/
def compileText (text : List Char) : Except PErr Loaded := do
  let as ← parseModule (removeComments text)
  match compileModule as with
  | .ok st => return st
  | .error e => .error (.raised e)

end Verif.Parse
