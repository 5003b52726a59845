import Verif.Py
/-!
# Order of the generated classes, comments

`/repo/asn1PERser/classes/module.py`.  Strings that are only compared are `String`; the schema text that
comments are removed from is a list of characters.
-/
namespace Verif

/-- What `isinstance` tells apart in module.py:46-57. -/
inductive Cls where
  /-- `SimpleType` -/
  | simple
  /-- `DefType` (only subclass: `DefinedType`) -/
  | defined
  /-- anything else: `SequenceType`, `ChoiceType`, `SequenceOfType` -/
  | component
deriving DecidableEq

/-- Parsed types (types/type.py:6-14) and the strings `...`, `[[`, `]]` between them. -/
inductive Node where
  | text (s : String)
  | type (cls : Cls) (typereference identifier valuereference : String) (subs : List Node)

/-- types/type.py:27-29 -/
def Node.typereference : Node → String
  | .text _ => ""
  | .type _ t _ _ _ => t

/-- types/type.py:43-45 -/
def Node.valuereference : Node → String
  | .text _ => ""
  | .type _ _ _ v _ => v

def Node.cls : Node → Cls
  | .text _ => .component
  | .type c _ _ _ _ => c

/-- module.py:114-115 -/
def simpleNames : List String :=
  ["IntegerType", "BooleanType", "OctetStringType", "BitStringType", "EnumeratedType"]

/-- module.py:117 -/
def constructedNames : List String := ["ChoiceType", "SequenceType", "SequenceOfType"]

mutual
/-- `_get_subcomponents`, module.py:107-121 -/
def getSubcomponents : Node → List Node
  | .text _ => []
  | .type .defined t i v subs => [.type .defined t i v subs]
  | .type _ _ _ _ subs => getSubcomponentsOf subs
/-- The loop module.py:111-120. -/
def getSubcomponentsOf : List Node → List Node
  | [] => []
  | .text _ :: r => getSubcomponentsOf r
  | .type c t i v subs :: r =>
    if simpleNames.contains t then getSubcomponentsOf r
    else if constructedNames.contains t then getSubcomponents (.type c t i v subs) ++ getSubcomponentsOf r
    else .type c t i v subs :: getSubcomponentsOf r
end

/-- The names a component type refers to, as far as `sort_components` looks at them. -/
def Node.refs (n : Node) : List String := (getSubcomponents n).map Node.typereference

/-- Local variables of `sort_components`, module.py:65-68. -/
structure PassState (α : Type) where
  newRefs : List String
  newComps : List α
  moved : List String
  allSorted : Bool

section
variable {α : Type} (ref : α → String) (refs : α → List String)

/-- The body of the loop over subcomponents, module.py:80-91; `s` is `subcomponent.typereference`. -/
def pull (comps : List α) (idx : Nat) (st : PassState α) (s : String) : PassState α :=
  if st.newRefs.contains s then st
  else
    match (comps.map ref).findIdx? (· == s) with
    | none => st
    | some i =>
      if i > idx && !st.moved.contains s then
        { newRefs := st.newRefs ++ [s], newComps := st.newComps ++ comps[i]?.toList,
          moved := st.moved ++ [s], allSorted := false }
      else st

/-- The body of the loop over components, module.py:78-95 (`else` of a `for` without `break` always runs). -/
def place (comps : List α) (st : PassState α) (c : α × Nat) : PassState α :=
  let st := (refs c.1).foldl (pull ref comps c.2) st
  if st.newRefs.contains (ref c.1) then st
  else { st with newRefs := st.newRefs ++ [ref c.1], newComps := st.newComps ++ [c.1] }

/-- One iteration of the `while`, module.py:75-95. -/
def sortPass (comps : List α) : PassState α :=
  comps.zipIdx.foldl (place ref refs comps) ⟨[], [], [], true⟩

/-- The `while` loop, module.py:71-104; `n` is `MAX_ITERATIONS - iter`.  The second result tells whether the
warning is logged. -/
def sortLoop : Nat → Bool → List α → List α × Bool
  | 0, _, comps => (comps, true)
  | _ + 1, true, comps => (comps, false)
  | n + 1, false, comps =>
    sortLoop n (sortPass ref refs comps).allSorted (sortPass ref refs comps).newComps

end

/-- The loop module.py:129-139; `types` are the assignments still to be looked at.  Returns
`new_type_type_assignments` and `component_type_assignments`. -/
def additionalSort {α : Type} (ref : α → String) : List α → List α → List α × List α
  | [], comps => ([], comps)
  | t :: types, comps =>
    match (comps.map ref).findIdx? (· == ref t) with
    | none => ((t :: (additionalSort ref types comps).1), (additionalSort ref types comps).2)
    | some i => additionalSort ref types (comps.take (i + 1) ++ t :: comps.drop (i + 1))

section
variable {α : Type} (view : α → Node)

/-- `sort_components`, module.py:63-105; `view` is what it looks at. -/
def sortComponents (comps : List α) : List α × Bool :=
  sortLoop (fun a => (view a).typereference) (fun a => (view a).refs) 100 false comps

/-- `sort_assigment_list`, module.py:39-61 -/
def sortAssignments (l : List α) : List α × Bool :=
  let values := l.filter fun a => (view a).cls == .simple && (view a).valuereference != ""
  let simples := l.filter fun a => (view a).cls == .simple && (view a).valuereference == ""
  let constants := l.filter fun a => (view a).cls == .defined && (view a).valuereference != ""
  let types := l.filter fun a => (view a).cls == .defined && (view a).valuereference == ""
  let comps := l.filter fun a => (view a).cls == .component
  let s := additionalSort (fun a => (view a).typereference) types (sortComponents view comps).1
  (values ++ simples ++ s.1 ++ constants ++ s.2, (sortComponents view comps).2)

end

/-! ## comments -/

/-- Characters at which `str.splitlines` breaks lines. -/
def isBreak (c : Char) : Bool :=
  c == '\n' || c == '\r' || c == '\x0b' || c == '\x0c' || c == '\x1c' || c == '\x1d' || c == '\x1e' ||
    c == Char.ofNat 0x85 || c == Char.ofNat 0x2028 || c == Char.ofNat 0x2029

/-- `str.splitlines()`; `cur` is the line so far. -/
def splitLines : List Char → List Char → List (List Char)
  | cur, [] => if cur.isEmpty then [] else [cur]
  | cur, '\r' :: '\n' :: r => cur :: splitLines [] r
  | cur, c :: r => if isBreak c then cur :: splitLines [] r else splitLines (cur ++ [c]) r

/-- `re.sub('--.*', '', line)`, module.py:206: the leftmost match reaches to the end of the line. -/
def stripComment : List Char → List Char
  | [] => []
  | '-' :: '-' :: _ => []
  | c :: r => c :: stripComment r

/-- `_remove_line_comments`, module.py:203-209 -/
def removeComments (text : List Char) : List Char :=
  (splitLines [] text).foldl (fun s line => s ++ (stripComment line ++ ['\n'])) []

end Verif
