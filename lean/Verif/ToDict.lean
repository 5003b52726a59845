import Verif.Types
/-!
# `to_dict`

`to_dict` of `/repo/asn1PERser/classes/data/builtin/*.py`.  The instantiation of unset components that
`items()` of pyasn1 does on the way is modelled by `effective` and `emptyVal`, as in the encoder.
-/
namespace Verif

/-- Python objects that `to_dict` returns. -/
inductive Dict where
  /-- Python's `None` -/
  | none
  | int (z : Int)
  | bool (b : Bool)
  | str (s : String)
  | list (l : List Dict)
  /-- `OrderedDict` (`dict` for a CHOICE): entries in order of insertion -/
  | dict (es : List (String × Dict))

mutual
def Dict.beq : Dict → Dict → Bool
  | .none, .none => true
  | .int a, .int b => a == b
  | .bool a, .bool b => a == b
  | .str a, .str b => a == b
  | .list a, .list b => Dict.beqList a b
  | .dict a, .dict b => Dict.beqEntries a b
  | _, _ => false
def Dict.beqList : List Dict → List Dict → Bool
  | [], [] => true
  | a :: as, b :: bs => Dict.beq a b && Dict.beqList as bs
  | _, _ => false
def Dict.beqEntries : List (String × Dict) → List (String × Dict) → Bool
  | [], [] => true
  | (n, a) :: as, (m, b) :: bs => n == m && Dict.beq a b && Dict.beqEntries as bs
  | _, _ => false
end

mutual
theorem Dict.beq_iff : ∀ v w : Dict, Dict.beq v w = true ↔ v = w
  | .none, w => by cases w <;> simp [Dict.beq]
  | .int a, w => by cases w <;> simp [Dict.beq]
  | .bool a, w => by cases w <;> simp [Dict.beq]
  | .str a, w => by cases w <;> simp [Dict.beq]
  | .list a, w => by cases w <;> simp [Dict.beq, Dict.beqList_iff a]
  | .dict a, w => by cases w <;> simp [Dict.beq, Dict.beqEntries_iff a]
theorem Dict.beqList_iff : ∀ v w : List Dict, Dict.beqList v w = true ↔ v = w
  | [], w => by cases w <;> simp [Dict.beqList]
  | v :: vs, w => by cases w <;> simp [Dict.beqList, Dict.beq_iff v, Dict.beqList_iff vs]
theorem Dict.beqEntries_iff : ∀ v w : List (String × Dict), Dict.beqEntries v w = true ↔ v = w
  | [], w => by cases w <;> simp [Dict.beqEntries]
  | (n, v) :: vs, [] => by simp [Dict.beqEntries]
  | (n, v) :: vs, (m, w) :: ws => by
    simp [Dict.beqEntries, Dict.beq_iff v, Dict.beqEntries_iff vs]
end

instance : DecidableEq Dict := fun v w => decidable_of_iff _ (Dict.beq_iff v w)

/-- `d[key] = value` of an `OrderedDict`: a key that is there keeps its place. -/
def dictSet (es : List (String × Dict)) (key : String) (value : Dict) : List (String × Dict) :=
  if es.any (fun e => e.1 == key) then es.map (fun e => if e.1 == key then (key, value) else e)
  else es ++ [(key, value)]

/-- A digit of `format(byte, '02x')`. -/
def hexChar (n : Nat) : Char := (String.toList "0123456789abcdef").getD n '0'

/-- `''.join(format(byte, '02x') for byte in self.asNumbers())`, data/builtin/OctetStringType.py:20. -/
def hexString (o : List UInt8) : String :=
  String.ofList (o.flatMap fun b => [hexChar (b.toNat / 16), hexChar (b.toNat % 16)])

/-- `hasattr(componentValue, 'componentType')` -/
def isConstructed : Ty → Bool
  | .seqOf _ _ => true
  | .choice _ _ _ _ => true
  | .sequence _ _ _ _ => true
  | _ => false

/-- A CHOICE in which nothing was chosen falls through the loop of data/builtin/ChoiceType.py:23-28 and
returns `None`; an unset simple type has no entry. -/
def toDictUnset : Ty → Option Dict
  | .choice _ _ _ _ => some .none
  | _ => Option.none

/-- data/builtin/SequenceType.py:43-47 / SequenceOfType.py:27-31: an empty result below the root counts as no
value (`none`). -/
def orNoValue (isRoot empty : Bool) (d : Dict) : Option Dict :=
  if isRoot then some d else if empty then Option.none else some d

mutual
/-- `to_dict(is_root)`; `none` stands for `noValue`. -/
def toDict : Ty → Bool → Val → Except Err (Option Dict)
  -- data/builtin/BooleanType.py:16-17
  | .boolean, _, .bool b => .ok (some (.bool b))
  -- data/builtin/IntegerType.py:23-24
  | .integer _, _, .int z => .ok (some (.int z))
  -- data/builtin/EnumeratedType.py:21-22
  | .enumerated _ root add, _, .enum z =>
    match (root ++ add).find? (fun p => p.2 == z) with
    | some p => .ok (some (.str p.1))
    | none => .error .indexError
  -- data/builtin/BitStringType.py:19-20
  | .bitString _, _, .bits b => .ok (some (.int (bitsToNat b)))
  -- data/builtin/OctetStringType.py:19-20
  | .octetString _, _, .octets o => .ok (some (.str (hexString o)))
  -- data/builtin/SequenceOfType.py:19-31; elements of a simple type that are set are values
  | .seqOf _ t, isRoot, .seqOf vs => do
    let ds ← vs.mapM (toDict t false)
    let l := ds.filterMap id
    return orNoValue isRoot l.isEmpty (.list l)
  -- data/builtin/ChoiceType.py:22-28
  | .choice _ r a g, _, .choice pos v =>
    if pos < r.length then toDictAlt r pos v
    else if pos < r.length + a.length then toDictAlt a (pos - r.length) v
    else toDictAltG g (pos - (r.length + a.length)) v
  -- data/builtin/SequenceType.py:35-47
  | .sequence _ r a g, isRoot, .seq cs => do
    let es ← toDictFields r cs
    let es' ← toDictFields a (cs.drop r.length)
    let es'' ← toDictGroups g (cs.drop (r.length + a.length))
    let d := (es ++ es' ++ es'').foldl (fun d e => dictSet d e.1 e.2) []
    return orNoValue isRoot d.isEmpty (.dict d)
  | _, _, _ => .error .typeError
/-- The selected alternative, data/builtin/ChoiceType.py:23-28. -/
def toDictAlt : Fields → Nat → Val → Except Err (Option Dict)
  | .nil, _, _ => .error .indexError
  | .cons n _ t _, 0, v =>
    if isValue t v then do
      match ← toDict t false v with
      | some d => return some (.dict [(n, d)])
      | none => return some (.dict [])
    else return some .none
  | .cons _ _ _ r, p + 1, v => toDictAlt r p v
def toDictAltG : Groups → Nat → Val → Except Err (Option Dict)
  | .nil, _, _ => .error .indexError
  | .cons f g, p, v => if p < f.length then toDictAlt f p v else toDictAltG g (p - f.length) v
/-- The assignments of the loop data/builtin/SequenceType.py:36-41, in order. -/
def toDictFields : Fields → List (Option Val) → Except Err (List (String × Dict))
  | .nil, _ => .ok []
  | .cons n k t r, cs => do
    let d ← (match effective k (cs.head?.getD none) with
      | some v => if isValue t v || isConstructed t then toDict t false v else .ok none
      | none =>
        match emptyVal t with
        | some v => toDict t false v
        | none => .ok (toDictUnset t))
    let es ← toDictFields r cs.tail
    match d with
    | some d => return (n, d) :: es
    | none => return es
def toDictGroups : Groups → List (Option Val) → Except Err (List (String × Dict))
  | .nil, _ => .ok []
  | .cons f g, cs => do
    let es ← toDictFields f cs
    let es' ← toDictGroups g (cs.drop f.length)
    return es ++ es'
end

end Verif
