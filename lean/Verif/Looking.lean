import Verif.Object
import Verif.ToDict
/-!
# Looking at an object

`ToDict` describes `to_dict` as a function of a value.  The code asks the object for its components (`self.items()`), which
puts new objects into those that were never set; reading a component by its name does the same.  Here the object that is
left is part of the result, as in `Object`.
-/
namespace Verif

mutual
/-- `to_dict(is_root)` of an object: the dictionary (`none` for `noValue`) or the exception, and the object afterwards. -/
def dictObj : Ty → Bool → Obj → Step Obj (Option Dict)
  -- data/builtin/SequenceOfType.py:19-31
  | .seqOf _ t, isRoot, .list es =>
    let x := overList (dictObj t false) (es.getD [])
    (x.1.map fun ds => orNoValue isRoot (ds.filterMap id).isEmpty (.list (ds.filterMap id)), .list (es.map fun _ => x.2))
  -- data/builtin/ChoiceType.py:22-28; without a chosen alternative the loop has no iteration
  | .choice _ _ _ _, _, .choice none => (.ok (some .none), .choice none)
  | .choice _ r a g, _, .choice (some (pos, o)) =>
    let x :=
      if pos < r.length then dictObjAlt r pos o
      else if pos < r.length + a.length then dictObjAlt a (pos - r.length) o
      else dictObjAltG g (pos - (r.length + a.length)) o
    (x.1, .choice (some (pos, x.2)))
  -- data/builtin/SequenceType.py:35-47
  | .sequence _ r a g, isRoot, .seq slots =>
    let ss := slotsOf (r.length + a.length + g.size) slots
    let as := (ss.drop r.length).take a.length
    let gs := ss.drop (r.length + a.length)
    let x := dictObjFields r (ss.take r.length)
    match x.1 with
    | .error e => (.error e, .seq (some (x.2 ++ (as ++ gs))))
    | .ok es =>
      let y := dictObjFields a as
      match y.1 with
      | .error e => (.error e, .seq (some (x.2 ++ (y.2 ++ gs))))
      | .ok es' =>
        let z := dictObjGroups g gs
        (z.1.map fun es'' =>
          let d := (es ++ es' ++ es'').foldl (fun d e => dictSet d e.1 e.2) []
          orNoValue isRoot d.isEmpty (.dict d),
          .seq (if r.length + a.length + g.size = 0 then slots else some (x.2 ++ (y.2 ++ z.2))))
  | .seqOf _ _, _, o => (.error .typeError, o)
  | .choice _ _ _ _, _, o => (.error .typeError, o)
  | .sequence _ _ _ _, _, o => (.error .typeError, o)
  | t, isRoot, .leaf (some v) => (toDict t isRoot v, .leaf (some v))
  | _, _, o => (.error .noValue, o)
/-- One iteration of data/builtin/ChoiceType.py:23-28; if the alternative is no value, `None` is returned. -/
def dictObjAlt : Fields → Nat → Obj → Step Obj (Option Dict)
  | .nil, _, o => (.error .indexError, o)
  | .cons n _ t _, 0, o =>
    if objValue t o then
      let x := dictObj t false o
      (x.1.map fun d => match d with
        | some d => some (.dict [(n, d)])
        | none => some (.dict []), x.2)
    else (.ok (some .none), o)
  | .cons _ _ _ r, p + 1, o => dictObjAlt r p o
def dictObjAltG : Groups → Nat → Obj → Step Obj (Option Dict)
  | .nil, _, o => (.error .indexError, o)
  | .cons f g, p, o => if p < f.length then dictObjAlt f p o else dictObjAltG g (p - f.length) o
/-- The loop of data/builtin/SequenceType.py:37-41; `self.items()` asks for each component. -/
def dictObjFields : Fields → List (Option Obj) → Step (List (Option Obj)) (List (String × Dict))
  | .nil, ss => (.ok [], ss)
  | .cons n k t r, ss =>
    let o := instantiate k t (ss.head?.getD none)
    let x := if objValue t o || isConstructed t then dictObj t false o else (.ok none, o)
    match x.1 with
    | .error e => (.error e, some x.2 :: ss.tail)
    | .ok d =>
      let y := dictObjFields r ss.tail
      (y.1.map fun es => match d with
        | some d => (n, d) :: es
        | none => es, some x.2 :: y.2)
def dictObjGroups : Groups → List (Option Obj) → Step (List (Option Obj)) (List (String × Dict))
  | .nil, ss => (.ok [], ss)
  | .cons f g, ss =>
    let x := dictObjFields f (ss.take f.length)
    let rest := ss.drop f.length
    match x.1 with
    | .error e => (.error e, x.2 ++ rest)
    | .ok es =>
      let y := dictObjGroups g rest
      (y.1.map fun es' => es ++ es', x.2 ++ y.2)
end

/-- The first `n` components. -/
def firsts : Nat → List (Option Obj) → List (Option Obj)
  | 0, _ => []
  | n + 1, ss => ss.head?.getD none :: firsts n ss.tail

mutual
/-- `obj[name][name]...`: reading a component (pyasn1 `getComponentByName`), given by indices.  In a SEQUENCE OF only elements
that are there are read, in a CHOICE only the chosen alternative (asking for another one would choose it). -/
def look : Ty → List Nat → Obj → Obj
  | _, [], o => o
  | .seqOf _ t, i :: p, .list (some es) => .list (some (es.modify i (look t p)))
  | .choice _ r a g, i :: p, .choice (some (pos, o)) =>
    if i = pos then
      .choice (some (pos,
        if pos < r.length then lookAlt r pos p o
        else if pos < r.length + a.length then lookAlt a (pos - r.length) p o
        else lookAltG g (pos - (r.length + a.length)) p o))
    else .choice (some (pos, o))
  | .sequence _ r a g, i :: p, .seq slots =>
    if i < r.length + a.length + g.size then
      let ss := slotsOf (r.length + a.length + g.size) slots
      .seq (some (
        if i < r.length then lookSlot r i p ss
        else if i < r.length + a.length then firsts r.length ss ++ lookSlot a (i - r.length) p (ss.drop r.length)
        else firsts (r.length + a.length) ss ++ lookSlotG g (i - (r.length + a.length)) p (ss.drop (r.length + a.length))))
    else .seq slots
  | _, _, o => o
def lookAlt : Fields → Nat → List Nat → Obj → Obj
  | .nil, _, _, o => o
  | .cons _ _ t _, 0, p, o => look t p o
  | .cons _ _ _ r, i + 1, p, o => lookAlt r i p o
def lookAltG : Groups → Nat → List Nat → Obj → Obj
  | .nil, _, _, o => o
  | .cons f g, i, p, o => if i < f.length then lookAlt f i p o else lookAltG g (i - f.length) p o
def lookSlot : Fields → Nat → List Nat → List (Option Obj) → List (Option Obj)
  | .nil, _, _, ss => ss
  | .cons _ k t _, 0, p, ss => some (look t p (instantiate k t (ss.head?.getD none))) :: ss.tail
  | .cons _ _ _ r, i + 1, p, ss => ss.head?.getD none :: lookSlot r i p ss.tail
def lookSlotG : Groups → Nat → List Nat → List (Option Obj) → List (Option Obj)
  | .nil, _, _, ss => ss
  | .cons f g, i, p, ss =>
    if i < f.length then lookSlot f i p ss else firsts f.length ss ++ lookSlotG g (i - f.length) p (ss.drop f.length)
end

end Verif
