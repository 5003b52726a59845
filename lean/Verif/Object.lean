import Verif.Encoder
/-!
# Encoding as an operation on objects

`Encoder` describes `encode` as a function of the value an object holds.  The code works on mutable objects:
`getComponentByName` puts a new object into every component that was never set, and leaves it there.  Here objects
have a state, and encoding returns the object it leaves behind along with its result (or exception).

Behaviour of pyasn1 (`type/univ.py`, 0.4.7 and later) that is assumed: see DESIGN.md section 2.  Two components never
share an object.
-/
namespace Verif

/-- Objects of the classes in `classes/data/builtin/*.py`. -/
inductive Obj where
  /-- A simple type: with a value, or a schema object without one. -/
  | leaf (v : Option Val)
  /-- SEQUENCE OF: `_componentValues`, `none` for `noValue`. -/
  | list (es : Option (List Obj))
  /-- CHOICE: the alternative chosen last. -/
  | choice (sel : Option (Nat × Obj))
  /-- SEQUENCE: `_componentValues`, `none` for `noValue`, in it `none` for a component that is `noValue`. -/
  | seq (slots : Option (List (Option Obj)))

/-- A schema object: `clone()` of a constructed type, or the simple type object of the NamedType. -/
def blank : Ty → Obj
  | .seqOf _ _ => .list none
  | .choice _ _ _ _ => .choice none
  | .sequence _ _ _ _ => .seq none
  | _ => .leaf none

mutual
/-- A newly built object that holds a value: unset components are `noValue`, and without any set component
`_componentValues` is. -/
def ofVal : Ty → Val → Obj
  | .seqOf _ t, .seqOf vs => .list (if vs.isEmpty then none else some (vs.map (ofVal t)))
  | .choice _ r a g, .choice pos v =>
    .choice (some (pos,
      if pos < r.length then ofAlt r pos v
      else if pos < r.length + a.length then ofAlt a (pos - r.length) v
      else ofAltG g (pos - (r.length + a.length)) v))
  | .sequence _ r a g, .seq cs =>
    .seq (if cs.any Option.isSome then
        some (ofSlots r cs ++ (ofSlots a (cs.drop r.length) ++ ofSlotsG g (cs.drop (r.length + a.length))))
      else none)
  | _, v => .leaf (some v)
def ofAlt : Fields → Nat → Val → Obj
  | .nil, _, _ => .leaf none
  | .cons _ _ t _, 0, v => ofVal t v
  | .cons _ _ _ r, p + 1, v => ofAlt r p v
def ofAltG : Groups → Nat → Val → Obj
  | .nil, _, _ => .leaf none
  | .cons f g, p, v => if p < f.length then ofAlt f p v else ofAltG g (p - f.length) v
def ofSlots : Fields → List (Option Val) → List (Option Obj)
  | .nil, _ => []
  | .cons _ _ t r, cs => (cs.head?.getD none).map (ofVal t) :: ofSlots r cs.tail
def ofSlotsG : Groups → List (Option Val) → List (Option Obj)
  | .nil, _ => []
  | .cons f g, cs => ofSlots f cs ++ ofSlotsG g (cs.drop f.length)
end

mutual
/-- `isValue`: pyasn1 `univ.py`, and data/builtin/SequenceType.py:14-24. -/
def objValue : Ty → Obj → Bool
  | .seqOf _ t, .list (some es) => es.all (objValue t)
  | .choice _ r a g, .choice (some (pos, o)) =>
    if pos < r.length then objValueAlt r pos o
    else if pos < r.length + a.length then objValueAlt a (pos - r.length) o
    else objValueAltG g (pos - (r.length + a.length)) o
  | .sequence _ r a g, .seq (some ss) =>
    (objMandatory r ss && objMandatory a (ss.drop r.length) && objMandatoryG g (ss.drop (r.length + a.length))) ||
      (objAny r ss || objAny a (ss.drop r.length) || objAnyG g (ss.drop (r.length + a.length)))
  | .seqOf _ _, _ => false
  | .choice _ _ _ _, _ => false
  | .sequence _ _ _ _, _ => false
  | _, .leaf v => v.isSome
  | _, _ => false
def objValueAlt : Fields → Nat → Obj → Bool
  | .nil, _, _ => false
  | .cons _ _ t _, 0, o => objValue t o
  | .cons _ _ _ r, p + 1, o => objValueAlt r p o
def objValueAltG : Groups → Nat → Obj → Bool
  | .nil, _, _ => false
  | .cons f g, p, o => if p < f.length then objValueAlt f p o else objValueAltG g (p - f.length) o
/-- `SequenceAndSetBase.isValue`. -/
def objMandatory : Fields → List (Option Obj) → Bool
  | .nil, _ => true
  | .cons _ k t r, ss =>
    (match k with
     | .mandatory => (match ss.head?.getD none with | some o => objValue t o | none => false)
     | _ => true) && objMandatory r ss.tail
def objMandatoryG : Groups → List (Option Obj) → Bool
  | .nil, _ => true
  | .cons f g, ss => objMandatory f ss && objMandatoryG g (ss.drop f.length)
/-- data/builtin/SequenceType.py:21-23 -/
def objAny : Fields → List (Option Obj) → Bool
  | .nil, _ => false
  | .cons _ _ t r, ss => (match ss.head?.getD none with | some o => objValue t o | none => false) || objAny r ss.tail
def objAnyG : Groups → List (Option Obj) → Bool
  | .nil, _ => false
  | .cons f g, ss => objAny f ss || objAnyG g (ss.drop f.length)
end

/-- `not hasattr(c, '_componentValues') or len(c._componentValues) > 0`, encoder.py:243-252, 286-296, 312-318. -/
def objContent : Obj → Bool
  | .leaf _ => true
  | .list es => !(es.getD []).isEmpty
  | .choice sel => sel.isSome
  | .seq ss => !(ss.getD []).isEmpty

/-- `getComponentByName` of a component: an unset one becomes its DEFAULT or a schema object. -/
def instantiate (k : Kind) (t : Ty) : Option Obj → Obj
  | some o => o
  | none =>
    match k with
    | .default d => ofVal t d
    | _ => blank t

/-- What an operation on an object of type `σ` gives: a result or an exception, and the object it leaves. -/
abbrev Step (σ α : Type) := Except Err α × σ

/-- `for component in sequence_of: component.fill_field_list(...)`, encoder.py:360-361. -/
def overList (f : Obj → Step Obj α) : List Obj → Step (List Obj) (List α)
  | [] => (.ok [], [])
  | o :: os =>
    match f o with
    | (.error e, o') => (.error e, o' :: os)
    | (.ok x, o') =>
      match overList f os with
      | (.error e, os') => (.error e, o' :: os')
      | (.ok xs, os') => (.ok (x :: xs), o' :: os')

/-- One iteration of the root component loop, encoder.py:239-263. -/
def objRootStep (enc : Obj → Step Obj (List BitField)) (k : Kind) (t : Ty) (o : Obj) :
    Step Obj (Bits × List BitField) :=
  match k with
  | .optional =>
    if objValue t o && objContent o then ((enc o).1.map fun fl => ([true], fl), (enc o).2)
    else (.ok ([false], []), o)
  | .default d =>
    match o with
    | .leaf (some v) =>
      match pyValueNe d v with
      | .error e => (.error e, o)
      | .ok true => ((enc o).1.map fun fl => ([true], fl), (enc o).2)
      | .ok false => (.ok ([false], []), o)
    | .leaf none => (.error .noValue, o)
    | _ => (.error .attributeError, o)
  | .mandatory => ((enc o).1.map fun fl => ([], fl), (enc o).2)

/-- One iteration of the extension addition loop, encoder.py:280-301. -/
def objAdditionStep (enc : Obj → Step Obj (List BitField)) (t : Ty) (prev : Option Prev) (o : Obj) :
    Step Obj (Bool × List BitField) :=
  if objValue t o then
    if Prev.gap prev then (.error .mandatoryExtensionFieldNotPresent, o)
    else if objContent o then
      (((enc o).1 >>= encodeOpenTypeField).map fun ofl => (true, ofl), (enc o).2)
    else (.ok (false, []), o)
  else (.ok (false, []), o)

/-- The scan of a group, encoder.py:305-322. -/
def objScan : Fields → List (Option Obj) → Option Prev → Step (List (Option Obj)) (List Prev)
  | .nil, ss, _ => (.ok [], ss)
  | .cons _ k t r, ss, prev =>
    let o := instantiate k t (ss.head?.getD none)
    if objValue t o && Prev.gap prev then (.error .mandatoryFieldNotPresentInGroup, some o :: ss.tail)
    else
      let me : Prev := ⟨objValue t o && objContent o, k.isOptional⟩
      let x := objScan r ss.tail (some me)
      (x.1.map fun rest => me :: rest, some o :: x.2)

/-- `_componentValues` as `setComponentByPosition` finds it when the first component is instantiated. -/
def slotsOf (n : Nat) : Option (List (Option Obj)) → List (Option Obj)
  | some (s :: ss) => s :: ss
  | _ => List.replicate n none

mutual
/-- `fill_field_list`. -/
def encObj : Ty → Obj → Step Obj (List BitField)
  | .seqOf c t, .list es =>
    let x := overList (encObj t) (es.getD [])
    (x.1 >>= fun fls => encodeSequenceOf c (es.getD []).length fls.flatten, .list (es.map fun _ => x.2))
  | .choice _ _ _ _, .choice none => (.error .noValue, .choice none)
  | .choice ext r a g, .choice (some (pos, o)) =>
    let x :=
      if pos < r.length then encObjAlt r pos o
      else if pos < r.length + a.length then encObjAlt a (pos - r.length) o
      else encObjAltG g (pos - (r.length + a.length)) o
    (x.1 >>= assembleChoice ext r.length (a.length = 0 ∧ g.length = 0) pos, .choice (some (pos, x.2)))
  | .sequence ext r a g, .seq slots =>
    let ss := slotsOf (r.length + a.length + g.size) slots
    let x := encObjRoot r (ss.take r.length)
    let as := (ss.drop r.length).take a.length
    let gs := ss.drop (r.length + a.length)
    match x.1 >>= fun p => withOptionalBits p.1 p.2 with
    | .error e => (.error e, .seq (some (x.2 ++ (as ++ gs))))
    | .ok rootFields =>
      if ext then
        if a.length = 0 ∧ g.length = 0 then
          (.ok ([⟨false, [false]⟩] ++ rootFields), .seq (if r.length = 0 then slots else some (x.2 ++ (as ++ gs))))
        else
          let y := encObjAdds a as none
          match y.1 with
          | .error e => (.error e, .seq (some (x.2 ++ (y.2 ++ gs))))
          | .ok (abits, afl) =>
            let z := encObjGroups g gs none
            (z.1 >>= fun p => assembleSequence rootFields (abits ++ p.1) (afl ++ p.2),
              .seq (if r.length + a.length + g.size = 0 then slots else some (x.2 ++ (y.2 ++ z.2))))
      else (.ok rootFields, .seq (if r.length = 0 then slots else some (x.2 ++ (as ++ gs))))
  | .seqOf _ _, o => (.error .typeError, o)
  | .choice _ _ _ _, o => (.error .typeError, o)
  | .sequence _ _ _ _, o => (.error .typeError, o)
  | t, .leaf (some v) => (encTy t v, .leaf (some v))
  | _, o => (.error .noValue, o)
def encObjAlt : Fields → Nat → Obj → Step Obj (List BitField)
  | .nil, _, o => (.error .indexError, o)
  | .cons _ _ t _, 0, o => encObj t o
  | .cons _ _ _ r, p + 1, o => encObjAlt r p o
def encObjAltG : Groups → Nat → Obj → Step Obj (List BitField)
  | .nil, _, o => (.error .indexError, o)
  | .cons f g, p, o => if p < f.length then encObjAlt f p o else encObjAltG g (p - f.length) o
/-- encoder.py:238-263 -/
def encObjRoot : Fields → List (Option Obj) → Step (List (Option Obj)) (Bits × List BitField)
  | .nil, ss => (.ok ([], []), ss)
  | .cons _ k t r, ss =>
    let x := objRootStep (encObj t) k t (instantiate k t (ss.head?.getD none))
    match x.1 with
    | .error e => (.error e, some x.2 :: ss.tail)
    | .ok (b, fl) =>
      let y := encObjRoot r ss.tail
      (y.1.map fun p => (b ++ p.1, fl ++ p.2), some x.2 :: y.2)
/-- encoder.py:279-301 -/
def encObjAdds : Fields → List (Option Obj) → Option Prev → Step (List (Option Obj)) (Bits × List BitField)
  | .nil, ss, _ => (.ok ([], []), ss)
  | .cons _ k t r, ss, prev =>
    let x := objAdditionStep (encObj t) t prev (instantiate k t (ss.head?.getD none))
    match x.1 with
    | .error e => (.error e, some x.2 :: ss.tail)
    | .ok (b, fl) =>
      let y := encObjAdds r ss.tail (some ⟨b, k.isOptional⟩)
      (y.1.map fun p => (b :: p.1, fl ++ p.2), some x.2 :: y.2)
/-- encoder.py:302-338 -/
def encObjGroups : Groups → List (Option Obj) → Option (List Prev) → Step (List (Option Obj)) (Bits × List BitField)
  | .nil, ss, _ => (.ok ([], []), ss)
  | .cons f g, ss, prev =>
    let x := objScan f (ss.take f.length) none
    let rest := ss.drop f.length
    match x.1 with
    | .error e => (.error e, x.2 ++ rest)
    | .ok infos =>
      if infos.any (·.present) then
        match checkPreviousGroup prev with
        | .error e => (.error e, x.2 ++ rest)
        | .ok () =>
          let y := encObjRoot f x.2
          match y.1 >>= fun p => withOptionalBits p.1 p.2 >>= encodeOpenTypeField with
          | .error e => (.error e, y.2 ++ rest)
          | .ok ofl =>
            let z := encObjGroups g rest (some infos)
            (z.1.map fun p => (true :: p.1, ofl ++ p.2), y.2 ++ z.2)
      else
        let z := encObjGroups g rest (some infos)
        (z.1.map fun p => (false :: p.1, p.2), x.2 ++ z.2)
end

/-- `encode(obj)`, encoder.py:33-37: the bytes or the exception, and the object afterwards. -/
def encodeObj (t : Ty) (o : Obj) : Step Obj (List UInt8) :=
  ((encObj t o).1 >>= fun fl => binToHex (produceCompleteEncoding fl) >>= unhex, (encObj t o).2)

/-- The type of the component with an index. -/
def Fields.tyAt : Fields → Nat → Option Ty
  | .nil, _ => none
  | .cons _ _ t _, 0 => some t
  | .cons _ _ _ r, i + 1 => r.tyAt i

def Groups.tyAt : Groups → Nat → Option Ty
  | .nil, _ => none
  | .cons f g, i => if i < f.length then f.tyAt i else g.tyAt (i - f.length)

/-- `obj[name] = value` with a new object that pyasn1 accepts: `SequenceAndSetBase.setComponentByPosition`. -/
def assign (t : Ty) (i : Nat) (v : Val) (o : Obj) : Obj :=
  match t, o with
  | .sequence _ r a g, .seq slots =>
    match (if i < r.length then r.tyAt i
      else if i < r.length + a.length then a.tyAt (i - r.length) else g.tyAt (i - (r.length + a.length))) with
    | some t => .seq (some ((slotsOf (r.length + a.length + g.size) slots).set i (some (ofVal t v))))
    | none => o
  | _, _ => o

end Verif
