import Verif.Decoder
import Verif.ToDict
import Verif.Named
/-!
# Decoding as an operation on the objects of a program

`Decoder` describes `decode` as a function of a type.  The code walks through objects instead: it begins with the object
that the caller passes as `asn1Spec`, asks it for its components (decoder.py:340, 352, 362, 389, 509, 520, 536, 549, 575),
which puts new objects into it, and decodes the elements of a SEQUENCE OF (419) and the components of an extension
addition group (748) with the objects of the class, which all objects of the class share.  Here objects have addresses and
may be shared in any way, and what was done to them stays there, also after an exception.

Assumed of pyasn1 (`type/univ.py`, 0.4.7 and later): see DESIGN.md section 2.  The objects a decoder builds as its result
are new (`__class__()`, decoder.py:313, 418, 503) and are described by their values, as in `Decoder`.  Simplified: the
clone of a component with a DEFAULT of a constructed type carries the default (`cloneValueFlag`); here it is empty.
-/
namespace Verif.Heap

/-- An object of a class of `classes/data/builtin/*.py`. -/
structure Cell where
  /-- Its class. -/
  cls : Ty
  /-- `componentType` of the class: the objects of its NamedTypes in the order of the fields, for a SEQUENCE OF the one
  object it consists of. -/
  attrs : List Nat := []
  /-- SEQUENCE: `_componentValues`; empty for `noValue`, in it `none` for a component that is `noValue`. -/
  slots : List (Option Nat) := []
  /-- CHOICE: `_currentIdx` and the component there. -/
  sel : Option (Nat × Nat) := none
  /-- SEQUENCE OF: `_componentValues`. -/
  elems : List Nat := []
  /-- A simple type: its value. -/
  value : Option Val := none

/-- All objects. -/
abbrev Heap := List Cell

/-- A computation that reads bits and may change objects; the changes stay if it raises. -/
def HDec (α : Type) := Heap → PerBytes → Except Err (α × PerBytes) × Heap

def HDec.pure {α : Type} (a : α) : HDec α := fun h p => (.ok (a, p), h)

def HDec.bind {α β : Type} (m : HDec α) (f : α → HDec β) : HDec β := fun h p =>
  match m h p with
  | (.ok (a, p'), h') => f a h' p'
  | (.error e, h') => (.error e, h')

instance : Monad HDec where
  pure := HDec.pure
  bind := HDec.bind

/-- Something that touches no object. -/
def lift {α : Type} (d : Dec α) : HDec α := fun h p => (d p, h)

/-- The object at an address. -/
def cell (x : Nat) : HDec Cell := fun h p =>
  match h[x]? with
  | some c => (.ok (c, p), h)
  | none => (.error .attributeError, h)

/-- An assignment to attributes of an object. -/
def update (x : Nat) (f : Cell → Cell) : HDec Unit := fun h p => (.ok ((), p), h.modify x f)

/-- `value.clone()` of a constructed type: the same class, nothing in it. -/
def clone (c : Cell) : Cell := { cls := c.cls, attrs := c.attrs }

/-- What pyasn1 puts into a component that is `noValue`: a clone of the object of the class, which for a simple type is
that object itself (`SequenceAndSetBase.setComponentByPosition`). -/
def make (a : Nat) : HDec Nat := fun h p =>
  match h[a]? with
  | none => (.error .attributeError, h)
  | some c => if isConstructed c.cls then (.ok (h.length, p), h ++ [clone c]) else (.ok (a, p), h)

/-- The object of the class at a position. -/
def attr (x i : Nat) : HDec Nat := do
  let c ← cell x
  match c.attrs[i]? with
  | some a => pure a
  | none => lift (raise .indexError)

/-- `_componentValues` with a component set; with `noValue` the list is made first. -/
def setSlot (i a : Nat) (c : Cell) : Cell :=
  { c with slots := (if c.slots.isEmpty then List.replicate c.attrs.length none else c.slots).set i (some a) }

/-- `getComponentByName` / `getComponentByPosition` of a SEQUENCE, decoder.py:340, 352, 362, 389. -/
def component (x i : Nat) : HDec Nat := do
  let c ← cell x
  match c.slots[i]?.join with
  | some a => pure a
  | none =>
    let a ← make (← attr x i)
    update x (setSlot i a)
    pure a

/-- `getComponentByName` / `getComponentByPosition` of a CHOICE, decoder.py:509, 520, 536, 549, 575: asking for another
alternative than the one it holds drops that one (`Choice.setComponentByPosition`). -/
def alternative (x i : Nat) : HDec Nat := do
  let c ← cell x
  match c.sel with
  | some (j, a) =>
    if j = i then pure a
    else
      let a ← make (← attr x i)
      update x fun c => { c with sel := some (i, a) }
      pure a
  | none =>
    let a ← make (← attr x i)
    update x fun c => { c with sel := some (i, a) }
    pure a

/-- `decode_open_type_field`, decoder.py:617-626. -/
def openType {α : Type} (m : HDec α) : HDec α := do
  let len ← lift (decodeLengthDeterminant false false none none)
  let v ← lift (next ⟨len.toNat, 0⟩ true)
  let inner ← lift (liftE (PerBytes.init (zfillHex (len.toNat * 2) (pyHex v))))
  fun h p =>
    match m h inner with
    | (.ok (a, _), h') => (.ok (a, p), h')
    | (.error e, h') => (.error e, h')

/-- The loops of `decode_sequence_of`, decoder.py:416-498. -/
def repeated {α : Type} : Nat → HDec α → HDec (List α)
  | 0, _ => pure []
  | n + 1, m => do
    let a ← m
    let as ← repeated n m
    pure (a :: as)

/-- The loop over the root components, decoder.py:334-365; `m i` decodes the component at position `i`. -/
def rootLoop (m : Nat → HDec Val) : Nat → Fields → Bits → HDec (List (Option Val))
  | _, .nil, _ => pure []
  | i, .cons _ k _ r, opt =>
    match k with
    | .mandatory => do
      let v ← m i
      let vs ← rootLoop m (i + 1) r opt
      pure (some v :: vs)
    | _ =>
      match opt with
      | [] => lift (raise .indexError)
      | b :: opt' =>
        if b then do
          let v ← m i
          let vs ← rootLoop m (i + 1) r opt'
          pure (some v :: vs)
        else do
          let vs ← rootLoop m (i + 1) r opt'
          pure (none :: vs)

/-- The loop over the extension additions, decoder.py:383-395.  The component is asked for before its open type is read. -/
def addLoop (get : Nat → HDec Nat) (m : Nat → HDec Val) : Nat → Fields → Bits → HDec (List (Option Val))
  | _, .nil, _ => pure []
  | i, .cons _ _ _ r, bits =>
    match bits with
    | [] => do
      let vs ← addLoop get m (i + 1) r []
      pure (none :: vs)
    | b :: bits' =>
      if b then do
        let a ← get i
        let v ← openType (m a)
        let vs ← addLoop get m (i + 1) r bits'
        pure (some v :: vs)
      else do
        let vs ← addLoop get m (i + 1) r bits'
        pure (none :: vs)

/-- The loop over the extension addition groups, decoder.py:396-411 with `create_new_fake_empty_sequence`, 736-762. -/
def groupLoop (m : Nat → HDec Val) : Nat → Groups → Bits → HDec (List (Option Val))
  | _, .nil, _ => pure []
  | i, .cons f g, bits =>
    match bits with
    | [] => do
      let vs ← groupLoop m (i + f.length) g []
      pure (List.replicate f.length none ++ vs)
    | b :: bits' =>
      if b then do
        let cs ← openType (do
          let opt ← lift (decodeOptionalBits f.optionalCount)
          rootLoop m i f opt)
        let vs ← groupLoop m (i + f.length) g bits'
        pure (cs ++ vs)
      else do
        let vs ← groupLoop m (i + f.length) g bits'
        pure (List.replicate f.length none ++ vs)

/-- `create_field_list` of the object at an address, which dispatches on its class.  The number bounds the depth of the
recursion; every number that is large enough gives the same (`Verif.Props.C65_result`). -/
def fieldList : Nat → Nat → HDec Val
  | 0, _ => lift (raise .notImplemented)
  | n + 1, x => do
    let c ← cell x
    match c.cls with
    | .seqOf s _ => do
      -- decode_sequence_of, decoder.py:416-498
      let k ← lift (decodeSequenceOfCount s)
      let a ← attr x 0
      let vs ← repeated k.toNat (fieldList n a)
      pure (.seqOf vs)
    | .choice ext r a g =>
      -- decode_choice, decoder.py:501-583
      let root : HDec Val :=
        if r.length = 1 then do
          let v ← fieldList n (← alternative x 0)
          pure (.choice 0 v)
        else do
          let i ← lift (decodeConstrainedFromFieldList (some 0) (some ((r.length : Int) - 1)))
          if i.toNat < r.length then do
            let v ← fieldList n (← alternative x i.toNat)
            pure (.choice i.toNat v)
          else lift (raise .indexError)
      if !ext then root
      else do
        let e ← lift (next ⟨0, 1⟩ false)
        if e = 0 then root
        else do
          let i ← lift (decodeNormallySmall 0)
          if a.length = 0 ∧ g.length = 0 then lift (raise .notImplemented)
          else if i.toNat < a.length + g.size then do
            let y ← alternative x (r.length + i.toNat)
            let v ← openType (fieldList n y)
            pure (.choice (r.length + i.toNat) v)
          else do
            -- 574 raises before the open type is read; the order is the one of `Verif.decTy`
            let v ← openType (lift (raise .indexError))
            pure (.choice (r.length + i.toNat) v)
    | .sequence ext r a g => do
      -- decode_sequence, decoder.py:311-413
      let e ← if ext then lift (next ⟨0, 1⟩ false) else pure 0
      let opt ← lift (decodeOptionalBits r.optionalCount)
      let rootVals ← rootLoop (fun i => do fieldList n (← component x i)) 0 r opt
      if e ≠ 0 then do
        let bits ← lift (decodeExtensionBits (a.length + g.length))
        let addVals ← addLoop (component x) (fieldList n) r.length a (bits.take a.length)
        let groupVals ← groupLoop (fun i => do fieldList n (← attr x i)) (r.length + a.length) g (bits.drop a.length)
        pure (.seq (rootVals ++ addVals ++ groupVals))
      else
        pure (.seq (rootVals ++ List.replicate (a.length + g.size) none))
    | t => lift (decTy t)

/-- `decode(per_stream, asn1Spec)`, decoder.py:68-74, with `asn1Spec` at an address; also what it leaves of the objects. -/
def decodeAt (n x : Nat) (stream : List UInt8) (h : Heap) : Except Err Val × Heap :=
  match PerBytes.init (hexlify stream) with
  | .error e => (.error e, h)
  | .ok p =>
    match fieldList n x h p with
    | (.error e, h') => (.error e, h')
    | (.ok (.choice i v, _), h') => (if equalsEmpty v then .error .typeError else .ok (.choice i v), h')
    | (.ok (v, _), h') => (.ok v, h')

/-- Several calls one after the other, with any objects; an exception does not end the program. -/
def decodeCalls (n : Nat) : List (Nat × List UInt8) → Heap → List (Except Err Val) × Heap
  | [], h => ([], h)
  | (x, stream) :: r, h =>
    let (o, h') := decodeAt n x stream h
    let (os, h'') := decodeCalls n r h'
    (o :: os, h'')

end Verif.Heap
