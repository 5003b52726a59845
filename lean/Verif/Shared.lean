import Verif.Looking
/-!
# Encoding objects that share parts

`Object` describes an object as a tree: two components never share an object.  In Python an object can be used as a component
of several others, or several times in one.  Here objects have addresses, as in `Heap`, and `encode` works on all objects of
the program.

Simplified: `isValue` and `len(_componentValues)` only read, so they are taken from the tree below the object (`treeOf`); an
unset component with a DEFAULT of a constructed type becomes an empty one (such components cannot be encoded anyway).
-/
namespace Verif.Shared

/-- The state of an object, as in `Obj`, with addresses for the objects in it. -/
inductive Body where
  | leaf (v : Option Val)
  | list (es : Option (List Nat))
  | choice (sel : Option (Nat × Nat))
  | seq (slots : Option (List (Option Nat)))

/-- An object: its class and its state. -/
structure Cell where
  ty : Ty
  body : Body

/-- All objects of the program; the address is the index. -/
abbrev Store := List Cell

/-- The state of the object at an address. -/
def bodyAt (h : Store) (x : Nat) : Option Body := h[x]?.map Cell.body

/-- The component with an index, `none` if it was never set. -/
def place (ss : List (Option Nat)) (i : Nat) : Option Nat := ss[i]?.getD none

mutual
/-- The object at an address with everything in it written out. -/
def treeOf : Ty → Store → Nat → Obj
  | .seqOf _ t, h, x =>
    match bodyAt h x with
    | some (.list es) => .list (es.map fun es => es.map (treeOf t h))
    | _ => .list none
  | .choice _ r a g, h, x =>
    match bodyAt h x with
    | some (.choice (some (pos, y))) =>
      .choice (some (pos,
        if pos < r.length then treeAlt r pos h y
        else if pos < r.length + a.length then treeAlt a (pos - r.length) h y
        else treeAltG g (pos - (r.length + a.length)) h y))
    | _ => .choice none
  | .sequence _ r a g, h, x =>
    match bodyAt h x with
    | some (.seq s) =>
      .seq (s.map fun ss =>
        treeSlots r h ss ++ (treeSlots a h (ss.drop r.length) ++ treeSlotsG g h (ss.drop (r.length + a.length))))
    | _ => .seq none
  | _, h, x =>
    match bodyAt h x with
    | some (.leaf v) => .leaf v
    | _ => .leaf none
def treeAlt : Fields → Nat → Store → Nat → Obj
  | .nil, _, _, _ => .leaf none
  | .cons _ _ t _, 0, h, x => treeOf t h x
  | .cons _ _ _ r, p + 1, h, x => treeAlt r p h x
def treeAltG : Groups → Nat → Store → Nat → Obj
  | .nil, _, _, _ => .leaf none
  | .cons f g, p, h, x => if p < f.length then treeAlt f p h x else treeAltG g (p - f.length) h x
def treeSlots : Fields → Store → List (Option Nat) → List (Option Obj)
  | .nil, _, _ => []
  | .cons _ _ t r, h, ss => (place ss 0).map (treeOf t h) :: treeSlots r h ss.tail
def treeSlotsG : Groups → Store → List (Option Nat) → List (Option Obj)
  | .nil, _, _ => []
  | .cons f g, h, ss => treeSlots f h ss ++ treeSlotsG g h (ss.drop f.length)
end

/-- The component with an index (`componentType[i]`). -/
def compOf : Fields → Nat → Option (Kind × Ty)
  | .nil, _ => none
  | .cons _ k t _, 0 => some (k, t)
  | .cons _ _ _ r, i + 1 => compOf r i

/-- The same for components of groups. -/
def compOfG : Groups → Nat → Option (Kind × Ty)
  | .nil, _ => none
  | .cons f g, i => if i < f.length then compOf f i else compOfG g (i - f.length)

/-- A component of a SEQUENCE or an alternative of a CHOICE. -/
def partAt (r a : Fields) (g : Groups) (i : Nat) : Option (Kind × Ty) :=
  if i < r.length then compOf r i
  else if i < r.length + a.length then compOf a (i - r.length)
  else compOfG g (i - (r.length + a.length))

/-- A computation on the objects; they stay changed after an exception. -/
def SEnc (α : Type) := Store → Except Err α × Store

def SEnc.pure {α : Type} (x : α) : SEnc α := fun h => (.ok x, h)

def SEnc.bind {α β : Type} (m : SEnc α) (f : α → SEnc β) : SEnc β := fun h =>
  match m h with
  | (.ok x, h') => f x h'
  | (.error e, h') => (.error e, h')

instance : Monad SEnc where
  pure := SEnc.pure
  bind := SEnc.bind

/-- Something that touches no object. -/
def lift {α : Type} (x : Except Err α) : SEnc α := fun h => (x, h)

/-- The state of the object at an address. -/
def state (x : Nat) : SEnc (Option Body) := fun h => (.ok (bodyAt h x), h)

/-- The object at an address written out (for `isValue` and `len`, which only read). -/
def view (t : Ty) (x : Nat) : SEnc Obj := fun h => (.ok (treeOf t h x), h)

/-- A new object for a component: its DEFAULT or a schema object. -/
def newBody (k : Kind) (t : Ty) : Body :=
  match t, k with
  | .seqOf _ _, _ => .list none
  | .choice _ _ _ _, _ => .choice none
  | .sequence _ _ _ _, _ => .seq none
  | _, .default d => .leaf (some d)
  | _, _ => .leaf none

/-- The object at an address gets a new state. -/
def update (h : Store) (x : Nat) (b : Body) : Store := h.modify x fun c => ⟨c.ty, b⟩

/-- `_componentValues`, made if it is missing. -/
def places (n : Nat) (s : Option (List (Option Nat))) : List (Option Nat) := s.getD (List.replicate n none)

/-- `getComponentByName` of a SEQUENCE with `n` components: the object in a component; an unset one is made and stays. -/
def component (n x i : Nat) (k : Kind) (t : Ty) : SEnc Nat := fun h =>
  match bodyAt h x with
  | some (.seq s) =>
    match place (places n s) i with
    | some y => (.ok y, h)
    | none => (.ok h.length, update (h ++ [Cell.mk t (newBody k t)]) x (.seq (some ((places n s).set i (some h.length)))))
  | _ => (.error .typeError, h)

/-- `for component in sequence_of: component.fill_field_list(...)`, encoder.py:360-361. -/
def overAddresses (f : Nat → SEnc α) : List Nat → SEnc (List α)
  | [] => pure []
  | y :: ys => do
    let x ← f y
    let xs ← overAddresses f ys
    pure (x :: xs)

/-- One iteration of the root component loop, encoder.py:239-263. -/
def rootStep (enc : Nat → SEnc (List BitField)) (k : Kind) (t : Ty) (y : Nat) : SEnc (Bits × List BitField) :=
  match k with
  | .optional => do
    let o ← view t y
    if objValue t o && objContent o then do
      let fl ← enc y
      pure ([true], fl)
    else pure ([false], [])
  | .default d => do
    match ← view t y with
    | .leaf (some v) => do
      let ne ← lift (pyValueNe d v)
      if ne then do
        let fl ← enc y
        pure ([true], fl)
      else pure ([false], [])
    | .leaf none => lift (.error .noValue)
    | _ => lift (.error .attributeError)
  | .mandatory => do
    let fl ← enc y
    pure ([], fl)

/-- One iteration of the extension addition loop, encoder.py:280-301. -/
def additionStep (enc : Nat → SEnc (List BitField)) (t : Ty) (prev : Option Prev) (y : Nat) : SEnc (Bool × List BitField) := do
  let o ← view t y
  if objValue t o then
    if Prev.gap prev then lift (.error .mandatoryExtensionFieldNotPresent)
    else if objContent o then do
      let fl ← enc y
      let ofl ← lift (encodeOpenTypeField fl)
      pure (true, ofl)
    else pure (false, [])
  else pure (false, [])

/-- The scan of a group, encoder.py:305-322. -/
def scan (n x : Nat) : Fields → Nat → Option Prev → SEnc (List Prev)
  | .nil, _, _ => pure []
  | .cons _ k t r, i, prev => do
    let y ← component n x i k t
    let o ← view t y
    if objValue t o && Prev.gap prev then lift (.error .mandatoryFieldNotPresentInGroup)
    else do
      let rest ← scan n x r (i + 1) (some ⟨objValue t o && objContent o, k.isOptional⟩)
      pure (⟨objValue t o && objContent o, k.isOptional⟩ :: rest)

mutual
/-- `fill_field_list` of the object at an address: encoder.py:234-355 (SEQUENCE), 357-391 (SEQUENCE OF), 393-451 (CHOICE), 60-232
(simple types). -/
def encAt : Ty → Nat → SEnc (List BitField)
  | .seqOf c t, x => do
    match ← state x with
    | some (.list es) => do
      let fls ← overAddresses (encAt t) (es.getD [])
      lift (encodeSequenceOf c (es.getD []).length fls.flatten)
    | _ => lift (.error .typeError)
  | .choice ext r a g, x => do
    match ← state x with
    | some (.choice (some (pos, y))) => do
      let fl ←
        (if pos < r.length then encAlt r pos y
         else if pos < r.length + a.length then encAlt a (pos - r.length) y
         else encAltG g (pos - (r.length + a.length)) y)
      lift (assembleChoice ext r.length (a.length = 0 ∧ g.length = 0) pos fl)
    | some (.choice none) => lift (.error .noValue)
    | _ => lift (.error .typeError)
  | .sequence ext r a g, x => do
    let p ← encRoot r (r.length + a.length + g.size) x 0
    let rootFields ← lift (withOptionalBits p.1 p.2)
    if ext then
      if a.length = 0 ∧ g.length = 0 then pure ([⟨false, [false]⟩] ++ rootFields)
      else do
        let q ← encAdds a (r.length + a.length + g.size) x r.length none
        let s ← encGroups g (r.length + a.length + g.size) x (r.length + a.length) none
        lift (assembleSequence rootFields (q.1 ++ s.1) (q.2 ++ s.2))
    else pure rootFields
  | t, x => do
    match ← state x with
    | some (.leaf (some v)) => lift (encTy t v)
    | _ => lift (.error .noValue)
/-- encoder.py:396-411: the chosen alternative. -/
def encAlt : Fields → Nat → Nat → SEnc (List BitField)
  | .nil, _, _ => lift (.error .indexError)
  | .cons _ _ t _, 0, y => encAt t y
  | .cons _ _ _ r, p + 1, y => encAlt r p y
def encAltG : Groups → Nat → Nat → SEnc (List BitField)
  | .nil, _, _ => lift (.error .indexError)
  | .cons f g, p, y => if p < f.length then encAlt f p y else encAltG g (p - f.length) y
/-- encoder.py:238-263 -/
def encRoot : Fields → Nat → Nat → Nat → SEnc (Bits × List BitField)
  | .nil, _, _, _ => pure ([], [])
  | .cons _ k t r, n, x, i => do
    let y ← component n x i k t
    let b ← rootStep (encAt t) k t y
    let p ← encRoot r n x (i + 1)
    pure (b.1 ++ p.1, b.2 ++ p.2)
/-- encoder.py:279-301 -/
def encAdds : Fields → Nat → Nat → Nat → Option Prev → SEnc (Bits × List BitField)
  | .nil, _, _, _, _ => pure ([], [])
  | .cons _ k t r, n, x, i, prev => do
    let y ← component n x i k t
    let b ← additionStep (encAt t) t prev y
    let p ← encAdds r n x (i + 1) (some ⟨b.1, k.isOptional⟩)
    pure (b.1 :: p.1, b.2 ++ p.2)
/-- encoder.py:302-338 -/
def encGroups : Groups → Nat → Nat → Nat → Option (List Prev) → SEnc (Bits × List BitField)
  | .nil, _, _, _, _ => pure ([], [])
  | .cons f g, n, x, i, prev => do
    let infos ← scan n x f i none
    if infos.any (·.present) then do
      lift (checkPreviousGroup prev)
      let q ← encRoot f n x i
      let ofl ← lift (withOptionalBits q.1 q.2 >>= encodeOpenTypeField)
      let p ← encGroups g n x (i + f.length) (some infos)
      pure (true :: p.1, ofl ++ p.2)
    else do
      let p ← encGroups g n x (i + f.length) (some infos)
      pure (false :: p.1, p.2)
end

/-- `encode(obj)`, encoder.py:33-37. -/
def encodeAt (x : Nat) : SEnc (List UInt8) := fun h =>
  match h[x]? with
  | none => (.error .attributeError, h)
  | some c => ((encAt c.ty x h).1 >>= fun fl => binToHex (produceCompleteEncoding fl) >>= unhex, (encAt c.ty x h).2)

mutual
/-- `to_dict(is_root)` of the object at an address. -/
def dictAt : Ty → Bool → Nat → SEnc (Option Dict)
  -- data/builtin/SequenceOfType.py:19-31
  | .seqOf _ t, isRoot, x => do
    match ← state x with
    | some (.list es) => do
      let ds ← overAddresses (dictAt t false) (es.getD [])
      pure (orNoValue isRoot (ds.filterMap id).isEmpty (.list (ds.filterMap id)))
    | _ => lift (.error .typeError)
  -- data/builtin/ChoiceType.py:22-28
  | .choice _ r a g, _, x => do
    match ← state x with
    | some (.choice (some (pos, y))) =>
      if pos < r.length then dictAlt r pos y
      else if pos < r.length + a.length then dictAlt a (pos - r.length) y
      else dictAltG g (pos - (r.length + a.length)) y
    | some (.choice none) => pure (some .none)
    | _ => lift (.error .typeError)
  -- data/builtin/SequenceType.py:35-47
  | .sequence _ r a g, isRoot, x => do
    let es ← dictFields r (r.length + a.length + g.size) x 0
    let es' ← dictFields a (r.length + a.length + g.size) x r.length
    let es'' ← dictGroups g (r.length + a.length + g.size) x (r.length + a.length)
    let d := (es ++ es' ++ es'').foldl (fun d e => dictSet d e.1 e.2) []
    pure (orNoValue isRoot d.isEmpty (.dict d))
  | t, isRoot, x => do
    match ← state x with
    | some (.leaf (some v)) => lift (toDict t isRoot v)
    | _ => lift (.error .noValue)
/-- One iteration of data/builtin/ChoiceType.py:23-28. -/
def dictAlt : Fields → Nat → Nat → SEnc (Option Dict)
  | .nil, _, _ => lift (.error .indexError)
  | .cons n _ t _, 0, y => do
    let o ← view t y
    if objValue t o then do
      match ← dictAt t false y with
      | some d => pure (some (.dict [(n, d)]))
      | none => pure (some (.dict []))
    else pure (some .none)
  | .cons _ _ _ r, p + 1, y => dictAlt r p y
def dictAltG : Groups → Nat → Nat → SEnc (Option Dict)
  | .nil, _, _ => lift (.error .indexError)
  | .cons f g, p, y => if p < f.length then dictAlt f p y else dictAltG g (p - f.length) y
/-- The loop of data/builtin/SequenceType.py:37-41. -/
def dictFields : Fields → Nat → Nat → Nat → SEnc (List (String × Dict))
  | .nil, _, _, _ => pure []
  | .cons m k t r, n, x, i => do
    let y ← component n x i k t
    let o ← view t y
    let d ← (if objValue t o || isConstructed t then dictAt t false y else pure none)
    let es ← dictFields r n x (i + 1)
    pure (match d with
      | some d => (m, d) :: es
      | none => es)
def dictGroups : Groups → Nat → Nat → Nat → SEnc (List (String × Dict))
  | .nil, _, _, _ => pure []
  | .cons f g, n, x, i => do
    let es ← dictFields f n x i
    let es' ← dictGroups g n x (i + f.length)
    pure (es ++ es')
end

/-- `obj.to_dict()`, e.g. data/builtin/SequenceType.py:35. -/
def toDictAt (x : Nat) : SEnc (Option Dict) := fun h =>
  match h[x]? with
  | none => (.error .attributeError, h)
  | some c => dictAt c.ty true x h

/-- `obj[name][name]...`: reading (pyasn1 `getComponentByName`), given by indices.  As in `look`, in a SEQUENCE OF only elements that
are there are read, in a CHOICE only the chosen alternative. -/
def readAt : List Nat → Nat → SEnc Unit
  | [], _ => pure ()
  | i :: p, x => fun h =>
    match h[x]? with
    | some ⟨.sequence _ r a g, .seq _⟩ =>
      match partAt r a g i with
      | some (k, t) => (component (r.length + a.length + g.size) x i k t >>= readAt p) h
      | none => (.error .typeError, h)
    | some ⟨_, .list es⟩ =>
      match (es.getD [])[i]? with
      | some y => readAt p y h
      | none => (.error .indexError, h)
    | some ⟨_, .choice (some (pos, y))⟩ => if i = pos then readAt p y h else (.error .typeError, h)
    | _ => (.error .typeError, h)

/-- `obj[name] = part` for the component with index `i` of a SEQUENCE with `n` components. -/
def setAt (n x i y : Nat) (h : Store) : Store :=
  match bodyAt h x with
  | some (.seq s) => update h x (.seq (some ((places n s).set i (some y))))
  | _ => h

/-- `obj.append(part)` of a SEQUENCE OF. -/
def appendAt (x y : Nat) (h : Store) : Store :=
  match bodyAt h x with
  | some (.list es) => update h x (.list (some (es.getD [] ++ [y])))
  | _ => h

/-- `obj[name] = part` of a CHOICE. -/
def chooseAt (x pos y : Nat) (h : Store) : Store :=
  match bodyAt h x with
  | some (.choice _) => update h x (.choice (some (pos, y)))
  | _ => h

end Verif.Shared
