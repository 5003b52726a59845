import Verif.Decoder
/-!
# Components and alternatives are found by their names

`Encoder` and `Decoder` find the components of a SEQUENCE and the alternatives of a CHOICE by their positions.  The code
finds them by their names.  Here is what it does, once more, with names.  Everything else is taken from there.
-/
namespace Verif.Named

open Verif

/-- pyasn1 `NamedTypes.getPositionByName`.  The table of names is made when the class is made; if a name occurs twice, every
use of the table raises (`PyAsn1Error`, `.noValue` here like other errors of pyasn1). -/
def position (names : List String) (n : String) : Except Err Nat :=
  if names.Nodup then
    match names.idxOf? n with
    | some i => .ok i
    | none => .error .noValue
  else .error .noValue

/-- What `getComponentByName` gives the encoder: an object, which knows its type and how it is encoded. -/
structure Comp where
  kind : Kind
  type : Ty
  enc : Val → Except Err (List BitField)
  val : Option Val

/-- Kind and type of the components. -/
def kinds : Fields → List (Kind × Ty)
  | .nil => []
  | .cons _ k t r => (k, t) :: kinds r
def kindsG : Groups → List (Kind × Ty)
  | .nil => []
  | .cons f g => kinds f ++ kindsG g

/-- `getComponentByPosition`. -/
def component (ts : List (Kind × Ty)) (enc : Nat → Val → Except Err (List BitField)) (cs : List (Option Val)) (i : Nat) :
    Except Err Comp :=
  match ts[i]? with
  | some (k, t) => .ok ⟨k, t, enc i, cs[i]?.getD none⟩
  | none => .error .indexError

/-- `getComponentByName` of a SEQUENCE. -/
def byName (names : List String) (ts : List (Kind × Ty)) (enc : Nat → Val → Except Err (List BitField))
    (cs : List (Option Val)) (n : String) : Except Err Comp := do
  let i ← position names n
  component ts enc cs i

/-- The root component loop, encoder.py:238-263. -/
def encRoot (look : String → Except Err Comp) : Fields → Except Err (Bits × List BitField)
  | .nil => .ok ([], [])
  | .cons n k _ r => do
    let c ← look n
    let (b, fl) ← rootComponent c.enc k c.type c.val
    let (bs, fls) ← encRoot look r
    return (b ++ bs, fl ++ fls)

/-- The extension addition loop, encoder.py:279-301. -/
def encAdds (look : String → Except Err Comp) : Fields → Option Prev → Except Err (Bits × List BitField)
  | .nil, _ => .ok ([], [])
  | .cons n k _ r, prev => do
    let c ← look n
    let (b, fl) ← additionComponent c.enc c.type prev (effective c.kind c.val)
    let (bs, fls) ← encAdds look r (some ⟨b, k.isOptional⟩)
    return (b :: bs, fl ++ fls)

/-- The scan of a group, encoder.py:305-322. -/
def scanGroup (look : String → Except Err Comp) : Fields → Option Prev → Except Err (List Prev)
  | .nil, _ => .ok []
  | .cons n k _ r, prev => do
    let c ← look n
    let v := effective c.kind c.val
    if isValueOpt c.type v && Prev.gap prev then .error .mandatoryFieldNotPresentInGroup
    else do
      let me : Prev := ⟨present c.type v, k.isOptional⟩
      let rest ← scanGroup look r (some me)
      return me :: rest

/-- `_componentValues[i]`. -/
def nth (cs : List Comp) (i : Nat) : Except Err Comp :=
  match cs[i]? with
  | some c => .ok c
  | none => .error .indexError

/-- The group as a SEQUENCE of its own, encoder.py:332-338 and 655-684: its components are found by their position among the
names of the group. -/
def encGroup (look : String → Except Err Comp) (f : Fields) : Except Err (Bits × List BitField) := do
  let cs ← f.names.mapM look
  encRoot (fun n => do
    let i ← position f.names n
    nth cs i) f

/-- The group loop, encoder.py:302-338. -/
def encGroups (look : String → Except Err Comp) : Groups → Option (List Prev) → Except Err (Bits × List BitField)
  | .nil, _ => .ok ([], [])
  | .cons f g, prev => do
    let infos ← scanGroup look f none
    let (b, fl) ← groupComponent (fun _ => encGroup look f) prev infos
    let (bs, fls) ← encGroups look g (some infos)
    return (b :: bs, fl ++ fls)

/-- The number of the alternative, encoder.py:402-433: the first of the root with the name that was selected, otherwise the
first of the extensions, counted on. -/
def alternative (r x : List String) (pos : Nat) : Except Err Nat :=
  match (r ++ x)[pos]? with
  | none => .error .indexError
  | some n =>
    match r.idxOf? n with
    | some i => .ok i
    | none =>
      match x.idxOf? n with
      | some j => .ok (r.length + j)
      | none => .error .indexError

mutual
/-- `fill_field_list`, as `Verif.encTy`. -/
def encTy : Ty → Val → Except Err (List BitField)
  | .boolean, .bool b => .ok (encodeBoolean b)
  | .integer c, .int z => encodeInteger c z
  | .enumerated ext root add, .enum z => encodeEnumerated ext root add z
  | .bitString c, .bits b => encodeBitstring c b
  | .octetString c, .octets o => encodeOctetstring c o
  | .seqOf c t, .seqOf vs => do
    let fls ← vs.mapM (encTy t)
    encodeSequenceOf c vs.length fls.flatten
  | .choice ext r a g, .choice pos v => do
    let fl ← if pos < r.length then encAlt r pos v
      else if pos < r.length + a.length then encAlt a (pos - r.length) v
      else encAltG g (pos - (r.length + a.length)) v
    let i ← alternative r.names (a.names ++ g.names) pos
    assembleChoice ext r.length (a.length = 0 ∧ g.length = 0) i fl
  | .sequence ext r a g, .seq comps => do
    let look := byName (r.names ++ a.names ++ g.names) (kinds r ++ kinds a ++ kindsG g)
      (fun i v => if i < r.length then encAlt r i v
        else if i < r.length + a.length then encAlt a (i - r.length) v
        else encAltG g (i - (r.length + a.length)) v) comps
    let (opt, fl) ← encRoot look r
    let rootFields ← withOptionalBits opt fl
    if ext then
      if a.length = 0 ∧ g.length = 0 then
        return [⟨false, [false]⟩] ++ rootFields
      else
        let (abits, afl) ← encAdds look a none
        let (gbits, gfl) ← encGroups look g none
        assembleSequence rootFields (abits ++ gbits) (afl ++ gfl)
    else
      return rootFields
  | _, _ => .error .typeError
def encAlt : Fields → Nat → Val → Except Err (List BitField)
  | .nil, _, _ => .error .indexError
  | .cons _ _ t _, 0, v => encTy t v
  | .cons _ _ _ r, p + 1, v => encAlt r p v
def encAltG : Groups → Nat → Val → Except Err (List BitField)
  | .nil, _, _ => .error .indexError
  | .cons f g, p, v => if p < f.length then encAlt f p v else encAltG g (p - f.length) v
end

/-- `encode`, encoder.py:33-37 -/
def encode (t : Ty) (v : Val) : Except Err (List UInt8) := do
  let fl ← encTy t v
  let h ← binToHex (produceCompleteEncoding fl)
  unhex h

/-- `new_seq[name] = value`. -/
def put (names : List String) (n : String) (v : Val) (cs : List (Option Val)) : Except Err (List (Option Val)) := do
  let i ← position names n
  return cs.set i (some v)

/-- The root component loop, decoder.py:334-365; `look` is `getComponentByName` with `create_field_list`, `put` is
`__setitem__`. -/
def decRoot {σ : Type} (look : String → Except Err (Dec Val)) (put : String → Val → σ → Except Err σ) :
    Fields → Bits → σ → Dec σ
  | .nil, _, s => return s
  | .cons n k _ r, opt, s => do
    match k with
    | .mandatory =>
      let m ← liftE (look n)
      let v ← m
      let s ← liftE (put n v s)
      decRoot look put r opt s
    | _ =>
      match opt with
      | [] => raise .indexError
      | b :: opt' =>
        if b then
          let m ← liftE (look n)
          let v ← m
          let s ← liftE (put n v s)
          decRoot look put r opt' s
        else
          decRoot look put r opt' s

/-- The extension addition loop, decoder.py:383-395. -/
def decAdds {σ : Type} (look : String → Except Err (Dec Val)) (put : String → Val → σ → Except Err σ) :
    Fields → Bits → σ → Dec σ
  | .nil, _, s => return s
  | .cons n _ _ r, bits, s => do
    match bits with
    | [] => decAdds look put r [] s
    | b :: bits' =>
      if b then
        let m ← liftE (look n)
        let v ← decodeOpenTypeField m
        let s ← liftE (put n v s)
        decAdds look put r bits' s
      else
        decAdds look put r bits' s

/-- decoder.py:404-408: the components of a group are stored one after the other. -/
def putAll {σ : Type} (put : String → Val → σ → Except Err σ) : List (String × Val) → σ → Except Err σ
  | [], s => .ok s
  | (n, v) :: d, s => do
    let s ← put n v s
    putAll put d s

/-- `named_types[key] = value`, decoder.py:752: the names of a group are distinct when this is reached. -/
def note (n : String) (v : Val) (d : List (String × Val)) : Except Err (List (String × Val)) := .ok (d ++ [(n, v)])

/-- The group loop, decoder.py:396-411 and 736-762; `reader i` reads the component at position `i` of all groups, of which
`o` are in the groups before. -/
def decGroups {σ : Type} (reader : Nat → Dec Val) (put : String → Val → σ → Except Err σ) :
    Groups → Bits → Nat → σ → Dec σ
  | .nil, _, _, s => return s
  | .cons f g, bits, o, s => do
    match bits with
    | [] => decGroups reader put g [] (o + f.length) s
    | b :: bits' =>
      if b then
        let d ← decodeOpenTypeField (do
          let opt ← decodeOptionalBits f.optionalCount
          decRoot (fun n => (position f.names n).map fun i => reader (o + i)) note f opt [])
        let s ← liftE (putAll put d s)
        decGroups reader put g bits' (o + f.length) s
      else
        decGroups reader put g bits' (o + f.length) s

/-- `choice[name] = v` for the alternative at index `i` of `xs`; `m` reads it.  (The component that reads is found by the name
too, or, in the root of several alternatives, by the index; if a name occurs twice something raises in any case.) -/
def choose (all xs : List String) (i : Nat) (m : Dec Val) : Dec Val := do
  match xs[i]? with
  | none => raise .indexError
  | some n =>
    let _ ← liftE (position all n)
    let v ← m
    let j ← liftE (position all n)
    return .choice j v

mutual
/-- `create_field_list`, as `Verif.decTy`. -/
def decTy : Ty → Dec Val
  | .boolean => decodeBoolean
  | .integer c => decodeInteger c
  | .enumerated ext root add => decodeEnumerated ext root add
  | .bitString c => decodeBitstring c
  | .octetString c => decodeOctetstring c
  | .seqOf c t => do
    let n ← decodeSequenceOfCount c
    let vs ← repeatDec n.toNat (decTy t)
    return .seqOf vs
  | .choice ext r a g => do
    -- decode_choice, decoder.py:501-583
    let all := r.names ++ a.names ++ g.names
    if !ext then
      if r.length = 1 then choose all r.names 0 (decAlt r 0)
      else
        let i ← decodeConstrainedFromFieldList (some 0) (some ((r.length : Int) - 1))
        choose all r.names i.toNat (decAlt r i.toNat)
    else
      let e ← next ⟨0, 1⟩ false
      if e = 0 then
        if r.length = 1 then choose all r.names 0 (decAlt r 0)
        else
          let i ← decodeConstrainedFromFieldList (some 0) (some ((r.length : Int) - 1))
          choose all r.names i.toNat (decAlt r i.toNat)
      else
        let i ← decodeNormallySmall 0
        if a.length = 0 ∧ g.length = 0 then raise .notImplemented
        else
          choose all (a.names ++ g.names) i.toNat
            (decodeOpenTypeField (if i.toNat < a.length then decAlt a i.toNat else decAltG g (i.toNat - a.length)))
  | .sequence ext r a g => do
    -- decode_sequence, decoder.py:311-413
    let names := r.names ++ a.names ++ g.names
    let look := fun n => (position names n).map fun i =>
      if i < r.length then decAlt r i
      else if i < r.length + a.length then decAlt a (i - r.length)
      else decAltG g (i - (r.length + a.length))
    let e ← if ext then next ⟨0, 1⟩ false else pure 0
    let opt ← decodeOptionalBits r.optionalCount
    let cs ← decRoot look (put names) r opt (List.replicate (r.length + a.length + g.size) none)
    if e ≠ 0 then
      let bits ← decodeExtensionBits (a.length + g.length)
      let cs ← decAdds look (put names) a (bits.take a.length) cs
      let cs ← decGroups (fun i => decAltG g i) (put names) g (bits.drop a.length) 0 cs
      return .seq cs
    else
      return .seq cs
def decAlt : Fields → Nat → Dec Val
  | .nil, _ => raise .indexError
  | .cons _ _ t _, 0 => decTy t
  | .cons _ _ _ r, p + 1 => decAlt r p
def decAltG : Groups → Nat → Dec Val
  | .nil, _ => raise .indexError
  | .cons f g, p => if p < f.length then decAlt f p else decAltG g (p - f.length)
end

/-- `decode`, decoder.py:68-74. -/
def decode (t : Ty) (stream : List UInt8) : Except Err Val := do
  let p ← PerBytes.init (hexlify stream)
  let r ← decTy t p
  match r.1 with
  | .choice i v => if equalsEmpty v then .error .typeError else return .choice i v
  | v => return v

end Verif.Named
