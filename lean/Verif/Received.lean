import Verif.Shared
import Verif.Decoder
/-!
# Messages that arrive while a program has other objects

The objects that `decode` returns are new (`__class__()`, decoder.py:77-308 for simple types, 313, 418, 503 for constructed
ones), and they are put into each other as they are (`new_seq[name] = decoded`, `new_seq_of.extend`, `new_choice[name] = decoded`).
What `decode` does to `asn1Spec` is described in `Heap`; here `asn1Spec` is not among the objects.
-/
namespace Verif.Shared

/-- One object after the other. -/
def buildMany (f : Val → Store → Nat × Store) : List Val → Store → List Nat × Store
  | [], h => ([], h)
  | v :: vs, h => ((f v h).1 :: (buildMany f vs (f v h).2).1, (buildMany f vs (f v h).2).2)

mutual
/-- New objects that hold a value; the address of the outermost one.  decoder.py:311-413 (SEQUENCE), 416-498 (SEQUENCE OF),
501-583 (CHOICE).  As in `ofVal` there is no list as long as nothing was put into it. -/
def build : Ty → Val → Store → Nat × Store
  | .seqOf c t, .seqOf vs, h =>
    let p := buildMany (build t) vs h
    (p.2.length, p.2 ++ [Cell.mk (.seqOf c t) (.list (if vs.isEmpty then none else some p.1))])
  | .choice e r a g, .choice pos v, h =>
    let p :=
      if pos < r.length then buildAlt r pos v h
      else if pos < r.length + a.length then buildAlt a (pos - r.length) v h
      else buildAltG g (pos - (r.length + a.length)) v h
    (p.2.length, p.2 ++ [Cell.mk (.choice e r a g) (.choice (some (pos, p.1)))])
  | .sequence e r a g, .seq cs, h =>
    let p := buildSlots r cs h
    let q := buildSlots a (cs.drop r.length) p.2
    let s := buildSlotsG g (cs.drop (r.length + a.length)) q.2
    (s.2.length, s.2 ++ [Cell.mk (.sequence e r a g)
      (.seq (if cs.any Option.isSome then some (p.1 ++ (q.1 ++ s.1)) else none))])
  | t, v, h => (h.length, h ++ [Cell.mk t (.leaf (some v))])
def buildAlt : Fields → Nat → Val → Store → Nat × Store
  | .nil, _, _, h => (h.length, h)
  | .cons _ _ t _, 0, v, h => build t v h
  | .cons _ _ _ r, p + 1, v, h => buildAlt r p v h
def buildAltG : Groups → Nat → Val → Store → Nat × Store
  | .nil, _, _, h => (h.length, h)
  | .cons f g, p, v, h => if p < f.length then buildAlt f p v h else buildAltG g (p - f.length) v h
def buildSlots : Fields → List (Option Val) → Store → List (Option Nat) × Store
  | .nil, _, h => ([], h)
  | .cons _ _ t r, cs, h =>
    match cs.head?.getD none with
    | none => (none :: (buildSlots r cs.tail h).1, (buildSlots r cs.tail h).2)
    | some v =>
      (some (build t v h).1 :: (buildSlots r cs.tail (build t v h).2).1, (buildSlots r cs.tail (build t v h).2).2)
def buildSlotsG : Groups → List (Option Val) → Store → List (Option Nat) × Store
  | .nil, _, h => ([], h)
  | .cons f g, cs, h =>
    let p := buildSlots f cs h
    let q := buildSlotsG g (cs.drop f.length) p.2
    (p.1 ++ q.1, q.2)
end

/-- `obj = decode(per_stream, asn1Spec=T())`, decoder.py:68-74: the address of the new object, and all objects afterwards. -/
def receive (t : Ty) (stream : List UInt8) : SEnc Nat := fun h =>
  match decode t stream with
  | .ok v => (.ok (build t v h).1, (build t v h).2)
  | .error e => (.error e, h)

end Verif.Shared
