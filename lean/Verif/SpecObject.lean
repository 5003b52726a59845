import Verif.Object
import Verif.Spec
/-!
# Vocabulary for histories of calls on one object
-/
namespace Verif.Spec

/-- The type is SEQUENCE: a component of such a type that was never set may turn into a value when it is encoded. -/
def isSequence : Ty → Bool
  | .sequence _ _ _ _ => true
  | _ => false

/-- The mandatory components of a group are set and count as values, or are of a type other than SEQUENCE and were
never set. -/
def settled : Fields → List (Option Val) → Bool
  | .nil, _ => true
  | .cons _ k t r, cs =>
    (match k, cs.head?.getD none with
     | .mandatory, some v => valued t v
     | .mandatory, none => !isSequence t
     | _, _ => true) && settled r cs.tail

mutual
/-- The value has the shape of the type (constraints are not looked at), and in every extension addition group that
is sent the mandatory components are `settled`. -/
def steady : Ty → Val → Bool
  | .boolean, .bool _ => true
  | .integer _, .int _ => true
  | .enumerated _ _ _, .enum _ => true
  | .bitString _, .bits _ => true
  | .octetString _, .octets _ => true
  | .seqOf _ t, .seqOf vs => vs.all (steady t)
  | .choice _ r a g, .choice pos v =>
    if pos < r.length then steadyAlt r pos v
    else if pos < r.length + a.length then steadyAlt a (pos - r.length) v
    else steadyAltG g (pos - (r.length + a.length)) v
  | .sequence _ r a g, .seq cs =>
    cs.length == r.length + a.length + g.size && steadyFields r cs && steadyFields a (cs.drop r.length) &&
      steadyGroups g (cs.drop (r.length + a.length))
  | _, _ => false
def steadyAlt : Fields → Nat → Val → Bool
  | .nil, _, _ => false
  | .cons _ _ t _, 0, v => steady t v
  | .cons _ _ _ r, p + 1, v => steadyAlt r p v
def steadyAltG : Groups → Nat → Val → Bool
  | .nil, _, _ => false
  | .cons f g, p, v => if p < f.length then steadyAlt f p v else steadyAltG g (p - f.length) v
/-- A component that was never set stands for its DEFAULT or an empty SEQUENCE (OF). -/
def steadyFields : Fields → List (Option Val) → Bool
  | .nil, _ => true
  | .cons _ k t r, cs =>
    (match held k (cs.head?.getD none) with
     | some v => steady t v
     | none => (match untouched t with | some v => steady t v | none => true)) && steadyFields r cs.tail
def steadyGroups : Groups → List (Option Val) → Bool
  | .nil, _ => true
  | .cons f g, cs =>
    steadyFields f cs && (!anySubstantial f cs || settled f cs) && steadyGroups g (cs.drop f.length)
end

/-- What a number of successive `encode` calls on one object give. -/
def calls (t : Ty) : Nat → Obj → List (Except Err (List UInt8))
  | 0, _ => []
  | n + 1, o => (encodeObj t o).1 :: calls t n (encodeObj t o).2

/-- The object after a number of `encode` calls. -/
def after (t : Ty) : Nat → Obj → Obj
  | 0, o => o
  | n + 1, o => after t n (encodeObj t o).2

/-- Something done to an object: `encode(obj)`, or `obj[name] = v` for the component with index `i`. -/
inductive Op where
  | encode
  | assign (i : Nat) (v : Val)

/-- What the `encode` calls in a history give. -/
def history (t : Ty) : List Op → Obj → List (Except Err (List UInt8))
  | [], _ => []
  | .encode :: ops, o => (encodeObj t o).1 :: history t ops (encodeObj t o).2
  | .assign i v :: ops, o => history t ops (Verif.assign t i v o)

/-- What they should give: the encodings of the values assigned so far. -/
def expected (t : Ty) : List Op → List (Option Val) → List (Except Err (List UInt8))
  | [], _ => []
  | .encode :: ops, cs => Verif.encode t (.seq cs) :: expected t ops cs
  | .assign i v :: ops, cs => expected t ops (cs.set i (some v))

/-- Every value between two operations is `steady`, and only the components before index `n` are assigned. -/
def proper (t : Ty) (n : Nat) : List Op → List (Option Val) → Bool
  | [], cs => steady t (.seq cs)
  | .encode :: ops, cs => steady t (.seq cs) && proper t n ops cs
  | .assign i v :: ops, cs => steady t (.seq cs) && decide (i < n) && proper t n ops (cs.set i (some v))

end Verif.Spec
