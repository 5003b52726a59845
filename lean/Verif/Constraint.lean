import Verif.Py
/-!
# classes/types/constraint.py
-/
namespace Verif

/-- Constraints usable on an INTEGER.  `none` as an endpoint stands for Python's `None`
(written `MIN`/`MAX` in schemas).  constraint.py:9-108. -/
inductive Constr where
  /-- `NoConstraint`, constraint.py:9-17 -/
  | noConstraint
  /-- `ExtensionMarker`, constraint.py:20-26 -/
  | extensionMarker (present : Bool)
  /-- `ValueRange`, constraint.py:53-62 -/
  | valueRange (lo hi : Option Int) (ext : Bool)
  /-- `SingleValue`, constraint.py:65-74 -/
  | singleValue (ext : Bool) (vals : List Int)
  /-- `ConstraintOr`, constraint.py:89-98 -/
  | union (ext : Bool) (cs : List Constr)
  /-- `ConstraintAnd`, constraint.py:101-110 -/
  | inter (ext : Bool) (cs : List Constr)

/-- Python `min` of a list of endpoints: `TypeError` when `None` is compared with anything. -/
def pyMin : List (Option Int) → Except Err (Option Int)
  | [] => .error .valueError
  | [x] => .ok x
  | x :: xs => do
    let m ← pyMin xs
    match x, m with
    | some a, some b => .ok (some (if a ≤ b then a else b))
    | _, _ => .error .typeError

/-- Python `max` of a list of endpoints. -/
def pyMax : List (Option Int) → Except Err (Option Int)
  | [] => .error .valueError
  | [x] => .ok x
  | x :: xs => do
    let m ← pyMax xs
    match x, m with
    | some a, some b => .ok (some (if a ≤ b then b else a))
    | _, _ => .error .typeError

/-- Attribute `extensionMarker`. -/
def Constr.ext : Constr → Bool
  | .noConstraint => false
  | .extensionMarker p => p
  | .valueRange _ _ e => e
  | .singleValue e _ => e
  | .union e _ => e
  | .inter e _ => e

mutual
/-- The constructors' computation of `(lowerEndpoint, upperEndpoint)`; `error` means that creating
the constraint object raises.  constraint.py:53-108. -/
def Constr.endpoints : Constr → Except Err (Option Int × Option Int)
  | .noConstraint => .ok (none, none)
  | .extensionMarker _ => .ok (none, none)
  | .valueRange lo hi _ => .ok (lo, hi)
  | .singleValue _ vals => do
    let lo ← pyMin (vals.map some)
    let hi ← pyMax (vals.map some)
    return (lo, hi)
  | .union _ cs => do
    let es ← Constr.endpointsList cs
    let lo ← pyMin (es.map (·.1))
    let hi ← pyMax (es.map (·.2))
    return (lo, hi)
  | .inter _ cs => do
    let es ← Constr.endpointsList cs
    let lo ← pyMin (es.map (·.1))
    let hi ← pyMax (es.map (·.2))
    return (lo, hi)
/-- Endpoints of the member constraints (they are built before the composite one). -/
def Constr.endpointsList : List Constr → Except Err (List (Option Int × Option Int))
  | [] => .ok []
  | c :: cs => do
    let e ← Constr.endpoints c
    let es ← Constr.endpointsList cs
    return e :: es
end

/-- `x ≤ y` where `none` on the left means minus infinity. -/
def leLo (lo : Option Int) (v : Int) : Bool :=
  match lo with
  | none => true
  | some l => decide (l ≤ v)

/-- `x ≤ y` where `none` on the right means plus infinity. -/
def leHi (v : Int) (hi : Option Int) : Bool :=
  match hi with
  | none => true
  | some h => decide (v ≤ h)

mutual
/-- `_testValue`: does the constraint accept the value (`false`: raises `ValueConstraintError`).
Every class skips the check when its own extension marker is set.  pyasn1: a union accepts when
one member does, an intersection when all do, `ConstraintsIntersection()` without members always. -/
def Constr.test : Constr → Int → Bool
  | .noConstraint, _ => true
  | .extensionMarker _, _ => true
  | .valueRange lo hi e, v => e || (leLo lo v && leHi v hi)
  | .singleValue e vals, v => e || vals.contains v
  | .union e cs, v => e || Constr.testAny cs v
  | .inter e cs, v => e || Constr.testAll cs v
/-- Union members. -/
def Constr.testAny : List Constr → Int → Bool
  | [], _ => false
  | c :: cs, v => Constr.test c v || Constr.testAny cs v
/-- Intersection members. -/
def Constr.testAll : List Constr → Int → Bool
  | [], _ => true
  | c :: cs, v => Constr.test c v && Constr.testAll cs v
end

/-- Attribute `lowerEndpoint` of a constructed constraint object (`none` for a constraint whose
construction raises; such a constraint never reaches the codec). -/
def Constr.lower (c : Constr) : Option Int :=
  match c.endpoints with
  | .ok (lo, _) => lo
  | .error _ => none

/-- Attribute `upperEndpoint` of a constructed constraint object. -/
def Constr.upper (c : Constr) : Option Int :=
  match c.endpoints with
  | .ok (_, hi) => hi
  | .error _ => none

/-- `ValueSize` (constraint.py:77-86), `SequenceOfValueSize` (29-50), `NoConstraint` as used on
BIT STRING, OCTET STRING and SEQUENCE OF.  `NoConstraint` is `⟨false, none, none⟩`: it has the same
attributes and accepts the same values as `ValueSize(MIN, MAX)`.  Composite size constraints are
not modelled. -/
structure SizeC where
  ext : Bool
  lower : Option Nat
  upper : Option Nat
  deriving DecidableEq, Repr

/-- `ValueSize._testValue` on a value of the given size. -/
def SizeC.test (c : SizeC) (n : Nat) : Bool :=
  c.ext || ((match c.lower with | none => true | some l => decide (l ≤ n)) &&
            (match c.upper with | none => true | some u => decide (n ≤ u)))

end Verif
