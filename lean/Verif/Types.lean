import Verif.Constraint
/-!
# Schema objects and values

`Ty` describes a schema class (`classes/data/builtin/*.py` subclasses as emitted by the generator or
written by hand), `Val` the value held by an object of such a class.
-/
namespace Verif

/-- Values.  An ENUMERATED value is its number (`_value`); a CHOICE value is the position of the
selected alternative in `componentType` and its value; a SEQUENCE value is the list of its components
in `componentType` order, `none` for a component that was never set. -/
inductive Val where
  | bool (b : Bool)
  | int (z : Int)
  | enum (z : Int)
  | bits (b : Bits)
  | octets (o : List UInt8)
  | seqOf (vs : List Val)
  | choice (pos : Nat) (v : Val)
  | seq (comps : List (Option Val))

mutual
/-- Boolean equality of values (used to run the model on samples). -/
def Val.beq : Val → Val → Bool
  | .bool a, .bool b => a == b
  | .int a, .int b => a == b
  | .enum a, .enum b => a == b
  | .bits a, .bits b => a == b
  | .octets a, .octets b => a == b
  | .seqOf a, .seqOf b => Val.beqList a b
  | .choice p v, .choice q w => p == q && Val.beq v w
  | .seq a, .seq b => Val.beqOpts a b
  | _, _ => false
def Val.beqList : List Val → List Val → Bool
  | [], [] => true
  | v :: vs, w :: ws => Val.beq v w && Val.beqList vs ws
  | _, _ => false
def Val.beqOpts : List (Option Val) → List (Option Val) → Bool
  | [], [] => true
  | v :: vs, w :: ws => Val.beqOpt v w && Val.beqOpts vs ws
  | _, _ => false
def Val.beqOpt : Option Val → Option Val → Bool
  | none, none => true
  | some v, some w => Val.beq v w
  | _, _ => false
end

mutual
theorem Val.beq_iff : ∀ v w : Val, Val.beq v w = true ↔ v = w
  | .bool _, w => by cases w <;> simp [Val.beq]
  | .int _, w => by cases w <;> simp [Val.beq]
  | .enum _, w => by cases w <;> simp [Val.beq]
  | .bits _, w => by cases w <;> simp [Val.beq]
  | .octets _, w => by cases w <;> simp [Val.beq]
  | .seqOf a, w => by cases w <;> simp [Val.beq, Val.beqList_iff a]
  | .choice p v, w => by cases w <;> simp [Val.beq, Val.beq_iff v]
  | .seq a, w => by cases w <;> simp [Val.beq, Val.beqOpts_iff a]
theorem Val.beqList_iff : ∀ v w : List Val, Val.beqList v w = true ↔ v = w
  | [], w => by cases w <;> simp [Val.beqList]
  | v :: vs, w => by cases w <;> simp [Val.beqList, Val.beq_iff v, Val.beqList_iff vs]
theorem Val.beqOpts_iff : ∀ v w : List (Option Val), Val.beqOpts v w = true ↔ v = w
  | [], w => by cases w <;> simp [Val.beqOpts]
  | v :: vs, w => by cases w <;> simp [Val.beqOpts, Val.beqOpt_iff v, Val.beqOpts_iff vs]
theorem Val.beqOpt_iff : ∀ v w : Option Val, Val.beqOpt v w = true ↔ v = w
  | none, w => by cases w <;> simp [Val.beqOpt]
  | some v, w => by cases w <;> simp [Val.beqOpt, Val.beq_iff v]
end

instance : DecidableEq Val := fun v w => decidable_of_iff _ (Val.beq_iff v w)

deriving instance DecidableEq for Except

/-- pyasn1 `NamedType`, `OptionalNamedType`, `DefaultedNamedType`. -/
inductive Kind where
  | mandatory
  | optional
  | default (d : Val)

mutual
/-- Schema classes. -/
inductive Ty where
  /-- data/builtin/BooleanType.py -/
  | boolean
  /-- data/builtin/IntegerType.py -/
  | integer (c : Constr)
  /-- data/builtin/EnumeratedType.py: `namedValues = enumerationRoot + extensionAddition`. -/
  | enumerated (ext : Bool) (root add : List (String × Int))
  /-- data/builtin/BitStringType.py (without named bits) -/
  | bitString (c : SizeC)
  /-- data/builtin/OctetStringType.py -/
  | octetString (c : SizeC)
  /-- data/builtin/SequenceOfType.py -/
  | seqOf (c : SizeC) (t : Ty)
  /-- data/builtin/ChoiceType.py: `componentType = rootComponent + extensionAddition + groups`. -/
  | choice (ext : Bool) (root add : Fields) (groups : Groups)
  /-- data/builtin/SequenceType.py: `componentType = rootComponent + extensionAddition + groups`. -/
  | sequence (ext : Bool) (root add : Fields) (groups : Groups)
/-- pyasn1 `NamedTypes`: component lists (component names are assumed distinct, as pyasn1 demands). -/
inductive Fields where
  | nil
  | cons (name : String) (k : Kind) (t : Ty) (rest : Fields)
/-- `extensionAdditionGroups`. -/
inductive Groups where
  | nil
  | cons (g : Fields) (rest : Groups)
end

/-- `len(namedTypes)`. -/
def Fields.length : Fields → Nat
  | .nil => 0
  | .cons _ _ _ r => r.length + 1

/-- Number of groups. -/
def Groups.length : Groups → Nat
  | .nil => 0
  | .cons _ r => r.length + 1

/-- Number of components in all groups. -/
def Groups.size : Groups → Nat
  | .nil => 0
  | .cons g r => g.length + r.size

/-- Component names in order. -/
def Fields.names : Fields → List String
  | .nil => []
  | .cons n _ _ r => n :: r.names

/-- Component names of all groups in order. -/
def Groups.names : Groups → List String
  | .nil => []
  | .cons g r => g.names ++ r.names

/-- `isOptional` of a NamedType. -/
def Kind.isOptional : Kind → Bool
  | .optional => true
  | _ => false

/-- `isDefaulted` of a NamedType. -/
def Kind.isDefaulted : Kind → Bool
  | .default _ => true
  | _ => false

/-- What `getComponentByName` finds for a component: its value, else its DEFAULT. -/
def effective (k : Kind) (c : Option Val) : Option Val :=
  match c with
  | some v => some v
  | none =>
    match k with
    | .default d => some d
    | _ => none

/-- The value an instantiated, never set component behaves as: an empty SEQUENCE OF, a SEQUENCE with
no component set; simple types and CHOICE have no value (using it raises). -/
def emptyVal : Ty → Option Val
  | .seqOf _ _ => some (.seqOf [])
  | .sequence _ r a g => some (.seq (List.replicate (r.length + a.length + g.size) none))
  | _ => none

mutual
/-- `isValue` of an object holding a value (pyasn1 `univ.py`, data/builtin/SequenceType.py:14-24).
A SEQUENCE OF without elements and a SEQUENCE without set components are valueless. -/
def isValue : Ty → Val → Bool
  | .boolean, _ => true
  | .integer _, _ => true
  | .enumerated _ _ _, _ => true
  | .bitString _, _ => true
  | .octetString _, _ => true
  | .seqOf _ t, .seqOf vs => !vs.isEmpty && vs.all (isValue t)
  | .seqOf _ _, _ => false
  | .choice _ r a g, .choice pos v =>
    if pos < r.length then isValueAlt r pos v
    else if pos < r.length + a.length then isValueAlt a (pos - r.length) v
    else isValueAltG g (pos - (r.length + a.length)) v
  | .choice _ _ _ _, _ => false
  | .sequence _ r a g, .seq comps =>
    comps.any Option.isSome &&
      ((mandatoryAll r comps && mandatoryAll a (comps.drop r.length) &&
          mandatoryAllG g (comps.drop (r.length + a.length))) ||
        (anyValue r comps || anyValue a (comps.drop r.length) ||
          anyValueG g (comps.drop (r.length + a.length))))
  | .sequence _ _ _ _, _ => false
/-- `isValue` of the selected alternative. -/
def isValueAlt : Fields → Nat → Val → Bool
  | .nil, _, _ => false
  | .cons _ _ t _, 0, v => isValue t v
  | .cons _ _ _ r, p + 1, v => isValueAlt r p v
def isValueAltG : Groups → Nat → Val → Bool
  | .nil, _, _ => false
  | .cons f g, p, v => if p < f.length then isValueAlt f p v else isValueAltG g (p - f.length) v
/-- pyasn1 `SequenceAndSetBase.isValue`: every component that is neither optional nor defaulted has
a value. -/
def mandatoryAll : Fields → List (Option Val) → Bool
  | .nil, _ => true
  | .cons _ k t r, cs =>
    (match k with
     | .mandatory => (match cs.head? with | some (some v) => isValue t v | _ => false)
     | _ => true) && mandatoryAll r cs.tail
def mandatoryAllG : Groups → List (Option Val) → Bool
  | .nil, _ => true
  | .cons f g, cs => mandatoryAll f cs && mandatoryAllG g (cs.drop f.length)
/-- data/builtin/SequenceType.py:21-23: some component has a value. -/
def anyValue : Fields → List (Option Val) → Bool
  | .nil, _ => false
  | .cons _ _ t r, cs =>
    (match cs.head? with | some (some v) => isValue t v | _ => false) || anyValue r cs.tail
def anyValueG : Groups → List (Option Val) → Bool
  | .nil, _ => false
  | .cons f g, cs => anyValue f cs || anyValueG g (cs.drop f.length)
end

/-- `IntegerType(z)`: the subtype constraint is checked on construction. -/
def mkInt (c : Constr) (z : Int) : Except Err Val :=
  if c.test z then .ok (.int z) else .error .constraint

/-- `BitStringType(bits)`. -/
def mkBits (c : SizeC) (b : Bits) : Except Err Val :=
  if c.test b.length then .ok (.bits b) else .error .constraint

/-- `OctetStringType(octets)`. -/
def mkOctets (c : SizeC) (o : List UInt8) : Except Err Val :=
  if c.test o.length then .ok (.octets o) else .error .constraint

/-- Position of a number in `namedValues`, i.e. `EnumeratedType(namedValues.getName(i))`: succeeds
exactly for numbers that have a name. -/
def mkEnum (named : List (String × Int)) (z : Int) : Except Err Val :=
  if named.any (fun p => p.2 == z) then .ok (.enum z) else .error .typeError

/-- Convenience for writing schemas. -/
def Fields.ofList : List (String × Kind × Ty) → Fields
  | [] => .nil
  | (n, k, t) :: r => .cons n k t (Fields.ofList r)

/-- Convenience for writing schemas. -/
def Groups.ofList : List (List (String × Kind × Ty)) → Groups
  | [] => .nil
  | g :: r => .cons (Fields.ofList g) (Groups.ofList r)

end Verif
