import Verif.Spec
/-!
# What encode takes

Vocabulary of C60: the values for which `encode` returns octets, read off from their types.
-/
namespace Verif.Spec

open Verif

/-- A number that is counted from the lower end of a range: nothing is written if there is one number only, and otherwise
nothing but the lower end matters. -/
def takesRange (l u z : Int) : Bool := l == u || (decide (l < u) && decide (l ≤ z))

/-- INTEGER.  With an extension marker the lower end must be there, and the upper one as well if the number is not below the
lower one. -/
def takesInt (c : Constr) (z : Int) : Bool :=
  match c.lower, c.upper with
  | none, _ => !c.ext
  | some l, none => if c.ext then decide (z < l) else decide (l ≤ z) && unsignedFits 16384 (z - l)
  | some l, some u => c.ext || takesRange l u z

/-- ENUMERATED: the number of the item is counted among all items, those of the root, or (by position) those after the marker. -/
def takesEnum (ext : Bool) (root add : List (String × Int)) (z : Int) : Bool :=
  if !ext then takesRange 0 (((root ++ add).length : Int) - 1) z
  else if (root.map (·.2)).contains z then takesRange 0 ((root.length : Int) - 1) z
  else (add.map (·.2)).contains z && unsignedFits 16384 ((add.map (·.2)).idxOf z : Nat)

/-- A length without limits: fragmentation is not supported. -/
def takesLength (n : Nat) : Bool := decide (n ≤ 16384)

/-- The length `n` of a string within its SIZE; `wide`: a SIZE up to 64K or more counts as none. -/
def takesSizeRoot (wide : Bool) (c : SizeC) (n : Nat) : Bool :=
  if c.upper = some 0 then true
  else if c.lower ≠ none ∧ c.lower = c.upper then decide (n < 65536)
  else match c.upper with
    | none => takesLength n
    | some u =>
      if wide ∧ 65536 ≤ u then takesLength n
      else match c.lower with
        | none => false
        | some l => takesRange l u n

/-- The length `n` of a string. -/
def takesSize (wide : Bool) (c : SizeC) (n : Nat) : Bool :=
  if !c.ext then takesSizeRoot wide c n
  else match c.lower, c.upper with
    | none, _ => false
    | some l, none => decide (n < l) && takesLength n
    | some l, some u => if l ≤ n ∧ n ≤ u then takesSizeRoot wide c n else takesLength n

/-- BIT STRING: no bits count as one. -/
def takesBits (c : SizeC) (b : Bits) : Bool := takesSize true c (max 1 b.length)
def takesOctets (c : SizeC) (o : List UInt8) : Bool := takesSize false c o.length

/-- The number of elements of a SEQUENCE OF. -/
def takesCount (c : SizeC) (n : Nat) : Bool :=
  match c.lower, c.upper with
  | none, _ => false
  | some l, none => if c.ext then decide (n < l) && takesLength n else decide (l ≤ n) && takesLength n
  | some l, some u =>
    if c.ext then decide (l ≤ n ∧ n ≤ u) || takesLength n
    else decide (l ≤ n) && (if u = 0 then l == 0 || takesLength n else decide (n ≤ u))

/-- The encoding of the value on its own has a length that can be written. -/
def short (t : Ty) (v : Val) : Bool :=
  match encode t v with
  | .ok bs => takesLength bs.length
  | .error _ => false

/-- Some group is present. -/
def anyGroup : Groups → List (Option Val) → Bool
  | .nil, _ => false
  | .cons f g, cs => anySubstantial f cs || anyGroup g (cs.drop f.length)

mutual
/-- The values that encode takes.
* SEQUENCE OF: all elements and their number.
* CHOICE: the alternative; one after the marker, if there is one, must be short, and its position fit.
* SEQUENCE: what is sent of the root, less than 64K presence bits; if there is a marker: additions and groups that are present
  are short and leave no gap, and if any is, there are at most 64 of them. -/
def encodable : Ty → Val → Bool
  | .boolean, .bool _ => true
  | .integer c, .int z => takesInt c z
  | .enumerated ext root add, .enum z => takesEnum ext root add z
  | .bitString c, .bits b => takesBits c b
  | .octetString c, .octets o => takesOctets c o
  | .seqOf c t, .seqOf vs => vs.all (encodable t) && takesCount c vs.length
  | .choice ext r a g, .choice pos v =>
    if pos < r.length then encodableAlt false r pos v
    else (!ext || unsignedFits 16384 (pos - r.length : Nat)) &&
      (if pos < r.length + a.length then encodableAlt ext a (pos - r.length) v
       else encodableAltG ext g (pos - (r.length + a.length)) v)
  | .sequence ext r a g, .seq cs =>
    encodableRoot r cs && decide (optionals r < 65536) &&
    (!ext ||
      (encodableAdds a (cs.drop r.length) && gapless false a (cs.drop r.length) &&
       encodableGroups true g (cs.drop (r.length + a.length)) &&
       (decide (a.length + g.length ≤ 64) ||
         !(anySubstantial a (cs.drop r.length) || anyGroup g (cs.drop (r.length + a.length))))))
  | _, _ => false
/-- `open_`: the alternative is written as an open type. -/
def encodableAlt (open_ : Bool) : Fields → Nat → Val → Bool
  | .nil, _, _ => false
  | .cons _ _ t _, 0, v => encodable t v && (!open_ || short t v)
  | .cons _ _ _ r, p + 1, v => encodableAlt open_ r p v
def encodableAltG (open_ : Bool) : Groups → Nat → Val → Bool
  | .nil, _, _ => false
  | .cons f g, p, v => if p < f.length then encodableAlt open_ f p v else encodableAltG open_ g (p - f.length) v
/-- Mandatory components are given (or a SEQUENCE or SEQUENCE OF), what is given for a DEFAULT one can be compared with it, and
what is sent is taken. -/
def encodableRoot : Fields → List (Option Val) → Bool
  | .nil, _ => true
  | .cons _ k t r, cs =>
    (match k with
     | .mandatory => (sent k t (cs.head?.getD none)).isSome
     | .optional => true
     | .default d => comparable d ((cs.head?.getD none).getD d)) &&
    (match sent k t (cs.head?.getD none) with
     | some v => encodable t v
     | none => true) && encodableRoot r cs.tail
def encodableAdds : Fields → List (Option Val) → Bool
  | .nil, _ => true
  | .cons _ k t r, cs =>
    (match held k (cs.head?.getD none) with
     | some v => !substantial t (some v) || (encodable t v && short t v)
     | none => true) && encodableAdds r cs.tail
/-- `may`: something of the previous group is present, or OPTIONAL. -/
def encodableGroups (may : Bool) : Groups → List (Option Val) → Bool
  | .nil, _ => true
  | .cons f g, cs =>
    gapless false f cs &&
    (!anySubstantial f cs ||
      (may && encodableRoot f cs && decide (optionals f < 65536) && short (.sequence false f .nil .nil) (.seq cs))) &&
      encodableGroups (anySubstantial f cs || hasOptional f) g (cs.drop f.length)
end

/-! ## reasons to refuse -/

/-- The exceptions with which a value is refused: what is not implemented, additions that are given although a mandatory one
before them is not; unless `counts`, wrong numbers of elements of a SEQUENCE OF; unless `complete`, mandatory components
that are not given. -/
def refusal (counts complete : Bool) : Err → Bool
  | .notImplemented => true
  | .mandatoryExtensionFieldNotPresent => true
  | .mandatoryFieldNotPresentInGroup => true
  | .sizeConstrainViolated => !counts
  | .invalidComponentIndex => !counts
  | .noValue => !complete
  | _ => false

/-- INTEGER: the number satisfies the constraint; no member of the constraint is extensible on its own; an extensible one has
both ends. -/
def fairInt (c : Constr) (z : Int) : Bool := plain c && c.test z && (!c.ext || (c.lower.isSome && c.upper.isSome))

/-- ENUMERATED: one of the items, whose numbers are not negative. -/
def fairEnum (root add : List (String × Int)) (z : Int) : Bool :=
  (root ++ add).any (fun p => p.2 == z) && (root ++ add).all (fun p => decide (0 ≤ p.2))

/-- BIT STRING and OCTET STRING: the length satisfies the SIZE; an extensible one has both ends, and one with an upper end
also has a lower one. -/
def fairSize (c : SizeC) (n : Nat) : Bool :=
  c.test n && (c.lower.isSome || (!c.ext && c.upper.isNone)) && (!c.ext || c.upper.isSome)

/-- SEQUENCE OF: there is a lower end, and an upper one if extensible; if `counts`, the number of elements satisfies the SIZE. -/
def fairCount (counts : Bool) (c : SizeC) (n : Nat) : Bool :=
  (!counts || c.test n) && c.lower.isSome && (!c.ext || c.upper.isSome)

mutual
/-- Objects of the type that satisfy the constraints of the simple types, in as far as they are sent.  Ranges have the ends that
are used, components with DEFAULT are of simple types, and no pair of version brackets is empty. -/
def fair (counts complete : Bool) : Ty → Val → Bool
  | .boolean, .bool _ => true
  | .integer c, .int z => fairInt c z
  | .enumerated _ root add, .enum z => fairEnum root add z
  | .bitString c, .bits b => fairSize c b.length
  | .octetString c, .octets o => fairSize c o.length
  | .seqOf c t, .seqOf vs => vs.all (fair counts complete t) && fairCount counts c vs.length
  | .choice _ r a g, .choice pos v =>
    if pos < r.length then fairAlt counts complete r pos v
    else if pos < r.length + a.length then fairAlt counts complete a (pos - r.length) v
    else fairAltG counts complete g (pos - (r.length + a.length)) v
  | .sequence ext r a g, .seq cs =>
    fairRoot counts complete r cs &&
    (!ext || (fairAdds counts complete a (cs.drop r.length) && fairGroups counts complete g (cs.drop (r.length + a.length))))
  | _, _ => false
def fairAlt (counts complete : Bool) : Fields → Nat → Val → Bool
  | .nil, _, _ => false
  | .cons _ _ t _, 0, v => fair counts complete t v
  | .cons _ _ _ r, p + 1, v => fairAlt counts complete r p v
def fairAltG (counts complete : Bool) : Groups → Nat → Val → Bool
  | .nil, _, _ => false
  | .cons f g, p, v =>
    if p < f.length then fairAlt counts complete f p v else fairAltG counts complete g (p - f.length) v
def fairRoot (counts complete : Bool) : Fields → List (Option Val) → Bool
  | .nil, _ => true
  | .cons _ k t r, cs =>
    (match k with
     | .mandatory => !complete || (sent k t (cs.head?.getD none)).isSome
     | .optional => true
     | .default d => comparable d ((cs.head?.getD none).getD d)) &&
    (match sent k t (cs.head?.getD none) with
     | some v => fair counts complete t v
     | none => true) && fairRoot counts complete r cs.tail
def fairAdds (counts complete : Bool) : Fields → List (Option Val) → Bool
  | .nil, _ => true
  | .cons _ k t r, cs =>
    (match held k (cs.head?.getD none) with
     | some v => !substantial t (some v) || fair counts complete t v
     | none => true) && fairAdds counts complete r cs.tail
def fairGroups (counts complete : Bool) : Groups → List (Option Val) → Bool
  | .nil, _ => true
  | .cons f g, cs =>
    f.length != 0 && (!anySubstantial f cs || fairRoot counts complete f cs) && fairGroups counts complete g (cs.drop f.length)
end

end Verif.Spec
