import Verif.Spec
import Verif.ToDict
/-!
# Specification vocabulary for `to_dict`
-/
namespace Verif.Spec

mutual
/-- The value is of the type; so are the DEFAULTs that take the place of unset components. -/
def typed : Ty → Val → Bool
  | .boolean, .bool _ => true
  | .integer _, .int _ => true
  | .enumerated _ root add, .enum z => (root ++ add).any (fun p => p.2 == z)
  | .bitString _, .bits _ => true
  | .octetString _, .octets _ => true
  | .seqOf _ t, .seqOf vs => vs.all (typed t)
  | .choice _ r a g, .choice pos v =>
    if pos < r.length then typedAlt r pos v
    else if pos < r.length + a.length then typedAlt a (pos - r.length) v
    else typedAltG g (pos - (r.length + a.length)) v
  | .sequence _ r a g, .seq cs =>
    typedFields r cs && typedFields a (cs.drop r.length) && typedGroups g (cs.drop (r.length + a.length))
  | _, _ => false
def typedAlt : Fields → Nat → Val → Bool
  | .nil, _, _ => false
  | .cons _ _ t _, 0, v => typed t v
  | .cons _ _ _ r, p + 1, v => typedAlt r p v
def typedAltG : Groups → Nat → Val → Bool
  | .nil, _, _ => false
  | .cons f g, p, v => if p < f.length then typedAlt f p v else typedAltG g (p - f.length) v
def typedFields : Fields → List (Option Val) → Bool
  | .nil, _ => true
  | .cons _ k t r, cs =>
    (match held k (cs.head?.getD none) with
     | some v => typed t v
     | none => match untouched t with | some v => typed t v | none => true) && typedFields r cs.tail
def typedGroups : Groups → List (Option Val) → Bool
  | .nil, _ => true
  | .cons f g, cs => typedFields f cs && typedGroups g (cs.drop f.length)
end

mutual
/-- The value holds something: a SEQUENCE needs a component that does (or a DEFAULT), a SEQUENCE OF an
element. -/
def filled : Ty → Val → Bool
  | .seqOf _ t, .seqOf vs => vs.any (filled t)
  | .sequence _ r a g, .seq cs =>
    filledAny r cs || filledAny a (cs.drop r.length) || filledAnyG g (cs.drop (r.length + a.length))
  | _, _ => true
def filledAny : Fields → List (Option Val) → Bool
  | .nil, _ => false
  | .cons _ k t r, cs =>
    (match held k (cs.head?.getD none) with
     | some v => filled t v
     | none => false) || filledAny r cs.tail
def filledAnyG : Groups → List (Option Val) → Bool
  | .nil, _ => false
  | .cons f g, cs => filledAny f cs || filledAnyG g (cs.drop f.length)
end

/-- The component carries a value or DEFAULT. -/
def filledComponent (k : Kind) (t : Ty) (c : Option Val) : Bool :=
  match held k c with
  | some v => filled t v
  | none => false

mutual
/-- Left out altogether, a component of this type leaves no trace: it is no CHOICE, and it is no SEQUENCE with
a DEFAULT (or a CHOICE) inside. -/
def traceless : Ty → Bool
  | .choice _ _ _ _ => false
  | .sequence _ r a g => tracelessF r && tracelessF a && tracelessG g
  | _ => true
def tracelessF : Fields → Bool
  | .nil => true
  | .cons _ k t r => !hasDefault k && traceless t && tracelessF r
def tracelessG : Groups → Bool
  | .nil => true
  | .cons f g => tracelessF f && tracelessG g
end

mutual
/-- Whatever is left out in the value is traceless. -/
def explicit : Ty → Val → Bool
  | .seqOf _ t, .seqOf vs => vs.all (explicit t)
  | .sequence _ r a g, .seq cs =>
    explicitFields r cs && explicitFields a (cs.drop r.length) && explicitGroups g (cs.drop (r.length + a.length))
  | _, _ => true
def explicitFields : Fields → List (Option Val) → Bool
  | .nil, _ => true
  | .cons _ k t r, cs =>
    (match held k (cs.head?.getD none) with
     | some v => explicit t v
     | none => traceless t) && explicitFields r cs.tail
def explicitGroups : Groups → List (Option Val) → Bool
  | .nil, _ => true
  | .cons f g, cs => explicitFields f cs && explicitGroups g (cs.drop f.length)
end

/-- What the dictionary of a SEQUENCE has to contain: one entry per component that carries a value, in
declaration order, under its name, holding the dictionary of that value. -/
inductive Entries : Fields → List (Option Val) → List (String × Dict) → Prop
  | nil {cs} : Entries .nil cs []
  | shown {n k t r cs v d es} : held k (cs.head?.getD none) = some v → filled t v = true →
      toDict t false v = .ok (some d) → Entries r cs.tail es → Entries (.cons n k t r) cs ((n, d) :: es)
  | hidden {n k t r cs es} : filledComponent k t (cs.head?.getD none) = false → Entries r cs.tail es →
      Entries (.cons n k t r) cs es

/-- An empty SEQUENCE OF, or a SEQUENCE with no component set. -/
def blank : Ty → Val → Bool
  | .seqOf _ _, .seqOf vs => vs.isEmpty
  | .sequence _ _ _ _, .seq cs => allNone cs
  | _, _ => false

/-- Every component is unset, or blank without a DEFAULT. -/
def blankAll : Fields → List (Option Val) → Bool
  | .nil, _ => true
  | .cons _ k t r, cs =>
    (match cs.head?.getD none with
     | some v => !hasDefault k && blank t v
     | none => true) && blankAll r cs.tail

mutual
/-- Every component that may be left out and is set counts as a value or is blank, and the chosen alternative of
a CHOICE is still a value when it arrives. -/
def tidy : Ty → Val → Bool
  | .seqOf _ t, .seqOf vs => vs.all (tidy t)
  | .choice _ r a g, .choice pos v =>
    if pos < r.length then tidyAlt r pos v
    else if pos < r.length + a.length then tidyAlt a (pos - r.length) v
    else tidyAltG g (pos - (r.length + a.length)) v
  | .sequence ext r a g, .seq cs =>
    tidyRoot r cs &&
      (if ext then tidyAdds a (cs.drop r.length) && tidyGroups g (cs.drop (r.length + a.length))
       else allNone (cs.drop r.length))
  | _, _ => true
def tidyAlt : Fields → Nat → Val → Bool
  | .nil, _, _ => true
  | .cons _ _ t _, 0, v => tidy t v && valued t v == valued t (received t v)
  | .cons _ _ _ r, p + 1, v => tidyAlt r p v
def tidyAltG : Groups → Nat → Val → Bool
  | .nil, _, _ => true
  | .cons f g, p, v => if p < f.length then tidyAlt f p v else tidyAltG g (p - f.length) v
def tidyRoot : Fields → List (Option Val) → Bool
  | .nil, _ => true
  | .cons _ k t r, cs =>
    (match cs.head?.getD none, k with
     | some v, .optional => tidy t v && (substantial t (some v) || blank t v)
     | some v, _ => tidy t v
     | none, .mandatory => (match untouched t with | some v => tidy t v | none => true)
     | none, _ => true) && tidyRoot r cs.tail
def tidyAdds : Fields → List (Option Val) → Bool
  | .nil, _ => true
  | .cons _ k t r, cs =>
    (match cs.head?.getD none, k with
     | some v, .default _ => tidy t v && substantial t (some v)
     | some v, _ => tidy t v && (substantial t (some v) || blank t v)
     | none, .default d => tidy t d
     | none, _ => true) && tidyAdds r cs.tail
def tidyGroups : Groups → List (Option Val) → Bool
  | .nil, _ => true
  | .cons f g, cs =>
    (if anySubstantial f cs then tidyRoot f cs else blankAll f cs) && tidyGroups g (cs.drop f.length)
end

mutual
/-- No dictionary at any depth has a key twice. -/
def uniqueKeys : Dict → Prop
  | .list l => uniqueKeysL l
  | .dict es => (es.map Prod.fst).Nodup ∧ uniqueKeysE es
  | _ => True
def uniqueKeysL : List Dict → Prop
  | [] => True
  | d :: ds => uniqueKeys d ∧ uniqueKeysL ds
def uniqueKeysE : List (String × Dict) → Prop
  | [] => True
  | (_, d) :: es => uniqueKeys d ∧ uniqueKeysE es
end

mutual
/-- The value with DEFAULTs written out: an unset component with a DEFAULT holds it. -/
def completed : Ty → Val → Val
  | .seqOf _ t, .seqOf vs => .seqOf (vs.map (completed t))
  | .choice _ r a g, .choice pos v =>
    .choice pos (if pos < r.length then completedAlt r pos v
      else if pos < r.length + a.length then completedAlt a (pos - r.length) v
      else completedAltG g (pos - (r.length + a.length)) v)
  | .sequence _ r a g, .seq cs =>
    .seq (completedFields r cs ++ completedFields a (cs.drop r.length) ++
      completedGroups g (cs.drop (r.length + a.length)))
  | _, v => v
def completedAlt : Fields → Nat → Val → Val
  | .nil, _, v => v
  | .cons _ _ t _, 0, v => completed t v
  | .cons _ _ _ r, p + 1, v => completedAlt r p v
def completedAltG : Groups → Nat → Val → Val
  | .nil, _, v => v
  | .cons f g, p, v => if p < f.length then completedAlt f p v else completedAltG g (p - f.length) v
def completedFields : Fields → List (Option Val) → List (Option Val)
  | .nil, _ => []
  | .cons _ k t r, cs => (held k (cs.head?.getD none)).map (completed t) :: completedFields r cs.tail
def completedGroups : Groups → List (Option Val) → List (Option Val)
  | .nil, _ => []
  | .cons f g, cs => completedFields f cs ++ completedGroups g (cs.drop f.length)
end

mutual
/-- The dictionary shows all there is: the type has one BIT STRING length, items and components have names of their own,
elements, alternatives and components that are there hold something, and what is left out leaves no trace. -/
def evident : Ty → Val → Bool
  | .enumerated _ root add, .enum z => decide ((root ++ add).map Prod.fst).Nodup && (root ++ add).any (fun p => p.2 == z)
  | .bitString c, .bits b => decide (c.lower = some b.length) && decide (c.upper = some b.length)
  | .seqOf _ t, .seqOf vs => vs.all fun v => evident t v && filled t v
  | .choice _ r a g, .choice pos v =>
    decide (r.names ++ a.names ++ g.names).Nodup &&
      (if pos < r.length then evidentAlt r pos v
       else if pos < r.length + a.length then evidentAlt a (pos - r.length) v
       else evidentAltG g (pos - (r.length + a.length)) v)
  | .sequence _ r a g, .seq cs =>
    decide (r.names ++ a.names ++ g.names).Nodup &&
      (evidentFields r cs && evidentFields a (cs.drop r.length) && evidentGroups g (cs.drop (r.length + a.length)))
  | _, _ => true
def evidentAlt : Fields → Nat → Val → Bool
  | .nil, _, _ => false
  | .cons _ _ t _, 0, v => evident t v && filled t v && valued t v
  | .cons _ _ _ r, p + 1, v => evidentAlt r p v
def evidentAltG : Groups → Nat → Val → Bool
  | .nil, _, _ => false
  | .cons f g, p, v => if p < f.length then evidentAlt f p v else evidentAltG g (p - f.length) v
def evidentFields : Fields → List (Option Val) → Bool
  | .nil, _ => true
  | .cons _ k t r, cs =>
    (match held k (cs.head?.getD none) with
     | some v => evident t v && filled t v
     | none => traceless t) && evidentFields r cs.tail
def evidentGroups : Groups → List (Option Val) → Bool
  | .nil, _ => true
  | .cons f g, cs => evidentFields f cs && evidentGroups g (cs.drop f.length)
end

end Verif.Spec
