import Verif.Decoder
/-!
# Specification vocabulary

Small predicates used to state the properties.  They speak about schemas and values only; none of the
encoder's or decoder's internal functions occurs here (`encode` itself is used once, to talk about the
size of the encoding of a component).
-/
namespace Verif.Spec

/-! ## component lists -/

/-- The component at a position. -/
def fieldAt : Fields → Nat → Option (String × Kind × Ty)
  | .nil, _ => none
  | .cons n k t _, 0 => some (n, k, t)
  | .cons _ _ _ r, i + 1 => fieldAt r i

/-- One component list behind another. -/
def appendFields : Fields → Fields → Fields
  | .nil, b => b
  | .cons n k t r, b => .cons n k t (appendFields r b)

/-- The components of all groups, one after the other. -/
def flatten : Groups → Fields
  | .nil => .nil
  | .cons f g => appendFields f (flatten g)

/-- All components of a SEQUENCE in declaration order. -/
def components (r a : Fields) (g : Groups) : Fields := appendFields r (appendFields a (flatten g))

/-- None of the components is mandatory. -/
def noMandatory : Fields → Bool
  | .nil => true
  | .cons _ .mandatory _ _ => false
  | .cons _ _ _ r => noMandatory r

/-- The component is OPTIONAL. -/
def isOpt : Kind → Bool
  | .optional => true
  | _ => false

/-- The component has a DEFAULT. -/
def hasDefault : Kind → Bool
  | .default _ => true
  | _ => false

/-! ## what objects hold -/

/-- What reading a component yields: what it was set to, else its DEFAULT. -/
def held : Kind → Option Val → Option Val
  | _, some v => some v
  | .default d, none => some d
  | .mandatory, none => none
  | .optional, none => none

/-- What an object that was created but never set is worth: SEQUENCE and SEQUENCE OF are empty, the other types
have no value. -/
def untouched : Ty → Option Val
  | .seqOf _ _ => some (.seqOf [])
  | .sequence _ r a g => some (.seq (List.replicate (components r a g).length none))
  | .boolean => none
  | .integer _ => none
  | .enumerated _ _ _ => none
  | .bitString _ => none
  | .octetString _ => none
  | .choice _ _ _ _ => none

mutual
/-- The object counts as a value.  Simple values do; a SEQUENCE OF if it has elements and all of them count; a CHOICE
if the chosen alternative counts; a SEQUENCE in which something is set if some component counts, or if it has
no mandatory components. -/
def valued : Ty → Val → Bool
  | .seqOf _ t, .seqOf vs => !vs.isEmpty && valuedAll t vs
  | .choice _ r a g, .choice pos v =>
    (match fieldAt (components r a g) pos with
     | some (_, _, t) => valued t v
     | none => false)
  | .sequence _ r a g, .seq cs =>
    cs.any Option.isSome && (valuedSome (components r a g) cs || noMandatory (components r a g))
  | .seqOf _ _, _ => false
  | .choice _ _ _ _, _ => false
  | .sequence _ _ _ _, _ => false
  | _, _ => true
def valuedAll : Ty → List Val → Bool
  | _, [] => true
  | t, v :: vs => valued t v && valuedAll t vs
def valuedSome : Fields → List (Option Val) → Bool
  | .cons _ _ t r, some v :: cs => valued t v || valuedSome r cs
  | .cons _ _ _ r, none :: cs => valuedSome r cs
  | _, _ => false
end

/-- The number a bit string denotes, most significant bit first. -/
def number : Bits → Nat
  | [] => 0
  | b :: s => (if b then 2 ^ s.length else 0) + number s

/-! ## which values the codec carries faithfully

Every clause below that goes beyond "the value satisfies its constraint" excludes a concrete defect or
limit of the code; the numbers refer to section 4 of DESIGN.md, and for each of them
`Props/Findings.lean` proves that the clause cannot be dropped. -/

mutual
/-- Extension markers make the constraint accept everything: its own, that of a member of a union, or those of
all members of an intersection. -/
def marked : Constr → Bool
  | .union e cs => e || markedAny cs
  | .inter e cs => e || markedAll cs
  | c => c.ext
/-- Some member accepts everything. -/
def markedAny : List Constr → Bool
  | [] => false
  | c :: cs => marked c || markedAny cs
/-- Every member accepts everything. -/
def markedAll : List Constr → Bool
  | [] => true
  | c :: cs => marked c && markedAll cs
end

/-- A constraint without an extension marker of its own does not get the effect of one from its members (F25). -/
def plain (c : Constr) : Bool := c.ext || !marked c

/-- Fits in `k` octets as two's complement. -/
def twosFits (k : Nat) (z : Int) : Bool := decide (-(2 ^ (8 * k - 1)) ≤ z) && decide (z < 2 ^ (8 * k - 1))

/-- Fits in `k` octets as an unsigned number. -/
def unsignedFits (k : Nat) (z : Int) : Bool := decide (z.toNat.log2 < 8 * k)

/-- INTEGER values that survive (F4, F6, F18 and, for sizes, F5). -/
def safeInt (c : Constr) (z : Int) : Bool :=
  plain c && c.test z &&
  match c.ext, c.lower, c.upper with
  | true, some l, some u =>
    if l ≤ z ∧ z ≤ u then (l != u || l == 0) && unsignedFits 65536 (u - l) else twosFits 255 z
  | true, some l, none => decide (z < l) && twosFits 255 z
  | true, none, _ => false
  | false, some l, some u => unsignedFits 65536 (u - l)
  | false, some l, none => unsignedFits 16383 (z - l)
  | false, none, _ => twosFits 255 z

/-- ENUMERATED values that survive (F16): the number is the position of the item. -/
def safeEnum (ext : Bool) (root add : List (String × Int)) (z : Int) : Bool :=
  if !ext then
    decide (0 ≤ z) && decide (z < (root ++ add).length) && decide ((root ++ add).length ≤ 65536) &&
      (root ++ add).any (fun p => p.2 == z)
  else if root.any (fun p => p.2 == z) then
    decide (0 ≤ z) && decide (z < root.length) && decide (root.length ≤ 65536)
  else
    match add.findIdx? (fun p => p.2 == z) with
    | none => false
    | some n => z == n + root.length && unsignedFits 16383 n

/-- Is the size inside the extension root; `none` when the code cannot tell (an endpoint is open). -/
def inRoot (c : SizeC) (n : Nat) : Option Bool :=
  match c.lower, c.upper with
  | some l, some u => some (decide (l ≤ n) && decide (n ≤ u))
  | some l, none => if n < l then some false else none
  | none, _ => none

/-- BIT STRING sizes inside the root (F5). -/
def safeBitsRoot (c : SizeC) (n : Nat) : Bool :=
  if c.lower ≠ none ∧ c.lower = c.upper then decide (n < 65536)
  else
    match c.upper with
    | some u => if u < 65536 then c.lower.isSome else decide (n ≤ 16383)
    | none => decide (n ≤ 16383)

/-- BIT STRING values that survive inside any message (F3, F5, F7). -/
def safeBits (c : SizeC) (b : Bits) : Bool :=
  c.test b.length &&
  if c.ext then
    !b.isEmpty &&
    match inRoot c b.length with
    | some true => safeBitsRoot c b.length
    | some false => decide (b.length ≤ 16383) && decide (b.length % 8 = 0)
    | none => false
  else c.upper == some 0 || (!b.isEmpty && safeBitsRoot c b.length)

/-- BIT STRING values that survive as messages of their own (F3, F5). -/
def safeBitsAlone (c : SizeC) (b : Bits) : Bool :=
  safeBits c b ||
    (c.ext && !b.isEmpty && inRoot c b.length == some false && decide (b.length ≤ 16383))

/-- OCTET STRING sizes and contents inside the root (F1, F2, F5, F8, F18). -/
def safeOctetsRoot (c : SizeC) (o : List UInt8) : Bool :=
  if c.lower ≠ none ∧ c.lower = c.upper then decide (o.length < 65536)
  else
    match c.lower, c.upper with
    | some l, some u => decide (u ≤ l + 65535) && (if o.isEmpty then decide (l + 255 ≤ u) else o.head?.any (fun x => decide (16 ≤ x.toNat)) || o == [0])
    | none, some _ => false
    | _, none => decide (1 ≤ o.length) && decide (o.length ≤ 16383)

/-- OCTET STRING values that survive inside any message (F1, F2, F5, F8, F9, F18). -/
def safeOctets (c : SizeC) (o : List UInt8) : Bool :=
  c.test o.length &&
  if c.ext then
    match inRoot c o.length with
    | some true => c.upper != some 0 && safeOctetsRoot c o
    | some false => decide (o.length ≤ 16383)
    | none => false
  else c.upper == some 0 || safeOctetsRoot c o

/-- OCTET STRING values that survive as messages of their own (F1, F2, F5, F18). -/
def safeOctetsAlone (c : SizeC) (o : List UInt8) : Bool :=
  safeOctets c o ||
    (o.isEmpty && match c.lower, c.upper with | some 0, some u => decide (u ≤ 65535) && (c.ext || u != 0) | _, _ => false)

/-- SEQUENCE OF lengths that survive (F4, F5, F17, F18). -/
def safeCount (c : SizeC) (n : Nat) : Bool :=
  if c.ext then
    match c.lower, c.upper, inRoot c n with
    | some l, some u, some true => (l != u || n == 0) && decide (u ≤ l + 65535)
    | _, _, some false => decide (n ≤ 16383)
    | _, _, _ => false
  else
    match c.lower, c.upper with
    | none, _ => false
    | some l, some u =>
      decide (l ≤ n) &&
      (if u = 0 then (if l = 0 then n == 0 else decide (n ≤ 16383))
       else decide (n ≤ u) && (if l = u then decide (u < 65536) else decide (u ≤ l + 65535)))
    | some l, none => decide (l ≤ n) && decide (n ≤ 16383)

/-- The encoding of a component is not exactly 16384 octets long (F5). -/
def notOversize (t : Ty) (v : Val) : Bool :=
  match encode t v with
  | .ok bs => bs.length != 16384
  | .error _ => true

/-! ### which components are sent -/

/-- Does the component hold anything: it is set, is a value, and is not an empty SEQUENCE (OF). -/
def substantial (t : Ty) (c : Option Val) : Bool :=
  match c with
  | some (.seqOf vs) => valued t (.seqOf vs) && !vs.isEmpty
  | some (.seq comps) => valued t (.seq comps) && comps.any Option.isSome
  | some v => valued t v
  | none => false

/-- Is the value the default, as far as the code can see (BIT STRINGs are compared as numbers, F13). -/
def sameAsDefault : Val → Val → Bool
  | .bits a, .bits b => number a == number b
  | a, b => a == b

/-- Some component of an extension addition group holds something (a DEFAULT counts). -/
def anySubstantial : Fields → List (Option Val) → Bool
  | .nil, _ => false
  | .cons _ k t r, cs => substantial t (held k (cs.head?.getD none)) || anySubstantial r cs.tail

/-- The value a root component is sent with; `none`: it is not sent.  OPTIONAL components are sent if they
hold something, DEFAULT ones if they are set to something else than the default, the others always. -/
def sent (k : Kind) (t : Ty) (c : Option Val) : Option Val :=
  match k, c with
  | .mandatory, some v => some v
  | .mandatory, none => untouched t
  | .optional, c => if substantial t c then c else none
  | .default _, none => none
  | .default d, some v => if sameAsDefault d v then none else some v

/-- Which simple values, and which numbers of elements of a SEQUENCE OF, count as carried. -/
structure Leaves where
  int : Constr → Int → Bool
  enum : Bool → List (String × Int) → List (String × Int) → Int → Bool
  bits : SizeC → Bits → Bool
  octets : SizeC → List UInt8 → Bool
  count : SizeC → Nat → Bool

mutual
/-- Every simple value that is sent is one of `L`, and no open type is oversized. -/
def survives (L : Leaves) : Ty → Val → Bool
  | .boolean, .bool _ => true
  | .integer c, .int z => L.int c z
  | .enumerated ext root add, .enum z => L.enum ext root add z
  | .bitString c, .bits b => L.bits c b
  | .octetString c, .octets o => L.octets c o
  | .seqOf c t, .seqOf vs => L.count c vs.length && vs.all (survives L t)
  | .choice ext r a g, .choice pos v =>
    if pos < r.length then unsignedFits 65536 r.length && survivesAlt L r pos v
    else
      ext && unsignedFits 16383 (pos - r.length : Nat) &&
      (if pos < r.length + a.length then survivesOpenAlt L a (pos - r.length) v
       else survivesOpenAltG L g (pos - (r.length + a.length)) v)
  | .sequence ext r a g, .seq comps =>
    survivesRoot L r comps &&
      (!ext || (survivesAdds L a (comps.drop r.length) && survivesGroups L g (comps.drop (r.length + a.length))))
  | _, _ => false
/-- The selected root alternative. -/
def survivesAlt (L : Leaves) : Fields → Nat → Val → Bool
  | .nil, _, _ => false
  | .cons _ _ t _, 0, v => survives L t v
  | .cons _ _ _ r, p + 1, v => survivesAlt L r p v
/-- The selected extension alternative, carried in an open type. -/
def survivesOpenAlt (L : Leaves) : Fields → Nat → Val → Bool
  | .nil, _, _ => false
  | .cons _ _ t _, 0, v => survives L t v && notOversize t v
  | .cons _ _ _ r, p + 1, v => survivesOpenAlt L r p v
def survivesOpenAltG (L : Leaves) : Groups → Nat → Val → Bool
  | .nil, _, _ => false
  | .cons f g, p, v => if p < f.length then survivesOpenAlt L f p v else survivesOpenAltG L g (p - f.length) v
/-- Root components that are sent. -/
def survivesRoot (L : Leaves) : Fields → List (Option Val) → Bool
  | .nil, _ => true
  | .cons _ k t r, cs =>
    (match sent k t (cs.head?.getD none) with
     | some v => survives L t v
     | none => true) && survivesRoot L r cs.tail
/-- Extension additions that are sent: those that are set, or have a DEFAULT, and hold something. -/
def survivesAdds (L : Leaves) : Fields → List (Option Val) → Bool
  | .nil, _ => true
  | .cons _ k t r, cs =>
    (match held k (cs.head?.getD none) with
     | some v => !substantial t (some v) || (survives L t v && notOversize t v)
     | none => true) && survivesAdds L r cs.tail
/-- Extension addition groups that are sent: some component holds something. -/
def survivesGroups (L : Leaves) : Groups → List (Option Val) → Bool
  | .nil, _ => true
  | .cons f g, cs =>
    (!anySubstantial f cs || (survivesRoot L f cs && notOversize (.sequence false f .nil .nil) (.seq cs))) &&
      survivesGroups L g (cs.drop f.length)
end

/-- The simple values the decoder reads back from any position. -/
def faithful : Leaves := ⟨safeInt, safeEnum, safeBits, safeOctets, safeCount⟩

/-- Values that survive inside any message, whatever precedes and follows them. -/
abbrev safe : Ty → Val → Bool := survives faithful
/-- The selected root alternative. -/
abbrev safeAlt : Fields → Nat → Val → Bool := survivesAlt faithful
/-- The selected extension alternative, carried in an open type. -/
abbrev safeOpenAlt : Fields → Nat → Val → Bool := survivesOpenAlt faithful
abbrev safeOpenAltG : Groups → Nat → Val → Bool := survivesOpenAltG faithful
/-- The root components. -/
abbrev safeRoot : Fields → List (Option Val) → Bool := survivesRoot faithful
/-- The extension additions. -/
abbrev safeAdds : Fields → List (Option Val) → Bool := survivesAdds faithful
/-- The extension addition groups. -/
abbrev safeGroups : Groups → List (Option Val) → Bool := survivesGroups faithful

/-! ### values that are still in what the encoder wrote

Some values do not come back only because the decoder misreads what was written correctly (F1, F2, F4, F7,
F8 and the additions of F16).  `legible` drops these exclusions from `safe`. -/

/-- INTEGER: without F4. -/
def legibleInt (c : Constr) (z : Int) : Bool :=
  plain c && c.test z &&
  match c.ext, c.lower, c.upper with
  | true, some l, some u => if l ≤ z ∧ z ≤ u then unsignedFits 65536 (u - l) else twosFits 255 z
  | true, some l, none => decide (z < l) && twosFits 255 z
  | true, none, _ => false
  | false, some l, some u => unsignedFits 65536 (u - l)
  | false, some l, none => unsignedFits 16383 (z - l)
  | false, none, _ => twosFits 255 z

/-- ENUMERATED: additions may have any number. -/
def legibleEnum (ext : Bool) (root add : List (String × Int)) (z : Int) : Bool :=
  if !ext || root.any (fun p => p.2 == z) then safeEnum ext root add z
  else
    match add.findIdx? (fun p => p.2 == z) with
    | none => false
    | some n => unsignedFits 16383 n

/-- BIT STRING: without F7. -/
def legibleBits (c : SizeC) (b : Bits) : Bool :=
  c.test b.length &&
  if c.ext then
    !b.isEmpty &&
    match inRoot c b.length with
    | some true => safeBitsRoot c b.length
    | some false => decide (b.length ≤ 16383)
    | none => false
  else c.upper == some 0 || (!b.isEmpty && safeBitsRoot c b.length)

/-- OCTET STRING sizes inside the root: any content. -/
def legibleOctetsRoot (c : SizeC) (n : Nat) : Bool :=
  if c.lower ≠ none ∧ c.lower = c.upper then decide (n < 65536)
  else
    match c.lower, c.upper with
    | some l, some u => decide (u ≤ l + 65535)
    | none, some _ => false
    | _, none => decide (n ≤ 16383)

/-- OCTET STRING: without F1, F2 and F8. -/
def legibleOctets (c : SizeC) (o : List UInt8) : Bool :=
  c.test o.length &&
  if c.ext then
    match inRoot c o.length with
    | some true => c.upper != some 0 && legibleOctetsRoot c o.length
    | some false => decide (o.length ≤ 16383)
    | none => false
  else c.upper == some 0 || legibleOctetsRoot c o.length

/-- SEQUENCE OF lengths: without F4. -/
def legibleCount (c : SizeC) (n : Nat) : Bool :=
  if c.ext then
    match c.lower, c.upper, inRoot c n with
    | some l, some u, some true => decide (u ≤ l + 65535)
    | _, _, some false => decide (n ≤ 16383)
    | _, _, _ => false
  else safeCount c n

/-- Values that can be told from what the encoder writes for them. -/
abbrev legible : Ty → Val → Bool :=
  survives ⟨legibleInt, legibleEnum, legibleBits, legibleOctets, legibleCount⟩

/-- No component of the group is set and none has a DEFAULT. -/
def unset : Fields → List (Option Val) → Bool
  | .nil, _ => true
  | .cons _ k _ r, cs => (held k (cs.head?.getD none)).isNone && unset r cs.tail

/-! ## what the receiver sees

`received t v` is the value the receiver is meant to obtain.  It differs from `v` only in the way
components are marked as absent:
* an OPTIONAL component that holds nothing (`substantial` below) is absent;
* a DEFAULT component that equals its default is absent (reading it gives the default);
* a mandatory SEQUENCE or SEQUENCE OF that was never touched arrives as an empty one;
* extension additions holding nothing are absent, those with a DEFAULT arrive explicitly;
* without extension marker no extension addition arrives. -/

/-- A root component; `recv` is what arrives for a value of its type. -/
def receivedComponent (recv : Val → Val) (k : Kind) (t : Ty) (c : Option Val) : Option Val :=
  match k, c with
  | .optional, c => if substantial t c then c.map recv else none
  | .default _, none => none
  | .default d, some v => if sameAsDefault d v then none else some (recv v)
  | .mandatory, some v => some (recv v)
  | .mandatory, none => (untouched t).map recv

mutual
def received : Ty → Val → Val
  | .seqOf _ t, .seqOf vs => .seqOf (vs.map (received t))
  | .choice _ r a g, .choice pos v =>
    .choice pos
      (if pos < r.length then receivedAlt r pos v
       else if pos < r.length + a.length then receivedAlt a (pos - r.length) v
       else receivedAltG g (pos - (r.length + a.length)) v)
  | .sequence ext r a g, .seq cs =>
    .seq (receivedRoot r cs ++
      (if ext then receivedAdds a (cs.drop r.length) ++ receivedGroups g (cs.drop (r.length + a.length))
       else List.replicate (a.length + g.size) none))
  | _, v => v
def receivedAlt : Fields → Nat → Val → Val
  | .nil, _, v => v
  | .cons _ _ t _, 0, v => received t v
  | .cons _ _ _ r, p + 1, v => receivedAlt r p v
def receivedAltG : Groups → Nat → Val → Val
  | .nil, _, v => v
  | .cons f g, p, v => if p < f.length then receivedAlt f p v else receivedAltG g (p - f.length) v
def receivedRoot : Fields → List (Option Val) → List (Option Val)
  | .nil, _ => []
  | .cons _ k t r, cs =>
    receivedComponent (received t) k t (cs.head?.getD none) :: receivedRoot r cs.tail
def receivedAdds : Fields → List (Option Val) → List (Option Val)
  | .nil, _ => []
  | .cons _ k t r, cs =>
    (if substantial t (held k (cs.head?.getD none)) then
       (held k (cs.head?.getD none)).map (received t) else none) :: receivedAdds r cs.tail
def receivedGroups : Groups → List (Option Val) → List (Option Val)
  | .nil, _ => []
  | .cons f g, cs =>
    (if anySubstantial f cs then receivedRoot f cs else List.replicate f.length none) ++
      receivedGroups g (cs.drop f.length)
end

/-! ## values of the right classes -/

mutual
/-- The value is an object of the type (whatever its constraints say): so are the components that are set, the
untouched ones and the DEFAULTs, and the chosen alternative exists. -/
def ofType : Ty → Val → Bool
  | .boolean, .bool _ => true
  | .integer _, .int _ => true
  | .enumerated _ _ _, .enum _ => true
  | .bitString _, .bits _ => true
  | .octetString _, .octets _ => true
  | .seqOf _ t, .seqOf vs => vs.all (ofType t)
  | .choice _ r a g, .choice pos v =>
    if pos < r.length then ofTypeAlt r pos v
    else if pos < r.length + a.length then ofTypeAlt a (pos - r.length) v
    else ofTypeAltG g (pos - (r.length + a.length)) v
  | .sequence _ r a g, .seq cs =>
    ofTypeFields r cs && ofTypeFields a (cs.drop r.length) && ofTypeGroups g (cs.drop (r.length + a.length))
  | _, _ => false
def ofTypeAlt : Fields → Nat → Val → Bool
  | .nil, _, _ => false
  | .cons _ _ t _, 0, v => ofType t v
  | .cons _ _ _ r, p + 1, v => ofTypeAlt r p v
def ofTypeAltG : Groups → Nat → Val → Bool
  | .nil, _, _ => false
  | .cons f g, p, v => if p < f.length then ofTypeAlt f p v else ofTypeAltG g (p - f.length) v
def ofTypeFields : Fields → List (Option Val) → Bool
  | .nil, _ => true
  | .cons _ k t r, cs =>
    (match k with | .default d => ofType t d | _ => true) &&
    (match cs.head?.getD none with
     | some v => ofType t v
     | none => (match untouched t with | some v => ofType t v | none => true)) && ofTypeFields r cs.tail
def ofTypeGroups : Groups → List (Option Val) → Bool
  | .nil, _ => true
  | .cons f g, cs => ofTypeFields f cs && ofTypeGroups g (cs.drop f.length)
end

/-! ## values that arrive unchanged -/

mutual
/-- The value holds something: some BOOLEAN, INTEGER, ... in it is set, and no list in it is empty. -/
def solid : Val → Bool
  | .seqOf vs => !vs.isEmpty && solidAll vs
  | .choice _ v => solid v
  | .seq cs => solidAny cs
  | _ => true
def solidAll : List Val → Bool
  | [] => true
  | v :: vs => solid v && solidAll vs
/-- Some component is set and holds something. -/
def solidAny : List (Option Val) → Bool
  | [] => false
  | none :: cs => solidAny cs
  | some v :: cs => solid v || solidAny cs
end

/-- No component is set. -/
def allNone (cs : List (Option Val)) : Bool := cs.all Option.isNone

mutual
/-- The value is of the type and in the form the receiver gets it: mandatory components are set,
OPTIONAL ones and extension additions that are set hold something, DEFAULT components that are set
differ from the default. -/
def canonical : Ty → Val → Bool
  | .boolean, .bool _ => true
  | .integer _, .int _ => true
  | .enumerated _ _ _, .enum _ => true
  | .bitString _, .bits _ => true
  | .octetString _, .octets _ => true
  | .seqOf _ t, .seqOf vs => vs.all (canonical t)
  | .choice _ r a g, .choice pos v =>
    if pos < r.length then canonicalAlt r pos v
    else if pos < r.length + a.length then canonicalAlt a (pos - r.length) v
    else canonicalAltG g (pos - (r.length + a.length)) v
  | .sequence ext r a g, .seq cs =>
    cs.length == r.length + a.length + g.size && canonicalRoot r cs &&
      (if ext then canonicalAdds a (cs.drop r.length) && canonicalGroups g (cs.drop (r.length + a.length))
       else allNone (cs.drop r.length))
  | _, _ => false
def canonicalAlt : Fields → Nat → Val → Bool
  | .nil, _, _ => false
  | .cons _ _ t _, 0, v => canonical t v
  | .cons _ _ _ r, p + 1, v => canonicalAlt r p v
def canonicalAltG : Groups → Nat → Val → Bool
  | .nil, _, _ => false
  | .cons f g, p, v => if p < f.length then canonicalAlt f p v else canonicalAltG g (p - f.length) v
def canonicalRoot : Fields → List (Option Val) → Bool
  | .nil, _ => true
  | .cons _ k t r, cs =>
    (match cs.head?.getD none, k with
     | none, .mandatory => false
     | none, _ => true
     | some v, .mandatory => canonical t v
     | some v, .optional => canonical t v && solid v
     | some v, .default d => canonical t v && !sameAsDefault d v) && canonicalRoot r cs.tail
def canonicalAdds : Fields → List (Option Val) → Bool
  | .nil, _ => true
  | .cons _ k t r, cs =>
    (match cs.head?.getD none with
     | none => !hasDefault k
     | some v => canonical t v && solid v) && canonicalAdds r cs.tail
def canonicalGroups : Groups → List (Option Val) → Bool
  | .nil, _ => true
  | .cons f g, cs =>
    (unset f cs ||
      (canonicalRoot f cs && (solidAny (cs.take f.length) || allNone (cs.take f.length)))) &&
      canonicalGroups g (cs.drop f.length)
end

/-! ## values the encoder accepts -/

/-- The component fits into an open type: it can be encoded in at most 16383 octets. -/
def fitsOpenType (t : Ty) (v : Val) : Bool :=
  match encode t v with
  | .ok bs => decide (bs.length ≤ 16383)
  | .error _ => false

/-- Number of OPTIONAL and DEFAULT components. -/
def optionals : Fields → Nat
  | .nil => 0
  | .cons _ .mandatory _ r => optionals r
  | .cons _ _ _ r => optionals r + 1

/-- No extension addition is given right after one that is neither given nor OPTIONAL (`open_`: the
previous addition leaves a gap). -/
def gapless (open_ : Bool) : Fields → List (Option Val) → Bool
  | .nil, _ => true
  | .cons _ k t r, cs =>
    let c := held k (cs.head?.getD none)
    !(open_ && c.any (valued t)) && gapless (!substantial t c && !isOpt k) r cs.tail

/-- A group may be left out only if one of its components is OPTIONAL, unless all later groups are
left out too. -/
def hasOptional : Fields → Bool
  | .nil => false
  | .cons _ k _ r => isOpt k || hasOptional r

/-- Values that can be compared with a DEFAULT: simple values of the same type. -/
def comparable : Val → Val → Bool
  | .bool _, .bool _ => true
  | .int _, .int _ => true
  | .enum _, .enum _ => true
  | .bits _, .bits _ => true
  | .octets _, .octets _ => true
  | _, _ => false

mutual
/-- Everything the encoder insists on besides the constraints of the simple types: mandatory
components are given, extension additions are given without gaps, the counts stay below the limits
of the implementation. -/
def sendable : Ty → Val → Bool
  | .seqOf _ t, .seqOf vs => vs.all (sendable t)
  | .choice ext r a g, .choice pos v =>
    if pos < r.length then sendableAlt r pos v
    else ext && (if pos < r.length + a.length then sendableOpenAlt a (pos - r.length) v
      else sendableOpenAltG g (pos - (r.length + a.length)) v)
  | .sequence ext r a g, .seq cs =>
    decide (optionals r < 65536) && sendableRoot r cs &&
    (!ext ||
      (decide (a.length + g.length ≤ 64) && gapless false a (cs.drop r.length) &&
       sendableAdds a (cs.drop r.length) && sendableGroups true g (cs.drop (r.length + a.length))))
  | _, _ => true
def sendableAlt : Fields → Nat → Val → Bool
  | .nil, _, _ => false
  | .cons _ _ t _, 0, v => sendable t v
  | .cons _ _ _ r, p + 1, v => sendableAlt r p v
def sendableOpenAlt : Fields → Nat → Val → Bool
  | .nil, _, _ => false
  | .cons _ _ t _, 0, v => sendable t v && fitsOpenType t v
  | .cons _ _ _ r, p + 1, v => sendableOpenAlt r p v
def sendableOpenAltG : Groups → Nat → Val → Bool
  | .nil, _, _ => false
  | .cons f g, p, v => if p < f.length then sendableOpenAlt f p v else sendableOpenAltG g (p - f.length) v
def sendableRoot : Fields → List (Option Val) → Bool
  | .nil, _ => true
  | .cons _ k t r, cs =>
    (match k with
     | .mandatory => (sent k t (cs.head?.getD none)).isSome
     | .optional => true
     | .default d => comparable d ((cs.head?.getD none).getD d)) &&
    (match sent k t (cs.head?.getD none) with
     | some v => sendable t v
     | none => true) && sendableRoot r cs.tail
def sendableAdds : Fields → List (Option Val) → Bool
  | .nil, _ => true
  | .cons _ k t r, cs =>
    (match held k (cs.head?.getD none) with
     | none => true
     | some v => !substantial t (some v) || (sendable t v && fitsOpenType t v)) && sendableAdds r cs.tail
/-- `may`: the previous group permits this one to be given. -/
def sendableGroups (may : Bool) : Groups → List (Option Val) → Bool
  | .nil, _ => true
  | .cons f g, cs =>
    gapless false f cs &&
    (!anySubstantial f cs ||
      (may && sendableRoot f cs && fitsOpenType (.sequence false f .nil .nil) (.seq cs))) &&
      sendableGroups (anySubstantial f cs || hasOptional f) g (cs.drop f.length)
end

/-! ## enumerations -/

/-- Items numbered 0, 1, 2, ... in order, root first. -/
def Numbered (root add : List (String × Int)) : Prop :=
  ∀ (i : Nat) (p : String × Int), (root ++ add)[i]? = some p → p.2 = (i : Int)

/-! ## what is sent of a SEQUENCE -/

/-- One bit per OPTIONAL or DEFAULT component, in order: is it sent? -/
def presence : Fields → List (Option Val) → Bits
  | .nil, _ => []
  | .cons _ .mandatory _ r, cs => presence r cs.tail
  | .cons _ k t r, cs => (sent k t (cs.head?.getD none)).isSome :: presence r cs.tail

/-- Number of OPTIONAL and DEFAULT components before a position. -/
def optionalsBefore : Fields → Nat → Nat
  | .nil, _ => 0
  | _, 0 => 0
  | .cons _ .mandatory _ r, i + 1 => optionalsBefore r i
  | .cons _ _ _ r, i + 1 => optionalsBefore r i + 1

/-- `parts` are the encodings of the components, one for each, in order: of a component that is sent, the
encoding of its value, and nothing of one that is not (which must not be a mandatory one). -/
inductive Parts : Fields → List (Option Val) → List (List BitField) → Prop
  | nil {cs} : Parts .nil cs []
  | given {n k t r cs v fl parts} : sent k t (cs.head?.getD none) = some v → encTy t v = .ok fl →
      Parts r cs.tail parts → Parts (.cons n k t r) cs (fl :: parts)
  | omitted {n k t r cs parts} : k ≠ .mandatory → sent k t (cs.head?.getD none) = none →
      Parts r cs.tail parts → Parts (.cons n k t r) cs ([] :: parts)

/-- The same value, up to the length of BIT STRINGs (F13). -/
def sameLength : Val → Val → Bool
  | .bits a, .bits b => a.length == b.length
  | _, _ => true

mutual
/-- A component of this type has to be given: leaving it untouched is an error. -/
def needsValue : Ty → Bool
  | .seqOf c _ => !c.ext && c.lower.any (0 < ·)
  | .sequence _ r _ _ => needsValueRoot r
  | _ => true
/-- Some mandatory component has to be given. -/
def needsValueRoot : Fields → Bool
  | .nil => false
  | .cons _ k t r => (match k with | .mandatory => needsValue t | _ => false) || needsValueRoot r
end

mutual
/-- Somewhere in what is sent, a mandatory component that has to be given is not. -/
def incomplete : Ty → Val → Bool
  | .seqOf _ t, .seqOf vs => vs.any (incomplete t)
  | .choice _ r a g, .choice pos v =>
    if pos < r.length then incompleteAlt r pos v
    else if pos < r.length + a.length then incompleteAlt a (pos - r.length) v
    else incompleteAltG g (pos - (r.length + a.length)) v
  | .sequence ext r a g, .seq cs =>
    incompleteRoot r cs ||
      (ext && (incompleteAdds a (cs.drop r.length) || incompleteGroups g (cs.drop (r.length + a.length))))
  | _, _ => false
def incompleteAlt : Fields → Nat → Val → Bool
  | .nil, _, _ => false
  | .cons _ _ t _, 0, v => incomplete t v
  | .cons _ _ _ r, p + 1, v => incompleteAlt r p v
def incompleteAltG : Groups → Nat → Val → Bool
  | .nil, _, _ => false
  | .cons f g, p, v => if p < f.length then incompleteAlt f p v else incompleteAltG g (p - f.length) v
def incompleteRoot : Fields → List (Option Val) → Bool
  | .nil, _ => false
  | .cons _ k t r, cs =>
    (match k, cs.head?.getD none with
     | .mandatory, none => needsValue t
     | .mandatory, some v => incomplete t v
     | .optional, some v => substantial t (some v) && incomplete t v
     | .default d, some v => !sameAsDefault d v && incomplete t v
     | _, none => false) || incompleteRoot r cs.tail
/-- An extension addition that is given but incomplete. -/
def incompleteAdds : Fields → List (Option Val) → Bool
  | .nil, _ => false
  | .cons _ k t r, cs =>
    (match held k (cs.head?.getD none) with
     | some v => substantial t (some v) && incomplete t v
     | none => false) || incompleteAdds r cs.tail
/-- An extension addition group that is given but incomplete. -/
def incompleteGroups : Groups → List (Option Val) → Bool
  | .nil, _ => false
  | .cons f g, cs => (anySubstantial f cs && incompleteRoot f cs) || incompleteGroups g (cs.drop f.length)
end

/-- The extension addition at a position is given: it is set, or has a DEFAULT, and holds something. -/
def given (a : Fields) (cs : List (Option Val)) (i : Nat) : Bool :=
  match fieldAt a i with
  | some (_, k, t) => substantial t (held k (cs[i]?.getD none))
  | none => false

/-- The extension addition at a position is OPTIONAL. -/
def optionalAt (a : Fields) (i : Nat) : Bool :=
  match fieldAt a i with
  | some (_, k, _) => isOpt k
  | none => false

/-- No component of any group is set and none has a DEFAULT. -/
def unsetGroups : Groups → List (Option Val) → Bool
  | .nil, _ => true
  | .cons f g, cs => unset f cs && unsetGroups g (cs.drop f.length)

/-- The addition group at a position, and the number of components in the groups before it. -/
def groupAt : Groups → Nat → Option (Fields × Nat)
  | .nil, _ => none
  | .cons f _, 0 => some (f, 0)
  | .cons f g, i + 1 => (groupAt g i).map fun p => (p.1, f.length + p.2)

/-! ## versions of a schema -/

/-- One list of groups behind another. -/
def appendGroups : Groups → Groups → Groups
  | .nil, b => b
  | .cons f g, b => .cons f (appendGroups g b)

/-- The extensions `(a', g')` of a newer version are those of the older version `(a, g)` and further ones
behind them (the encoding has all additions before all groups, so a schema that already has groups can get
further groups only). -/
inductive Newer : Fields → Groups → Fields → Groups → Prop
  | additions {a b g} : Newer a .nil (appendFields a b) g
  | groups {a g h} : Newer a g a (appendGroups g h)

/-- The first extension - addition, or group if there are no additions - is given. -/
def firstGiven : Fields → Groups → List (Option Val) → Bool
  | .cons _ k t _, _, cs => substantial t (held k (cs.head?.getD none))
  | .nil, .cons f _, cs => anySubstantial f cs
  | .nil, .nil, _ => false

/-- Some extension is given. -/
def anyGiven : Fields → Groups → List (Option Val) → Bool
  | .cons n k t r, g, cs => substantial t (held k (cs.head?.getD none)) || anyGiven r g cs.tail
  | .nil, .cons f g, cs => anySubstantial f cs || anyGiven .nil g (cs.drop f.length)
  | .nil, .nil, _ => false

/-! ## values of a schema -/

mutual
/-- The value has the shape of the schema and its simple values satisfy their constraints; every
mandatory component is there; without extension marker there are no extension additions.  `count` says
which lengths of a SEQUENCE OF are in order. -/
def hasShape (count : SizeC → Nat → Bool) : Ty → Val → Bool
  | .boolean, .bool _ => true
  | .integer c, .int z => c.test z
  | .enumerated _ root add, .enum z => (root ++ add).any (fun p => p.2 == z)
  | .bitString c, .bits b => c.test b.length
  | .octetString c, .octets o => c.test o.length
  | .seqOf c t, .seqOf vs => count c vs.length && vs.all (hasShape count t)
  | .choice ext r a g, .choice pos v =>
    if pos < r.length then hasShapeAlt count r pos v
    else ext && (if pos < r.length + a.length then hasShapeAlt count a (pos - r.length) v
      else hasShapeAltG count g (pos - (r.length + a.length)) v)
  | .sequence ext r a g, .seq cs =>
    cs.length == r.length + a.length + g.size && hasShapeRoot count r cs &&
      (if ext then hasShapeAdds count a (cs.drop r.length) &&
          hasShapeGroups count g (cs.drop (r.length + a.length))
       else allNone (cs.drop r.length))
  | _, _ => false
def hasShapeAlt (count : SizeC → Nat → Bool) : Fields → Nat → Val → Bool
  | .nil, _, _ => false
  | .cons _ _ t _, 0, v => hasShape count t v
  | .cons _ _ _ r, p + 1, v => hasShapeAlt count r p v
def hasShapeAltG (count : SizeC → Nat → Bool) : Groups → Nat → Val → Bool
  | .nil, _, _ => false
  | .cons f g, p, v => if p < f.length then hasShapeAlt count f p v else hasShapeAltG count g (p - f.length) v
def hasShapeRoot (count : SizeC → Nat → Bool) : Fields → List (Option Val) → Bool
  | .nil, _ => true
  | .cons _ k t r, cs =>
    (match cs.head?.getD none, k with
     | none, .mandatory => false
     | none, _ => true
     | some v, _ => hasShape count t v) && hasShapeRoot count r cs.tail
def hasShapeAdds (count : SizeC → Nat → Bool) : Fields → List (Option Val) → Bool
  | .nil, _ => true
  | .cons _ _ t r, cs =>
    (match cs.head?.getD none with
     | none => true
     | some v => hasShape count t v) && hasShapeAdds count r cs.tail
/-- A group is absent altogether or complete. -/
def hasShapeGroups (count : SizeC → Nat → Bool) : Groups → List (Option Val) → Bool
  | .nil, _ => true
  | .cons f g, cs =>
    (allNone (cs.take f.length) || hasShapeRoot count f cs) && hasShapeGroups count g (cs.drop f.length)
end

/-- The value conforms to the schema. -/
def conforms : Ty → Val → Bool := hasShape SizeC.test

/-- How many numbers fit into the field for a constrained whole number with `r` values. -/
def room (r : Nat) : Nat :=
  if r ≤ 1 then 1 else if r ≤ 255 then 2 ^ ((r - 1).log2 + 1) else if r ≤ 256 then 256 else 65536

/-- What is guaranteed about the length of a SEQUENCE OF that was received.  (It should be `c.test n`;
the decoder does not check that, F21.) -/
def countReceived (c : SizeC) (n : Nat) : Bool :=
  c.ext ||
  match c.lower, c.upper with
  | some l, some u =>
    if l = u ∧ u < 65536 then n == l
    else l == u || u == 0 || (decide (l ≤ n) && decide (n < l + room (u - l + 1)))
  | _, _ => true

/-- SIZE constraints which no received length can violate: extensible, of fixed size, with a number of
sizes that fills its field, or without bounds. -/
def tight (c : SizeC) : Bool :=
  c.ext ||
  match c.lower, c.upper with
  | some l, some u => (l == u && decide (u < 65536)) || (decide (l < u) && room (u - l + 1) == u - l + 1)
  | some l, none => l == 0
  | none, u => u.isNone

mutual
/-- Every SEQUENCE OF in the schema has a tight size. -/
def allTight : Ty → Bool
  | .seqOf c t => tight c && allTight t
  | .choice _ r a g => allTightF r && allTightF a && allTightG g
  | .sequence _ r a g => allTightF r && allTightF a && allTightG g
  | _ => true
def allTightF : Fields → Bool
  | .nil => true
  | .cons _ _ t r => allTight t && allTightF r
def allTightG : Groups → Bool
  | .nil => true
  | .cons f g => allTightF f && allTightG g
end

/-! ## constraints -/

/-- The value is allowed by the constraint: written down from X.680 rather than from the code.  An extension
marker allows everything. -/
inductive Allows : Constr → Int → Prop
  | unconstrained {z} : Allows .noConstraint z
  | marker {p z} : Allows (.extensionMarker p) z
  | extensible {c z} : c.ext = true → Allows c z
  | range {lo hi : Option Int} {e z} : (∀ l, lo = some l → l ≤ z) → (∀ u, hi = some u → z ≤ u) →
      Allows (.valueRange lo hi e) z
  | value {e vals z} : z ∈ vals → Allows (.singleValue e vals) z
  | either {e cs c z} : c ∈ cs → Allows c z → Allows (.union e cs) z
  | both {e cs z} : (∀ c ∈ cs, Allows c z) → Allows (.inter e cs) z

/-- The size is allowed by the SIZE constraint. -/
def SizeAllows (c : SizeC) (n : Nat) : Prop :=
  c.ext = true ∨ ((∀ l, c.lower = some l → l ≤ n) ∧ (∀ u, c.upper = some u → n ≤ u))

/-! ## positions and layout -/

/-- The octets as one bit string, most significant bit of each octet first. -/
def octetsToBits (bs : List UInt8) : Bits :=
  bs.flatMap fun b => (List.range 8).map fun i => decide (b.toNat / 2 ^ (7 - i) % 2 = 1)

/-- The next octet boundary at or behind bit `n`. -/
def roundUp8 (n : Nat) : Nat := (n + 7) / 8 * 8

/-- One read: so many bits, and whether to go to an octet boundary first. -/
structure Read where
  bits : Nat
  aligned : Bool

/-- Where a read starts. -/
def Read.start (r : Read) (n : Nat) : Nat := if r.aligned then roundUp8 n else n

/-- The position after a history of reads: one counter. -/
def counter (n : Nat) : List Read → Nat
  | [] => n
  | r :: rs => counter (r.start n + r.bits) rs

/-- The numbers a history of reads returns. -/
def readout (s : Bits) (n : Nat) : List Read → List Nat
  | [] => []
  | r :: rs => number ((s.drop (r.start n)).take r.bits) :: readout s (r.start n + r.bits) rs

/-- No read of the history that wants bits starts behind the end. -/
def startsInside (s : Bits) (n : Nat) : List Read → Bool
  | [] => true
  | r :: rs => (r.bits == 0 || decide (r.start n < s.length)) && startsInside s (r.start n + r.bits) rs

/-- `w` is the concatenation of the fields, each aligned one preceded by fewer than 8 zero bits that take
it to a multiple of 8 bits. -/
inductive Layout : List BitField → Bits → Prop
  | nil : Layout [] []
  | plain {fs w v} : Layout fs w → Layout (fs ++ [⟨false, v⟩]) (w ++ v)
  | aligned {fs w v k} : Layout fs w → k < 8 → (w.length + k) % 8 = 0 →
      Layout (fs ++ [⟨true, v⟩]) (w ++ List.replicate k false ++ v)

/-- A length determinant at the front of some bits (X.691 11.9.3.5-7): its size in bits and the number of
octets it announces. -/
def announced : Bits → Option (Nat × Nat)
  | false :: s => some (8, number (s.take 7))
  | true :: false :: s => some (16, number (s.take 14))
  | _ => none

/-! ## formats of X.691 clause 11 -/

/-- `k` is the least number of bits that hold `m`. -/
def LeastBits (k m : Nat) : Prop := m < 2 ^ k ∧ ∀ j, m < 2 ^ j → k ≤ j

/-- `k` is the least number of octets, at least one, that hold `m`. -/
def LeastOctets (k m : Nat) : Prop := 1 ≤ k ∧ m < 2 ^ (8 * k) ∧ ∀ j, 1 ≤ j → m < 2 ^ (8 * j) → k ≤ j

/-- The field for the number `m` out of `r` possible numbers (X.691 11.5.7.1-3); for more than 65536
possibilities only the contents are described. -/
structure FieldFor (r m : Nat) (f : BitField) : Prop where
  contents : number f.value = m
  single : r = 1 → f = ⟨false, []⟩
  bits : 2 ≤ r → r ≤ 255 → f.octetAlign = false ∧ LeastBits f.value.length (r - 1)
  octet : r = 256 → f.octetAlign = true ∧ f.value.length = 8
  twoOctets : 257 ≤ r → r ≤ 65536 → f.octetAlign = true ∧ f.value.length = 16

/-- The fields for a constrained whole number (X.691 11.5.7 and 13.2.6). -/
inductive WholeNumber (lb ub n : Int) : List BitField → Prop
  | short {f} : ub - lb + 1 ≤ 65536 → FieldFor (ub - lb + 1).toNat (n - lb).toNat f → WholeNumber lb ub n [f]
  | long {len f most octets} : 65536 < ub - lb + 1 →
      LeastOctets most (ub - lb).toNat → LeastOctets octets (n - lb).toNat →
      FieldFor most (octets - 1) len →
      f.octetAlign = true → f.value.length = 8 * octets → number f.value = (n - lb).toNat →
      WholeNumber lb ub n [len, f]

/-- The integer a bit string denotes as two's complement. -/
def twosValue (w : Bits) : Int := number w - (if w.head? = some true then 2 ^ w.length else 0)

/-! ## what a round trip is -/

/-- The reader stands at bit `n`, and `rest` is what is still to come. -/
structure ReaderAt (p : PerBytes) (n : Nat) (rest : Bits) : Prop where
  octets : p.offset.currOctets = n / 8
  bits : p.offset.currBits = n % 8
  rest : p.binaryString.drop n = rest

/-- Wherever in a message a value `v` is written, the reader standing there obtains `w` and stands
exactly behind it: `before` are the bits written so far, `rest` the bits that follow.  (`appendField`
is the encoder's own loop body, encoder.py:42-49.) -/
def Carries (t : Ty) (v w : Val) : Prop :=
  ∃ fs, encTy t v = .ok fs ∧
    ∀ (before rest : Bits) (p : PerBytes),
      ReaderAt p before.length ((fs.foldl appendField before).drop before.length ++ rest) →
      ∃ p', decTy t p = .ok (w, p') ∧ ReaderAt p' (fs.foldl appendField before).length rest

/-- There is something chosen: not a CHOICE (or CHOICE of a CHOICE ...) of an empty BIT STRING.  As a message of its own such
a value is not returned (F87). -/
def nothing : Val → Bool
  | .bits b => b.isEmpty
  | .choice _ v => nothing v
  | _ => false
def returnable : Val → Bool
  | .choice _ v => !nothing v
  | _ => true

/-- `decode(encode(v) + extra) == w` whatever follows the encoding. -/
def RoundTrips (t : Ty) (v w : Val) : Prop :=
  ∃ bs, encode t v = .ok bs ∧ ∀ extra, decode t (bs ++ extra) = .ok w

end Verif.Spec
