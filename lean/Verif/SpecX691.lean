import Verif.Spec
/-!
# A reference for the ALIGNED variant of PER (X.691)

What the standard prescribes for the types the project supports, written down from the clauses of X.691 and
without any function of the encoder or decoder.  Encodings whose length needs fragmentation (16K and more) are
not described; `regular` below leaves them out, together with the cases in which the encoder is known to deviate.
-/
namespace Verif.X691

/-! ## writing bits -/

/-- What is written from a given bit position on (counted from the start of the complete encoding). -/
abbrev Writer := Nat → Bits

/-- A bit-field. -/
def bits (w : Bits) : Writer := fun _ => w

/-- An octet-aligned bit-field: zero bits up to the next octet boundary come first. -/
def aligned (w : Bits) : Writer := fun pos => List.replicate ((8 - pos % 8) % 8) false ++ w

/-- One thing behind the other. -/
def andThen (a b : Writer) : Writer := fun pos => a pos ++ b (pos + (a pos).length)

@[inherit_doc] infixr:60 " ▹ " => andThen

/-- Nothing. -/
def nothing : Writer := bits []

/-- 11.1: the complete encoding of a value is padded with zero bits to a whole number of octets; it has at least
one octet. -/
def complete (w : Writer) : Bits :=
  if w 0 = [] then List.replicate 8 false else w 0 ++ List.replicate ((8 - (w 0).length % 8) % 8) false

/-! ## whole numbers -/

/-- 11.3: a non-negative number in a field of the given width. -/
def bin : Nat → Nat → Bits
  | 0, _ => []
  | w + 1, n => bin w (n / 2) ++ [n % 2 == 1]

/-- The least number of octets (at least one) that can hold a non-negative number, 11.3.6. -/
def leastOctets (n : Nat) : Nat := n.log2 / 8 + 1

/-- The least number of octets that can hold a number in two's complement, 11.4.6. -/
def leastTwosOctets (z : Int) : Nat :=
  let m := if 0 ≤ z then z.toNat else (-z - 1).toNat
  (if m = 0 then 0 else m.log2 + 1) / 8 + 1

/-- 11.5.4 and 11.5.7.1-11.5.7.3: the `m`-th (from 0) of `range` numbers, `range` being at most 64K. -/
def short (range m : Nat) : Writer :=
  if range = 1 then nothing
  else if range ≤ 255 then bits (bin ((range - 1).log2 + 1) m)
  else if range = 256 then aligned (bin 8 m)
  else aligned (bin 16 m)

/-- 11.5.7.4 with 13.2.6 a: a number of a larger range is preceded by the number of its octets, which is
itself a constrained number from 1 to the octets the largest offset takes. -/
def constrained (lb ub n : Int) : Writer :=
  if ub - lb + 1 ≤ 65536 then short (ub - lb + 1).toNat (n - lb).toNat
  else
    short (leastOctets (ub - lb).toNat) (leastOctets (n - lb).toNat - 1) ▹
      aligned (bin (8 * leastOctets (n - lb).toNat) (n - lb).toNat)

/-- 11.9.3.6 and 11.9.3.7: a length that is not constrained, below 16K. -/
def lengthOf (n : Nat) : Writer :=
  if n < 128 then aligned (bin 8 n) else aligned ([true, false] ++ bin 14 n)

/-- 11.7: a number that has only a lower bound. -/
def semiConstrained (lb n : Int) : Writer :=
  lengthOf (leastOctets (n - lb).toNat) ▹ aligned (bin (8 * leastOctets (n - lb).toNat) (n - lb).toNat)

/-- 11.8 and 11.4: a number without bounds. -/
def unconstrained (n : Int) : Writer :=
  lengthOf (leastTwosOctets n) ▹
    aligned (bin (8 * leastTwosOctets n) (n % 2 ^ (8 * leastTwosOctets n)).toNat)

/-- 11.6: a normally small number. -/
def normallySmall (n : Nat) : Writer :=
  if n ≤ 63 then bits ([false] ++ bin 6 n) else bits [true] ▹ semiConstrained 0 n

/-- 11.9.3.4: a normally small length (never 0). -/
def normallySmallLength (n : Nat) : Writer :=
  if n ≤ 64 then bits ([false] ++ bin 6 (n - 1)) else bits [true] ▹ lengthOf n

/-- 11.9.4.1: a count between `lb` and `ub` is a constrained number if `ub` is below 64K. -/
def count (lb : Nat) (ub : Option Nat) (n : Nat) : Writer :=
  match ub with
  | some u => if u < 65536 then constrained lb u n else lengthOf n
  | none => lengthOf n

/-- 11.2: an open type is the length of a complete encoding in octets, and the encoding. -/
def openType (w : Writer) : Writer := lengthOf ((complete w).length / 8) ▹ aligned (complete w)

/-! ## simple types -/

/-- The value lies between the bounds. -/
def between (lb ub : Option Int) (n : Int) : Bool :=
  (match lb with | some l => decide (l ≤ n) | none => true) &&
  (match ub with | some u => decide (n ≤ u) | none => true)

/-- 13.2.2-13.2.6, no extension marker. -/
def integerRoot (lb ub : Option Int) (n : Int) : Writer :=
  match lb, ub with
  | some l, some u => constrained l u n
  | some l, none => semiConstrained l n
  | none, _ => unconstrained n

/-- Clause 13: INTEGER. -/
def integer (ext : Bool) (lb ub : Option Int) (n : Int) : Writer :=
  if ext then
    if between lb ub n then bits [false] ▹ integerRoot lb ub n else bits [true] ▹ unconstrained n
  else integerRoot lb ub n

/-- 14.1: the index of an item is the number of items with a smaller number. -/
def rank (items : List (String × Int)) (z : Int) : Nat := (items.filter fun p => p.2 < z).length

/-- Clause 14: ENUMERATED. -/
def enumerated (ext : Bool) (root add : List (String × Int)) (z : Int) : Writer :=
  if ext then
    if root.any (fun p => p.2 == z) then bits [false] ▹ constrained 0 (root.length - 1) (rank root z)
    else bits [true] ▹ normallySmall (rank add z)
  else constrained 0 ((root ++ add).length - 1) (rank (root ++ add) z)

/-- The count lies within the size constraint. -/
def sizeBetween (c : SizeC) (n : Nat) : Bool :=
  (match c.lower with | some l => decide (l ≤ n) | none => true) &&
  (match c.upper with | some u => decide (n ≤ u) | none => true)

/-- 16.9-16.11 and 17.6-17.8: strings of `n` bits or octets; those of a fixed size that take at most 16 bits are
neither aligned nor preceded by a length, those of another fixed size below 64K are aligned. -/
def stringRoot (c : SizeC) (n : Nat) (w : Bits) : Writer :=
  if c.lower = c.upper ∧ c.upper.any (· < 65536) then (if w.length ≤ 16 then bits w else aligned w)
  else count (c.lower.getD 0) c.upper n ▹ aligned w

/-- 16.6 and 17.3: the extension marker of a size constraint. -/
def string (c : SizeC) (n : Nat) (w : Bits) : Writer :=
  if c.ext then
    if sizeBetween c n then bits [false] ▹ stringRoot c n w else bits [true] ▹ lengthOf n ▹ aligned w
  else stringRoot c n w

/-- Clause 16: BIT STRING. -/
def bitString (c : SizeC) (b : Bits) : Writer := string c b.length b

/-- Clause 17: OCTET STRING. -/
def octetString (c : SizeC) (o : List UInt8) : Writer := string c o.length (o.flatMap fun x => bin 8 x.toNat)

/-- 20.5 and 20.6: the number of elements of a SEQUENCE OF. -/
def elementsRoot (c : SizeC) (n : Nat) : Writer :=
  if c.lower = c.upper ∧ c.upper.any (· < 65536) then nothing else count (c.lower.getD 0) c.upper n

/-- 20.4. -/
def elements (c : SizeC) (n : Nat) : Writer :=
  if c.ext then
    if sizeBetween c n then bits [false] ▹ elementsRoot c n else bits [true] ▹ lengthOf n
  else elementsRoot c n

/-! ## constructed types -/

/-- 19.5: a component is encoded if it is there and (simple types) differs from its DEFAULT. -/
def encoded : Kind → Option Val → Bool
  | .default d, some v => v != d
  | _, some _ => true
  | _, none => false

/-- 19.2: one bit for each OPTIONAL or DEFAULT component. -/
def preamble : Fields → List (Option Val) → Bits
  | .nil, _ => []
  | .cons _ .mandatory _ r, cs => preamble r cs.tail
  | .cons _ k _ r, cs => encoded k (cs.head?.getD none) :: preamble r cs.tail

/-- 19.7, 19.8: one bit for each extension addition. -/
def additionBits : Fields → List (Option Val) → Bits
  | .nil, _ => []
  | .cons _ k _ r, cs => encoded k (cs.head?.getD none) :: additionBits r cs.tail

/-- A group is there if one of its components is. -/
def groupBits : Groups → List (Option Val) → Bits
  | .nil, _ => []
  | .cons f g, cs => (additionBits f cs).any id :: groupBits g (cs.drop f.length)

/-- Clause 23: CHOICE; root alternatives, then additions and the alternatives of groups, are numbered in the
order of declaration (AUTOMATIC TAGS). -/
def choice (ext : Bool) (rootLength : Nat) (pos : Nat) (alternative : Writer) : Writer :=
  if pos < rootLength then
    (if ext then bits [false] else nothing) ▹ constrained 0 (rootLength - 1) pos ▹ alternative
  else bits [true] ▹ normallySmall (pos - rootLength) ▹ openType alternative

mutual
/-- The encoding of a value. -/
def value : Ty → Val → Writer
  | .boolean, .bool b => bits [b]
  | .integer c, .int z => integer c.ext c.lower c.upper z
  | .enumerated ext root add, .enum z => enumerated ext root add z
  | .bitString c, .bits b => bitString c b
  | .octetString c, .octets o => octetString c o
  | .seqOf c t, .seqOf vs => elements c vs.length ▹ (vs.map (value t)).foldr andThen nothing
  | .choice ext r a g, .choice pos v =>
    choice ext r.length pos
      (if pos < r.length then alternative r pos v
       else if pos < r.length + a.length then alternative a (pos - r.length) v
       else groupAlternative g (pos - (r.length + a.length)) v)
  | .sequence ext r a g, .seq cs =>
    if ext then
      let bitmap := additionBits a (cs.drop r.length) ++ groupBits g (cs.drop (r.length + a.length))
      if bitmap.any id then
        bits [true] ▹ bits (preamble r cs) ▹ components r cs ▹ normallySmallLength bitmap.length ▹ bits bitmap ▹
          additions a (cs.drop r.length) ▹ groups g (cs.drop (r.length + a.length))
      else bits [false] ▹ bits (preamble r cs) ▹ components r cs
    else bits (preamble r cs) ▹ components r cs
  | _, _ => nothing
def alternative : Fields → Nat → Val → Writer
  | .nil, _, _ => nothing
  | .cons _ _ t _, 0, v => value t v
  | .cons _ _ _ r, p + 1, v => alternative r p v
def groupAlternative : Groups → Nat → Val → Writer
  | .nil, _, _ => nothing
  | .cons f g, p, v => if p < f.length then alternative f p v else groupAlternative g (p - f.length) v
/-- 19.4: the components that are there, in order. -/
def components : Fields → List (Option Val) → Writer
  | .nil, _ => nothing
  | .cons _ k t r, cs =>
    (match cs.head?.getD none with
     | some v => if encoded k (some v) then value t v else nothing
     | none => nothing) ▹ components r cs.tail
/-- 19.9: each extension addition that is there is an open type. -/
def additions : Fields → List (Option Val) → Writer
  | .nil, _ => nothing
  | .cons _ k t r, cs =>
    (match cs.head?.getD none with
     | some v => if encoded k (some v) then openType (value t v) else nothing
     | none => nothing) ▹ additions r cs.tail
/-- 19.9: a group that is there is an open type holding a SEQUENCE of its components. -/
def groups : Groups → List (Option Val) → Writer
  | .nil, _ => nothing
  | .cons f g, cs =>
    (if (additionBits f cs).any id then openType (bits (preamble f cs) ▹ components f cs) else nothing) ▹
      groups g (cs.drop f.length)
end

/-- The message for a value. -/
def message (t : Ty) (v : Val) : Bits := complete (value t v)

/-! ## the values for which the encoder follows the standard

What `regular` leaves out: values outside their constraint, lengths of 16K and more, and the deviations of
DESIGN.md section 4 (numbers as there). -/

/-- F6: lengths of integers from 128 octets on. -/
def regularInt (c : Constr) (z : Int) : Bool :=
  Spec.plain c && c.test z &&
  match c.ext, c.lower, c.upper with
  | true, some l, some u => if l ≤ z ∧ z ≤ u then Spec.unsignedFits 65536 (u - l) else Spec.twosFits 127 z
  | true, _, _ => Spec.twosFits 127 z
  | false, some l, some u => Spec.unsignedFits 65536 (u - l)
  | false, some l, none => Spec.unsignedFits 16383 (z - l)
  | false, none, _ => Spec.twosFits 127 z

/-- F16: items are numbered 0, 1, 2, ... -/
def regularEnum (ext : Bool) (root add : List (String × Int)) (z : Int) : Bool :=
  (root ++ add).map (·.2) == (List.range (root ++ add).length).map Int.ofNat &&
  (root ++ add).any (fun p => p.2 == z) && Spec.unsignedFits 16383 (root ++ add).length

/-- Below 16K unless the size is fixed, or constrained below 64K; `empty` (F3, F8, F9): an empty string may only
occur where its size needs no field. -/
def regularString (c : SizeC) (n : Nat) : Bool :=
  c.test n &&
  (if sizeBetween c n then
     if c.lower = c.upper ∧ c.upper.isSome then c.upper.any (· < 65536)
     else c.upper.any (· < 65536) || decide (n ≤ 16383)
   else decide (n ≤ 16383))

def regularBits (c : SizeC) (b : Bits) : Bool :=
  regularString c b.length && (!b.isEmpty || (c.lower == some 0 && c.upper == some 0 && !c.ext))

/-- F18: sizes up to 64K and more. -/
def regularOctets (c : SizeC) (o : List UInt8) : Bool :=
  regularString c o.length && (!sizeBetween c o.length || c.upper.all (· < 65536)) &&
    (!o.isEmpty || (c.upper == none && !c.ext) || (c.lower == some 0 && c.upper == some 0 && !c.ext))

/-- F17, F18. -/
def regularCount (c : SizeC) (n : Nat) : Bool :=
  (if sizeBetween c n then
    (match c.upper with | some u => decide (u < 65536) | none => decide (n ≤ 16383))
   else c.ext && decide (n ≤ 16383))

mutual
def regular : Ty → Val → Bool
  | .boolean, .bool _ => true
  | .integer c, .int z => regularInt c z
  | .enumerated ext root add, .enum z => regularEnum ext root add z
  | .bitString c, .bits b => regularBits c b
  | .octetString c, .octets o => regularOctets c o
  | .seqOf c t, .seqOf vs => regularCount c vs.length && vs.all (regular t)
  | .choice ext r a g, .choice pos v =>
    if pos < r.length then Spec.unsignedFits 65536 r.length && regularAlt r pos v
    else
      ext && Spec.unsignedFits 16383 (pos - r.length : Nat) &&
      (if pos < r.length + a.length then regularOpenAlt a (pos - r.length) v
       else regularOpenAltG g (pos - (r.length + a.length)) v)
  | .sequence ext r a g, .seq cs =>
    regularRoot r cs &&
      (!ext || (regularAdds a (cs.drop r.length) && regularGroups g (cs.drop (r.length + a.length))))
  | _, _ => false
def regularAlt : Fields → Nat → Val → Bool
  | .nil, _, _ => false
  | .cons _ _ t _, 0, v => regular t v
  | .cons _ _ _ r, p + 1, v => regularAlt r p v
/-- F5: an open type of 16384 octets. -/
def regularOpenAlt : Fields → Nat → Val → Bool
  | .nil, _, _ => false
  | .cons _ _ t _, 0, v => regular t v && Spec.notOversize t v
  | .cons _ _ _ r, p + 1, v => regularOpenAlt r p v
def regularOpenAltG : Groups → Nat → Val → Bool
  | .nil, _, _ => false
  | .cons f g, p, v => if p < f.length then regularOpenAlt f p v else regularOpenAltG g (p - f.length) v
/-- F24: mandatory components are set; F15: OPTIONAL ones are absent or hold something; F13: BIT STRINGs
that differ from the DEFAULT only in their length. -/
def regularRoot : Fields → List (Option Val) → Bool
  | .nil, _ => true
  | .cons _ k t r, cs =>
    (match k, cs.head?.getD none with
     | .mandatory, some v => regular t v
     | .mandatory, none => false
     | .optional, some v => regular t v && Spec.substantial t (some v)
     | .optional, none => true
     | .default d, some v => v == d || (regular t v && !Spec.sameAsDefault d v)
     | .default _, none => true) && regularRoot r cs.tail
/-- F14: an addition with DEFAULT is set to something else; F15; F5. -/
def regularAdds : Fields → List (Option Val) → Bool
  | .nil, _ => true
  | .cons _ k t r, cs =>
    (match k, cs.head?.getD none with
     | .default _, none => false
     | _, none => true
     | k, some v => encoded k (some v) && regular t v && Spec.substantial t (some v) && Spec.notOversize t v) &&
      regularAdds r cs.tail
/-- A group is left out (and has no DEFAULTs, F14), or one of its components is there and holds something. -/
def regularGroups : Groups → List (Option Val) → Bool
  | .nil, _ => true
  | .cons f g, cs =>
    (Spec.unset f cs ||
      (regularRoot f cs && (additionBits f cs).any id && Spec.anySubstantial f cs &&
        Spec.notOversize (.sequence false f .nil .nil) (.seq cs))) &&
      regularGroups g (cs.drop f.length)
end

end Verif.X691
