import Verif.Spec
/-!
# How long a message can be

Vocabulary of C61: bounds for the bits of an encoding, from the value and its type (`extent`), and from the type alone
(`largest`).  Nothing of the encoder is used.
-/
namespace Verif.Spec

open Verif

/-- Binary digits of a number. -/
def digits (n : Nat) : Nat := n.log2 + 1

/-- Octets of a number. -/
def octetsOf (n : Nat) : Nat := n.log2 / 8 + 1

/-- Octets of a number in two's complement. -/
def twosOctetsOf (z : Int) : Nat :=
  let m := if 0 ≤ z then z.toNat else (-z - 1).toNat
  (if m = 0 then 0 else digits m) / 8 + 1

/-- The field for a number between `l` and `u`: none for a single number, less than an octet up to 255 numbers, one or two
octets up to 64K numbers, and otherwise as many as the number takes.  Those of whole octets can be preceded by 7 bits of
padding.  A number above `u` takes more. -/
def fieldBits (l u z : Int) : Nat :=
  if l = u then 0
  else if u - l < 255 then max (digits (u - l).toNat) (digits (z - l).toNat)
  else if u - l = 255 then 7 + max 8 (digits (z - l).toNat)
  else if u - l < 65536 then 7 + max 16 (digits (z - l).toNat)
  else 7 + 8 * octetsOf (z - l).toNat

/-- With more than 64K numbers the octets are counted first. -/
def rangeBits (l u z : Int) : Nat :=
  if u - l < 65536 then fieldBits l u z
  else fieldBits 1 (octetsOf (u - l).toNat) (octetsOf (z - l).toNat) + fieldBits l u z

/-- A length without limits. -/
def lengthBits (n : Nat) : Nat := 7 + (if n ≤ 127 then 8 else if n ≤ 16383 then 16 else 17)

/-- A length without limits and the `w` bits that it counts (in octets or bits). -/
def countedBits (n w : Nat) : Nat := 7 + (if n ≤ 127 then 8 else if n ≤ 16383 then 16 else 24) + w

/-- A number without limits; its length has one octet or more. -/
def twosBits (z : Int) : Nat := 7 + max 8 (digits (twosOctetsOf z)) + 8 * twosOctetsOf z

/-- A number that is normally small. -/
def smallBits (n : Nat) : Nat :=
  if n ≤ 63 then 7 else 1 + countedBits (octetsOf n) (8 * octetsOf n)

/-- The extension bit. -/
def markBits (ext : Bool) : Nat := if ext then 1 else 0

/-- INTEGER. -/
def intBits (c : Constr) (z : Int) : Nat :=
  markBits c.ext +
  match c.lower, c.upper with
  | some l, some u => if c.ext && !(decide (l ≤ z) && decide (z ≤ u)) then twosBits z else rangeBits l u z
  | some l, none => if c.ext then twosBits z else countedBits (octetsOf (z - l).toNat) (8 * octetsOf (z - l).toNat)
  | none, _ => twosBits z

/-- ENUMERATED. -/
def enumBits (ext : Bool) (root add : List (String × Int)) (z : Int) : Nat :=
  markBits ext +
  if !ext then rangeBits 0 (((root ++ add).length : Int) - 1) z
  else if (root.map (·.2)).contains z then rangeBits 0 ((root.length : Int) - 1) z
  else smallBits ((add.map (·.2)).idxOf z)

/-- The number `n` of bits, octets or elements is written as a length without limits; `wide`: a SIZE up to 64K or more
counts as none. -/
def unlimited (wide : Bool) (c : SizeC) (l u n : Nat) : Bool :=
  (c.ext && !(decide (l ≤ n) && decide (n ≤ u))) || decide (u < l) || (wide && decide (65536 ≤ u) && decide (l < u))

/-- The number `n` of elements. -/
def countBits (c : SizeC) (n : Nat) : Nat :=
  match c.lower, c.upper with
  | some l, some u => if unlimited false c l u n then lengthBits n else fieldBits l u n
  | _, _ => lengthBits n

/-- A string of `n` bits or octets, `w` bits in all.  One of a fixed size up to 16 bits is not padded, and one that follows a
number of whole octets neither. -/
def stringBits (wide : Bool) (c : SizeC) (n w : Nat) : Nat :=
  markBits c.ext +
  match c.lower, c.upper with
  | some l, some u =>
    if unlimited wide c l u n then countedBits n w
    else if l = u then (if w ≤ 16 then w else 7 + w)
    else fieldBits l u n + (if u - l < 255 ∨ u < n then 7 + w else w)
  | _, _ => countedBits n w

/-- Octets that hold some bits: at least one. -/
def octetsFor (w : Nat) : Nat := max 1 ((w + 7) / 8)

/-- An open type: its length in octets, and its octets. -/
def openBits (w : Nat) : Nat := countedBits (octetsFor w) (8 * octetsFor w)

/-- Sum over a list. -/
def total : List Nat → Nat
  | [] => 0
  | n :: ns => n + total ns

mutual
/-- At most as many bits are written for the value. -/
def extent : Ty → Val → Nat
  | .boolean, .bool _ => 1
  | .integer c, .int z => intBits c z
  | .enumerated ext root add, .enum z => enumBits ext root add z
  | .bitString c, .bits b => stringBits true c (max 1 b.length) (max 1 b.length)
  | .octetString c, .octets o => stringBits false c o.length (8 * o.length)
  | .seqOf c t, .seqOf vs => markBits c.ext + countBits c vs.length + total (vs.map (extent t))
  | .choice ext r a g, .choice pos v =>
    markBits ext +
    if pos < r.length then rangeBits 0 ((r.length : Int) - 1) pos + extentAlt r pos v
    else smallBits (pos - r.length) +
      openBits (if pos < r.length + a.length then extentAlt a (pos - r.length) v
        else extentAltG g (pos - (r.length + a.length)) v)
  | .sequence ext r a g, .seq cs =>
    markBits ext + (optionals r + extentRoot r cs) +
    if ext then
      7 + (a.length + g.length) + extentAdds a (cs.drop r.length) + extentGroups g (cs.drop (r.length + a.length))
    else 0
  | _, _ => 0
def extentAlt : Fields → Nat → Val → Nat
  | .nil, _, _ => 0
  | .cons _ _ t _, 0, v => extent t v
  | .cons _ _ _ r, p + 1, v => extentAlt r p v
def extentAltG : Groups → Nat → Val → Nat
  | .nil, _, _ => 0
  | .cons f g, p, v => if p < f.length then extentAlt f p v else extentAltG g (p - f.length) v
def extentRoot : Fields → List (Option Val) → Nat
  | .nil, _ => 0
  | .cons _ k t r, cs =>
    (match sent k t (cs.head?.getD none) with
     | some v => extent t v
     | none => 0) + extentRoot r cs.tail
def extentAdds : Fields → List (Option Val) → Nat
  | .nil, _ => 0
  | .cons _ k t r, cs =>
    (match held k (cs.head?.getD none) with
     | some v => if substantial t (some v) then openBits (extent t v) else 0
     | none => 0) + extentAdds r cs.tail
def extentGroups : Groups → List (Option Val) → Nat
  | .nil, _ => 0
  | .cons f g, cs =>
    (if anySubstantial f cs then openBits (optionals f + extentRoot f cs) else 0) + extentGroups g (cs.drop f.length)
end

/-! ## from the type alone -/

/-- The larger of two bounds. -/
def maxOf (a b : Option Nat) : Option Nat := do return max (← a) (← b)
/-- The sum of two bounds. -/
def sumOf (a b : Option Nat) : Option Nat := do return (← a) + (← b)

/-- The largest of a list. -/
def peak : List Nat → Nat
  | [] => 0
  | n :: ns => max n (peak ns)

mutual
/-- At most as many bits are written for a value of the type, if there is a limit: there is none for an INTEGER without
an upper and a lower end, for strings and lists without an upper end, and if one of the three has an extension marker
(or a member of a composite constraint). -/
def largest : Ty → Option Nat
  | .boolean => some 1
  | .integer c =>
    match c.ext || !plain c, c.lower, c.upper with
    | false, some l, some u => some (rangeBits l u u)
    | _, _, _ => none
  | .enumerated ext root add => some (peak ((root ++ add).map fun p => enumBits ext root add p.2))
  | .bitString c =>
    match c.ext, c.upper with
    | false, some u => some (stringBits true c (max 1 u) (max 1 u))
    | _, _ => none
  | .octetString c =>
    match c.ext, c.upper with
    | false, some u => some (stringBits false c u (8 * u))
    | _, _ => none
  | .seqOf c t =>
    match c.ext, c.upper, largest t with
    | false, some u, some n => some (countBits c u + u * n)
    | _, _, _ => none
  | .choice ext r a g =>
    (maxOf ((largestAlt r).map (rangeBits 0 ((r.length : Int) - 1) ((r.length : Int) - 1) + ·))
      (if ext then (maxOf (largestAlt a) (largestAltG g)).map fun w => smallBits (a.length + g.size) + openBits w
       else some 0)).map (markBits ext + ·)
  | .sequence ext r a g =>
    (sumOf ((largestRoot r).map (optionals r + ·))
      (if ext then (sumOf (largestAdds a) (largestGroups g)).map (7 + (a.length + g.length) + ·) else some 0)).map
        (markBits ext + ·)
/-- One of the alternatives. -/
def largestAlt : Fields → Option Nat
  | .nil => some 0
  | .cons _ _ t r => maxOf (largest t) (largestAlt r)
def largestAltG : Groups → Option Nat
  | .nil => some 0
  | .cons f g => maxOf (largestAlt f) (largestAltG g)
/-- All components. -/
def largestRoot : Fields → Option Nat
  | .nil => some 0
  | .cons _ _ t r => sumOf (largest t) (largestRoot r)
/-- All additions; the DEFAULT is sent as well. -/
def largestAdds : Fields → Option Nat
  | .nil => some 0
  | .cons _ k t r =>
    sumOf ((maxOf (largest t) (some (match k with | .default d => extent t d | _ => 0))).map openBits) (largestAdds r)
def largestGroups : Groups → Option Nat
  | .nil => some 0
  | .cons f g => sumOf ((largestRoot f).map fun w => openBits (optionals f + w)) (largestGroups g)
end

mutual
/-- No number, string or list in the value goes beyond the upper end of its constraint, and an ENUMERATED value is one of the
items. -/
def inside : Ty → Val → Bool
  | .boolean, .bool _ => true
  | .integer c, .int z => c.upper.all (fun u => decide (z ≤ u))
  | .enumerated _ root add, .enum z => (root ++ add).any (fun p => p.2 == z)
  | .bitString c, .bits b => c.upper.all (fun u => decide (b.length ≤ u))
  | .octetString c, .octets o => c.upper.all (fun u => decide (o.length ≤ u))
  | .seqOf c t, .seqOf vs => c.upper.all (fun u => decide (vs.length ≤ u)) && vs.all (inside t)
  | .choice ext r a g, .choice pos v =>
    if pos < r.length then insideAlt r pos v
    else ext && (if pos < r.length + a.length then insideAlt a (pos - r.length) v
      else insideAltG g (pos - (r.length + a.length)) v)
  | .sequence _ r a g, .seq cs =>
    insideAll r cs && insideAll a (cs.drop r.length) && insideGroups g (cs.drop (r.length + a.length))
  | _, _ => false
def insideAlt : Fields → Nat → Val → Bool
  | .nil, _, _ => false
  | .cons _ _ t _, 0, v => inside t v
  | .cons _ _ _ r, p + 1, v => insideAlt r p v
def insideAltG : Groups → Nat → Val → Bool
  | .nil, _, _ => false
  | .cons f g, p, v => if p < f.length then insideAlt f p v else insideAltG g (p - f.length) v
/-- The components that are given. -/
def insideAll : Fields → List (Option Val) → Bool
  | .nil, _ => true
  | .cons _ _ t r, cs => (cs.head?.getD none).all (inside t) && insideAll r cs.tail
def insideGroups : Groups → List (Option Val) → Bool
  | .nil, _ => true
  | .cons f g, cs => insideAll f cs && insideGroups g (cs.drop f.length)
end

end Verif.Spec
