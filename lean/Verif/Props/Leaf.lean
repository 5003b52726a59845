import Verif.Lemmas.Message
/-!
# C01-C05: the simple types survive the wire

Every theorem speaks about two things.  `Spec.Carries`: at whatever bit position of whatever message the
value is written, the reader standing there gets the value back and stops exactly behind it.
`Spec.RoundTrips`: `decode(encode(v) + extra)` is the value, for all `extra`.

The `_partial` theorems exclude values (named in `Spec`) for which the code does *not* do what the property
says; `Props/Findings.lean` has a witness for each exclusion.
-/
namespace Verif.Props
open Verif

/-! ## C01 INTEGER

Full statement: for all constraints `c` that can be built and all `z` with `c.test z = true`,
`Carries (.integer c) (.int z) (.int z)`.  Missing: extensible constraints with a single root value (F4),
unconstrained values of 256 or more octets (F6), astronomically large ranges (F18), extensible constraints
without lower endpoint or inside a root without upper endpoint (F18, `TypeError`). -/

theorem C01_integer_partial {c : Constr} {z : Int} (h : Spec.safeInt c z = true) :
    Spec.Carries (.integer c) (.int z) (.int z) ∧ Spec.RoundTrips (.integer c) (.int z) (.int z) :=
  safe_carries (t := .integer c) (v := .int z) (by simpa [Spec.survives, Spec.faithful] using h) (by simp [Spec.sendable])

example : Spec.safeInt (.valueRange (some (-5)) (some 70000) false) 69999 = true := by decide
example : Spec.safeInt (.valueRange (some 1) (some 9) true) (-3000) = true := by decide +kernel
example : Spec.safeInt (.union false [.singleValue false [1, 300], .valueRange (some 5) (some 7) false]) 300 = true := by
  decide +kernel

/-- No constraint: every integer of at most 255 octets. -/
theorem C01_unconstrained_partial {z : Int} (h1 : -(2 ^ 2039) ≤ z) (h2 : z < 2 ^ 2039) :
    Spec.Carries (.integer .noConstraint) (.int z) (.int z) ∧
      Spec.RoundTrips (.integer .noConstraint) (.int z) (.int z) := by
  apply C01_integer_partial
  simp only [Spec.safeInt, Spec.plain, Spec.marked, Bool.not_false, Bool.or_true, Bool.true_or, Constr.test, Constr.ext, Constr.lower, Constr.endpoints, Spec.twosFits,
    Bool.true_and, Bool.and_eq_true, decide_eq_true_eq]
  exact ⟨h1, h2⟩

example : -(2 ^ 2039) ≤ (-129 : Int) ∧ (-129 : Int) < 2 ^ 2039 := by decide +kernel

/-- `(lb..ub)`: every value of the range, for every range of at most 65536 octets. -/
theorem C01_range_partial {lb ub z : Int} (h1 : lb ≤ z) (h2 : z ≤ ub) (hr : Spec.unsignedFits 65536 (ub - lb) = true) :
    Spec.Carries (.integer (.valueRange (some lb) (some ub) false)) (.int z) (.int z) ∧
      Spec.RoundTrips (.integer (.valueRange (some lb) (some ub) false)) (.int z) (.int z) := by
  apply C01_integer_partial
  simp only [Spec.safeInt, Spec.plain, Spec.marked, Bool.not_false, Bool.or_true, Bool.true_or, Constr.test, Constr.ext, Constr.lower, Constr.upper, Constr.endpoints, leLo,
    leHi, Bool.true_and, Bool.and_eq_true, decide_eq_true_eq, Bool.false_or]
  exact ⟨⟨h1, h2⟩, hr⟩

example : (-(10 ^ 30) : Int) ≤ 7 ∧ (7 : Int) ≤ 10 ^ 30 ∧ Spec.unsignedFits 65536 (10 ^ 30 - -(10 ^ 30)) = true := by
  decide +kernel

/-- `(lb..MAX)`: every value that is at most 16383 octets above the lower bound. -/
theorem C01_semi_partial {lb z : Int} (h1 : lb ≤ z) (hr : Spec.unsignedFits 16383 (z - lb) = true) :
    Spec.Carries (.integer (.valueRange (some lb) none false)) (.int z) (.int z) ∧
      Spec.RoundTrips (.integer (.valueRange (some lb) none false)) (.int z) (.int z) := by
  apply C01_integer_partial
  simp only [Spec.safeInt, Spec.plain, Spec.marked, Bool.not_false, Bool.or_true, Bool.true_or, Constr.test, Constr.ext, Constr.lower, Constr.upper, Constr.endpoints, leLo,
    leHi, Bool.true_and, Bool.and_eq_true, decide_eq_true_eq, Bool.false_or, and_true]
  exact ⟨h1, hr⟩

example : (-1 : Int) ≤ 4096 ∧ Spec.unsignedFits 16383 (4096 - -1) = true := by decide +kernel

/-- `(lb..ub, ...)` with a value outside the root. -/
theorem C01_outside_partial {lb ub z : Int} (h : z < lb ∨ ub < z) (h1 : -(2 ^ 2039) ≤ z) (h2 : z < 2 ^ 2039) :
    Spec.Carries (.integer (.valueRange (some lb) (some ub) true)) (.int z) (.int z) ∧
      Spec.RoundTrips (.integer (.valueRange (some lb) (some ub) true)) (.int z) (.int z) := by
  apply C01_integer_partial
  simp only [Spec.safeInt, Spec.plain, Spec.marked, Bool.not_false, Bool.or_true, Bool.true_or, Constr.test, Constr.ext, Constr.lower, Constr.upper, Constr.endpoints,
    Bool.true_and, Bool.true_or]
  rw [if_neg (by omega)]
  simp only [Spec.twosFits, Bool.and_eq_true, decide_eq_true_eq]
  exact ⟨h1, h2⟩

example : ((11 : Int) < 0 ∨ (10 : Int) < 11) ∧ -(2 ^ 2039) ≤ (11 : Int) ∧ (11 : Int) < 2 ^ 2039 := by decide +kernel

/-- `(lb..ub, ...)` with a value inside a root of more than one value. -/
theorem C01_inside_partial {lb ub z : Int} (h1 : lb ≤ z) (h2 : z ≤ ub) (hne : lb ≠ ub)
    (hr : Spec.unsignedFits 65536 (ub - lb) = true) :
    Spec.Carries (.integer (.valueRange (some lb) (some ub) true)) (.int z) (.int z) ∧
      Spec.RoundTrips (.integer (.valueRange (some lb) (some ub) true)) (.int z) (.int z) := by
  apply C01_integer_partial
  simp only [Spec.safeInt, Spec.plain, Spec.marked, Bool.not_false, Bool.or_true, Bool.true_or, Constr.test, Constr.ext, Constr.lower, Constr.upper, Constr.endpoints,
    Bool.true_and, Bool.true_or]
  rw [if_pos ⟨h1, h2⟩, hr]
  simp [hne]

example : (1 : Int) ≤ 2 ∧ (2 : Int) ≤ 70000 ∧ (1 : Int) ≠ 70000 ∧ Spec.unsignedFits 65536 (70000 - 1) = true := by
  decide +kernel

/-! ## C02 ENUMERATED

Full statement: as `C02_enumerated_partial` without the bounds 65536.  Missing: enumerations with more than
65536 root items, whose index the encoder writes with a length and the decoder refuses (F16b), and addition
indices of more than 16383 octets. -/

theorem any_of_get {l : List (String × Int)} {i : Nat} {p : String × Int} (h : l[i]? = some p) :
    l.any (fun q => q.2 == p.2) = true := by
  rw [List.any_eq_true]
  exact ⟨p, List.mem_of_getElem? h, by simp⟩

theorem findIdx_numbered : ∀ (l : List (String × Int)) (k i : Nat),
    (∀ (j : Nat) (p : String × Int), l[j]? = some p → p.2 = ((j + k : Nat) : Int)) → i < l.length →
    l.findIdx? (fun q => q.2 == ((i + k : Nat) : Int)) = some i
  | [], _, _, _, h => by simp at h
  | q :: l, k, i, h, hi => by
    have hq : q.2 = ((k : Nat) : Int) := by simpa using h 0 q rfl
    cases i with
    | zero => simp [List.findIdx?_cons, hq]
    | succ i =>
      have ih := findIdx_numbered l (k + 1) i (fun j p hj => by
        have := h (j + 1) p (by simpa using hj)
        rw [this]; omega) (by simpa using hi)
      rw [List.findIdx?_cons]
      have : (q.2 == ((i + 1 + k : Nat) : Int)) = false := by simp [hq]; omega
      rw [this]
      rw [show i + 1 + k = i + (k + 1) by omega, ih]
      rfl

theorem C02_enumerated_partial {ext : Bool} {root add : List (String × Int)} (hn : Spec.Numbered root add)
    {i : Nat} (hi : i < (root ++ add).length)
    (hroot : if ext then root.length ≤ 65536 else (root ++ add).length ≤ 65536)
    (hadd : Spec.unsignedFits 16383 ((i - root.length : Nat) : Int) = true) :
    Spec.Carries (.enumerated ext root add) (.enum i) (.enum i) ∧
      Spec.RoundTrips (.enumerated ext root add) (.enum i) (.enum i) := by
  refine safe_carries (t := .enumerated ext root add) (v := .enum i) ?_ (by simp [Spec.sendable])
  have hget : (root ++ add)[i]? = some ((root ++ add)[i]) := List.getElem?_eq_getElem hi
  have hval := hn i _ hget
  simp only [Spec.survives, Spec.faithful, Spec.safeEnum]
  cases ext with
  | false =>
    simp only [Bool.false_eq_true, if_false] at hroot
    have := any_of_get hget
    rw [hval] at this
    simp only [Bool.not_false, if_true, Bool.and_eq_true, decide_eq_true_eq]
    exact ⟨⟨⟨by omega, by omega⟩, hroot⟩, this⟩
  | true =>
    simp only [if_true] at hroot
    simp only [Bool.not_true, Bool.false_eq_true, if_false]
    by_cases hr : i < root.length
    · have hget' : root[i]? = some ((root ++ add)[i]) := by rw [← hget, List.getElem?_append_left hr]
      have := any_of_get hget'
      rw [hval] at this
      rw [if_pos this]
      simp only [Bool.and_eq_true, decide_eq_true_eq]
      exact ⟨⟨by omega, by omega⟩, hroot⟩
    · have hnone : ¬ root.any (fun p => p.2 == (i : Int)) = true := by
        rw [List.any_eq_true]
        rintro ⟨p, hp, hpi⟩
        obtain ⟨j, hj, hjp⟩ := List.mem_iff_getElem.1 hp
        have := hn j p (by rw [List.getElem?_append_left hj, List.getElem?_eq_getElem hj, hjp])
        simp only [beq_iff_eq] at hpi
        omega
      rw [if_neg hnone]
      rw [List.length_append] at hi
      have hf := findIdx_numbered add root.length (i - root.length) (fun j p hj => by
        have := hn (j + root.length) p (by rw [List.getElem?_append_right (by omega)]; simpa using hj)
        exact this) (by omega)
      rw [show i - root.length + root.length = i by omega] at hf
      rw [hf]
      simp only [Bool.and_eq_true, beq_iff_eq]
      exact ⟨by omega, hadd⟩

example : Spec.Numbered [("a", 0), ("b", 1)] [("c", 2)] ∧ 2 < ([("a", 0), ("b", 1)] ++ [("c", (2 : Int))]).length := by
  refine ⟨?_, by decide⟩
  intro i p h
  match i, h with
  | 0, h => cases h; rfl
  | 1, h => cases h; rfl
  | 2, h => cases h; rfl
  | _ + 3, h => simp at h

/-! ## C03 BOOLEAN (full) -/

/-- A BOOLEAN is written as one unaligned bit. -/
theorem C03_boolean_one_bit (b : Bool) : encTy .boolean (.bool b) = .ok [⟨false, [b]⟩] := by
  simp [encTy, encodeBoolean]

theorem C03_boolean (b : Bool) :
    Spec.Carries .boolean (.bool b) (.bool b) ∧ Spec.RoundTrips .boolean (.bool b) (.bool b) :=
  safe_carries (t := .boolean) (v := .bool b) (by simp [Spec.survives, Spec.faithful]) (by simp [Spec.sendable])

example : encode .boolean (.bool true) = .ok [0x80] := by decide +kernel

/-! ## C04 BIT STRING

Full statement: for all size constraints `c` and all `b` with `c.test b.length = true`.  Missing: the empty
bit string of a type that allows other sizes (F3), lengths of 16384 bits or more where the length is sent (F5),
extensible types outside the root unless the length is a multiple of 8 (F7; as messages of their own they are
fine, see `C04_alone`), extensible types with an open endpoint (F18).  `C04_exact` shows that nothing else is
missing. -/

theorem C04_bitstring_partial {c : SizeC} {b : Bits} (h : Spec.safeBits c b = true) :
    Spec.Carries (.bitString c) (.bits b) (.bits b) ∧ Spec.RoundTrips (.bitString c) (.bits b) (.bits b) :=
  safe_carries (t := .bitString c) (v := .bits b) (by simpa [Spec.survives, Spec.faithful] using h) (by simp [Spec.sendable])

example : Spec.safeBits ⟨false, some 3, some 40⟩ [false, false, true, false] = true := by decide
example : Spec.safeBits ⟨true, some 1, some 4⟩ (List.replicate 24 false) = true := by decide
example : Spec.safeBits ⟨false, none, none⟩ [false, false, false] = true := by decide

/-- Fixed size `n` below 65536: every bit string of that length, leading zeros included. -/
theorem C04_fixed {n : Nat} {b : Bits} (h : b.length = n) (hn : n < 65536) :
    Spec.Carries (.bitString ⟨false, some n, some n⟩) (.bits b) (.bits b) ∧
      Spec.RoundTrips (.bitString ⟨false, some n, some n⟩) (.bits b) (.bits b) := by
  apply C04_bitstring_partial
  subst h
  cases b with
  | nil => decide
  | cons x b =>
    simp only [Spec.safeBits, SizeC.test, Spec.safeBitsRoot]
    simp; simpa using hn

example : [false, false, true].length = 3 ∧ 3 < 65536 := by decide

/-- Size range below 65536: every non-empty bit string of an allowed length. -/
theorem C04_range {l u : Nat} {b : Bits} (h1 : l ≤ b.length) (h2 : b.length ≤ u) (hu : u < 65536) (hb : b ≠ []) :
    Spec.Carries (.bitString ⟨false, some l, some u⟩) (.bits b) (.bits b) ∧
      Spec.RoundTrips (.bitString ⟨false, some l, some u⟩) (.bits b) (.bits b) := by
  apply C04_bitstring_partial
  cases b with
  | nil => exact absurd rfl hb
  | cons x b =>
    simp only [Spec.safeBits, SizeC.test, Spec.safeBitsRoot]
    simp only [List.length_cons] at h1 h2
    simp [h1, h2, hu]
    omega

example : 1 ≤ [false, true].length ∧ [false, true].length ≤ 9 ∧ 9 < 65536 ∧ [false, true] ≠ [] := by decide

/-! ## C05 OCTET STRING

Full statement: for all size constraints `c` and all `o` with `c.test o.length = true`.  Missing: with a size
range `lb..ub`, strings whose first octet is below 16 (F1) and, with fewer than 256 sizes, empty strings inside a message (F8); without
upper bound the empty string (F2) and lengths from 16384 (F5); `SIZE(0, ...)` (F9); ranges above 65536 (F18).
`C05_exact` shows that nothing else is missing. -/

theorem C05_octetstring_partial {c : SizeC} {o : List UInt8} (h : Spec.safeOctets c o = true) :
    Spec.Carries (.octetString c) (.octets o) (.octets o) ∧
      Spec.RoundTrips (.octetString c) (.octets o) (.octets o) :=
  safe_carries (t := .octetString c) (v := .octets o) (by simpa [Spec.survives, Spec.faithful] using h) (by simp [Spec.sendable])

example : Spec.safeOctets ⟨false, some 1, some 5⟩ [0x10, 0, 3] = true := by decide
example : Spec.safeOctets ⟨true, some 1, some 2⟩ [0, 0, 3] = true := by decide

/-- Fixed size `n` below 65536: every octet string of that length, leading zero octets included. -/
theorem C05_fixed {n : Nat} {o : List UInt8} (h : o.length = n) (hn : n < 65536) :
    Spec.Carries (.octetString ⟨false, some n, some n⟩) (.octets o) (.octets o) ∧
      Spec.RoundTrips (.octetString ⟨false, some n, some n⟩) (.octets o) (.octets o) := by
  apply C05_octetstring_partial
  subst h
  simp only [Spec.safeOctets, SizeC.test, Spec.safeOctetsRoot]
  simp; right; exact hn

example : ([0, 0, 255] : List UInt8).length = 3 ∧ 3 < 65536 := by decide

/-- No constraint: every non-empty octet string below 16384 octets, leading zero octets included. -/
theorem C05_unconstrained_partial {o : List UInt8} (h0 : o ≠ []) (h : o.length ≤ 16383) :
    Spec.Carries (.octetString ⟨false, none, none⟩) (.octets o) (.octets o) ∧
      Spec.RoundTrips (.octetString ⟨false, none, none⟩) (.octets o) (.octets o) := by
  apply C05_octetstring_partial
  simp only [Spec.safeOctets, SizeC.test, Spec.safeOctetsRoot]
  have : 1 ≤ o.length := List.length_pos_iff.2 h0
  simp [h]; omega

example : ([0, 1] : List UInt8) ≠ [] ∧ ([0, 1] : List UInt8).length ≤ 16383 := by decide

end Verif.Props
