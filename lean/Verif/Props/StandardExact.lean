import Verif.Lemmas.X691Exact
import Verif.Props.Standard
/-!
# C45: exactly which INTEGERs and strings are encoded as X.691 says
-/
namespace Verif.Props
open Verif

/-- C45 for INTEGER, with equality exactly for the regular values: a value of its constraint that is encoded gets the
bytes of the standard if and only if `X691.regularInt` holds.  The conditions are those under which the reference
speaks (no fragments): the value and its distance from the lower bound take less than 16K octets, the range at
most 64K. -/
theorem C45_integer_exact {c : Constr} {z : Int} {bs : List UInt8} (hp : Spec.plain c = true) (ht : c.test z = true)
    (hz : Spec.twosFits 16383 z = true) (hlo : ∀ l, c.lower = some l → Spec.unsignedFits 16383 (z - l) = true)
    (hhi : ∀ l u, c.lower = some l → c.upper = some u → Spec.unsignedFits 65536 (u - l) = true)
    (h : encode (.integer c) (.int z) = .ok bs) :
    Spec.octetsToBits bs = X691.complete (X691.integer c.ext c.lower c.upper z) ↔ X691.regularInt c z = true := by
  refine ⟨fun e => ?_, fun hr => C45_integer_partial hr h⟩
  obtain ⟨fs, e1, e2⟩ := (encode_eq _ _ bs).1 h
  rw [octetsToBits_eq, e2] at e
  exact integer_exact_X691 hp ht hz hlo hhi (by simpa only [encTy] using e1) e

/-- For a constraint that is extensible and has values on both sides of what the reference covers. -/
example : ∃ z : Int, Spec.plain (.valueRange (some 0) (some 7) true) = true ∧
    (Constr.valueRange (some 0) (some 7) true).test z = true ∧ Spec.twosFits 16383 z = true ∧
    Spec.unsignedFits 16383 (z - 0) = true ∧ Spec.unsignedFits 65536 (7 - 0) = true ∧
    (encode (.integer (.valueRange (some 0) (some 7) true)) (.int z)).isOk = true ∧
    X691.regularInt (.valueRange (some 0) (some 7) true) z = false := by
  refine ⟨2 ^ 1015, ?_⟩
  refine ⟨?_, ?_, ?_, ?_, ?_, ?_, ?_⟩ <;> decide +kernel

/-- Without constraint: the bytes of the standard exactly up to 127 octets. -/
theorem C45_unconstrained_exact {z : Int} {bs : List UInt8} (hz : Spec.twosFits 16383 z = true)
    (h : encode (.integer .noConstraint) (.int z) = .ok bs) :
    Spec.octetsToBits bs = X691.complete (X691.unconstrained z) ↔ -(2 ^ 1015) ≤ z ∧ z < 2 ^ 1015 := by
  have := C45_integer_exact (c := .noConstraint) rfl rfl hz (fun _ e => nomatch e) (fun _ _ e => nomatch e) h
  refine this.trans ?_
  simp only [X691.regularInt, Spec.plain, Spec.marked, Constr.test, Constr.ext, Constr.lower, Constr.endpoints,
    Spec.twosFits, Bool.not_false, Bool.or_true, Bool.true_and, Bool.and_eq_true, decide_eq_true_eq]

example : Spec.twosFits 16383 (-(2 ^ 1015) - 1) = true ∧
    (encode (.integer .noConstraint) (.int (-(2 ^ 1015) - 1))).isOk = true := by
  constructor <;> decide +kernel

/-- BIT STRINGs of up to 16383 bits, with any SIZE: all but the empty one get the bytes of the standard, and the empty
one where the size can only be zero (F3). -/
theorem C45_bit_string_exact {c : SizeC} {b : Bits} {bs : List UInt8} (ht : c.test b.length = true)
    (hn : b.length ≤ 16383) (h : encode (.bitString c) (.bits b) = .ok bs) :
    Spec.octetsToBits bs = X691.complete (X691.bitString c b) ↔ b ≠ [] ∨ (c.ext = false ∧ c.upper = some 0) := by
  obtain ⟨fs, e1, e2⟩ := (encode_eq _ _ bs).1 h
  rw [octetsToBits_eq, e2]
  exact bitString_exact_X691 ht hn (by simpa only [encTy] using e1)

example : (⟨true, some 1, some 4⟩ : SizeC).test ([] : Bits).length = true ∧
    encode (.bitString ⟨true, some 1, some 4⟩) (.bits []) = .ok [0x00, 0x00] ∧
    X691.complete (X691.bitString ⟨true, some 1, some 4⟩ []) = Spec.octetsToBits [0x80, 0x00] := by
  refine ⟨?_, ?_, ?_⟩ <;> decide +kernel

/-- OCTET STRINGs of up to 16383 octets whose upper bound is below 64K or missing: all of them get the bytes of the
standard as messages of their own, also the empty one. -/
theorem C45_octet_string_exact {c : SizeC} {o : List UInt8} {bs : List UInt8} (ht : c.test o.length = true)
    (hn : o.length ≤ 16383) (h64 : c.upper.all (· < 65536) = true) (h : encode (.octetString c) (.octets o) = .ok bs) :
    Spec.octetsToBits bs = X691.complete (X691.octetString c o) := by
  obtain ⟨fs, e1, e2⟩ := (encode_eq _ _ bs).1 h
  rw [octetsToBits_eq, e2]
  exact octetString_exact_X691 ht hn h64 (by simpa only [encTy] using e1)

example : (⟨true, some 0, some 300⟩ : SizeC).test ([] : List UInt8).length = true ∧
    encode (.octetString ⟨true, some 0, some 300⟩) (.octets []) = .ok [0x00, 0x00, 0x00] := by
  constructor <;> decide +kernel

end Verif.Props
