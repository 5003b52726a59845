import Verif.Lemmas.Exact
import Verif.Props.Leaf
import Verif.Props.Compound
/-!
# C01, C02, C04-C06: exactly which values survive

The `_partial` theorems of `Props/Leaf.lean` show that the values named in `Spec` survive.  The theorems here
show the converse: every other value is refused, or changed, or leaves the reader at the wrong place.  So the
exclusions are not a matter of what could be proved: the set of values that survive is known exactly, for every
constraint and every value.

`Spec.Carries` is about the value anywhere inside any message, `Spec.RoundTrips` about a message of its own.
-/
namespace Verif.Props
open Verif

/-! ## C01 INTEGER -/

/-- For every constraint that does not get the effect of an extension marker from its members only, and every integer: it survives
inside messages, and as a message of its own, exactly when `Spec.safeInt` says so. -/
theorem C01_exact {c : Constr} (hp : Spec.plain c = true) (z : Int) :
    (Spec.Carries (.integer c) (.int z) (.int z) ↔ Spec.safeInt c z = true) ∧
      (Spec.RoundTrips (.integer c) (.int z) (.int z) ↔ Spec.safeInt c z = true) :=
  ⟨⟨fun h => integer_exact hp (back_of_carries h), fun h => (C01_integer_partial h).1⟩,
    ⟨fun h => integer_exact hp (back_of_roundTrips h), fun h => (C01_integer_partial h).2⟩⟩

example : Spec.plain (.union false [.singleValue false [1, 300], .valueRange (some 5) (some 7) false]) = true := by decide

/-- Unconstrained integers survive exactly up to 255 octets. -/
theorem C01_exact_unconstrained (z : Int) :
    Spec.RoundTrips (.integer .noConstraint) (.int z) (.int z) ↔ -(2 ^ 2039) ≤ z ∧ z < 2 ^ 2039 := by
  rw [(C01_exact (c := .noConstraint) rfl z).2]
  simp only [Spec.safeInt, Spec.plain, Spec.marked, Bool.not_false, Bool.or_true, Bool.true_or, Constr.test, Constr.ext, Constr.lower, Constr.endpoints, Spec.twosFits,
    Bool.true_and, Bool.and_eq_true, decide_eq_true_eq]

/-- `(lb..ub, ...)`: exactly what happens to the values of the root. -/
theorem C01_exact_root {lb ub z : Int} (h1 : lb ≤ z) (h2 : z ≤ ub) :
    Spec.RoundTrips (.integer (.valueRange (some lb) (some ub) true)) (.int z) (.int z) ↔
      (lb = ub → lb = 0) ∧ Spec.unsignedFits 65536 (ub - lb) = true := by
  rw [(C01_exact (c := .valueRange (some lb) (some ub) true) rfl z).2]
  simp only [Spec.safeInt, Spec.plain, Spec.marked, Bool.not_false, Bool.or_true, Bool.true_or, Constr.test, Constr.ext, Constr.lower, Constr.upper, Constr.endpoints,
    Bool.true_and, Bool.true_or]
  rw [if_pos ⟨h1, h2⟩]
  simp only [Bool.and_eq_true, Bool.or_eq_true, bne_iff_ne, beq_iff_eq]
  constructor
  · rintro ⟨h, h'⟩
    exact ⟨fun e => h.resolve_left (fun hne => hne e), h'⟩
  · rintro ⟨h, h'⟩
    refine ⟨?_, h'⟩
    by_cases e : lb = ub
    · exact .inr (h e)
    · exact .inl e

example : (4 : Int) ≤ 4 ∧ (4 : Int) ≤ 4 ∧ ¬ ((4 : Int) = 4 → (4 : Int) = 0) := by decide

/-! ## C02 ENUMERATED -/

/-- Items numbered in order: which of them survive. -/
theorem C02_exact {ext : Bool} {root add : List (String × Int)} (hn : Spec.Numbered root add) {i : Nat}
    (hi : i < (root ++ add).length) :
    Spec.RoundTrips (.enumerated ext root add) (.enum i) (.enum i) ↔
      if ext then if i < root.length then root.length ≤ 65536 else Spec.unsignedFits 16383 ((i - root.length : Nat) : Int) = true
      else (root ++ add).length ≤ 65536 := by
  have hget : (root ++ add)[i]? = some ((root ++ add)[i]) := List.getElem?_eq_getElem hi
  have hval := hn i _ hget
  have hany : root.any (fun p => p.2 == (i : Int)) = decide (i < root.length) := by
    rw [Bool.eq_iff_iff, decide_eq_true_eq, List.any_eq_true]
    constructor
    · rintro ⟨p, hp, hpi⟩
      obtain ⟨j, hj, hjp⟩ := List.mem_iff_getElem.1 hp
      have := hn j p (by rw [List.getElem?_append_left hj, List.getElem?_eq_getElem hj, hjp])
      simp only [beq_iff_eq] at hpi
      omega
    · intro hr
      have hget' : root[i]? = some ((root ++ add)[i]) := by rw [← hget, List.getElem?_append_left hr]
      exact ⟨_, List.mem_of_getElem? hget', by rw [hval]; simp⟩
  refine ⟨fun h => enumerated_exact hany hi (back_of_roundTrips h), fun h => ?_⟩
  refine (safe_carries (t := .enumerated ext root add) (v := .enum i) ?_ (by simp [Spec.sendable])).2
  simp only [Spec.survives, Spec.faithful, Spec.safeEnum]
  cases ext with
  | false =>
    simp only [Bool.false_eq_true, if_false] at h
    have := any_of_get hget
    rw [hval] at this
    simp only [Bool.not_false, if_true, Bool.and_eq_true, decide_eq_true_eq]
    exact ⟨⟨⟨by omega, by omega⟩, h⟩, this⟩
  | true =>
    simp only [if_true] at h
    simp only [Bool.not_true, Bool.false_eq_true, if_false, hany]
    by_cases hr : i < root.length
    · rw [if_pos hr] at h
      rw [if_pos (decide_eq_true hr)]
      simp only [Bool.and_eq_true, decide_eq_true_eq]
      exact ⟨⟨by omega, by omega⟩, h⟩
    · rw [if_neg hr] at h
      rw [if_neg (by simpa using hr)]
      rw [List.length_append] at hi
      have hf := findIdx_numbered add root.length (i - root.length) (fun j p hj => by
        have := hn (j + root.length) p (by rw [List.getElem?_append_right (by omega)]; simpa using hj)
        exact this) (by omega)
      rw [show i - root.length + root.length = i by omega] at hf
      rw [hf]
      simp only [Bool.and_eq_true, beq_iff_eq]
      exact ⟨by omega, h⟩

example : Spec.Numbered [("a", 0)] [("b", 1)] ∧ 1 < ([("a", 0)] ++ [("b", (1 : Int))]).length := by
  refine ⟨?_, by decide⟩
  intro i p h
  match i, h with
  | 0, h => cases h; rfl
  | 1, h => cases h; rfl
  | _ + 2, h => simp at h

/-! ## C04 BIT STRING -/

/-- Which bit strings survive inside messages, for every size constraint. -/
theorem C04_exact (c : SizeC) (b : Bits) :
    Spec.Carries (.bitString c) (.bits b) (.bits b) ↔ Spec.safeBits c b = true :=
  ⟨bits_carried, fun h => (C04_bitstring_partial h).1⟩

/-- Which bit strings survive as messages of their own. -/
theorem C04_alone (c : SizeC) (b : Bits) :
    Spec.RoundTrips (.bitString c) (.bits b) (.bits b) ↔ Spec.safeBitsAlone c b = true :=
  ⟨fun h => bits_exact (back_of_roundTrips h), bits_alone⟩

/-- A bit string outside an extensible root survives alone, but not inside a message (F7). -/
example : Spec.safeBitsAlone ⟨true, some 1, some 2⟩ [true, false, true] = true ∧
    Spec.safeBits ⟨true, some 1, some 2⟩ [true, false, true] = false := by decide

/-- Without a constraint: exactly the lengths 1 to 16383. -/
theorem C04_exact_unconstrained (b : Bits) :
    Spec.Carries (.bitString ⟨false, none, none⟩) (.bits b) (.bits b) ↔ 1 ≤ b.length ∧ b.length ≤ 16383 := by
  rw [C04_exact]
  cases b <;> simp [Spec.safeBits, SizeC.test, Spec.safeBitsRoot]

/-! ## C05 OCTET STRING -/

/-- Which octet strings survive inside messages, for every size constraint. -/
theorem C05_exact (c : SizeC) (o : List UInt8) :
    Spec.Carries (.octetString c) (.octets o) (.octets o) ↔ Spec.safeOctets c o = true :=
  ⟨octets_carried, fun h => (C05_octetstring_partial h).1⟩

/-- Which octet strings survive as messages of their own. -/
theorem C05_alone (c : SizeC) (o : List UInt8) :
    Spec.RoundTrips (.octetString c) (.octets o) (.octets o) ↔ Spec.safeOctetsAlone c o = true :=
  ⟨fun h => octets_exact (back_of_roundTrips h), octets_alone⟩

/-- The empty string of a short range survives alone, but not inside a message (F8); that of a range of 256
sizes survives both. -/
example : Spec.safeOctetsAlone ⟨false, some 0, some 10⟩ [] = true ∧ Spec.safeOctets ⟨false, some 0, some 10⟩ [] = false ∧
    Spec.safeOctets ⟨false, some 0, some 255⟩ [] = true := by decide

/-- With a size range: exactly the strings whose first octet is at least 16, and the single zero octet (F1). -/
theorem C05_exact_range {l u : Nat} (hlu : l < u) (hu : u ≤ 65535) {x : UInt8} {o : List UInt8} (h1 : l ≤ o.length + 1)
    (h2 : o.length + 1 ≤ u) :
    Spec.Carries (.octetString ⟨false, some l, some u⟩) (.octets (x :: o)) (.octets (x :: o)) ↔ 16 ≤ x.toNat ∨ x :: o = [0] := by
  rw [C05_exact]
  have h0 : u ≠ 0 := by omega
  have hne : l ≠ u := by omega
  simp [Spec.safeOctets, SizeC.test, Spec.safeOctetsRoot, h1, h2, h0, hne]
  omega

example : (1 : Nat) < 5 ∧ 5 ≤ 65535 ∧ 1 ≤ ([3] : List UInt8).length + 1 ∧ ([3] : List UInt8).length + 1 ≤ 5 := by decide

/-! ## C06 SEQUENCE OF -/

/-- When the elements survive, a list arrives with as many elements as it was sent with exactly when its length
is one of those in `Spec.safeCount`; and then the elements are those that were sent. -/
theorem C06_exact {c : SizeC} {t : Ty} {vs : List Val}
    (hs : ∀ v ∈ vs, Spec.safe t v = true ∧ Spec.sendable t v = true) :
    (Spec.RoundTrips (.seqOf c t) (.seqOf vs) (.seqOf (vs.map (Spec.received t))) ↔ Spec.safeCount c vs.length = true) ∧
    (Spec.Carries (.seqOf c t) (.seqOf vs) (.seqOf (vs.map (Spec.received t))) ↔ Spec.safeCount c vs.length = true) :=
  ⟨⟨fun h => count_exact (by simp) (back_of_roundTrips h), fun h => (C06_sequence_of_partial h hs).2⟩,
    ⟨fun h => count_exact (by simp) (back_of_carries h), fun h => (C06_sequence_of_partial h hs).1⟩⟩

/-- Whatever the elements are, a list of any other length does not come back as a list of that length. -/
theorem C06_other_lengths {c : SizeC} {t : Ty} {vs ws : List Val} (h : Spec.safeCount c vs.length = false)
    (hw : Spec.RoundTrips (.seqOf c t) (.seqOf vs) (.seqOf ws)) : ws.length ≠ vs.length := by
  intro he
  rw [count_exact he (back_of_roundTrips hw)] at h
  cases h

/-- F4: the lists of an extensible fixed size come back, and come back empty. -/
example : Spec.safeCount ⟨true, some 2, some 2⟩ [Val.bool true, .bool false].length = false ∧
    Spec.RoundTrips (.seqOf ⟨true, some 2, some 2⟩ .boolean) (.seqOf [.bool true, .bool false]) (.seqOf []) := by
  refine ⟨by decide, roundTrips_of_start (fs := [⟨false, [false]⟩, ⟨false, []⟩, ⟨false, [true]⟩, ⟨false, [false]⟩])
    (by decide +kernel) fun p rest hp => ?_⟩
  rw [emit_bit, List.append_assoc] at hp
  obtain ⟨p1, e1, _⟩ := Reads.bit 0 false p _ hp
  refine ⟨p1, ?_⟩
  simp only [decTy, decodeSequenceOfCount, if_true]
  rw [bind_run (a := (0 : Int)) (p1 := p1)]
  · rfl
  · rw [bind_run e1]; rfl

end Verif.Props
