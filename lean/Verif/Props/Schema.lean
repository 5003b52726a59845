import Verif.Lemmas.Conforms
import Verif.Lemmas.Constr
import Verif.Lemmas.Message
/-!
# C15, C16, C38: values and constraints
-/
namespace Verif.Props
open Verif

/-! ## C15 decoded values respect the schema -/

/-- Any bytes, any schema: what `decode` returns has the shape of the schema and all its simple values
satisfy their constraints.  Missing: the number of elements of a SEQUENCE OF is only as good as the field it
was read from (`Spec.countReceived`), see `Findings.C15_sequence_of_too_long`. -/
theorem C15_conforms_partial {t : Ty} {bs : List UInt8} {w : Val} (h : decode t bs = .ok w) :
    Spec.hasShape Spec.countReceived t w = true := by
  obtain ⟨p', hd, _⟩ := decode_ok h
  exact (conforms_ty t).run _ w p' hd

/-- If the sizes of the SEQUENCE OFs in the schema fill their fields (or are fixed, extensible or absent) the
claim holds in full. -/
theorem C15_conforms_tight_partial {t : Ty} {bs : List UInt8} {w : Val} (ht : Spec.allTight t = true)
    (h : decode t bs = .ok w) : Spec.conforms t w = true :=
  shape_ty t ht (C15_conforms_partial h)

/-- The same inside a message: from whatever reader, at whatever position. -/
theorem C15_conforms_inside_partial {t : Ty} {p p' : PerBytes} {w : Val} (h : decTy t p = .ok (w, p')) :
    Spec.hasShape Spec.countReceived t w = true := (conforms_ty t).run p w p' h

/-- A schema and bytes to which this applies. -/
def sampleC15 : Ty :=
  .sequence true
    (Fields.ofList [("a", .mandatory, .integer (.valueRange (some 1) (some 200) false)),
      ("b", .optional, .seqOf ⟨false, some 1, some 4⟩ (.octetString ⟨false, some 2, some 2⟩))])
    (Fields.ofList [("c", .optional, .boolean)]) .nil

example : Spec.allTight sampleC15 = true ∧
    decode sampleC15 [0x55, 0x2A, 0x41, 0x42, 0x43, 0x44, 0x45, 0x46] =
      .ok (.seq [some (.int 85), some (.seqOf [.octets [164, 20], .octets [36, 52], .octets [68, 84]]), none]) :=
  by decide +kernel

/-! ## C16 construction enforces constraints -/

mutual
theorem test_iff_allows (z : Int) : ∀ c : Constr, c.test z = true ↔ Spec.Allows c z
  | .noConstraint => ⟨fun _ => .unconstrained, fun _ => rfl⟩
  | .extensionMarker _ => ⟨fun _ => .marker, fun _ => rfl⟩
  | .valueRange lo hi e => by
    constructor
    · intro h
      simp only [Constr.test, Bool.or_eq_true, Bool.and_eq_true] at h
      rcases h with rfl | ⟨h1, h2⟩
      · exact .extensible rfl
      · refine .range (fun l hl => ?_) fun u hu => ?_
        · subst hl; simpa [leLo] using h1
        · subst hu; simpa [leHi] using h2
    · intro h
      simp only [Constr.test, Bool.or_eq_true, Bool.and_eq_true]
      cases h with
      | extensible he => exact .inl he
      | range h1 h2 =>
        refine .inr ⟨?_, ?_⟩
        · cases lo with
          | none => rfl
          | some l => simpa [leLo] using h1 l rfl
        · cases hi with
          | none => rfl
          | some u => simpa [leHi] using h2 u rfl
  | .singleValue e vals => by
    constructor
    · intro h
      simp only [Constr.test, Bool.or_eq_true, List.contains_iff_mem] at h
      rcases h with rfl | h
      · exact .extensible rfl
      · exact .value h
    · intro h
      simp only [Constr.test, Bool.or_eq_true, List.contains_iff_mem]
      cases h with
      | extensible he => exact .inl he
      | value h => exact .inr h
  | .union e cs => by
    constructor
    · intro h
      simp only [Constr.test, Bool.or_eq_true] at h
      rcases h with rfl | h
      · exact .extensible rfl
      · obtain ⟨c, hc, hz⟩ := (testAny_iff z cs).1 h
        exact .either hc hz
    · intro h
      simp only [Constr.test, Bool.or_eq_true]
      cases h with
      | extensible he => exact .inl he
      | either hc hz => exact .inr ((testAny_iff z cs).2 ⟨_, hc, hz⟩)
  | .inter e cs => by
    constructor
    · intro h
      simp only [Constr.test, Bool.or_eq_true] at h
      rcases h with rfl | h
      · exact .extensible rfl
      · exact .both ((testAll_iff z cs).1 h)
    · intro h
      simp only [Constr.test, Bool.or_eq_true]
      cases h with
      | extensible he => exact .inl he
      | both hc => exact .inr ((testAll_iff z cs).2 hc)
theorem testAny_iff (z : Int) : ∀ cs : List Constr, Constr.testAny cs z = true ↔ ∃ c ∈ cs, Spec.Allows c z
  | [] => by simp [Constr.testAny]
  | c :: cs => by simp [Constr.testAny, test_iff_allows z c, testAny_iff z cs]
theorem testAll_iff (z : Int) : ∀ cs : List Constr, Constr.testAll cs z = true ↔ ∀ c ∈ cs, Spec.Allows c z
  | [] => by simp [Constr.testAll]
  | c :: cs => by simp [Constr.testAll, test_iff_allows z c, testAll_iff z cs]
end

theorem sizeTest_iff (c : SizeC) (n : Nat) : c.test n = true ↔ Spec.SizeAllows c n := by
  unfold SizeC.test Spec.SizeAllows
  rcases c with ⟨e, l, u⟩
  cases e <;> cases l <;> cases u <;> simp

/-- `IntegerType(z)` succeeds, with the value `z`, exactly when the constraint allows `z`; otherwise it raises
the constraint error. -/
theorem C16_integer (c : Constr) (z : Int) :
    (Spec.Allows c z → mkInt c z = .ok (.int z)) ∧ (¬ Spec.Allows c z → mkInt c z = .error .constraint) := by
  unfold mkInt
  rw [← test_iff_allows]
  exact ⟨fun h => if_pos h, fun h => if_neg h⟩

/-- An extension marker makes every value acceptable. -/
theorem C16_integer_extensible {c : Constr} (h : c.ext = true) (z : Int) : mkInt c z = .ok (.int z) :=
  (C16_integer c z).1 (.extensible h)

/-- The plain case: INTEGER (lb..ub) without extension marker. -/
theorem C16_integer_range (lb ub z : Int) :
    mkInt (.valueRange (some lb) (some ub) false) z = .ok (.int z) ↔ lb ≤ z ∧ z ≤ ub := by
  unfold mkInt
  rw [show Constr.test (.valueRange (some lb) (some ub) false) z = (decide (lb ≤ z) && decide (z ≤ ub)) from rfl]
  by_cases h : lb ≤ z ∧ z ≤ ub
  · simp [h]
  · have : (decide (lb ≤ z) && decide (z ≤ ub)) = false := by simpa [Bool.and_eq_false_imp] using h
    simp [this, h]

theorem C16_bitstring (c : SizeC) (b : Bits) :
    (Spec.SizeAllows c b.length → mkBits c b = .ok (.bits b)) ∧
      (¬ Spec.SizeAllows c b.length → mkBits c b = .error .constraint) := by
  unfold mkBits
  rw [← sizeTest_iff]
  exact ⟨fun h => if_pos h, fun h => if_neg h⟩

theorem C16_octetstring (c : SizeC) (o : List UInt8) :
    (Spec.SizeAllows c o.length → mkOctets c o = .ok (.octets o)) ∧
      (¬ Spec.SizeAllows c o.length → mkOctets c o = .error .constraint) := by
  unfold mkOctets
  rw [← sizeTest_iff]
  exact ⟨fun h => if_pos h, fun h => if_neg h⟩

/-- (1..10 | 20 | 5..30 ^ 25..40) -/
def sampleC16 : Constr :=
  .union false [.valueRange (some 1) (some 10) false, .singleValue false [20],
    .inter false [.valueRange (some 5) (some 30) false, .valueRange (some 25) (some 40) false]]

example : Spec.Allows sampleC16 27 ∧ ¬ Spec.Allows sampleC16 22 ∧ ¬ Spec.Allows sampleC16 35 := by
  simp only [← test_iff_allows]; decide +kernel
example : Spec.SizeAllows ⟨false, some 2, some 5⟩ 4 ∧ ¬ Spec.SizeAllows ⟨false, some 2, some 5⟩ 6 ∧
    Spec.SizeAllows ⟨true, some 2, some 5⟩ 6 := by
  simp only [← sizeTest_iff]; decide

/-! ## C38 composite constraints cover their members -/

/-- Every value accepted by a constraint without extension marker lies between the endpoints the codec uses.
Missing: members whose own extension markers make the constraint accept everything (`Spec.plain`), see
`Findings.C38_marked_member`. -/
theorem C38_endpoints_cover_partial {c : Constr} {z : Int} (hp : Spec.plain c = true) (he : c.ext = false)
    (hz : Spec.Allows c z) : (∀ l, c.lower = some l → l ≤ z) ∧ (∀ u, c.upper = some u → z ≤ u) := by
  obtain ⟨h1, h2⟩ := lower_upper_cover hp he ((test_iff_allows z c).2 hz)
  refine ⟨fun l hl => ?_, fun u hu => ?_⟩
  · rw [hl] at h1; simpa [leLo] using h1
  · rw [hu] at h2; simpa [leHi] using h2

/-- With at least one endpoint, this is exactly when the endpoints cover what the constraint accepts: when no
extension marker (its own, one of a member of a union, or one in every member of an intersection) is in effect. -/
theorem C38_exact {c : Constr} (hb : c.lower.isSome = true ∨ c.upper.isSome = true) :
    (∀ z, Spec.Allows c z → (∀ l, c.lower = some l → l ≤ z) ∧ (∀ u, c.upper = some u → z ≤ u)) ↔
      Spec.marked c = false := by
  constructor
  · intro h
    rw [← Bool.not_eq_true]
    intro hm
    have all : ∀ z, Spec.Allows c z := fun z => (test_iff_allows z c).1 (marked_test z c hm)
    rcases hb with hb | hb
    · obtain ⟨l, hl⟩ := Option.isSome_iff_exists.1 hb
      have := (h _ (all (l - 1))).1 l hl
      omega
    · obtain ⟨u, hu⟩ := Option.isSome_iff_exists.1 hb
      have := (h _ (all (u + 1))).2 u hu
      omega
  · intro hm z hz
    obtain ⟨h1, h2⟩ := unmarked_cover hm ((test_iff_allows z c).2 hz)
    refine ⟨fun l hl => ?_, fun u hu => ?_⟩
    · rw [hl] at h1; simpa [leLo] using h1
    · rw [hu] at h2; simpa [leHi] using h2

/-- An intersection with a marked member is still covered, a union is not. -/
example :
    let cs := [Constr.valueRange (some 0) (some 3) true, .valueRange (some 2) (some 6) false]
    Spec.marked (.inter false cs) = false ∧ (Constr.inter false cs).upper = some 6 ∧ Spec.Allows (.inter false cs) 5 ∧
      Spec.marked (.union false cs) = true ∧ Spec.Allows (.union false cs) 50 := by
  simp only [← test_iff_allows]; decide +kernel

/-- Hence every accepted value of a constraint with two endpoints is encoded as a constrained whole number and
survives the round trip in any message.  The second hypothesis is a limit of the implementation (the number of
octets of a number has to be counted in 16 bits). -/
theorem C38_encodable_partial {c : Constr} {z l u : Int} (hp : Spec.plain c = true) (he : c.ext = false)
    (hl : c.lower = some l) (hu : c.upper = some u) (hf : Spec.unsignedFits 65536 (u - l) = true)
    (hz : Spec.Allows c z) :
    (∃ fs, fieldListConstrained z (some l) (some u) = .ok fs ∧ encTy (.integer c) (.int z) = .ok fs) ∧
      Spec.Carries (.integer c) (.int z) (.int z) := by
  have hs : Spec.safe (.integer c) (.int z) = true := by
    simp only [Spec.survives, Spec.faithful, Spec.safeInt, hp, (test_iff_allows z c).2 hz, he, hl, hu, hf, Bool.and_self]
  have hc : Spec.Carries (.integer c) (.int z) (.int z) := by
    have := (safe_carries' hs (by simp [Spec.sendable])).1
    rwa [show Spec.received (.integer c) (.int z) = .int z by simp [Spec.received]] at this
  refine ⟨?_, hc⟩
  obtain ⟨fs, h1, _⟩ := hc
  refine ⟨fs, ?_, h1⟩
  rw [encTy] at h1
  unfold encodeInteger at h1
  rw [if_neg (by rw [he]; decide), hl, hu] at h1
  exact h1

/-- Constraints in general: the endpoints exist only if there is at least one member and, with two or more,
no member is open ended (`min`/`max` raise otherwise). -/
theorem C38_single_values_cover {vals : List Int} {z : Int} (hz : z ∈ vals) :
    (∀ l, (Constr.singleValue false vals).lower = some l → l ≤ z) ∧
      (∀ u, (Constr.singleValue false vals).upper = some u → z ≤ u) :=
  C38_endpoints_cover_partial rfl rfl (.value hz)

example : Spec.plain sampleC16 = true ∧ sampleC16.ext = false ∧ sampleC16.lower = some 1 ∧
    sampleC16.upper = some 40 ∧ Spec.unsignedFits 65536 (40 - 1) = true := by decide +kernel

end Verif.Props
