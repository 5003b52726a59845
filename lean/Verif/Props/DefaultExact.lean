import Verif.Props.Sequence
/-!
# C21: exactly which components with a DEFAULT are not sent
-/
namespace Verif.Props
open Verif

/-- C21, exactly, for root components: a component that is set to `v` has the presence bit 0, and contributes nothing else,
if and only if `v` is the DEFAULT or both are BIT STRINGs that are equal as numbers, i.e. but for leading zeros (F13).
Otherwise its presence bit is 1 and its fields are the encoding of the value. -/
theorem C21_exact {ext : Bool} {r a : Fields} {g : Groups} {cs : List (Option Val)} {fs : List BitField}
    (h : encTy (.sequence ext r a g) (.seq cs) = .ok fs) {i : Nat} {n : String} {d v : Val} {t : Ty}
    (hf : Spec.fieldAt r i = some (n, .default d, t)) (hv : cs[i]?.getD none = some v) :
    ∃ (e : Bool) (parts : List (List BitField)) (rest : List BitField),
      fs = (if ext then [⟨false, [e]⟩] else []) ++
        (if Spec.presence r cs = [] then [] else [⟨false, Spec.presence r cs⟩]) ++ parts.flatten ++ rest ∧
      ((Spec.presence r cs)[Spec.optionalsBefore r i]? = some false ↔
        v = d ∨ ∃ x y, d = .bits x ∧ v = .bits y ∧ Spec.number x = Spec.number y) ∧
      ((Spec.presence r cs)[Spec.optionalsBefore r i]? = some false → parts[i]? = some []) ∧
      ((Spec.presence r cs)[Spec.optionalsBefore r i]? ≠ some false →
        (Spec.presence r cs)[Spec.optionalsBefore r i]? = some true ∧ ∃ fl, encTy t v = .ok fl ∧ parts[i]? = some fl) := by
  obtain ⟨e, parts, rest, hp, hfs, _⟩ := encSequence_shape h
  have hsame : Spec.sameAsDefault d v = true ↔ v = d ∨ ∃ x y, d = .bits x ∧ v = .bits y ∧ Spec.number x = Spec.number y := by
    by_cases hb : ∃ x y, d = .bits x ∧ v = .bits y
    · obtain ⟨x, y, rfl, rfl⟩ := hb
      simp only [Spec.sameAsDefault, beq_iff_eq]
      constructor
      · exact fun h => .inr ⟨x, y, rfl, rfl, h⟩
      · rintro (h | ⟨x', y', h1, h2, h3⟩)
        · cases h; rfl
        · cases h1; cases h2; exact h3
    · rw [sameAsDefault_iff (by
        cases d <;> cases v <;> first | rfl | exact absurd ⟨_, _, rfl, rfl⟩ hb)]
      constructor
      · exact .inl
      · rintro (h | ⟨x, y, h1, h2, _⟩)
        · exact h
        · exact absurd ⟨x, y, h1, h2⟩ hb
  refine ⟨e, parts, rest, hfs, ?_⟩
  rw [← hsame]
  rcases (C20_by_position hp hf).2 with ⟨w, fl, h1, h2, h3, h4⟩ | ⟨_, h2, h3, h4⟩
  · rw [hv] at h1
    have h4 := h4 (by simp)
    cases hs : Spec.sameAsDefault d v with
    | true => simp [Spec.sent, hs] at h1
    | false =>
      simp only [Spec.sent, hs, Bool.false_eq_true, if_false, Option.some.injEq] at h1
      subst h1
      refine ⟨⟨fun hh => ?_, fun hh => nomatch hh⟩, fun hh => ?_, fun _ => ⟨h4, fl, h2, h3⟩⟩ <;>
        (rw [h4] at hh; cases hh)
  · rw [hv] at h2
    cases hs : Spec.sameAsDefault d v with
    | false => simp [Spec.sent, hs] at h2
    | true => exact ⟨⟨fun _ => rfl, fun _ => h4⟩, fun _ => h3, fun hh => absurd h4 hh⟩

/-- A value that is sent and one that is not although it differs. -/
example :
    let t := Ty.sequence false (Fields.ofList [("a", .default (.bits [false, true]), .bitString ⟨false, none, none⟩)]) .nil .nil
    encTy t (.seq [some (.bits [true, true])]) = .ok [⟨false, [true]⟩, ⟨true, natToBits 8 2⟩, ⟨true, [true, true]⟩] ∧
    encTy t (.seq [some (.bits [false, false, true])]) = .ok [⟨false, [false]⟩] := by
  constructor <;> decide +kernel

end Verif.Props
