import Verif.Props.FindingsLooking
import Verif.Props.Shared
/-!
# Where sharing parts changes what is sent (F92)
-/
namespace Verif.Props.Findings
open Verif Spec Shared

/-- `SEQUENCE { m SEQUENCE { x BOOLEAN OPTIONAL }, o SEQUENCE { x BOOLEAN OPTIONAL } OPTIONAL }` -/
def sharedOptional : Ty :=
  .sequence false (.cons "m" .mandatory objectInner (.cons "o" .optional objectInner .nil)) .nil .nil

/-- `SEQUENCE { o SEQUENCE { x BOOLEAN OPTIONAL } OPTIONAL }` -/
def sharedOther : Ty := .sequence false (.cons "o" .optional objectInner .nil) .nil .nil

/-- An object in which nothing is set; the second one uses it as `m` and `o`, the third one as `m`, the fourth one as `o`;
the fifth one uses copies of it. -/
def sharedEmpty : Store :=
  [⟨objectInner, .seq none⟩, ⟨sharedOptional, .seq (some [some 0, some 0])⟩, ⟨sharedOptional, .seq (some [some 0, none])⟩,
    ⟨sharedOther, .seq (some [some 0])⟩, ⟨sharedOptional, .seq (some [some 5, some 6])⟩, ⟨objectInner, .seq none⟩,
    ⟨objectInner, .seq none⟩]

theorem sharedEmpty_typed : WellTyped sharedEmpty := by
  intro x c e
  have no : ∀ n i y, place (places n none) i = some y → False := by
    intro n i y hy
    rw [show places n none = List.replicate n none from rfl, place_none] at hy
    cases hy
  match x, e with
  | 0, e => cases e; exact ⟨rfl, rfl, fun i y hy => (no _ _ _ hy).elim⟩
  | 1, e =>
    cases e
    refine ⟨rfl, rfl, fun i y hy => ?_⟩
    match i, hy with
    | 0, hy => cases hy; exact ⟨.mandatory, objectInner, rfl, rfl⟩
    | 1, hy => cases hy; exact ⟨.optional, objectInner, rfl, rfl⟩
    | _ + 2, hy => cases hy
  | 2, e =>
    cases e
    refine ⟨rfl, rfl, fun i y hy => ?_⟩
    match i, hy with
    | 0, hy => cases hy; exact ⟨.mandatory, objectInner, rfl, rfl⟩
    | 1, hy => cases hy
    | _ + 2, hy => cases hy
  | 3, e =>
    cases e
    refine ⟨rfl, rfl, fun i y hy => ?_⟩
    match i, hy with
    | 0, hy => cases hy; exact ⟨.optional, objectInner, rfl, rfl⟩
    | _ + 1, hy => cases hy
  | 4, e =>
    cases e
    refine ⟨rfl, rfl, fun i y hy => ?_⟩
    match i, hy with
    | 0, hy => cases hy; exact ⟨.mandatory, objectInner, rfl, rfl⟩
    | 1, hy => cases hy; exact ⟨.optional, objectInner, rfl, rfl⟩
    | _ + 2, hy => cases hy
  | 5, e => cases e; exact ⟨rfl, rfl, fun i y hy => (no _ _ _ hy).elim⟩
  | 6, e => cases e; exact ⟨rfl, rfl, fun i y hy => (no _ _ _ hy).elim⟩

/-- F92: an object in which nothing is set, used as a mandatory and as an OPTIONAL component: encoding the former makes it a
value, and the latter is sent (`80`).  With two objects it is not (`00`), although they look the same. -/
theorem C67_shared_sent : WellTyped sharedEmpty ∧ treeOf sharedOptional sharedEmpty 1 = treeOf sharedOptional sharedEmpty 4 ∧
    performed [.encode 1] sharedEmpty = [.ok [0x80]] ∧ performed [.encode 4] sharedEmpty = [.ok [0x00]] ∧
    envisaged [.encode 1] sharedEmpty = [.ok [0x00]] := by
  refine ⟨sharedEmpty_typed, rfl, ?_, ?_, ?_⟩ <;> decide +kernel

/-- F92: encoding one object changes what is sent for another one that shares a part with it. -/
theorem C67_other_sent : performed [.encode 3] sharedEmpty = [.ok [0x00]] ∧
    performed [.encode 2, .encode 3] sharedEmpty = [.ok [0x00], .ok [0x80]] := by
  refine ⟨?_, ?_⟩ <;> decide +kernel

/-- F92: so does building the dictionary of it, or reading a component. -/
theorem C67_looked_sent : performed [.dict 2, .encode 3] sharedEmpty = [.ok [0x80]] ∧
    performed [.look 2 [0, 0], .encode 3] sharedEmpty = [.ok [0x80]] := by
  refine ⟨?_, ?_⟩ <;> decide +kernel

/-- `SEQUENCE { m SEQUENCE { x BOOLEAN OPTIONAL }, c CHOICE { p SEQUENCE { x BOOLEAN OPTIONAL } } }` -/
def sharedChosen : Ty :=
  .sequence false (.cons "m" .mandatory objectInner (.cons "c" .mandatory lookChoice .nil)) .nil .nil

/-- The same object is `m` and the chosen alternative of `c` in the third one; the sixth one has two. -/
def sharedShown : Store :=
  [⟨objectInner, .seq none⟩, ⟨lookChoice, .choice (some (0, 0))⟩, ⟨sharedChosen, .seq (some [some 0, some 1])⟩,
    ⟨objectInner, .seq none⟩, ⟨lookChoice, .choice (some (0, 3))⟩, ⟨sharedChosen, .seq (some [some 6, some 4])⟩,
    ⟨objectInner, .seq none⟩]

/-- F92: the dictionary shows `{}` for the alternative that was asked for as another component before, and `None` for one that
was not. -/
theorem C67_shared_shown : treeOf sharedChosen sharedShown 2 = treeOf sharedChosen sharedShown 5 ∧
    displayed [.dict 2] sharedShown = [.ok (some (.dict [("c", .dict [])]))] ∧
    displayed [.dict 5] sharedShown = [.ok (some (.dict [("c", .none)]))] ∧
    pictured [.dict 2] sharedShown = [.ok (some (.dict [("c", .none)]))] := by
  refine ⟨rfl, ?_, ?_, ?_⟩ <;> decide +kernel

end Verif.Props.Findings
