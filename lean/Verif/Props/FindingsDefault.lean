import Verif.Props.Annex
/-!
# DEFAULT components of constructed types (F93)
-/
namespace Verif.Props.Findings
open Verif

/-- Values of SEQUENCE, SEQUENCE OF and CHOICE types. -/
def structured : Val → Prop
  | .seq _ | .seqOf _ | .choice _ _ => True
  | _ => False

/-- The component list has a DEFAULT component whose default is a value of a constructed type. -/
inductive StructuredDefault : Fields → Prop where
  | here (n : String) (d : Val) (t : Ty) (r : Fields) : structured d → StructuredDefault (.cons n (.default d) t r)
  | later (n : String) (k : Kind) (t : Ty) (r : Fields) : StructuredDefault r → StructuredDefault (.cons n k t r)

theorem structured_ne {d : Val} (h : structured d) (v : Val) : pyValueNe d v = .error .attributeError := by
  cases d <;> cases v <;> first | exact h.elim | rfl

theorem structured_root {r : Fields} (h : StructuredDefault r) : ∀ (cs : List (Option Val)) (x : Bits × List BitField),
    encRoot r cs ≠ .ok x := by
  induction h with
  | here n d t r hd =>
    intro cs x e
    rw [encRoot] at e
    cases hc : cs.head?.getD none with
    | none => rw [hc, rootComponent, structured_ne hd d] at e; cases e
    | some v => rw [hc, rootComponent, structured_ne hd v] at e; cases e
  | later n k t r _ ih =>
    intro cs x e
    rw [encRoot] at e
    cases h1 : rootComponent (encTy t) k t (cs.head?.getD none) with
    | error _ => rw [h1] at e; cases e
    | ok p =>
      cases h2 : encRoot r cs.tail with
      | error _ => rw [h1] at e; simp only [bind, Except.bind, h2] at e; cases e
      | ok q => exact ih _ _ h2

/-- F93: `default._value` (encoder.py:257) does not exist for constructed types, so that no value whatever of a SEQUENCE
with such a DEFAULT among its root components is encoded. -/
theorem C08_structured_default (ext : Bool) {r : Fields} (a : Fields) (g : Groups) (h : StructuredDefault r) (v : Val) :
    ∀ bs, encode (.sequence ext r a g) v ≠ .ok bs := by
  intro bs e
  obtain ⟨fs, e1, _⟩ := (encode_eq _ _ bs).1 e
  cases v with
  | seq cs =>
    rw [encTy] at e1
    cases h1 : encRoot r cs with
    | error _ => rw [h1] at e1; cases e1
    | ok x => exact structured_root h cs x h1
  | _ => simp [encTy] at e1

/-- The personnel record of X.691 A.1 with its `children SEQUENCE OF ChildInformation DEFAULT {}`. -/
def annexDefault : Ty :=
  .sequence false (Fields.ofList [("name", .mandatory, annexName), ("number", .mandatory, .integer .noConstraint),
    ("title", .mandatory, annexText), ("dateOfHire", .mandatory, annexText), ("nameOfSpouse", .mandatory, annexName),
    ("children", .default (.seqOf []), .seqOf ⟨false, some 0, none⟩ annexChild)]) .nil .nil

/-- It is not encoded, though the standard's encoding is that of `annexRecord`. -/
theorem C08_annex : encode annexDefault annexPerson = .error .attributeError ∧
    X691.message annexDefault annexPerson = X691.message annexRecord annexPerson := by
  constructor <;> decide +kernel

end Verif.Props.Findings
