import Verif.Props.Domain
/-!
# C23: exactly which mandatory components may be left unset
-/
namespace Verif

theorem encodableRoot_unset : ∀ (r : Fields) (cs : List (Option Val)) {i : Nat} {n : String} {t : Ty} {v : Val},
    Spec.encodableRoot r cs = true → Spec.fieldAt r i = some (n, .mandatory, t) → cs[i]?.getD none = some v →
    Spec.encodableRoot r (cs.set i none) = (match Spec.untouched t with | some w => Spec.encodable t w | none => false)
  | .nil, _, _, _, _, _, _, hf, _ => by simp [Spec.fieldAt] at hf
  | .cons n k t r, [], i, _, _, _, _, _, hv => by simp at hv
  | .cons n k t r, c :: cs, 0, _, _, _, h, hf, _ => by
    cases hf
    simp only [Spec.encodableRoot, Bool.and_eq_true, List.tail_cons] at h
    simp only [Spec.encodableRoot, List.set_cons_zero, List.head?_cons, Option.getD_some, List.tail_cons, h.2,
      Bool.and_true, Spec.sent]
    cases Spec.untouched t <;> simp
  | .cons n k t r, c :: cs, i + 1, _, _, _, h, hf, hv => by
    simp only [Spec.encodableRoot, Bool.and_eq_true, List.tail_cons, List.head?_cons] at h
    have ih := encodableRoot_unset r cs h.2 hf (by simpa using hv)
    rw [List.set_cons_succ]
    simp only [Spec.encodableRoot, List.tail_cons, List.head?_cons, ih]
    have h1 := h.1.1
    have h2 := h.1.2
    simp only [Option.getD_some] at h1 h2 ⊢
    rw [h1, h2]
    rfl

theorem fieldAt_lt : ∀ {f : Fields} {i : Nat} {x : String × Kind × Ty}, Spec.fieldAt f i = some x → i < f.length
  | .nil, _, _, h => by simp [Spec.fieldAt] at h
  | .cons _ _ _ _, 0, _, _ => by simp [Fields.length]
  | .cons _ _ _ r, i + 1, _, h => by
    have := fieldAt_lt (f := r) h
    simp only [Fields.length]
    omega

namespace Props
open Verif

/-- C23, exactly: take any SEQUENCE that can be encoded and remove the value of one of its mandatory root components.
`encode` raises if and only if an object of the component's type that was just created cannot be encoded either: one of a
simple type or a CHOICE has no value, a SEQUENCE OF is empty and a SEQUENCE has no components (F24). -/
theorem C23_exact {ext : Bool} {r a : Fields} {g : Groups} {cs : List (Option Val)} {i : Nat} {n : String} {t : Ty} {v : Val}
    (h : ∃ bs, encode (.sequence ext r a g) (.seq cs) = .ok bs) (hf : Spec.fieldAt r i = some (n, .mandatory, t))
    (hv : cs[i]?.getD none = some v) :
    (∃ e, encode (.sequence ext r a g) (.seq (cs.set i none)) = .error e) ↔
      ∀ w, Spec.untouched t = some w → ∃ e, encode t w = .error e := by
  have refused : ∀ t v, (∃ e, encode t v = .error e) ↔ Spec.encodable t v = false := by
    intro t v
    rw [Bool.eq_false_iff, Ne, ← C60_domain]
    cases encode t v with
    | error e => exact ⟨fun _ ⟨_, h⟩ => (nomatch h), fun _ => ⟨e, rfl⟩⟩
    | ok bs => exact ⟨fun ⟨_, h⟩ => (nomatch h), fun h => absurd ⟨bs, rfl⟩ h⟩
  have hi : i < r.length := fieldAt_lt hf
  rw [C60_domain] at h
  simp only [refused]
  simp only [Spec.encodable, Bool.and_eq_true] at h
  obtain ⟨⟨h1, h2⟩, h3⟩ := h
  rw [Spec.encodable, encodableRoot_unset r cs h1 hf hv, h2, List.drop_set_of_lt hi,
    List.drop_set_of_lt (by omega), h3, Bool.and_true, Bool.and_true]
  cases hu : Spec.untouched t with
  | none => simp
  | some w => simp

/-- Of two lists, one may be left unset and one may not. -/
private def sampleLists : Fields :=
  Fields.ofList [("a", .mandatory, .seqOf ⟨false, some 0, some 4⟩ .boolean),
    ("b", .mandatory, .seqOf ⟨false, some 1, some 4⟩ .boolean)]

example : (∃ e, encode (.sequence false sampleLists .nil .nil)
      (.seq ([some (.seqOf [.bool true]), some (.seqOf [.bool true])].set 1 none)) = .error e) ∧
    ¬ ∃ e, encode (.sequence false sampleLists .nil .nil)
      (.seq ([some (.seqOf [.bool true]), some (.seqOf [.bool true])].set 0 none)) = .error e := by
  have h : ∃ bs, encode (.sequence false sampleLists .nil .nil)
      (.seq [some (.seqOf [.bool true]), some (.seqOf [.bool true])]) = .ok bs := ⟨[0x32], by decide +kernel⟩
  constructor
  · refine (C23_exact h (i := 1) rfl rfl).2 fun w hw => ?_
    cases hw
    exact ⟨.sizeConstrainViolated, by decide +kernel⟩
  · rw [C23_exact h (i := 0) rfl rfl]
    intro hw
    obtain ⟨e, he⟩ := hw _ rfl
    have : encode (.seqOf ⟨false, some 0, some 4⟩ .boolean) (.seqOf []) = .ok [0x00] := by decide +kernel
    rw [this] at he
    cases he

end Props
end Verif
