import Verif.Lemmas.Faults
import Verif.Lemmas.Cursor
/-!
# C58: what goes wrong with octets that are not a message
-/
namespace Verif.Props

open Verif Spec

/-- Whatever octets are received: if no value is returned, then the exception is `ValueError`, `NotImplemented`, or one that
a type occurring in the type of the message accounts for; or an empty BIT STRING was chosen (F87). -/
theorem C58_faults {t : Ty} {bs : List UInt8} {e : Err} (h : decode t bs = .error e) :
    e = .valueError ∨ e = .notImplemented ∨ mayRaise e t = true ∨ (e = .typeError ∧ choosesNothing t = true) := by
  by_cases hb : bs = []
  · subst hb; cases h; exact .inl rfl
  rw [decode_eq hb] at h
  cases hd : decTy t ⟨Offset.init 0 0, bytesToBits bs⟩ with
  | error e' =>
    rw [hd] at h
    cases h
    rcases (raises_ty t).run _ _ hd with h | h | h
    · exact .inl h
    · exact .inr (.inl h)
    · exact .inr (.inr (.inl h))
  | ok r =>
    rw [hd] at h
    replace h : (if returnable r.1 = true then pure r.1 else .error .typeError : Except Err Val) = .error e := h
    split at h
    · cases h
    · rename_i hr
      cases h
      exact .inr (.inr (.inr ⟨rfl, (not_returnable t).run _ r.1 r.2 hd (by simpa using hr)⟩))

mutual
theorem mayRaise_kinds {e : Err} : ∀ t : Ty, mayRaise e t = true →
    e = .constraint ∨ e = .typeError ∨ e = .indexError ∨ e = .attributeError
  | .boolean, h => by simp [mayRaise] at h
  | .integer c, h => by
    simp only [mayRaise, Bool.or_eq_true, Bool.and_eq_true, beq_iff_eq] at h
    rcases h with h | h
    · exact .inl h.2
    · exact (badRange_kinds h.2).elim (fun h => .inr (.inl h)) fun h => .inr (.inr (.inr h))
  | .enumerated x r a, h => by
    simp only [mayRaise, Bool.or_eq_true, Bool.and_eq_true, beq_iff_eq] at h
    exact h.elim (fun h => .inr (.inl h)) fun h => .inr (.inr (.inr h.2))
  | .bitString c, h => by
    simp only [mayRaise, Bool.or_eq_true, Bool.and_eq_true, beq_iff_eq] at h
    rcases h with h | h
    · exact .inl h.2
    · exact (badRange_kinds h.2).elim (fun h => .inr (.inl h)) fun h => .inr (.inr (.inr h))
  | .octetString c, h => by
    simp only [mayRaise, Bool.or_eq_true, Bool.and_eq_true, beq_iff_eq] at h
    rcases h with h | h
    · exact .inl h.2
    · exact (badRange_kinds h.2).elim (fun h => .inr (.inl h)) fun h => .inr (.inr (.inr h))
  | .seqOf c t, h => by
    rw [mayRaise, Bool.or_eq_true, Bool.and_eq_true] at h
    rcases h with h | h
    · exact (badRange_kinds h.2).elim (fun h => .inr (.inl h)) fun h => .inr (.inr (.inr h))
    · exact mayRaise_kinds t h
  | .choice x r a g, h => by
    simp only [mayRaise, Bool.or_eq_true, Bool.and_eq_true, beq_iff_eq] at h
    rcases h with (((h | h) | h) | h) | h
    · exact .inr (.inr (.inl h))
    · exact .inr (.inr (.inr h.2))
    · exact mayRaiseAny_kinds r h
    · exact mayRaiseAny_kinds a h
    · exact mayRaiseGroups_kinds g h
  | .sequence x r a g, h => by
    simp only [mayRaise, Bool.or_eq_true] at h
    rcases h with (h | h) | h
    · exact mayRaiseAny_kinds r h
    · exact mayRaiseAny_kinds a h
    · exact mayRaiseGroups_kinds g h
theorem mayRaiseAny_kinds {e : Err} : ∀ r : Fields, mayRaiseAny e r = true →
    e = .constraint ∨ e = .typeError ∨ e = .indexError ∨ e = .attributeError
  | .nil, h => by simp [mayRaiseAny] at h
  | .cons _ _ t r, h => by
    rw [mayRaiseAny, Bool.or_eq_true] at h
    exact h.elim (mayRaise_kinds t) (mayRaiseAny_kinds r)
theorem mayRaiseGroups_kinds {e : Err} : ∀ g : Groups, mayRaiseGroups e g = true →
    e = .constraint ∨ e = .typeError ∨ e = .indexError ∨ e = .attributeError
  | .nil, h => by simp [mayRaiseGroups] at h
  | .cons f g, h => by
    rw [mayRaiseGroups, Bool.or_eq_true] at h
    exact h.elim (mayRaiseAny_kinds f) (mayRaiseGroups_kinds g)
theorem badRange_kinds {e : Err} {α : Type} [LT α] [DecidableRel (α := α) (· < ·)] {l u : Option α} (h : badRange e l u = true) :
    e = .typeError ∨ e = .attributeError := by
  unfold badRange at h
  split at h
  · rw [Bool.and_eq_true, beq_iff_eq] at h; exact .inr h.1
  · exact .inl (by simpa using h)
end

/-- For every type at all: no octets make the decoder use a variable that is not bound or an object that has no value, or
raise one of the exceptions of the encoder. -/
theorem C58_kinds {t : Ty} {bs : List UInt8} {e : Err} (h : decode t bs = .error e) :
    e ∈ [.valueError, .notImplemented, .constraint, .typeError, .indexError, .attributeError] := by
  rcases C58_faults h with rfl | rfl | h | ⟨rfl, _⟩
  · simp
  · simp
  rotate_left
  · simp
  · rcases mayRaise_kinds t h with rfl | rfl | rfl | rfl <;> simp

/-- Types of all kinds, but no CHOICE, no ENUMERATED and only ranges with both ends: neither `TypeError` nor `IndexError` nor
`AttributeError`. -/
private def plain : Ty := .sequence true
  (Fields.ofList [("n", .mandatory, .integer (.valueRange (some 0) (some 5) false)), ("b", .optional, .bitString ⟨true, some 0, some 4⟩)])
  (Fields.ofList [("l", .mandatory, .seqOf ⟨false, some 0, some 3⟩ (.octetString ⟨false, none, none⟩))]) .nil

example : ∀ e ∈ [Err.typeError, .indexError, .attributeError], mayRaise e plain = false := by decide +kernel
example : decode plain [0x30] = .error .constraint ∧ decode plain [0x90, 0x08] = .error .valueError ∧
    decode plain [0x90, 0x08, 0xC0] = .error .notImplemented := by
  refine ⟨?_, ?_, ?_⟩ <;> decide +kernel
example : choosesNothing plain = false := by decide +kernel
/-- An alternative and an item that are not there. -/
example : decode (.choice false (Fields.ofList [("a", .mandatory, .boolean), ("b", .mandatory, .boolean), ("c", .mandatory, .boolean)]) .nil .nil) [0xC0] =
      .error .indexError ∧ decode (.enumerated false [("a", 0), ("b", 1), ("c", 2)] []) [0xC0] = .error .typeError := by
  constructor <;> decide +kernel

end Verif.Props
