import Verif.Spec
import Verif.Lemmas.Bits
/-!
# The vocabulary of the specification agrees with the functions of the model
-/
namespace Verif
open Spec

theorem number_eq : ∀ s : Bits, Spec.number s = bitsToNat s
  | [] => rfl
  | b :: s => by
    rw [bitsToNat_cons, Spec.number, number_eq s]
    cases b <;> simp

@[simp] theorem held_eq (k : Kind) (c : Option Val) : held k c = effective k c := by
  cases c <;> cases k <;> rfl

@[simp] theorem isOpt_eq (k : Kind) : isOpt k = k.isOptional := by cases k <;> rfl

@[simp] theorem hasDefault_eq (k : Kind) : hasDefault k = k.isDefaulted := by cases k <;> rfl

theorem appendFields_length : ∀ f h : Fields, (appendFields f h).length = f.length + h.length
  | .nil, h => by simp [appendFields, Fields.length]
  | .cons n k t r, h => by
    simp only [appendFields, Fields.length, appendFields_length r h]; omega

theorem flatten_length : ∀ g : Groups, (flatten g).length = g.size
  | .nil => rfl
  | .cons f g => by simp only [flatten, appendFields_length, flatten_length g, Groups.size]

theorem components_length (r a : Fields) (g : Groups) :
    (components r a g).length = r.length + a.length + g.size := by
  simp only [components, appendFields_length, flatten_length]; omega

@[simp] theorem untouched_eq (t : Ty) : untouched t = emptyVal t := by
  cases t <;> simp only [untouched, emptyVal, components_length]

/-! ## `valued` -/

theorem isValueAlt_eq : ∀ (f : Fields) (p : Nat) (v : Val),
    isValueAlt f p v = (match fieldAt f p with | some (_, _, t) => isValue t v | none => false)
  | .nil, _, _ => by simp only [isValueAlt, fieldAt]
  | .cons _ _ _ _, 0, _ => by simp only [isValueAlt, fieldAt]
  | .cons _ _ _ r, p + 1, v => by simp only [isValueAlt, fieldAt, isValueAlt_eq r p v]

theorem isValueAlt_append : ∀ (f h : Fields) (p : Nat) (v : Val),
    isValueAlt (appendFields f h) p v = if p < f.length then isValueAlt f p v else isValueAlt h (p - f.length) v
  | .nil, h, p, v => by simp [appendFields, Fields.length]
  | .cons _ _ _ _, h, 0, v => by simp [appendFields, isValueAlt, Fields.length]
  | .cons _ _ _ r, h, p + 1, v => by
    simp only [appendFields, isValueAlt, Fields.length, isValueAlt_append r h p v, Nat.add_lt_add_iff_right,
      Nat.add_sub_add_right]

theorem isValueAltG_eq : ∀ (g : Groups) (p : Nat) (v : Val), isValueAltG g p v = isValueAlt (flatten g) p v
  | .nil, _, _ => by simp only [isValueAltG, flatten, isValueAlt]
  | .cons f g, p, v => by simp only [isValueAltG, flatten, isValueAlt_append, isValueAltG_eq g]

theorem anyValue_nil : ∀ f : Fields, anyValue f [] = false
  | .nil => by simp only [anyValue]
  | .cons _ _ _ r => by simp [anyValue, anyValue_nil r]

theorem anyValue_append : ∀ (f h : Fields) (cs : List (Option Val)),
    anyValue (appendFields f h) cs = (anyValue f cs || anyValue h (cs.drop f.length))
  | .nil, h, cs => by simp [appendFields, anyValue, Fields.length]
  | .cons _ _ _ r, h, cs => by
    simp only [appendFields, anyValue, anyValue_append r h, Fields.length, Bool.or_assoc, List.drop_tail]

theorem anyValueG_eq : ∀ (g : Groups) (cs : List (Option Val)), anyValueG g cs = anyValue (flatten g) cs
  | .nil, _ => by simp only [anyValueG, flatten, anyValue]
  | .cons f g, cs => by simp only [anyValueG, flatten, anyValue_append, anyValueG_eq g]

theorem mandatoryAll_append : ∀ (f h : Fields) (cs : List (Option Val)),
    mandatoryAll (appendFields f h) cs = (mandatoryAll f cs && mandatoryAll h (cs.drop f.length))
  | .nil, h, cs => by simp [appendFields, mandatoryAll, Fields.length]
  | .cons _ _ _ r, h, cs => by
    simp only [appendFields, mandatoryAll, mandatoryAll_append r h, Fields.length, Bool.and_assoc, List.drop_tail]

theorem mandatoryAllG_eq : ∀ (g : Groups) (cs : List (Option Val)), mandatoryAllG g cs = mandatoryAll (flatten g) cs
  | .nil, _ => by simp only [mandatoryAllG, flatten, mandatoryAll]
  | .cons f g, cs => by simp only [mandatoryAllG, flatten, mandatoryAll_append, mandatoryAllG_eq g]

theorem mandatory_or_any : ∀ (f : Fields) (cs : List (Option Val)),
    (mandatoryAll f cs || anyValue f cs) = (anyValue f cs || noMandatory f)
  | .nil, _ => by simp only [mandatoryAll, anyValue, noMandatory]; rfl
  | .cons _ k t r, cs => by
    have ih := mandatory_or_any r cs.tail
    cases k with
    | mandatory =>
      simp only [mandatoryAll, anyValue, noMandatory]
      simp only [Bool.or_false]
      rcases cs.head? with _ | _ | v
      · simp
      · simp
      · show ((isValue t v && mandatoryAll r cs.tail) || (isValue t v || anyValue r cs.tail)) =
          (isValue t v || anyValue r cs.tail)
        cases isValue t v <;> simp
    | optional =>
      simp only [mandatoryAll, anyValue, noMandatory, Bool.true_and]
      rw [Bool.or_comm, Bool.or_assoc, Bool.or_comm (anyValue r cs.tail), ih, Bool.or_assoc]
    | default d =>
      simp only [mandatoryAll, anyValue, noMandatory, Bool.true_and]
      rw [Bool.or_comm, Bool.or_assoc, Bool.or_comm (anyValue r cs.tail), ih, Bool.or_assoc]

theorem isValue_sequence (ext : Bool) (r a : Fields) (g : Groups) (cs : List (Option Val)) :
    isValue (.sequence ext r a g) (.seq cs) =
      (cs.any Option.isSome && (anyValue (components r a g) cs || noMandatory (components r a g))) := by
  rw [← mandatory_or_any]
  simp only [isValue, components, anyValue_append, mandatoryAll_append, anyValueG_eq, mandatoryAllG_eq,
    List.drop_drop, Bool.or_assoc, Bool.and_assoc]

theorem isValue_choice (ext : Bool) (r a : Fields) (g : Groups) (p : Nat) (v : Val) :
    isValue (.choice ext r a g) (.choice p v) = isValueAlt (components r a g) p v := by
  simp only [isValue, components, isValueAlt_append, isValueAltG_eq]
  by_cases h1 : p < r.length
  · simp [h1]
  · by_cases h2 : p < r.length + a.length
    · have : p - r.length < a.length := by omega
      simp [h1, h2, this]
    · have : ¬ p - r.length < a.length := by omega
      have e : p - r.length - a.length = p - (r.length + a.length) := by omega
      simp [h1, h2, this, e]

mutual
@[simp] theorem valued_eq : ∀ (t : Ty) (v : Val), valued t v = isValue t v
  | t, .seqOf vs => by
    cases t <;> simp only [valued, isValue]
    rw [valuedAll_eq]
  | t, .choice p v => by
    cases t <;> simp only [valued, isValue_choice] <;> try simp only [isValue]
    rw [isValueAlt_eq]
    split
    · rename_i h; rw [h]; exact valued_eq _ v
    · rename_i h; rw [h]
  | t, .seq cs => by
    cases t <;> simp only [valued, isValue_sequence] <;> try simp only [isValue]
    rw [valuedSome_eq]
  | t, .bool _ => by cases t <;> simp only [valued, isValue]
  | t, .int _ => by cases t <;> simp only [valued, isValue]
  | t, .enum _ => by cases t <;> simp only [valued, isValue]
  | t, .bits _ => by cases t <;> simp only [valued, isValue]
  | t, .octets _ => by cases t <;> simp only [valued, isValue]
theorem valuedAll_eq : ∀ (t : Ty) (vs : List Val), valuedAll t vs = vs.all (isValue t)
  | _, [] => by simp [valuedAll]
  | t, v :: vs => by simp [valuedAll, valued_eq t v, valuedAll_eq t vs]
theorem valuedSome_eq : ∀ (f : Fields) (cs : List (Option Val)), valuedSome f cs = anyValue f cs
  | .nil, cs => by cases cs <;> simp only [valuedSome, anyValue]
  | .cons _ _ t r, [] => by simp only [valuedSome, anyValue_nil]
  | .cons _ _ t r, none :: cs => by simp [valuedSome, anyValue, valuedSome_eq r cs]
  | .cons _ _ t r, some v :: cs => by simp [valuedSome, anyValue, valuedSome_eq r cs, valued_eq t v]
end

theorem any_valued (t : Ty) (c : Option Val) : c.any (valued t) = isValueOpt t c := by
  cases c <;> simp [isValueOpt]

end Verif
