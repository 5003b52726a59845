import Verif.Lemmas.RoundTrip
/-!
# Values in canonical form arrive unchanged
-/
namespace Verif

theorem solidAny_cons (c : Option Val) (cs : List (Option Val)) :
    Spec.solidAny (c :: cs) = ((match c with | some v => Spec.solid v | none => false) || Spec.solidAny cs) := by
  cases c <;> simp [Spec.solidAny]

theorem solidAny_append : ∀ (a b : List (Option Val)),
    Spec.solidAny (a ++ b) = (Spec.solidAny a || Spec.solidAny b)
  | [], b => by simp [Spec.solidAny]
  | c :: a, b => by
    rw [List.cons_append, solidAny_cons, solidAny_cons, solidAny_append a b, Bool.or_assoc]

theorem solidAny_isSome : ∀ (cs : List (Option Val)), Spec.solidAny cs = true → cs.any Option.isSome = true
  | [], h => by simp [Spec.solidAny] at h
  | none :: cs, h => by
    rw [solidAny_cons] at h; simp only [Bool.false_or] at h
    rw [List.any_cons, solidAny_isSome cs h]; rfl
  | some v :: cs, _ => by simp

theorem solidAny_allNone : ∀ (cs : List (Option Val)), Spec.allNone cs = true → Spec.solidAny cs = false
  | [], _ => by simp [Spec.solidAny]
  | none :: cs, h => by
    rw [solidAny_cons]; simp only [Bool.false_or]
    exact solidAny_allNone cs (by simpa [Spec.allNone] using h)
  | some v :: cs, h => by simp [Spec.allNone] at h

theorem solid_hasContent {v : Val} (h : Spec.solid v = true) : hasContent v = true := by
  cases v <;> simp only [Spec.solid, hasContent, Bool.and_eq_true] at h ⊢
  · exact h.1
  · exact solidAny_isSome _ h

theorem solidAll_mem : ∀ (vs : List Val), Spec.solidAll vs = true → ∀ v ∈ vs, Spec.solid v = true
  | [], _, _, h => by cases h
  | w :: vs, h, v, hv => by
    simp only [Spec.solidAll, Bool.and_eq_true] at h
    rcases List.mem_cons.1 hv with rfl | hv
    · exact h.1
    · exact solidAll_mem vs h.2 v hv

/-- A list is its head and its tail. -/
theorem take_succ_head (cs : List (Option Val)) (n : Nat) :
    cs.take (n + 1) = (match cs with | [] => [] | c :: cs => c :: cs.take n) := by
  cases cs <;> rfl

theorem unset_take : ∀ (f : Fields) (cs : List (Option Val)), Spec.unset f cs = true →
    Spec.allNone (cs.take f.length) = true
  | .nil, cs, _ => by simp [Fields.length, Spec.allNone]
  | .cons n k t r, cs, h => by
    simp only [Spec.unset, Bool.and_eq_true, held_eq, untouched_eq, valued_eq, isOpt_eq, hasDefault_eq] at h
    cases cs with
    | nil => simp [Spec.allNone]
    | cons c cs =>
      have := unset_take r cs h.2
      have hc : c = none := by
        cases c with
        | none => rfl
        | some v => simp [effective] at h
      subst hc
      simpa [Fields.length, Spec.allNone] using this

mutual
theorem canonical_isValue : ∀ (t : Ty) (v : Val), Spec.canonical t v = true → Spec.solid v = true →
    isValue t v = true
  | .boolean, _, _, _ => by simp [isValue]
  | .integer _, _, _, _ => by simp [isValue]
  | .enumerated _ _ _, _, _, _ => by simp [isValue]
  | .bitString _, _, _, _ => by simp [isValue]
  | .octetString _, _, _, _ => by simp [isValue]
  | .seqOf c t, v, h, hs => by
    cases v with
    | seqOf vs =>
      simp only [Spec.canonical, List.all_eq_true] at h
      simp only [Spec.solid, Bool.and_eq_true] at hs
      simp only [isValue, Bool.and_eq_true, List.all_eq_true]
      exact ⟨hs.1, fun v hv => canonical_isValue t v (h v hv) (solidAll_mem vs hs.2 v hv)⟩
    | _ => simp [Spec.canonical] at h
  | .choice ext r a g, v, h, hs => by
    cases v with
    | choice pos v =>
      simp only [Spec.canonical] at h
      simp only [Spec.solid] at hs
      simp only [isValue]
      by_cases h1 : pos < r.length
      · simp only [h1, if_true] at h ⊢; exact canonical_isValueAlt r _ v h hs
      · by_cases h2 : pos < r.length + a.length
        · simp only [h1, h2, if_true, if_false] at h ⊢; exact canonical_isValueAlt a _ v h hs
        · simp only [h1, h2, if_false] at h ⊢; exact canonical_isValueAltG g _ v h hs
    | _ => simp [Spec.canonical] at h
  | .sequence ext r a g, v, h, hs => by
    cases v with
    | seq cs =>
      simp only [Spec.canonical, Bool.and_eq_true, beq_iff_eq] at h
      simp only [Spec.solid] at hs
      simp only [isValue, Bool.and_eq_true, Bool.or_eq_true]
      refine ⟨solidAny_isSome cs hs, .inr ?_⟩
      obtain ⟨⟨hlen, hr⟩, hx⟩ := h
      have hsplit : cs = cs.take r.length ++ ((cs.drop r.length).take a.length ++
          (cs.drop (r.length + a.length)).take g.size) := by
        rw [List.take_of_length_le (l := cs.drop (r.length + a.length)) (by rw [List.length_drop]; omega),
          ← List.drop_drop, List.take_append_drop, List.take_append_drop]
      rw [hsplit, solidAny_append, solidAny_append, Bool.or_eq_true, Bool.or_eq_true] at hs
      cases ext with
      | false =>
        simp only [Bool.false_eq_true, if_false] at hx
        rcases hs with hs | hs | hs
        · exact .inl (.inl (canonicalRoot_anyValue r cs hr hs))
        · have := solidAny_allNone _ hx
          have h2 := List.take_append_drop a.length (cs.drop r.length)
          rw [← h2, solidAny_append, hs] at this; cases this
        · have := solidAny_allNone _ hx
          have h2 := List.take_append_drop a.length (cs.drop r.length)
          rw [← h2, solidAny_append, List.drop_drop,
            ← List.take_append_drop g.size (cs.drop (r.length + a.length)), solidAny_append, hs] at this
          simp at this
      | true =>
        simp only [if_true, Bool.and_eq_true] at hx
        rcases hs with hs | hs | hs
        · exact .inl (.inl (canonicalRoot_anyValue r cs hr hs))
        · exact .inl (.inr (canonicalAdds_anyValue a _ hx.1 hs))
        · exact .inr (canonicalGroups_anyValue g _ hx.2 hs)
    | _ => simp [Spec.canonical] at h
theorem canonical_isValueAlt : ∀ (r : Fields) (p : Nat) (v : Val), Spec.canonicalAlt r p v = true →
    Spec.solid v = true → isValueAlt r p v = true
  | .nil, _, _, h, _ => by simp [Spec.canonicalAlt] at h
  | .cons _ _ t _, 0, v, h, hs => canonical_isValue t v h hs
  | .cons _ _ _ r, p + 1, v, h, hs => canonical_isValueAlt r p v h hs
theorem canonical_isValueAltG : ∀ (g : Groups) (p : Nat) (v : Val), Spec.canonicalAltG g p v = true →
    Spec.solid v = true → isValueAltG g p v = true
  | .nil, _, _, h, _ => by simp [Spec.canonicalAltG] at h
  | .cons f g, p, v, h, hs => by
    simp only [Spec.canonicalAltG, isValueAltG] at h ⊢
    by_cases hp : p < f.length
    · simp only [hp, if_true] at h ⊢; exact canonical_isValueAlt f _ v h hs
    · simp only [hp, if_false] at h ⊢; exact canonical_isValueAltG g _ v h hs
theorem canonicalRoot_anyValue : ∀ (r : Fields) (cs : List (Option Val)), Spec.canonicalRoot r cs = true →
    Spec.solidAny (cs.take r.length) = true → anyValue r cs = true
  | .nil, _, _, h => by simp [Fields.length, Spec.solidAny] at h
  | .cons n k t r, [], _, hs => by simp [Spec.solidAny] at hs
  | .cons n k t r, c :: cs, h, hs => by
    simp only [Spec.canonicalRoot, Bool.and_eq_true, List.head?_cons, Option.getD_some, List.tail_cons] at h
    simp only [Fields.length, List.take_succ_cons, solidAny_cons, Bool.or_eq_true] at hs
    simp only [anyValue, List.head?_cons, List.tail_cons, Bool.or_eq_true]
    rcases hs with hs | hs
    · cases c with
      | none => cases hs
      | some v =>
        left
        have hc : Spec.canonical t v = true := by
          cases k <;> simp only [Bool.and_eq_true] at h
          · exact h.1
          · exact h.1.1
          · exact h.1.1
        exact canonical_isValue t v hc hs
    · exact .inr (canonicalRoot_anyValue r cs h.2 hs)
theorem canonicalAdds_anyValue : ∀ (r : Fields) (cs : List (Option Val)), Spec.canonicalAdds r cs = true →
    Spec.solidAny (cs.take r.length) = true → anyValue r cs = true
  | .nil, _, _, h => by simp [Fields.length, Spec.solidAny] at h
  | .cons n k t r, [], _, hs => by simp [Spec.solidAny] at hs
  | .cons n k t r, c :: cs, h, hs => by
    simp only [Spec.canonicalAdds, Bool.and_eq_true, List.head?_cons, Option.getD_some, List.tail_cons, held_eq, untouched_eq, valued_eq, isOpt_eq, hasDefault_eq] at h
    simp only [Fields.length, List.take_succ_cons, solidAny_cons, Bool.or_eq_true] at hs
    simp only [anyValue, List.head?_cons, List.tail_cons, Bool.or_eq_true]
    rcases hs with hs | hs
    · cases c with
      | none => cases hs
      | some v =>
        simp only [Bool.and_eq_true] at h
        exact .inl (canonical_isValue t v h.1.1 hs)
    · exact .inr (canonicalAdds_anyValue r cs h.2 hs)
theorem canonicalGroups_anyValue : ∀ (g : Groups) (cs : List (Option Val)), Spec.canonicalGroups g cs = true →
    Spec.solidAny (cs.take g.size) = true → anyValueG g cs = true
  | .nil, _, _, h => by simp [Groups.size, Spec.solidAny] at h
  | .cons f g, cs, h, hs => by
    simp only [Spec.canonicalGroups, Bool.and_eq_true, Bool.or_eq_true] at h
    simp only [Groups.size, List.take_add, solidAny_append, Bool.or_eq_true] at hs
    simp only [anyValueG, Bool.or_eq_true]
    rcases hs with hs | hs
    · rcases h.1 with h1 | ⟨h1, _⟩
      · have := solidAny_allNone _ (unset_take f cs h1)
        rw [hs] at this; cases this
      · exact .inl (canonicalRoot_anyValue f cs h1 hs)
    · exact .inr (canonicalGroups_anyValue g _ h.2 hs)
end

/-- A set component in canonical form that holds something is substantial. -/
theorem canonical_substantial {t : Ty} {v : Val} (h : Spec.canonical t v = true) (hs : Spec.solid v = true) :
    Spec.substantial t (some v) = true := by
  rw [← present_eq, present, canonical_isValue t v h hs, solid_hasContent hs]; rfl

theorem solidAny_anySubstantial : ∀ (r : Fields) (cs : List (Option Val)), Spec.canonicalRoot r cs = true →
    Spec.solidAny (cs.take r.length) = true → Spec.anySubstantial r cs = true
  | .nil, _, _, h => by simp [Fields.length, Spec.solidAny] at h
  | .cons n k t r, [], _, hs => by simp [Spec.solidAny] at hs
  | .cons n k t r, c :: cs, h, hs => by
    simp only [Spec.canonicalRoot, Bool.and_eq_true, List.head?_cons, Option.getD_some, List.tail_cons] at h
    simp only [Fields.length, List.take_succ_cons, solidAny_cons, Bool.or_eq_true] at hs
    simp only [Spec.anySubstantial, List.head?_cons, Option.getD_some, List.tail_cons, Bool.or_eq_true, held_eq, untouched_eq, valued_eq, isOpt_eq, hasDefault_eq]
    rcases hs with hs | hs
    · cases c with
      | none => cases hs
      | some v =>
        left
        have hc : Spec.canonical t v = true := by
          cases k <;> simp only [Bool.and_eq_true] at h
          · exact h.1
          · exact h.1.1
          · exact h.1.1
        exact canonical_substantial hc hs
    · exact .inr (solidAny_anySubstantial r cs h.2 hs)

theorem allNone_eq_replicate {cs : List (Option Val)} (h : Spec.allNone cs = true) :
    List.replicate cs.length none = cs := by
  induction cs with
  | nil => rfl
  | cons c cs ih =>
    simp only [Spec.allNone, List.all_cons, Bool.and_eq_true, Option.isNone_iff_eq_none] at h
    rw [List.length_cons, List.replicate_succ, h.1, ih h.2]

theorem unset_not_substantial : ∀ (f : Fields) (cs : List (Option Val)), Spec.unset f cs = true →
    Spec.anySubstantial f cs = false
  | .nil, _, _ => by simp [Spec.anySubstantial]
  | .cons n k t r, cs, h => by
    simp only [Spec.unset, Bool.and_eq_true, Option.isNone_iff_eq_none, held_eq, untouched_eq, valued_eq, isOpt_eq, hasDefault_eq] at h
    rw [Spec.anySubstantial, held_eq, h.1, unset_not_substantial r cs.tail h.2]; rfl

mutual
/-- A canonical value is received as it is. -/
theorem received_canonical : ∀ (t : Ty) (v : Val), Spec.canonical t v = true → Spec.received t v = v
  | .boolean, _, _ => by simp [Spec.received]
  | .integer _, _, _ => by simp [Spec.received]
  | .enumerated _ _ _, _, _ => by simp [Spec.received]
  | .bitString _, _, _ => by simp [Spec.received]
  | .octetString _, _, _ => by simp [Spec.received]
  | .seqOf c t, v, h => by
    cases v with
    | seqOf vs =>
      simp only [Spec.canonical, List.all_eq_true] at h
      simp only [Spec.received, Val.seqOf.injEq]
      have : ∀ v ∈ vs, Spec.received t v = v := fun v hv => received_canonical t v (h v hv)
      rw [List.map_congr_left this, List.map_id']
    | _ => simp [Spec.canonical] at h
  | .choice ext r a g, v, h => by
    cases v with
    | choice pos v =>
      simp only [Spec.canonical] at h
      simp only [Spec.received, Val.choice.injEq, true_and]
      by_cases h1 : pos < r.length
      · simp only [h1, if_true] at h ⊢; exact received_canonicalAlt r _ v h
      · by_cases h2 : pos < r.length + a.length
        · simp only [h1, h2, if_true, if_false] at h ⊢; exact received_canonicalAlt a _ v h
        · simp only [h1, h2, if_false] at h ⊢; exact received_canonicalAltG g _ v h
    | _ => simp [Spec.canonical] at h
  | .sequence ext r a g, v, h => by
    cases v with
    | seq cs =>
      simp only [Spec.canonical, Bool.and_eq_true, beq_iff_eq] at h
      obtain ⟨⟨hlen, hr⟩, hx⟩ := h
      simp only [Spec.received, Val.seq.injEq]
      rw [received_canonicalRoot r cs hr (by omega)]
      cases ext with
      | false =>
        simp only [Bool.false_eq_true, if_false] at hx ⊢
        have := allNone_eq_replicate hx
        rw [show (cs.drop r.length).length = a.length + g.size by rw [List.length_drop]; omega] at this
        rw [this, List.take_append_drop]
      | true =>
        simp only [if_true, Bool.and_eq_true] at hx ⊢
        rw [received_canonicalAdds a _ hx.1 (by rw [List.length_drop]; omega),
          received_canonicalGroups g _ hx.2 (by rw [List.length_drop]; omega),
          ← List.drop_drop, List.take_append_drop, List.take_append_drop]
    | _ => simp [Spec.canonical] at h
theorem received_canonicalAlt : ∀ (r : Fields) (p : Nat) (v : Val), Spec.canonicalAlt r p v = true →
    Spec.receivedAlt r p v = v
  | .nil, _, _, _ => by simp [Spec.receivedAlt]
  | .cons _ _ t _, 0, v, h => received_canonical t v h
  | .cons _ _ _ r, p + 1, v, h => received_canonicalAlt r p v h
theorem received_canonicalAltG : ∀ (g : Groups) (p : Nat) (v : Val), Spec.canonicalAltG g p v = true →
    Spec.receivedAltG g p v = v
  | .nil, _, _, _ => by simp [Spec.receivedAltG]
  | .cons f g, p, v, h => by
    simp only [Spec.canonicalAltG, Spec.receivedAltG] at h ⊢
    by_cases hp : p < f.length
    · simp only [hp, if_true] at h ⊢; exact received_canonicalAlt f _ v h
    · simp only [hp, if_false] at h ⊢; exact received_canonicalAltG g _ v h
theorem received_canonicalRoot : ∀ (r : Fields) (cs : List (Option Val)), Spec.canonicalRoot r cs = true →
    r.length ≤ cs.length → Spec.receivedRoot r cs = cs.take r.length
  | .nil, _, _, _ => by simp [Spec.receivedRoot, Fields.length]
  | .cons n k t r, [], _, hl => by simp [Fields.length] at hl
  | .cons n k t r, c :: cs, h, hl => by
    simp only [Spec.canonicalRoot, Bool.and_eq_true, List.head?_cons, Option.getD_some, List.tail_cons] at h
    simp only [Fields.length, List.length_cons] at hl
    simp only [Spec.receivedRoot, Fields.length, List.take_succ_cons, List.head?_cons, Option.getD_some,
      List.tail_cons, held_eq, untouched_eq, valued_eq, isOpt_eq, hasDefault_eq]
    rw [received_canonicalRoot r cs h.2 (by omega)]
    congr 1
    have h1 := h.1
    cases c with
    | none => cases k <;> first | rfl | (simp at h1)
    | some v =>
      cases k with
      | mandatory => dsimp only at h1; simp only [Spec.receivedComponent, received_canonical t v h1, held_eq, untouched_eq, valued_eq, isOpt_eq, hasDefault_eq]
      | optional =>
        simp only [Bool.and_eq_true] at h1
        simp only [Spec.receivedComponent, canonical_substantial h1.1 h1.2, if_true, Option.map_some,
          received_canonical t v h1.1, held_eq, untouched_eq, valued_eq, isOpt_eq, hasDefault_eq]
      | default d =>
        simp only [Bool.and_eq_true, Bool.not_eq_true'] at h1
        simp only [Spec.receivedComponent, h1.2, Bool.false_eq_true, if_false, received_canonical t v h1.1, held_eq, untouched_eq, valued_eq, isOpt_eq, hasDefault_eq]
theorem received_canonicalAdds : ∀ (r : Fields) (cs : List (Option Val)), Spec.canonicalAdds r cs = true →
    r.length ≤ cs.length → Spec.receivedAdds r cs = cs.take r.length
  | .nil, _, _, _ => by simp [Spec.receivedAdds, Fields.length]
  | .cons n k t r, [], _, hl => by simp [Fields.length] at hl
  | .cons n k t r, c :: cs, h, hl => by
    simp only [Spec.canonicalAdds, Bool.and_eq_true, List.head?_cons, Option.getD_some, List.tail_cons, held_eq, untouched_eq, valued_eq, isOpt_eq, hasDefault_eq] at h
    simp only [Fields.length, List.length_cons] at hl
    simp only [Spec.receivedAdds, Fields.length, List.take_succ_cons, List.head?_cons, Option.getD_some,
      List.tail_cons, held_eq, untouched_eq, valued_eq, isOpt_eq, hasDefault_eq]
    rw [received_canonicalAdds r cs h.2 (by omega)]
    congr 1
    have h1 := h.1
    cases c with
    | none => cases k <;> first | rfl | (simp [Kind.isDefaulted] at h1)
    | some v =>
      simp only [Bool.and_eq_true] at h1
      simp only [effective, canonical_substantial h1.1 h1.2, if_true, Option.map_some,
        received_canonical t v h1.1]
theorem received_canonicalGroups : ∀ (g : Groups) (cs : List (Option Val)), Spec.canonicalGroups g cs = true →
    cs.length = g.size → Spec.receivedGroups g cs = cs
  | .nil, cs, _, hl => by
    simp only [Groups.size, List.length_eq_zero_iff] at hl; subst hl; simp [Spec.receivedGroups]
  | .cons f g, cs, h, hl => by
    simp only [Spec.canonicalGroups, Bool.and_eq_true, Bool.or_eq_true] at h
    simp only [Groups.size] at hl
    simp only [Spec.receivedGroups]
    rw [received_canonicalGroups g _ h.2 (by rw [List.length_drop]; omega)]
    have key : (if Spec.anySubstantial f cs = true then Spec.receivedRoot f cs
        else List.replicate f.length none) = cs.take f.length := by
      have hnone : Spec.allNone (cs.take f.length) = true → List.replicate f.length none = cs.take f.length := by
        intro hn
        have := allNone_eq_replicate hn
        rwa [List.length_take, Nat.min_eq_left (by omega)] at this
      rcases h.1 with h1 | ⟨h1, h2⟩
      · rw [unset_not_substantial f cs h1, if_neg (by simp)]
        exact hnone (unset_take f cs h1)
      · by_cases hs : Spec.anySubstantial f cs = true
        · rw [if_pos hs, received_canonicalRoot f cs h1 (by omega)]
        · rw [if_neg hs]
          rcases h2 with h2 | h2
          · exact absurd (solidAny_anySubstantial f cs h1 h2) hs
          · exact hnone h2
    rw [key, List.take_append_drop]
end

end Verif
