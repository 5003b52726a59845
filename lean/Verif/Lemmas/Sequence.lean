import Verif.Lemmas.Message
/-!
# Shape of what the SEQUENCE encoder produces
-/
namespace Verif

theorem sameAsDefault_self (d : Val) : Spec.sameAsDefault d d = true := by
  cases d <;> simp [Spec.sameAsDefault]

/-- One root component: presence bit and fields in terms of `Spec.sent`. -/
theorem rootComponent_shape {enc : Val → Except Err (List BitField)} {k : Kind} {t : Ty} {c : Option Val}
    {b : Bits} {fl : List BitField} (h : rootComponent enc k t c = .ok (b, fl)) :
    (k = .mandatory → b = []) ∧ (k ≠ .mandatory → b = [(Spec.sent k t c).isSome]) ∧
    ((∃ v, Spec.sent k t c = some v ∧ enc v = .ok fl) ∨ (k ≠ .mandatory ∧ Spec.sent k t c = none ∧ fl = [])) := by
  unfold rootComponent at h
  cases k with
  | mandatory =>
    cases c with
    | some v =>
      obtain ⟨fl', e, h⟩ := Except.bind_eq_ok h
      cases h
      exact ⟨fun _ => rfl, fun h => absurd rfl h, .inl ⟨v, rfl, e⟩⟩
    | none =>
      dsimp only at h
      cases hev : emptyVal t with
      | none => rw [hev] at h; cases h
      | some v =>
        rw [hev] at h
        obtain ⟨fl', e, h⟩ := Except.bind_eq_ok h
        cases h
        exact ⟨fun _ => rfl, fun h => absurd rfl h, .inl ⟨v, (untouched_eq t).trans hev, e⟩⟩
  | optional =>
    dsimp only at h
    by_cases hp : present t c = true
    · rw [if_pos hp] at h
      cases c with
      | none => cases hp
      | some v =>
        obtain ⟨fl', e, h⟩ := Except.bind_eq_ok h
        cases h
        have hs : Spec.sent .optional t (some v) = some v := by
          rw [present_eq] at hp; simp [Spec.sent, hp]
        exact ⟨fun h => (by cases h), fun _ => by rw [hs]; rfl, .inl ⟨v, hs, e⟩⟩
    · rw [if_neg hp] at h
      cases h
      have hs : Spec.sent .optional t c = none := by
        rw [present_eq] at hp; simp [Spec.sent, hp]
      exact ⟨fun h => (by cases h), fun _ => by rw [hs]; rfl, .inr ⟨by simp, hs, rfl⟩⟩
  | default d =>
    cases c with
    | none =>
      obtain ⟨ne, e0, h⟩ := Except.bind_eq_ok h
      have hne := pyValueNe_eq e0
      rw [sameAsDefault_self] at hne
      subst hne
      cases h
      exact ⟨fun h => (by cases h), fun _ => rfl, .inr ⟨by simp, rfl, rfl⟩⟩
    | some v =>
      obtain ⟨ne, e0, h⟩ := Except.bind_eq_ok h
      have hne := pyValueNe_eq e0
      cases hsd : Spec.sameAsDefault d v with
      | true =>
        rw [hsd] at hne; subst hne
        cases h
        have hs : Spec.sent (.default d) t (some v) = none := by simp [Spec.sent, hsd]
        exact ⟨fun h => (by cases h), fun _ => by rw [hs]; rfl, .inr ⟨by simp, hs, rfl⟩⟩
      | false =>
        rw [hsd] at hne; subst hne
        obtain ⟨fl', e, h⟩ := Except.bind_eq_ok (x := enc v) h
        cases h
        have hs : Spec.sent (.default d) t (some v) = some v := by simp [Spec.sent, hsd]
        exact ⟨fun h => (by cases h), fun _ => by rw [hs]; rfl, .inl ⟨v, hs, e⟩⟩

theorem encRoot_shape : ∀ (r : Fields) (cs : List (Option Val)) {bits : Bits} {fs : List BitField},
    encRoot r cs = .ok (bits, fs) →
    bits = Spec.presence r cs ∧ ∃ parts, Spec.Parts r cs parts ∧ fs = parts.flatten
  | .nil, cs, bits, fs, h => by
    simp only [encRoot, Except.ok.injEq, Prod.mk.injEq] at h
    exact ⟨h.1.symm, [], .nil, h.2.symm⟩
  | .cons n k t r, cs, bits, fs, h => by
    simp only [encRoot] at h
    obtain ⟨⟨b, fl⟩, e1, h⟩ := Except.bind_eq_ok h
    obtain ⟨⟨bs, fls⟩, e2, h⟩ := Except.bind_eq_ok h
    cases h
    obtain ⟨ih1, parts, ih2, ih3⟩ := encRoot_shape r cs.tail e2
    obtain ⟨h1, h2, h3⟩ := rootComponent_shape e1
    refine ⟨?_, ?_⟩
    · cases k with
      | mandatory => rw [h1 rfl, ih1]; rfl
      | optional => rw [h2 (by simp), ih1]; rfl
      | default d => rw [h2 (by simp), ih1]; rfl
    · rcases h3 with ⟨v, hs, e⟩ | ⟨hk, hs, rfl⟩
      · exact ⟨fl :: parts, .given hs e ih2, by rw [ih3]; rfl⟩
      · exact ⟨[] :: parts, .omitted hk hs ih2, by rw [ih3]; rfl⟩

theorem withOptionalBits_shape {opt : Bits} {fl rf : List BitField} (h : withOptionalBits opt fl = .ok rf) :
    rf = (if opt = [] then [] else [⟨false, opt⟩]) ++ fl := by
  unfold withOptionalBits at h
  cases opt with
  | nil => cases h; rfl
  | cons b o =>
    simp only [List.isEmpty_cons, Bool.false_eq_true, if_false] at h
    split at h
    · cases h; rfl
    · cases h

/-- A SEQUENCE: extension bit, presence bits, components, extensions. -/
theorem encSequence_shape {ext : Bool} {r a : Fields} {g : Groups} {cs : List (Option Val)} {fs : List BitField}
    (h : encTy (.sequence ext r a g) (.seq cs) = .ok fs) :
    ∃ (e : Bool) (parts : List (List BitField)) (rest : List BitField), Spec.Parts r cs parts ∧
      fs = (if ext then [⟨false, [e]⟩] else []) ++
        (if Spec.presence r cs = [] then [] else [⟨false, Spec.presence r cs⟩]) ++ parts.flatten ++ rest ∧
      (ext = false ∨ e = false → rest = []) := by
  simp only [encTy] at h
  obtain ⟨⟨opt, fl⟩, e1, h'⟩ := Except.bind_eq_ok h
  clear h
  obtain ⟨rf, e2, h⟩ := Except.bind_eq_ok h'
  clear h'
  dsimp only at e2
  obtain ⟨rfl, parts, hp, rfl⟩ := encRoot_shape r cs e1
  have hrf := withOptionalBits_shape e2
  cases ext with
  | false =>
    simp only [Bool.false_eq_true, if_false] at h
    cases h
    exact ⟨false, parts, [], hp, by simp [hrf], fun _ => rfl⟩
  | true =>
    simp only [if_true] at h
    by_cases hz : a.length = 0 ∧ g.length = 0
    · rw [if_pos hz] at h
      cases h
      exact ⟨false, parts, [], hp, by simp [hrf], fun _ => rfl⟩
    · rw [if_neg hz] at h
      obtain ⟨⟨ab, af⟩, _, h⟩ := Except.bind_eq_ok h
      obtain ⟨⟨gb, gf⟩, _, h⟩ := Except.bind_eq_ok h
      dsimp only at h
      unfold assembleSequence at h
      obtain ⟨v, _, h⟩ := Except.bind_eq_ok h
      by_cases hv : v > 0
      · rw [if_pos hv] at h
        obtain ⟨ld, _, h⟩ := Except.bind_eq_ok h
        cases h
        exact ⟨true, parts, ld ++ [⟨false, ab ++ gb⟩] ++ (af ++ gf), hp, by simp [hrf], fun h => (by simp at h)⟩
      · rw [if_neg hv] at h
        cases h
        exact ⟨false, parts, [], hp, by simp [hrf], fun _ => rfl⟩

theorem parts_at : ∀ {r : Fields} {cs : List (Option Val)} {parts : List (List BitField)}, Spec.Parts r cs parts →
    ∀ {i : Nat} {n : String} {k : Kind} {t : Ty}, Spec.fieldAt r i = some (n, k, t) →
    (∃ v fl, Spec.sent k t (cs[i]?.getD none) = some v ∧ encTy t v = .ok fl ∧ parts[i]? = some fl) ∨
    (k ≠ .mandatory ∧ Spec.sent k t (cs[i]?.getD none) = none ∧ parts[i]? = some []) := by
  intro r cs parts h
  induction h with
  | nil => intro i n k t hf; simp [Spec.fieldAt] at hf
  | @given n' k' t' r' cs v fl parts hs he _ ih =>
    intro i n k t hf
    cases i with
    | zero =>
      simp only [Spec.fieldAt, Option.some.injEq, Prod.mk.injEq] at hf
      obtain ⟨rfl, rfl, rfl⟩ := hf
      rw [← List.head?_eq_getElem?]
      exact .inl ⟨v, fl, hs, he, rfl⟩
    | succ i =>
      have := ih (i := i) hf
      rw [List.getElem?_tail] at this
      simpa using this
  | @omitted n' k' t' r' cs parts hk hs _ ih =>
    intro i n k t hf
    cases i with
    | zero =>
      simp only [Spec.fieldAt, Option.some.injEq, Prod.mk.injEq] at hf
      obtain ⟨rfl, rfl, rfl⟩ := hf
      rw [← List.head?_eq_getElem?]
      exact .inr ⟨hk, hs, rfl⟩
    | succ i =>
      have := ih (i := i) hf
      rw [List.getElem?_tail] at this
      simpa using this

theorem presence_at : ∀ (r : Fields) (cs : List (Option Val)) {i : Nat} {n : String} {k : Kind} {t : Ty},
    Spec.fieldAt r i = some (n, k, t) → k ≠ .mandatory →
    (Spec.presence r cs)[Spec.optionalsBefore r i]? = some (Spec.sent k t (cs[i]?.getD none)).isSome
  | .nil, _, _, _, _, _, h, _ => by simp [Spec.fieldAt] at h
  | .cons n' k' t' r, cs, 0, n, k, t, h, hk => by
    simp only [Spec.fieldAt, Option.some.injEq, Prod.mk.injEq] at h
    obtain ⟨rfl, rfl, rfl⟩ := h
    rw [← List.head?_eq_getElem?]
    cases k' with
    | mandatory => exact absurd rfl hk
    | optional => rfl
    | default d => rfl
  | .cons _ k' _ r, cs, i + 1, n, k, t, h, hk => by
    have := presence_at r cs.tail h hk
    rw [List.getElem?_tail] at this
    cases k' with
    | mandatory => simpa [Spec.presence, Spec.optionalsBefore] using this
    | optional => simpa [Spec.presence, Spec.optionalsBefore] using this
    | default d => simpa [Spec.presence, Spec.optionalsBefore] using this

theorem presence_length : ∀ (r : Fields) (cs : List (Option Val)), (Spec.presence r cs).length = Spec.optionals r
  | .nil, _ => rfl
  | .cons _ k t r, cs => by
    cases k <;> simp [Spec.presence, Spec.optionals, presence_length r]

theorem Parts.length : ∀ {r : Fields} {cs : List (Option Val)} {parts : List (List BitField)},
    Spec.Parts r cs parts → parts.length = r.length := by
  intro r cs parts h
  induction h with
  | nil => rfl
  | given _ _ _ ih => simp [Fields.length, ih]
  | omitted _ _ _ ih => simp [Fields.length, ih]

end Verif
