import Verif.Lemmas.Missing
import Verif.Props.Sequence
/-!
# C23-C25: components that are not given
-/
namespace Verif.Props
open Verif

/-! ## C23 missing mandatory components

The full statement is about every mandatory component that was not set.  A mandatory SEQUENCE OF that may be
empty, or a mandatory SEQUENCE all of whose components may be left out, is encoded as an empty one when it was
never touched (`Findings.C23_untouched_list`), which is why `Spec.needsValue` appears. -/

theorem incompleteRoot_at : ∀ (r : Fields) (cs : List (Option Val)) {i : Nat} {n : String} {t : Ty},
    Spec.fieldAt r i = some (n, .mandatory, t) → cs[i]?.getD none = none → Spec.needsValue t = true →
    Spec.incompleteRoot r cs = true
  | .nil, _, _, _, _, h, _, _ => by simp [Spec.fieldAt] at h
  | .cons _ _ _ r, cs, 0, n, t, h, hc, hn => by
    simp only [Spec.fieldAt, Option.some.injEq, Prod.mk.injEq] at h
    obtain ⟨rfl, rfl, rfl⟩ := h
    rw [← List.head?_eq_getElem?] at hc
    simp [Spec.incompleteRoot, hc, hn]
  | .cons _ _ _ r, cs, i + 1, n, t, h, hc, hn => by
    have := incompleteRoot_at r cs.tail h (by rw [List.getElem?_tail]; exact hc) hn
    simp [Spec.incompleteRoot, this]

/-- A mandatory root component that needs a value and has none. -/
theorem C23_missing_partial {ext : Bool} {r a : Fields} {g : Groups} {cs : List (Option Val)} {i : Nat} {n : String}
    {t : Ty} (hf : Spec.fieldAt r i = some (n, .mandatory, t)) (hn : Spec.needsValue t = true)
    (hc : cs[i]?.getD none = none) :
    ∃ e, encode (.sequence ext r a g) (.seq cs) = .error e := by
  obtain ⟨e, he⟩ := incomplete_ty (.sequence ext r a g) (.seq cs) (by
    simp [Spec.incomplete, incompleteRoot_at r cs hf hc hn])
  exact ⟨e, encode_error he⟩

/-- The same anywhere inside a value: in elements of a SEQUENCE OF, in the alternative of a CHOICE, in nested
SEQUENCEs, in extension additions and addition groups. -/
theorem C23_nested_partial {t : Ty} {v : Val} (h : Spec.incomplete t v = true) :
    ∃ e, encode t v = .error e := by
  obtain ⟨e, he⟩ := incomplete_ty t v h
  exact ⟨e, encode_error he⟩

/-- Every simple type and every CHOICE needs a value. -/
theorem C23_simple {t : Ty} (h : ∀ c s, t ≠ .seqOf c s) (h' : ∀ e r a g, t ≠ .sequence e r a g) :
    Spec.needsValue t = true := by
  cases t with
  | seqOf c s => exact absurd rfl (h c s)
  | sequence e r a g => exact absurd rfl (h' e r a g)
  | _ => rfl

example : encode sampleSequence (.seq [none, none, none, some (.seqOf [])]) = .error .noValue := by decide +kernel
example : Spec.incomplete (.seqOf ⟨false, some 0, some 2⟩ sampleSequence)
    (.seqOf [.seq [none, none, none, some (.seqOf [])]]) = true := by decide +kernel

/-! ## C24 gaps in extension additions

The code compares an addition with the one right before it only, and an OPTIONAL addition that is absent hides
the gap before it (`Findings.C24_hidden_gap`); the full statement has no hypothesis about OPTIONAL additions in
between.  Groups behind a missing mandatory addition are not checked at all (`Findings.C24_group_after_gap`). -/

/-- A mandatory addition is not given, a later one is, and no addition in between is OPTIONAL: `encode`
raises. -/
theorem C24_gap_partial {r a : Fields} {g : Groups} {cs : List (Option Val)} {i j : Nat}
    (hi : i < a.length) (hij : i < j)
    (hgi : Spec.given a (cs.drop r.length) i = false) (hgj : Spec.given a (cs.drop r.length) j = true)
    (hopt : ∀ m, i ≤ m → m < j → Spec.optionalAt a m = false) :
    ∃ e, encode (.sequence true r a g) (.seq cs) = .error e := by
  suffices ∃ e, encTy (.sequence true r a g) (.seq cs) = .error e by
    obtain ⟨e, he⟩ := this
    exact ⟨e, encode_error he⟩
  simp only [encTy]
  refine Except.bind_fails fun rt _ => Except.bind_fails fun rf _ => ?_
  rw [if_pos trivial, if_neg (by omega)]
  exact Except.bind_fails_left (encAdds_gap a _ none i j hi hgi hij hgj hopt)

/-- The exception is MandatoryExtensionFieldNotPresent whenever the rest of the value is in order: the root
can be encoded and every addition that is given can be encoded and fits its open type. -/
theorem C24_error_partial {r a : Fields} {g : Groups} {cs : List (Option Val)} {i j : Nat}
    (hi : i < a.length) (hij : i < j)
    (hgi : Spec.given a (cs.drop r.length) i = false) (hgj : Spec.given a (cs.drop r.length) j = true)
    (hopt : ∀ m, i ≤ m → m < j → Spec.optionalAt a m = false)
    (hroot : ∃ fs, encTy (.sequence false r .nil .nil) (.seq cs) = .ok fs)
    (hadds : ∀ m n k t v, Spec.fieldAt a m = some (n, k, t) → Spec.held k ((cs.drop r.length)[m]?.getD none) = some v →
      Spec.given a (cs.drop r.length) m = true → Spec.fitsOpenType t v = true) :
    encode (.sequence true r a g) (.seq cs) = .error .mandatoryExtensionFieldNotPresent := by
  apply encode_error
  obtain ⟨fs, hroot⟩ := hroot
  simp only [encTy] at hroot ⊢
  obtain ⟨⟨opt, fl⟩, e1, h2⟩ := Except.bind_eq_ok hroot
  obtain ⟨rf, e2, _⟩ := Except.bind_eq_ok h2
  rw [e1]
  dsimp only [bind, Except.bind] at e2 ⊢
  rw [e2]
  dsimp only
  rw [if_pos trivial, if_neg (by omega)]
  obtain ⟨e, he⟩ := encAdds_gap a (cs.drop r.length) none i j hi hgi hij hgj hopt
  rw [he]
  rw [encAdds_error a _ none (by simpa only [held_eq] using hadds) he]

/-- Groups: a group of mandatory components is not given, the next one is. -/
theorem C24_groups_partial {r a : Fields} {g : Groups} {cs : List (Option Val)} {i : Nat} {f f' : Fields} {o o' : Nat}
    (h : Spec.groupAt g i = some (f, o)) (h' : Spec.groupAt g (i + 1) = some (f', o'))
    (hn : Spec.anySubstantial f (cs.drop (r.length + a.length + o)) = false) (hopt : Spec.hasOptional f = false)
    (hy : Spec.anySubstantial f' (cs.drop (r.length + a.length + o')) = true) :
    ∃ e, encode (.sequence true r a g) (.seq cs) = .error e := by
  suffices ∃ e, encTy (.sequence true r a g) (.seq cs) = .error e by
    obtain ⟨e, he⟩ := this
    exact ⟨e, encode_error he⟩
  simp only [encTy]
  refine Except.bind_fails fun rt _ => Except.bind_fails fun rf _ => ?_
  have hz : g.length ≠ 0 := by
    cases g with
    | nil => simp [Spec.groupAt] at h
    | cons => simp [Groups.length]
  rw [if_pos trivial, if_neg (by omega)]
  refine Except.bind_fails fun af _ => Except.bind_fails_left ?_
  rw [← List.drop_drop] at hn hy
  exact encGroups_gap g _ none i f f' o o' h h' hn hopt hy

/-- Three additions, the first of which is missing. -/
def sampleGap : Ty :=
  .sequence true (Fields.ofList [("a", .mandatory, .boolean)])
    (Fields.ofList [("b", .mandatory, .boolean), ("c", .mandatory, .boolean), ("d", .mandatory, .boolean)])
    (Groups.ofList [[("e", .mandatory, .boolean)], [("f", .mandatory, .boolean)]])

example : encode sampleGap (.seq [some (.bool true), none, none, some (.bool true), none, none]) =
    .error .mandatoryExtensionFieldNotPresent := by decide +kernel
example : encode sampleGap (.seq [some (.bool true), none, none, none, none, some (.bool true)]) =
    .error .mandatoryExtensionFieldNotPresent := by decide +kernel

/-! ## C25 unused extensions

The full statement does not exclude DEFAULT components: an addition with a DEFAULT is always sent
(`Findings.C25_default_addition`). -/

/-- With no addition and no group component set (and none having a DEFAULT), the encoding - or the exception -
is that of the SEQUENCE with only the root and the extension marker. -/
theorem C25_unused_partial {r a : Fields} {g : Groups} {cs : List (Option Val)}
    (ha : Spec.unset a (cs.drop r.length) = true)
    (hg : Spec.unsetGroups g (cs.drop (r.length + a.length)) = true) :
    encode (.sequence true r a g) (.seq cs) = encode (.sequence true r .nil .nil) (.seq (cs.take r.length)) := by
  have hroot : ∀ (r : Fields) (cs : List (Option Val)), encRoot r (cs.take r.length) = encRoot r cs := by
    intro r
    exact encRoot_take r
  suffices encTy (.sequence true r a g) (.seq cs) = encTy (.sequence true r .nil .nil) (.seq (cs.take r.length)) by
    unfold encode; rw [this]
  simp only [encTy, hroot]
  refine bind_congr fun x => bind_congr fun rf => ?_
  simp only [Fields.length, Groups.length, and_self, if_true]
  by_cases hz : a.length = 0 ∧ g.length = 0
  · rw [if_pos hz]
  · rw [if_neg hz, encAdds_unset a _ none ha, encGroups_unset g _ none hg]
    simp only [bind, Except.bind, List.replicate_append_replicate, List.append_nil]
    unfold assembleSequence
    rw [pyInt2_of_ne (by simp; omega), bitsToNat_replicate_false]
    rfl

/-- Extension bit 0: one bit is all that the extensions cost. -/
theorem C25_one_bit_partial {r a : Fields} {g : Groups} {cs : List (Option Val)} {fs : List BitField}
    (ha : Spec.unset a (cs.drop r.length) = true)
    (hg : Spec.unsetGroups g (cs.drop (r.length + a.length)) = true)
    (h : encTy (.sequence false r .nil .nil) (.seq cs) = .ok fs) :
    encTy (.sequence true r a g) (.seq cs) = .ok (⟨false, [false]⟩ :: fs) := by
  simp only [encTy] at h ⊢
  obtain ⟨⟨opt, fl⟩, e1, h2⟩ := Except.bind_eq_ok h
  obtain ⟨rf, e2, h3⟩ := Except.bind_eq_ok h2
  rw [e1]
  dsimp only [bind, Except.bind] at e2 ⊢
  rw [e2]
  dsimp only
  rw [if_neg (by simp)] at h3
  cases h3
  rw [if_pos trivial]
  by_cases hz : a.length = 0 ∧ g.length = 0
  · rw [if_pos hz]; rfl
  · rw [if_neg hz, encAdds_unset a _ none ha, encGroups_unset g _ none hg]
    simp only [List.replicate_append_replicate, List.append_nil]
    unfold assembleSequence
    rw [pyInt2_of_ne (by simp; omega), bitsToNat_replicate_false]
    rfl

example :
    let a := Fields.ofList [("b", .mandatory, .integer .noConstraint), ("c", .optional, .boolean)]
    let g := Groups.ofList [[("d", .optional, .boolean)], [("f", .mandatory, .boolean)]]
    Spec.unset a [none, none, none, none] = true ∧ Spec.unsetGroups g [none, none] = true := by decide +kernel

end Verif.Props
