import Verif.Props.Dict
/-!
# C28: exactly which elements and alternatives `to_dict` shows
-/
namespace Verif.Props
open Verif

/-- C28 for SEQUENCE OF, for all elements: the list holds the dictionaries of the elements that hold something, in order,
and no other; it has an entry per element exactly if every element holds something (F27). -/
theorem C28_sequence_of_exact {c : SizeC} {t : Ty} {vs : List Val}
    (ht : Spec.typed (.seqOf c t) (.seqOf vs) = true) (he : Spec.explicit (.seqOf c t) (.seqOf vs) = true) :
    ∃ ds, toDict (.seqOf c t) true (.seqOf vs) = .ok (some (.list ds)) ∧
      (vs.filter (Spec.filled t)).map (toDict t false) = ds.map (fun d => .ok (some d)) ∧
      (ds.length = vs.length ↔ ∀ v ∈ vs, Spec.filled t v = true) := by
  have : ∃ xs : List (Option Dict), vs.mapM (toDict t false) = .ok xs ∧
      (vs.filter (Spec.filled t)).map (toDict t false) = (xs.filterMap id).map (fun d => .ok (some d)) := by
    simp only [Spec.typed, Spec.explicit] at ht he
    clear c
    induction vs with
    | nil => exact ⟨[], rfl, rfl⟩
    | cons v vs ih =>
      simp only [List.all_cons, Bool.and_eq_true] at ht he
      obtain ⟨xs, h1, h2⟩ := ih ht.2 he.2
      obtain ⟨x, hx, _⟩ := typed_ty t false v ht.1
      have hf := filled_ty t v x he.1 hx
      refine ⟨x :: xs, by simp [List.mapM_cons, hx, h1, bind, Except.bind, pure, Except.pure], ?_⟩
      cases x with
      | none =>
        simp only [Option.isSome_none] at hf
        rw [List.filter_cons_of_neg (by rw [← hf]; decide), h2]
        rfl
      | some d =>
        simp only [Option.isSome_some] at hf
        rw [List.filter_cons_of_pos hf.symm, List.map_cons, hx, h2]
        rfl
  obtain ⟨xs, h1, h2⟩ := this
  refine ⟨xs.filterMap id, by simp [toDict, h1, orNoValue, bind, Except.bind, pure, Except.pure], h2, ?_⟩
  have hl := congrArg List.length h2
  rw [List.length_map, List.length_map] at hl
  rw [← hl, List.length_filter_eq_length_iff]

/-- The first element shows nothing, the second is shown. -/
example : ¬ ∃ ds, toDict (.seqOf ⟨false, none, none⟩ (.sequence false (Fields.ofList [("x", .optional, .boolean)]) .nil .nil))
      true (.seqOf [.seq [none], .seq [some (.bool true)]]) = .ok (some (.list ds)) ∧ ds.length = 2 := by
  rintro ⟨ds, h, h2⟩
  obtain ⟨ds', e, _, h3⟩ := C28_sequence_of_exact (c := ⟨false, none, none⟩)
    (t := .sequence false (Fields.ofList [("x", .optional, .boolean)]) .nil .nil)
    (vs := [.seq [none], .seq [some (.bool true)]]) (by decide +kernel) (by decide +kernel)
  rw [h] at e
  cases e
  have := h3.1 h2 (.seq [none]) (by simp)
  revert this
  decide +kernel

theorem toDict_choice {ext b : Bool} {r a : Fields} {g : Groups} {pos : Nat} {v : Val} {n : String} {k : Kind}
    {t : Ty} (hp : Spec.fieldAt (Spec.components r a g) pos = some (n, k, t)) :
    toDict (.choice ext r a g) b (.choice pos v) = toDictAlt (.cons n k t .nil) 0 v := by
  rw [Spec.components, fieldAt_append] at hp
  rw [toDict]
  by_cases h1 : pos < r.length
  · simp only [h1, if_true] at hp ⊢; exact toDictAlt_at v hp
  · simp only [h1, if_false, fieldAt_append] at hp ⊢
    by_cases h2 : pos - r.length < a.length
    · have h3 : pos < r.length + a.length := by omega
      simp only [h2, h3, if_true] at hp ⊢; exact toDictAlt_at v hp
    · have h3 : ¬ pos < r.length + a.length := by omega
      simp only [h2, h3, if_false] at hp ⊢
      rw [Nat.sub_sub] at hp
      exact toDictAltG_at v hp

/-- C28 for CHOICE, exactly: the dictionary holds the chosen alternative under its name if and only if the alternative
counts as a value (F27) and holds something; otherwise it is `None` or empty. -/
theorem C28_choice_exact {ext b : Bool} {r a : Fields} {g : Groups} {pos : Nat} {v : Val} {n : String} {k : Kind}
    {t : Ty} (hp : Spec.fieldAt (Spec.components r a g) pos = some (n, k, t)) (ht : Spec.typed t v = true)
    (he : Spec.explicit t v = true) :
    ((∃ d, toDict (.choice ext r a g) b (.choice pos v) = .ok (some (.dict [(n, d)]))) ↔
      Spec.valued t v = true ∧ Spec.filled t v = true) ∧
    (Spec.valued t v = false → toDict (.choice ext r a g) b (.choice pos v) = .ok (some .none)) ∧
    (Spec.valued t v = true → Spec.filled t v = false →
      toDict (.choice ext r a g) b (.choice pos v) = .ok (some (.dict []))) := by
  obtain ⟨x, hx, _⟩ := typed_ty t false v ht
  have hf := filled_ty t v x he hx
  rw [valued_eq, toDict_choice hp, toDictAlt, hx, ← hf]
  cases hv : isValue t v <;> cases x <;> simp [bind, Except.bind, pure, Except.pure]

example :
    let t : Ty := .seqOf ⟨false, some 0, none⟩ .boolean
    ¬ ∃ d, toDict (.choice false (Fields.ofList [("a", .mandatory, .boolean), ("l", .mandatory, t)]) .nil .nil) true
      (.choice 1 (.seqOf [])) = .ok (some (.dict [("l", d)])) := by
  intro t h
  have := (C28_choice_exact (t := t) (k := .mandatory) rfl rfl rfl).1.1 h
  revert this
  decide +kernel

example : ∃ d, toDict (.choice false (Fields.ofList [("a", .mandatory, .boolean)]) .nil .nil) true (.choice 0 (.bool true)) =
    .ok (some (.dict [("a", d)])) :=
  (C28_choice_exact (t := .boolean) (k := .mandatory) rfl rfl rfl).1.2 ⟨rfl, rfl⟩

/-- An alternative that counts as a value and shows nothing. -/
example : toDict (.choice false (Fields.ofList [("s", .mandatory, .sequence false
      (Fields.ofList [("l", .optional, .seqOf ⟨false, some 0, none⟩ .boolean)]) .nil .nil)]) .nil .nil) true
    (.choice 0 (.seq [some (.seqOf [])])) = .ok (some (.dict [])) :=
  (C28_choice_exact (k := .mandatory) rfl (by decide +kernel) (by decide +kernel)).2.2 (by decide +kernel) (by decide +kernel)

end Verif.Props
