import Verif.Lemmas.Dict
import Verif.Lemmas.Named
/-!
# Values with one dictionary are the same
-/
namespace Verif

mutual
theorem evident_explicit : ∀ (t : Ty) (v : Val), Spec.evident t v = true → Spec.explicit t v = true
  | .boolean, v, _ | .integer _, v, _ | .enumerated _ _ _, v, _ | .bitString _, v, _ | .octetString _, v, _ => by
    simp [Spec.explicit]
  | .seqOf _ t, v, h => by
    cases v with
    | seqOf vs =>
      simp only [Spec.evident, List.all_eq_true, Bool.and_eq_true] at h
      simp only [Spec.explicit, List.all_eq_true]
      exact fun x hx => evident_explicit t x (h x hx).1
    | _ => simp [Spec.explicit]
  | .choice _ _ _ _, v, _ => by cases v <;> simp [Spec.explicit]
  | .sequence _ r a g, v, h => by
    cases v with
    | seq cs =>
      simp only [Spec.evident, Bool.and_eq_true] at h
      simp only [Spec.explicit, Bool.and_eq_true]
      exact ⟨⟨evident_explicit_fields r _ h.2.1.1, evident_explicit_fields a _ h.2.1.2⟩, evident_explicit_groups g _ h.2.2⟩
    | _ => simp [Spec.explicit]
theorem evident_explicit_fields : ∀ (f : Fields) (cs : List (Option Val)), Spec.evidentFields f cs = true →
    Spec.explicitFields f cs = true
  | .nil, _, _ => rfl
  | .cons _ k t r, cs, h => by
    unfold Spec.evidentFields at h
    unfold Spec.explicitFields
    rw [Bool.and_eq_true] at h ⊢
    refine ⟨?_, evident_explicit_fields r cs.tail h.2⟩
    have h1 := h.1
    cases hv : Spec.held k (cs.head?.getD none) with
    | none => simpa only [hv] using h1
    | some v =>
      simp only [hv, Bool.and_eq_true] at h1
      exact evident_explicit t v h1.1
theorem evident_explicit_groups : ∀ (g : Groups) (cs : List (Option Val)), Spec.evidentGroups g cs = true →
    Spec.explicitGroups g cs = true
  | .nil, _, _ => rfl
  | .cons f g, cs, h => by
    rw [Spec.evidentGroups, Bool.and_eq_true] at h
    rw [Spec.explicitGroups, Bool.and_eq_true]
    exact ⟨evident_explicit_fields f cs h.1, evident_explicit_groups g _ h.2⟩
end

/-- Entries are told apart by their names. -/
theorem split_entries {A : List String} : ∀ {xs xs' ys ys' : List (String × Dict)}, xs ++ ys = xs' ++ ys' →
    (∀ e ∈ xs, e.1 ∈ A) → (∀ e ∈ xs', e.1 ∈ A) → (∀ e ∈ ys, e.1 ∉ A) → (∀ e ∈ ys', e.1 ∉ A) → xs = xs' ∧ ys = ys'
  | [], [], _, _, h, _, _, _, _ => ⟨rfl, h⟩
  | [], e :: xs', ys, ys', h, _, h2, h3, _ => by
    rw [List.nil_append] at h
    exact (h3 e (by rw [h]; simp) (h2 e (by simp))).elim
  | e :: xs, [], ys, ys', h, h1, _, _, h4 => by
    rw [List.nil_append] at h
    exact (h4 e (by rw [← h]; simp) (h1 e (by simp))).elim
  | e :: xs, e' :: xs', ys, ys', h, h1, h2, h3, h4 => by
    rw [List.cons_append, List.cons_append, List.cons.injEq] at h
    obtain ⟨i, j⟩ := split_entries h.2 (fun e he => h1 e (List.mem_cons_of_mem _ he))
      (fun e he => h2 e (List.mem_cons_of_mem _ he)) h3 h4
    exact ⟨by rw [h.1, i], j⟩

theorem fields_names : ∀ (f : Fields) (cs : List (Option Val)) (es : List (String × Dict)),
    toDictFields f cs = .ok es → (es.map Prod.fst).Sublist f.names
  | .nil, _, es, h => by simp [toDictFields] at h; subst h; exact List.nil_sublist _
  | .cons n k t r, cs, es, h => by
    rw [toDictFields_cons] at h
    simp only [Except.bind_eq_ok_iff] at h
    obtain ⟨x, _, es', h2, h3⟩ := h
    have ih := fields_names r cs.tail es' h2
    cases x <;> (simp only [pure, Except.pure, Except.ok.injEq] at h3; subst h3)
    · exact List.Sublist.cons _ ih
    · exact List.Sublist.cons_cons _ ih
theorem groups_names : ∀ (g : Groups) (cs : List (Option Val)) (es : List (String × Dict)),
    toDictGroups g cs = .ok es → (es.map Prod.fst).Sublist g.names
  | .nil, _, es, h => by simp [toDictGroups] at h; subst h; exact List.nil_sublist _
  | .cons f g, cs, es, h => by
    simp only [toDictGroups, Except.bind_eq_ok_iff] at h
    obtain ⟨e1, h1, e2, h2, h3⟩ := h
    simp only [pure, Except.pure, Except.ok.injEq] at h3
    subst h3
    rw [List.map_append]
    exact (fields_names f cs e1 h1).append (groups_names g _ e2 h2)

theorem mem_names {es : List (String × Dict)} {ns : List String} (h : (es.map Prod.fst).Sublist ns) :
    ∀ e ∈ es, e.1 ∈ ns := fun e he => h.subset (List.mem_map_of_mem he)

/-- Lists of dictionaries, none left out. -/
theorem list_inj {t : Ty} (ih : ∀ v w d, Spec.evident t v = true → Spec.evident t w = true → toDict t false v = .ok (some d) →
      toDict t false w = .ok (some d) → Spec.completed t v = Spec.completed t w) :
    ∀ (vs ws : List Val) (xs ys : List (Option Dict)), (∀ v ∈ vs, Spec.evident t v = true ∧ Spec.filled t v = true) →
    (∀ v ∈ ws, Spec.evident t v = true ∧ Spec.filled t v = true) → vs.mapM (toDict t false) = .ok xs →
    ws.mapM (toDict t false) = .ok ys → xs.filterMap id = ys.filterMap id →
    vs.map (Spec.completed t) = ws.map (Spec.completed t)
  | [], [], _, _, _, _, _, _, _ => rfl
  | [], w :: ws, xs, ys, _, hw, h1, h2, e => by
    simp only [List.mapM_nil, pure, Except.pure, Except.ok.injEq] at h1
    subst h1
    simp only [List.mapM_cons, Except.bind_eq_ok_iff] at h2
    obtain ⟨y, h3, ys', h4, h5⟩ := h2
    simp only [pure, Except.pure, Except.ok.injEq] at h5
    subst h5
    have := filled_ty t w y (evident_explicit t w (hw w (by simp)).1) h3
    rw [(hw w (by simp)).2] at this
    obtain ⟨d, rfl⟩ := Option.isSome_iff_exists.1 this
    simp at e
  | v :: vs, [], xs, ys, hv, _, h1, h2, e => by
    simp only [List.mapM_nil, pure, Except.pure, Except.ok.injEq] at h2
    subst h2
    simp only [List.mapM_cons, Except.bind_eq_ok_iff] at h1
    obtain ⟨y, h3, ys', h4, h5⟩ := h1
    simp only [pure, Except.pure, Except.ok.injEq] at h5
    subst h5
    have := filled_ty t v y (evident_explicit t v (hv v (by simp)).1) h3
    rw [(hv v (by simp)).2] at this
    obtain ⟨d, rfl⟩ := Option.isSome_iff_exists.1 this
    simp at e
  | v :: vs, w :: ws, xs, ys, hv, hw, h1, h2, e => by
    simp only [List.mapM_cons, Except.bind_eq_ok_iff] at h1 h2
    obtain ⟨x, h3, xs', h4, h5⟩ := h1
    obtain ⟨y, i3, ys', i4, i5⟩ := h2
    simp only [pure, Except.pure, Except.ok.injEq] at h5 i5
    subst h5; subst i5
    have a := filled_ty t v x (evident_explicit t v (hv v (by simp)).1) h3
    have b := filled_ty t w y (evident_explicit t w (hw w (by simp)).1) i3
    rw [(hv v (by simp)).2] at a
    rw [(hw w (by simp)).2] at b
    obtain ⟨d, rfl⟩ := Option.isSome_iff_exists.1 a
    obtain ⟨d', rfl⟩ := Option.isSome_iff_exists.1 b
    simp only [List.filterMap_cons, id, List.cons.injEq] at e
    obtain ⟨rfl, e⟩ := e
    rw [List.map_cons, List.map_cons, ih v w d (hv v (by simp)).1 (hw w (by simp)).1 h3 i3,
      list_inj ih vs ws xs' ys' (fun v h => hv v (List.mem_cons_of_mem _ h)) (fun v h => hw v (List.mem_cons_of_mem _ h))
        h4 i4 e]

theorem getD_left {xs ys : List String} {i : Nat} (h : i < xs.length) : (xs ++ ys).getD i "" = xs.getD i "" := by
  rw [List.getD_eq_getElem?_getD, List.getD_eq_getElem?_getD, List.getElem?_append_left h]
theorem getD_right {xs ys : List String} {i : Nat} (h : xs.length ≤ i) :
    (xs ++ ys).getD i "" = ys.getD (i - xs.length) "" := by
  rw [List.getD_eq_getElem?_getD, List.getD_eq_getElem?_getD, List.getElem?_append_right h]

/-- The alternative that is shown: its name, and the dictionary of its value. -/
theorem alt_shown : ∀ (f : Fields) (i : Nat) (v : Val) (x : Option Dict), Spec.evidentAlt f i v = true →
    toDictAlt f i v = .ok x → ∃ (d : Dict), x = some (.dict [(f.names.getD i "", d)]) ∧ i < f.length
  | .nil, _, _, _, h, _ => by simp [Spec.evidentAlt] at h
  | .cons n k t r, 0, v, x, h, hd => by
    simp only [Spec.evidentAlt, Bool.and_eq_true, valued_eq] at h
    rw [toDictAlt, if_pos h.2, Except.bind_eq_ok_iff] at hd
    obtain ⟨y, h1, h2⟩ := hd
    have := filled_ty t v y (evident_explicit t v h.1.1) h1
    rw [h.1.2] at this
    obtain ⟨d, rfl⟩ := Option.isSome_iff_exists.1 this
    simp only [pure, Except.pure, Except.ok.injEq] at h2
    exact ⟨d, by rw [← h2]; simp [Fields.names], by simp [Fields.length]⟩
  | .cons n k t r, i + 1, v, x, h, hd => by
    rw [Spec.evidentAlt] at h
    rw [toDictAlt] at hd
    obtain ⟨d, h1, h2⟩ := alt_shown r i v x h hd
    exact ⟨d, by rw [h1]; simp [Fields.names], by simp only [Fields.length]; omega⟩
theorem alt_shownG : ∀ (g : Groups) (i : Nat) (v : Val) (x : Option Dict), Spec.evidentAltG g i v = true →
    toDictAltG g i v = .ok x → ∃ (d : Dict), x = some (.dict [(g.names.getD i "", d)]) ∧ i < g.size
  | .nil, _, _, _, h, _ => by simp [Spec.evidentAltG] at h
  | .cons f g, i, v, x, h, hd => by
    rw [Spec.evidentAltG] at h
    rw [toDictAltG] at hd
    have hl := Named.names_length f
    by_cases c : i < f.length
    · rw [if_pos c] at h hd
      obtain ⟨d, h1, h2⟩ := alt_shown f i v x h hd
      refine ⟨d, ?_, by simp only [Groups.size]; omega⟩
      rw [h1, Groups.names, getD_left (by omega)]
    · rw [if_neg c] at h hd
      obtain ⟨d, h1, h2⟩ := alt_shownG g _ v x h hd
      refine ⟨d, ?_, by simp only [Groups.size]; omega⟩
      rw [h1, Groups.names, getD_right (by omega), hl]

theorem find_item {l : List (String × Int)} {z : Int} (h : l.any (fun p => p.2 == z) = true) :
    ∃ p, l.find? (fun p => p.2 == z) = some p ∧ p.2 = z ∧ p ∈ l := by
  cases hf : l.find? (fun p => p.2 == z) with
  | none =>
    rw [List.find?_eq_none] at hf
    obtain ⟨p, h1, h2⟩ := List.any_eq_true.1 h
    exact absurd h2 (hf p h1)
  | some p => exact ⟨p, rfl, by simpa using List.find?_some hf, List.mem_of_find?_eq_some hf⟩

end Verif
