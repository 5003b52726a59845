import Verif.Lemmas.DictInj
import Verif.Props.Dict
/-!
# C29: dictionaries of whole values
-/
namespace Verif.Props
open Verif

theorem alternative_inj {ns : List String} {i j : Nat} (h : ns.Nodup) (hi : i < ns.length) (hj : j < ns.length)
    (e : ns.getD i "" = ns.getD j "") : i = j := by
  simp only [List.getD_eq_getElem?_getD, List.getElem?_eq_getElem hi, List.getElem?_eq_getElem hj, Option.getD_some] at e
  rw [List.nodup_iff_pairwise_ne, List.pairwise_iff_getElem] at h
  rcases Nat.lt_trichotomy i j with c | c | c
  · exact (h i j hi hj c e).elim
  · exact c
  · exact (h j i hj hi c e.symm).elim

mutual
theorem whole_ty : ∀ (t : Ty) (b : Bool) (v w : Val) (d : Dict), Spec.evident t v = true → Spec.evident t w = true →
    toDict t b v = .ok (some d) → toDict t b w = .ok (some d) → Spec.completed t v = Spec.completed t w
  | .boolean, b, v, w, d, _, _, hv, hw => by
    cases v <;> simp only [toDict, reduceCtorEq] at hv
    cases w <;> simp only [toDict, reduceCtorEq] at hw
    rw [← hw] at hv; simp at hv; rw [hv]
  | .integer _, b, v, w, d, _, _, hv, hw => by
    cases v <;> simp only [toDict, reduceCtorEq] at hv
    cases w <;> simp only [toDict, reduceCtorEq] at hw
    rw [← hw] at hv; simp at hv; rw [hv]
  | .octetString c, b, v, w, d, _, _, hv, hw => by
    cases v with
    | octets x =>
      cases w with
      | octets y => rw [C29_octet_string (hv.trans hw.symm)]
      | _ => simp [toDict] at hw
    | _ => simp [toDict] at hv
  | .bitString c, b, v, w, d, ev, ew, hv, hw => by
    cases v with
    | bits x =>
      cases w with
      | bits y =>
        simp only [Spec.evident, Bool.and_eq_true, decide_eq_true_eq] at ev ew
        have : x.length = y.length := by have := ev.1.symm.trans ew.1; simpa using this
        rw [C29_bit_string_partial this (hv.trans hw.symm)]
      | _ => simp [toDict] at hw
    | _ => simp [toDict] at hv
  | .enumerated ext root add, b, v, w, d, ev, ew, hv, hw => by
    cases v with
    | enum x =>
      cases w with
      | enum y =>
        simp only [Spec.evident, Bool.and_eq_true, decide_eq_true_eq] at ev ew
        obtain ⟨p, _, hp, hp'⟩ := find_item ev.2
        obtain ⟨q, _, hq, hq'⟩ := find_item ew.2
        rw [C29_enumerated ev.1 (List.mem_map.2 ⟨p, hp', hp⟩) (List.mem_map.2 ⟨q, hq', hq⟩) (hv.trans hw.symm)]
      | _ => simp [toDict] at hw
    | _ => simp [toDict] at hv
  | .seqOf c t, b, v, w, d, ev, ew, hv, hw => by
    cases v with
    | seqOf vs =>
      cases w with
      | seqOf ws =>
        simp only [Spec.evident, List.all_eq_true, Bool.and_eq_true] at ev ew
        rw [toDict, Except.bind_eq_ok_iff] at hv hw
        obtain ⟨xs, h1, h2⟩ := hv
        obtain ⟨ys, i1, i2⟩ := hw
        have list_ : ∀ l : List Dict, (Pure.pure (orNoValue b l.isEmpty (.list l)) : Except Err (Option Dict)) =
            .ok (some d) → d = .list l := by
          intro l hl
          simp only [pure, Except.pure, Except.ok.injEq, orNoValue] at hl
          split at hl
          · cases hl; rfl
          · split at hl
            · cases hl
            · cases hl; rfl
        have e := (list_ _ h2).symm.trans (list_ _ i2)
        rw [Dict.list.injEq] at e
        rw [Spec.completed, Spec.completed]
        rw [list_inj (whole_ty t false) vs ws xs ys ev ew h1 i1 e]
      | _ => simp [toDict] at hw
    | _ => simp [toDict] at hv
  | .choice ext r a g, b, v, w, d, ev, ew, hv, hw => by
    cases v with
    | choice i x =>
      cases w with
      | choice j y =>
        have hr := Named.names_length r
        have ha := Named.names_length a
        have hg := Named.namesG_length g
        simp only [Spec.evident, Bool.and_eq_true, decide_eq_true_eq] at ev ew
        have name : ∀ (i : Nat) (x : Val), (if i < r.length then Spec.evidentAlt r i x
              else if i < r.length + a.length then Spec.evidentAlt a (i - r.length) x
              else Spec.evidentAltG g (i - (r.length + a.length)) x) = true →
            toDict (.choice ext r a g) b (.choice i x) = .ok (some d) →
            i < (r.names ++ a.names ++ g.names).length ∧
              ∃ d', d = .dict [((r.names ++ a.names ++ g.names).getD i "", d')] := by
          intro i x ex hx
          rw [toDict] at hx
          by_cases c : i < r.length
          · rw [if_pos c] at ex hx
            obtain ⟨d', h1, h2⟩ := alt_shown r i x _ ex hx
            refine ⟨by simp only [List.length_append]; omega, d', ?_⟩
            rw [Option.some.injEq] at h1
            rw [h1, List.append_assoc, getD_left (by omega)]
          · rw [if_neg c] at ex hx
            by_cases c' : i < r.length + a.length
            · rw [if_pos c'] at ex hx
              obtain ⟨d', h1, h2⟩ := alt_shown a _ x _ ex hx
              refine ⟨by simp only [List.length_append]; omega, d', ?_⟩
              rw [Option.some.injEq] at h1
              rw [h1, List.append_assoc, getD_right (by omega), getD_left (by omega), hr]
            · rw [if_neg c'] at ex hx
              obtain ⟨d', h1, h2⟩ := alt_shownG g _ x _ ex hx
              refine ⟨by simp only [List.length_append]; omega, d', ?_⟩
              rw [Option.some.injEq] at h1
              rw [h1, getD_right (by simp only [List.length_append]; omega), List.length_append, hr, ha]
        obtain ⟨hi, d1, e1⟩ := name i x ev.2 hv
        obtain ⟨hj, d2, e2⟩ := name j y ew.2 hw
        rw [e1, Dict.dict.injEq, List.cons.injEq, Prod.mk.injEq] at e2
        have hij := alternative_inj ev.1 hi hj e2.1.1
        subst hij
        rw [Spec.completed, Spec.completed]
        rw [toDict] at hv hw
        have ev' := ev.2
        have ew' := ew.2
        congr 1
        by_cases c : i < r.length
        · rw [if_pos c] at ev' ew' hv hw ⊢
          rw [if_pos c]
          exact whole_alt r i x y d ev' ew' hv hw
        · rw [if_neg c] at ev' ew' hv hw ⊢
          rw [if_neg c]
          by_cases c' : i < r.length + a.length
          · rw [if_pos c'] at ev' ew' hv hw ⊢
            rw [if_pos c']
            exact whole_alt a _ x y d ev' ew' hv hw
          · rw [if_neg c'] at ev' ew' hv hw ⊢
            rw [if_neg c']
            exact whole_altG g _ x y d ev' ew' hv hw
      | _ => simp [toDict] at hw
    | _ => simp [toDict] at hv
  | .sequence ext r a g, b, v, w, d, ev, ew, hv, hw => by
    cases v with
    | seq cs =>
      cases w with
      | seq ds =>
        simp only [Spec.evident, Bool.and_eq_true, decide_eq_true_eq] at ev ew
        have hn := ev.1
        have entries : ∀ cs : List (Option Val), toDict (.sequence ext r a g) b (.seq cs) = .ok (some d) →
            ∃ e1 e2 e3, toDictFields r cs = .ok e1 ∧ toDictFields a (cs.drop r.length) = .ok e2 ∧
              toDictGroups g (cs.drop (r.length + a.length)) = .ok e3 ∧ d = .dict (e1 ++ (e2 ++ e3)) := by
          intro cs h
          simp only [toDict, Except.bind_eq_ok_iff] at h
          obtain ⟨e1, h1, e2, h2, e3, h3, h4⟩ := h
          have sub := ((fields_names r _ _ h1).append (fields_names a _ _ h2)).append (groups_names g _ _ h3)
          rw [← List.map_append, ← List.map_append] at sub
          rw [foldl_dictSet _ [] (by rw [List.nil_append]; exact hn.sublist sub), List.nil_append] at h4
          refine ⟨e1, e2, e3, h1, h2, h3, ?_⟩
          rw [← List.append_assoc]
          simp only [pure, Except.pure, Except.ok.injEq, orNoValue] at h4
          split at h4
          · cases h4; rfl
          · split at h4
            · cases h4
            · cases h4; rfl
        obtain ⟨e1, e2, e3, h1, h2, h3, he⟩ := entries cs hv
        obtain ⟨f1, f2, f3, i1, i2, i3, hf⟩ := entries ds hw
        rw [he, Dict.dict.injEq] at hf
        rw [List.append_assoc, List.nodup_append] at hn
        obtain ⟨n1, n2, n3⟩ := hn
        rw [List.nodup_append] at n2
        have out : ∀ {es es' : List (String × Dict)} {A B C : List String}, (es.map Prod.fst).Sublist B →
            (es'.map Prod.fst).Sublist C → (∀ x ∈ A, ∀ y ∈ B ++ C, x ≠ y) → ∀ e ∈ es ++ es', e.1 ∉ A := by
          intro es es' A B C s1 s2 hd e he hA
          refine hd e.1 hA e.1 ?_ rfl
          rw [List.mem_append] at he ⊢
          rcases he with he | he
          · exact .inl (mem_names s1 e he)
          · exact .inr (mem_names s2 e he)
        obtain ⟨k1, k2⟩ := split_entries (A := r.names) hf (mem_names (fields_names r _ _ h1))
          (mem_names (fields_names r _ _ i1)) (out (fields_names a _ _ h2) (groups_names g _ _ h3) n3)
          (out (fields_names a _ _ i2) (groups_names g _ _ i3) n3)
        obtain ⟨k3, k4⟩ := split_entries (A := a.names) k2 (mem_names (fields_names a _ _ h2))
          (mem_names (fields_names a _ _ i2))
          (fun e he hA => n2.2.2 e.1 hA e.1 (mem_names (groups_names g _ _ h3) e he) rfl)
          (fun e he hA => n2.2.2 e.1 hA e.1 (mem_names (groups_names g _ _ i3) e he) rfl)
        subst k1; subst k3; subst k4
        rw [Spec.completed, Spec.completed,
          whole_fields r cs ds e1 n1 ev.2.1.1 ew.2.1.1 h1 i1,
          whole_fields a _ _ e2 n2.1 ev.2.1.2 ew.2.1.2 h2 i2,
          whole_groups g _ _ e3 n2.2.1 ev.2.2 ew.2.2 h3 i3]
      | _ => simp [toDict] at hw
    | _ => simp [toDict] at hv
theorem whole_alt : ∀ (f : Fields) (i : Nat) (v w : Val) (d : Dict), Spec.evidentAlt f i v = true →
    Spec.evidentAlt f i w = true → toDictAlt f i v = .ok (some d) → toDictAlt f i w = .ok (some d) →
    Spec.completedAlt f i v = Spec.completedAlt f i w
  | .nil, _, _, _, _, h, _, _, _ => by simp [Spec.evidentAlt] at h
  | .cons n k t r, 0, v, w, d, ev, ew, hv, hw => by
    simp only [Spec.evidentAlt, Bool.and_eq_true, valued_eq] at ev ew
    have inner : ∀ x, Spec.evident t x = true → Spec.filled t x = true → isValue t x = true →
        toDictAlt (.cons n k t r) 0 x = .ok (some d) → ∃ d', toDict t false x = .ok (some d') ∧ d = .dict [(n, d')] := by
      intro x h1 h2 h3 h4
      rw [toDictAlt, if_pos h3, Except.bind_eq_ok_iff] at h4
      obtain ⟨y, h5, h6⟩ := h4
      have := filled_ty t x y (evident_explicit t x h1) h5
      rw [h2] at this
      obtain ⟨d', rfl⟩ := Option.isSome_iff_exists.1 this
      simp only [pure, Except.pure, Except.ok.injEq, Option.some.injEq] at h6
      exact ⟨d', h5, h6.symm⟩
    obtain ⟨d1, h1, e1⟩ := inner v ev.1.1 ev.1.2 ev.2 hv
    obtain ⟨d2, h2, e2⟩ := inner w ew.1.1 ew.1.2 ew.2 hw
    rw [e1, Dict.dict.injEq, List.cons.injEq, Prod.mk.injEq] at e2
    rw [← e2.1.2] at h2
    rw [Spec.completedAlt, Spec.completedAlt]
    exact whole_ty t false v w d1 ev.1.1 ew.1.1 h1 h2
  | .cons n k t r, i + 1, v, w, d, ev, ew, hv, hw => by
    rw [Spec.evidentAlt] at ev ew
    rw [toDictAlt] at hv hw
    rw [Spec.completedAlt, Spec.completedAlt]
    exact whole_alt r i v w d ev ew hv hw
theorem whole_altG : ∀ (g : Groups) (i : Nat) (v w : Val) (d : Dict), Spec.evidentAltG g i v = true →
    Spec.evidentAltG g i w = true → toDictAltG g i v = .ok (some d) → toDictAltG g i w = .ok (some d) →
    Spec.completedAltG g i v = Spec.completedAltG g i w
  | .nil, _, _, _, _, h, _, _, _ => by simp [Spec.evidentAltG] at h
  | .cons f g, i, v, w, d, ev, ew, hv, hw => by
    rw [Spec.evidentAltG] at ev ew
    rw [toDictAltG] at hv hw
    rw [Spec.completedAltG, Spec.completedAltG]
    by_cases c : i < f.length
    · rw [if_pos c] at ev ew hv hw ⊢
      rw [if_pos c]
      exact whole_alt f i v w d ev ew hv hw
    · rw [if_neg c] at ev ew hv hw ⊢
      rw [if_neg c]
      exact whole_altG g _ v w d ev ew hv hw
theorem whole_fields : ∀ (f : Fields) (cs ds : List (Option Val)) (es : List (String × Dict)), f.names.Nodup →
    Spec.evidentFields f cs = true → Spec.evidentFields f ds = true → toDictFields f cs = .ok es →
    toDictFields f ds = .ok es → Spec.completedFields f cs = Spec.completedFields f ds
  | .nil, _, _, _, _, _, _, _, _ => rfl
  | .cons n k t r, cs, ds, es, hn, ev, ew, hv, hw => by
    rw [Fields.names, List.nodup_cons] at hn
    have head : ∀ cs : List (Option Val), Spec.evidentFields (.cons n k t r) cs = true →
        toDictFields (.cons n k t r) cs = .ok es →
        Spec.evidentFields r cs.tail = true ∧ ∃ es', toDictFields r cs.tail = .ok es' ∧
        ((Spec.held k (cs.head?.getD none) = none ∧ es = es') ∨
          ∃ v d, Spec.held k (cs.head?.getD none) = some v ∧ Spec.evident t v = true ∧ toDict t false v = .ok (some d) ∧
            es = (n, d) :: es') := by
      intro cs ec hc
      unfold Spec.evidentFields at ec
      rw [Bool.and_eq_true] at ec
      rw [toDictFields_cons] at hc
      simp only [Except.bind_eq_ok_iff, ← held_eq] at hc
      obtain ⟨x, h1, es', h2, h3⟩ := hc
      refine ⟨ec.2, es', h2, ?_⟩
      have ec1 := ec.1
      cases hh : Spec.held k (cs.head?.getD none) with
      | none =>
        simp only [hh] at ec1 h1
        rw [traceless_ty t ec1] at h1
        cases h1
        simp only [pure, Except.pure, Except.ok.injEq] at h3
        exact .inl ⟨rfl, h3.symm⟩
      | some v =>
        simp only [hh, Bool.and_eq_true] at ec1 h1
        rw [componentDict_some] at h1
        have := filled_ty t v x (evident_explicit t v ec1.1) h1
        rw [ec1.2] at this
        obtain ⟨d, rfl⟩ := Option.isSome_iff_exists.1 this
        simp only [pure, Except.pure, Except.ok.injEq] at h3
        exact .inr ⟨v, d, rfl, ec1.1, h1, h3.symm⟩
    obtain ⟨ev', es1, h1, hv⟩ := head cs ev hv
    obtain ⟨ew', es2, h2, hw⟩ := head ds ew hw
    have notin : ∀ (cs : List (Option Val)) (es : List (String × Dict)) (d : Dict), toDictFields r cs = .ok es →
        (n, d) ∉ es := fun cs es d h hm => hn.1 (mem_names (fields_names r cs es h) (n, d) hm)
    rw [Spec.completedFields, Spec.completedFields]
    rcases hv with ⟨a1, a2⟩ | ⟨v, d, a1, a2, a3, a4⟩ <;> rcases hw with ⟨b1, b2⟩ | ⟨w, d', b1, b2, b3, b4⟩
    · subst a2; subst b2
      rw [a1, b1, whole_fields r _ _ es hn.2 ev' ew' h1 h2]
    · subst a2
      exact (notin _ _ d' h1 (by rw [b4]; simp)).elim
    · subst b2
      exact (notin _ _ d h2 (by rw [a4]; simp)).elim
    · rw [a4, List.cons.injEq, Prod.mk.injEq] at b4
      obtain ⟨⟨_, rfl⟩, rfl⟩ := b4
      rw [a1, b1, whole_fields r _ _ es1 hn.2 ev' ew' h1 h2]
      simp only [Option.map_some]
      rw [whole_ty t false v w d a2 b2 a3 b3]
theorem whole_groups : ∀ (g : Groups) (cs ds : List (Option Val)) (es : List (String × Dict)), g.names.Nodup →
    Spec.evidentGroups g cs = true → Spec.evidentGroups g ds = true → toDictGroups g cs = .ok es →
    toDictGroups g ds = .ok es → Spec.completedGroups g cs = Spec.completedGroups g ds
  | .nil, _, _, _, _, _, _, _, _ => rfl
  | .cons f g, cs, ds, es, hn, ev, ew, hv, hw => by
    rw [Groups.names, List.nodup_append] at hn
    rw [Spec.evidentGroups, Bool.and_eq_true] at ev ew
    simp only [toDictGroups, Except.bind_eq_ok_iff] at hv hw
    obtain ⟨e1, h1, e2, h2, h3⟩ := hv
    obtain ⟨f1, i1, f2, i2, i3⟩ := hw
    simp only [pure, Except.pure, Except.ok.injEq] at h3 i3
    rw [← i3] at h3
    obtain ⟨rfl, rfl⟩ := split_entries (A := f.names) h3 (mem_names (fields_names f _ _ h1))
      (mem_names (fields_names f _ _ i1))
      (fun e he hA => hn.2.2 e.1 hA e.1 (mem_names (groups_names g _ _ h2) e he) rfl)
      (fun e he hA => hn.2.2 e.1 hA e.1 (mem_names (groups_names g _ _ i2) e he) rfl)
    rw [Spec.completedGroups, Spec.completedGroups, whole_fields f _ _ e1 hn.1 ev.1 ew.1 h1 i1,
      whole_groups g _ _ e2 hn.2.1 ev.2 ew.2 h2 i2]
end

/-- Two values of one type that have the same dictionary are the same, with DEFAULTs written out. -/
theorem C29_whole_partial {t : Ty} {v w : Val} {d : Dict} (ev : Spec.evident t v = true) (ew : Spec.evident t w = true)
    (hv : toDict t true v = .ok (some d)) (hw : toDict t true w = .ok (some d)) :
    Spec.completed t v = Spec.completed t w := whole_ty t true v w d ev ew hv hw

/-- An unset DEFAULT next to one that is set, an absent OPTIONAL, a list, an addition. -/
example :
    let v : Val := .seq [some (.int 3), none, none, some (.seqOf [.bool true]), some (.octets [0xab]), none]
    let w : Val := .seq [some (.int 3), none, some (.int 5), some (.seqOf [.bool true]), some (.octets [0xab]), none]
    Spec.evident sampleShown v = true ∧ Spec.evident sampleShown w = true ∧
      toDict sampleShown true v = toDict sampleShown true w ∧ (toDict sampleShown true v).isOk = true ∧ v ≠ w ∧
      Spec.completed sampleShown v = w := by
  refine ⟨?_, ?_, ?_, ?_, ?_, ?_⟩ <;> decide +kernel

end Verif.Props
