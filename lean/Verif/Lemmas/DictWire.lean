import Verif.Lemmas.Dict
/-!
# `to_dict` of what arrives
-/
namespace Verif

/-- Only as many components count as there are declared. -/
theorem toDictFields_none : ∀ (f : Fields) (cs ds : List (Option Val)), Spec.allNone cs = true →
    Spec.allNone ds = true → toDictFields f cs = toDictFields f ds
  | .nil, _, _, _, _ => by simp [toDictFields]
  | .cons n k t r, cs, ds, hc, hd => by
    rw [toDictFields_cons, toDictFields_cons, head_none hc, head_none hd,
      toDictFields_none r _ _ (tail_none hc) (tail_none hd)]

theorem toDictGroups_none : ∀ (g : Groups) (cs ds : List (Option Val)), Spec.allNone cs = true →
    Spec.allNone ds = true → toDictGroups g cs = toDictGroups g ds
  | .nil, _, _, _, _ => by simp [toDictGroups]
  | .cons f g, cs, ds, hc, hd => by
    rw [toDictGroups, toDictGroups, toDictFields_none f _ _ hc hd,
      toDictGroups_none g _ _ (drop_none hc _) (drop_none hd _)]

theorem componentDict_blank {t : Ty} {v : Val} (h : Spec.blank t v = true) :
    componentDict t none = componentDict t (some v) := by
  rw [componentDict_some]
  cases t <;> cases v <;> simp only [Spec.blank, reduceCtorEq, Bool.false_eq_true] at h
  · rename_i vs
    cases vs <;> simp_all [componentDict, emptyVal]
  · rename_i ext r a g cs
    have hn := replicate_none (r.length + a.length + g.size)
    simp only [componentDict, emptyVal, toDict]
    rw [toDictFields_none r _ _ hn h, toDictFields_none a _ _ (drop_none hn _) (drop_none h _),
      toDictGroups_none g _ _ (drop_none hn _) (drop_none h _)]

theorem same_toDict {t : Ty} {b : Bool} {d v : Val} (h : Spec.sameAsDefault d v = true) :
    toDict t b d = toDict t b v := by
  unfold Spec.sameAsDefault at h
  split at h
  · cases t <;> simp_all [toDict, number_eq]
  · rw [eq_of_beq h]

theorem effective_mandatory_none : effective .mandatory none = none := rfl

theorem mapM_congr' {α β : Type} {f : α → Except Err β} {g : α → α} : ∀ {l : List α},
    (∀ a ∈ l, f (g a) = f a) → (l.map g).mapM f = l.mapM f
  | [], _ => rfl
  | a :: l, h => by
    rw [List.map_cons, List.mapM_cons, List.mapM_cons, h a (by simp),
      mapM_congr' (fun a ha => h a (List.mem_cons_of_mem _ ha))]

theorem blankAll_dict : ∀ (f : Fields) (cs ys : List (Option Val)), Spec.blankAll f cs = true →
    toDictFields f (List.replicate f.length none ++ ys) = toDictFields f cs
  | .nil, _, _, _ => by simp [toDictFields]
  | .cons n k t r, cs, ys, h => by
    simp only [Spec.blankAll, Bool.and_eq_true, held_eq, untouched_eq, valued_eq, isOpt_eq, hasDefault_eq] at h
    rw [toDictFields_cons, toDictFields_cons]
    simp only [Fields.length, List.replicate_succ, List.cons_append, List.head?_cons, Option.getD_some,
      List.tail_cons]
    rw [blankAll_dict r _ _ h.2]
    congr 1
    cases hc : cs.head?.getD none with
    | none => rfl
    | some v =>
      simp only [hc, Bool.and_eq_true] at h
      have : effective k none = none := by cases k <;> simp_all [effective, Kind.isDefaulted]
      rw [this]
      exact componentDict_blank h.1.2

theorem receivedRoot_len : ∀ (r : Fields) (cs : List (Option Val)), (Spec.receivedRoot r cs).length = r.length
  | .nil, _ => rfl
  | .cons _ _ _ r, cs => by simp [Spec.receivedRoot, Fields.length, receivedRoot_len r]

theorem receivedAdds_len : ∀ (r : Fields) (cs : List (Option Val)), (Spec.receivedAdds r cs).length = r.length
  | .nil, _ => rfl
  | .cons _ _ _ r, cs => by simp [Spec.receivedAdds, Fields.length, receivedAdds_len r]

mutual
theorem wire_ty : ∀ (t : Ty) (b : Bool) (v : Val), Spec.tidy t v = true →
    toDict t b (Spec.received t v) = toDict t b v
  | .boolean, _, v, _ => by simp [Spec.received]
  | .integer _, _, v, _ => by simp [Spec.received]
  | .enumerated _ _ _, _, v, _ => by simp [Spec.received]
  | .bitString _, _, v, _ => by simp [Spec.received]
  | .octetString _, _, v, _ => by simp [Spec.received]
  | .seqOf _ t, b, v, h => by
    cases v <;> simp only [Spec.received]
    rename_i vs
    simp only [Spec.tidy, List.all_eq_true] at h
    simp only [toDict]
    rw [mapM_congr' fun v hv => wire_ty t false v (h v hv)]
  | .choice _ r a g, b, v, h => by
    cases v <;> simp only [Spec.received]
    rename_i pos v
    simp only [Spec.tidy] at h
    simp only [toDict]
    by_cases h1 : pos < r.length
    · simp only [h1, if_true] at h ⊢; exact wire_alt r pos v h
    · by_cases h2 : pos < r.length + a.length
      · simp only [h1, h2, if_true, if_false] at h ⊢; exact wire_alt a _ v h
      · simp only [h1, h2, if_false] at h ⊢; exact wire_altG g _ v h
  | .sequence ext r a g, b, v, h => by
    cases v <;> simp only [Spec.received]
    rename_i cs
    simp only [Spec.tidy, Bool.and_eq_true] at h
    simp only [toDict]
    rw [wire_root r cs _ h.1, List.drop_left' (receivedRoot_len r cs),
      show ∀ X : List (Option Val), (Spec.receivedRoot r cs ++ X).drop (r.length + a.length) = X.drop a.length by
        intro X; rw [← List.drop_drop, List.drop_left' (receivedRoot_len r cs)]]
    cases ext with
    | true =>
      simp only [if_true, Bool.and_eq_true] at h ⊢
      rw [wire_adds a _ _ h.2.1, List.drop_left' (receivedAdds_len a _), wire_groups g _ h.2.2]
    | false =>
      simp only [Bool.false_eq_true, if_false] at h ⊢
      have hn := replicate_none (a.length + g.size)
      have hd : Spec.allNone (cs.drop (r.length + a.length)) = true := by
        rw [← List.drop_drop]; exact drop_none h.2 _
      rw [toDictFields_none a _ _ hn h.2, toDictGroups_none g _ _ (drop_none hn _) hd]
theorem wire_alt : ∀ (f : Fields) (i : Nat) (v : Val), Spec.tidyAlt f i v = true →
    toDictAlt f i (Spec.receivedAlt f i v) = toDictAlt f i v
  | .nil, _, _, _ => by simp [toDictAlt]
  | .cons n _ t _, 0, v, h => by
    simp only [Spec.tidyAlt, Bool.and_eq_true, beq_iff_eq, held_eq, untouched_eq, valued_eq, isOpt_eq, hasDefault_eq] at h
    rw [Spec.receivedAlt, toDictAlt, toDictAlt, wire_ty t false v h.1, ← h.2]
  | .cons _ _ _ r, i + 1, v, h => by
    simp only [Spec.tidyAlt, held_eq, untouched_eq, valued_eq, isOpt_eq, hasDefault_eq] at h
    simp only [toDictAlt, Spec.receivedAlt]
    exact wire_alt r i v h
theorem wire_altG : ∀ (g : Groups) (i : Nat) (v : Val), Spec.tidyAltG g i v = true →
    toDictAltG g i (Spec.receivedAltG g i v) = toDictAltG g i v
  | .nil, _, _, _ => by simp [toDictAltG]
  | .cons f g, i, v, h => by
    simp only [Spec.tidyAltG] at h
    simp only [toDictAltG, Spec.receivedAltG]
    by_cases hi : i < f.length
    · simp only [hi, if_true] at h ⊢; exact wire_alt f i v h
    · simp only [hi, if_false] at h ⊢; exact wire_altG g _ v h
theorem wire_root : ∀ (f : Fields) (cs ys : List (Option Val)), Spec.tidyRoot f cs = true →
    toDictFields f (Spec.receivedRoot f cs ++ ys) = toDictFields f cs
  | .nil, _, _, _ => by simp [toDictFields]
  | .cons n k t r, cs, ys, h => by
    simp only [Spec.tidyRoot, Bool.and_eq_true, held_eq, untouched_eq, valued_eq, isOpt_eq, hasDefault_eq] at h
    rw [toDictFields_cons, toDictFields_cons]
    simp only [Spec.receivedRoot, List.cons_append, List.head?_cons, Option.getD_some, List.tail_cons, held_eq, untouched_eq, valued_eq, isOpt_eq, hasDefault_eq]
    rw [wire_root r _ _ h.2]
    congr 1
    cases hc : cs.head?.getD none with
    | none =>
      simp only [hc] at h
      cases k with
      | optional => simp [Spec.receivedComponent]
      | default d => simp [Spec.receivedComponent]
      | mandatory =>
        simp only [Spec.receivedComponent, held_eq, untouched_eq, valued_eq, isOpt_eq, hasDefault_eq]
        cases hw : emptyVal t with
        | none => rfl
        | some w =>
          simp only [hw] at h
          simp only [Option.map_some, effective, componentDict_some]
          rw [wire_ty t false w h.1]
          simp [componentDict, hw]
    | some v =>
      simp only [hc] at h
      cases k with
      | mandatory =>
        simp only [Spec.receivedComponent, effective, componentDict_some, held_eq, untouched_eq, valued_eq, isOpt_eq, hasDefault_eq]
        exact wire_ty t false v h.1
      | default d =>
        simp only [Spec.receivedComponent, held_eq, untouched_eq, valued_eq, isOpt_eq, hasDefault_eq]
        by_cases hs : Spec.sameAsDefault d v = true
        · simp only [hs, if_true, effective, componentDict_some]
          exact same_toDict hs
        · simp only [hs, Bool.false_eq_true, if_false, effective, componentDict_some]
          exact wire_ty t false v h.1
      | optional =>
        simp only [Bool.and_eq_true, Bool.or_eq_true] at h
        simp only [Spec.receivedComponent, held_eq, untouched_eq, valued_eq, isOpt_eq, hasDefault_eq]
        by_cases hs : Spec.substantial t (some v) = true
        · simp only [hs, if_true, Option.map_some, effective, componentDict_some]
          exact wire_ty t false v h.1.1
        · simp only [hs, Bool.false_eq_true, if_false, effective]
          exact componentDict_blank (h.1.2.resolve_left hs)
theorem wire_adds : ∀ (f : Fields) (cs ys : List (Option Val)), Spec.tidyAdds f cs = true →
    toDictFields f (Spec.receivedAdds f cs ++ ys) = toDictFields f cs
  | .nil, _, _, _ => by simp [toDictFields]
  | .cons n k t r, cs, ys, h => by
    simp only [Spec.tidyAdds, Bool.and_eq_true, held_eq, untouched_eq, valued_eq, isOpt_eq, hasDefault_eq] at h
    rw [toDictFields_cons, toDictFields_cons]
    simp only [Spec.receivedAdds, List.cons_append, List.head?_cons, Option.getD_some, List.tail_cons, held_eq, untouched_eq, valued_eq, isOpt_eq, hasDefault_eq]
    rw [wire_adds r _ _ h.2]
    congr 1
    cases hc : cs.head?.getD none with
    | none =>
      simp only [hc] at h
      cases k with
      | optional => simp [effective, Spec.substantial]
      | mandatory => simp [effective, Spec.substantial]
      | default d =>
        simp only [effective]
        by_cases hs : Spec.substantial t (some d) = true
        · simp only [hs, if_true, Option.map_some, componentDict_some]
          exact wire_ty t false d h.1
        · simp only [hs, Bool.false_eq_true, if_false]
    | some v =>
      simp only [hc] at h
      simp only [effective]
      by_cases hs : Spec.substantial t (some v) = true
      · simp only [hs, if_true, Option.map_some, componentDict_some]
        cases k <;> simp only [Bool.and_eq_true] at h <;> exact wire_ty t false v h.1.1
      · simp only [hs, Bool.false_eq_true, if_false]
        cases k with
        | default d => simp [hs] at h
        | optional =>
          simp only [hs, Bool.false_or, Bool.and_eq_true] at h
          exact componentDict_blank h.1.2
        | mandatory =>
          simp only [hs, Bool.false_or, Bool.and_eq_true] at h
          exact componentDict_blank h.1.2
theorem wire_groups : ∀ (g : Groups) (cs : List (Option Val)), Spec.tidyGroups g cs = true →
    toDictGroups g (Spec.receivedGroups g cs) = toDictGroups g cs
  | .nil, _, _ => by simp [toDictGroups]
  | .cons f g, cs, h => by
    simp only [Spec.tidyGroups, Bool.and_eq_true] at h
    rw [toDictGroups, toDictGroups]
    simp only [Spec.receivedGroups]
    by_cases hs : Spec.anySubstantial f cs = true
    · simp only [hs, if_true] at h ⊢
      rw [wire_root f _ _ h.1, List.drop_left' (receivedRoot_len f cs), wire_groups g _ h.2]
    · simp only [hs, Bool.false_eq_true, if_false] at h ⊢
      rw [blankAll_dict f _ _ h.1, List.drop_left' (List.length_replicate ..), wire_groups g _ h.2]
end

end Verif
