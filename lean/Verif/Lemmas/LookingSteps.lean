import Verif.Lemmas.Looking
/-!
# Encoding, `to_dict` and reading leave an object that differs only in components nobody has set
-/
namespace Verif

open Spec

/-- What a loop over components leaves. -/
def Out (f : Fields) (ss us : List (Option Obj)) (ok : Bool) : Prop :=
  LikeFields f ss us ∧
    (ss.length ≤ f.length → ss.length ≤ us.length ∧ us.length ≤ f.length ∧ (ok = true → us.length = f.length))

theorem out_nil (ss : List (Option Obj)) (ok : Bool) : Out .nil ss ss ok := by
  refine ⟨trivial, fun h => ⟨Nat.le_refl _, h, fun _ => ?_⟩⟩
  simp only [Fields.length] at h ⊢
  omega

theorem out_stop {n : String} {k : Kind} {t : Ty} {r : Fields} {ss : List (Option Obj)} {o : Obj}
    (h : Like t (instantiate k t (ss.head?.getD none)) o) : Out (.cons n k t r) ss (some o :: ss.tail) false := by
  refine ⟨⟨h, likeFields_refl r _⟩, fun l => ⟨?_, ?_, (nomatch ·)⟩⟩
  · cases ss <;> simp
  · cases ss <;> simp only [Fields.length, List.length_cons, List.tail_cons, List.tail_nil, List.length_nil] at l ⊢ <;> omega

theorem out_cons {n : String} {k : Kind} {t : Ty} {r : Fields} {ss us : List (Option Obj)} {o : Obj} {ok : Bool}
    (h : Like t (instantiate k t (ss.head?.getD none)) o) (y : Out r ss.tail us ok) :
    Out (.cons n k t r) ss (some o :: us) ok := by
  refine ⟨⟨h, y.1⟩, fun l => ?_⟩
  have e : ss.tail.length ≤ r.length := by simp only [Fields.length] at l; simp only [List.length_tail]; omega
  obtain ⟨a, b, c⟩ := y.2 e
  simp only [List.length_tail] at a
  simp only [Fields.length, List.length_cons]
  exact ⟨by omega, by omega, fun k => by rw [c k]⟩

/-- The lists of two loops, one behind the other. -/
theorem drop_parts {n : Nat} {xs rest : List (Option Obj)} (l : xs.length ≤ n) (h : xs.length = n ∨ rest = []) :
    (xs ++ rest).drop n = rest := by
  rcases h with rfl | rfl
  · simp
  · simpa using l

theorem slot_part {n i : Nat} {xs rest : List (Option Obj)} (h : xs.length = n ∨ rest = []) (hi : i < n) :
    slot (xs ++ rest) i = slot xs i := by
  rcases h with rfl | rfl
  · exact slot_left rest hi
  · simp

theorem likeFields_parts {f : Fields} {ss xs rest : List (Option Obj)} (h : LikeFields f (ss.take f.length) xs)
    (c : xs.length = f.length ∨ rest = []) : LikeFields f ss (xs ++ rest) :=
  likeFields_congr (fun _ l => slot_take ss l) (fun _ l => (slot_part c l).symm) h

theorem short_rest {n : Nat} {ss xs : List (Option Obj)} (h : (ss.take n).length ≤ xs.length) (l : xs.length ≤ n) :
    xs.length = n ∨ ss.drop n = [] := by
  simp only [List.length_take] at h
  by_cases c : n ≤ ss.length
  · left; omega
  · right; simp; omega

/-- The three parts of a SEQUENCE after the loops. -/
theorem like_parts {e : Bool} {r a : Fields} {g : Groups} {s : Option (List (Option Obj))} {xs ys zs : List (Option Obj)}
    (x : LikeFields r ((slotsOf (r.length + a.length + g.size) s).take r.length) xs) (xl : xs.length ≤ r.length)
    (xc : xs.length = r.length ∨ (ys = [] ∧ zs = []))
    (y : LikeFields a (((slotsOf (r.length + a.length + g.size) s).drop r.length).take a.length) ys)
    (yl : ys.length ≤ a.length) (yc : ys.length = a.length ∨ zs = [])
    (z : LikeGroups g ((slotsOf (r.length + a.length + g.size) s).drop (r.length + a.length)) zs) :
    Like (.sequence e r a g) (.seq s) (.seq (some (xs ++ (ys ++ zs)))) := by
  have c : xs.length = r.length ∨ ys ++ zs = [] := xc.imp_right fun h => by rw [h.1, h.2]; rfl
  simp only [Like, Option.getD_some]
  refine ⟨?_, ?_, ?_⟩
  · refine likeFields_congr (fun i _ => slot_slotsOf _ s i) (fun _ _ => rfl) (likeFields_parts x c)
  · rw [drop_parts xl c]
    refine likeFields_congr (fun i _ => ?_) (fun _ _ => rfl) (likeFields_parts y yc)
    rw [slot_drop, slot_drop, slot_slotsOf]
  · rw [← List.drop_drop (l := xs ++ (ys ++ zs)), drop_parts xl c, drop_parts yl yc]
    refine likeGroups_congr (fun i _ => ?_) (fun _ _ => rfl) z
    rw [slot_drop, slot_drop, slot_slotsOf]

theorem take_le (n : Nat) (ss : List (Option Obj)) : (ss.take n).length ≤ n := by simp; omega

/-- Nothing but the root was looked at. -/
theorem like_root {e : Bool} {r a : Fields} {g : Groups} {s : Option (List (Option Obj))} {xs : List (Option Obj)} {ok : Bool}
    (x : Out r ((slotsOf (r.length + a.length + g.size) s).take r.length) xs ok) :
    Like (.sequence e r a g) (.seq s) (.seq (some (xs ++
      (((slotsOf (r.length + a.length + g.size) s).drop r.length).take a.length ++
        (slotsOf (r.length + a.length + g.size) s).drop (r.length + a.length))))) := by
  obtain ⟨l1, l2, _⟩ := x.2 (take_le _ _)
  refine like_parts x.1 l2 ?_ (likeFields_refl _ _) (take_le _ _) ?_ (likeGroups_refl _ _)
  · rcases short_rest l1 l2 with h | h
    · exact .inl h
    · rw [← List.drop_drop, h]; simp
  · rw [← List.drop_drop]
    exact short_rest (Nat.le_refl _) (take_le _ _)

/-- The additions were looked at too. -/
theorem like_adds {e : Bool} {r a : Fields} {g : Groups} {s : Option (List (Option Obj))} {xs ys : List (Option Obj)}
    {ok : Bool} (x : Out r ((slotsOf (r.length + a.length + g.size) s).take r.length) xs true)
    (y : Out a (((slotsOf (r.length + a.length + g.size) s).drop r.length).take a.length) ys ok) :
    Like (.sequence e r a g) (.seq s) (.seq (some (xs ++
      (ys ++ (slotsOf (r.length + a.length + g.size) s).drop (r.length + a.length))))) := by
  obtain ⟨_, l2, l3⟩ := x.2 (take_le _ _)
  obtain ⟨m1, m2, _⟩ := y.2 (take_le _ _)
  refine like_parts x.1 l2 (.inl (l3 rfl)) y.1 m2 ?_ (likeGroups_refl _ _)
  rw [← List.drop_drop]
  exact short_rest m1 m2

/-- All were. -/
theorem like_all {e : Bool} {r a : Fields} {g : Groups} {s : Option (List (Option Obj))} {xs ys zs : List (Option Obj)}
    (x : Out r ((slotsOf (r.length + a.length + g.size) s).take r.length) xs true)
    (y : Out a (((slotsOf (r.length + a.length + g.size) s).drop r.length).take a.length) ys true)
    (z : LikeGroups g ((slotsOf (r.length + a.length + g.size) s).drop (r.length + a.length)) zs) :
    Like (.sequence e r a g) (.seq s) (.seq (some (xs ++ (ys ++ zs)))) := by
  obtain ⟨_, l2, l3⟩ := x.2 (take_le _ _)
  obtain ⟨_, m2, m3⟩ := y.2 (take_le _ _)
  exact like_parts x.1 l2 (.inl (l3 rfl)) y.1 m2 (.inl (m3 rfl)) z

theorem groups_stop {f : Fields} {g : Groups} {ss xs : List (Option Obj)} {ok : Bool} (x : Out f (ss.take f.length) xs ok) :
    LikeGroups (.cons f g) ss (xs ++ ss.drop f.length) := by
  obtain ⟨l1, l2, _⟩ := x.2 (take_le _ _)
  have c := short_rest l1 l2
  refine ⟨likeFields_parts x.1 c, ?_⟩
  rw [drop_parts l2 c]
  exact likeGroups_refl _ _

theorem groups_cons {f : Fields} {g : Groups} {ss xs zs : List (Option Obj)} (x : Out f (ss.take f.length) xs true)
    (z : LikeGroups g (ss.drop f.length) zs) : LikeGroups (.cons f g) ss (xs ++ zs) := by
  obtain ⟨_, l2, l3⟩ := x.2 (take_le _ _)
  refine ⟨likeFields_parts x.1 (.inl (l3 rfl)), ?_⟩
  rw [drop_parts l2 (.inl (l3 rfl))]
  exact z

theorem out_trans {f : Fields} {ss us vs : List (Option Obj)} {ok : Bool} (x : Out f ss us true) (y : Out f us vs ok) :
    Out f ss vs ok := by
  refine ⟨likeFields_trans f _ _ _ x.1 y.1, fun l => ?_⟩
  obtain ⟨a, b, _⟩ := x.2 l
  obtain ⟨c, d, e⟩ := y.2 b
  exact ⟨by omega, d, e⟩

/-! ## `encode` -/

theorem overList_like {t : Ty} {f : Obj → Step Obj α} (h : ∀ o, Like t o (f o).2) :
    ∀ os, AllPairs (Like t) os (overList f os).2
  | [] => trivial
  | o :: os => by
    have ho := h o
    simp only [overList]
    split
    next e => rw [e] at ho; exact ⟨ho, pairs_refl (like_refl t) _⟩
    next e =>
      rw [e] at ho
      have i := overList_like h os
      split
      next e' => rw [e'] at i; exact ⟨ho, i⟩
      next e' => rw [e'] at i; exact ⟨ho, i⟩

theorem rootStep_like {enc : Obj → Step Obj (List BitField)} {k : Kind} {t : Ty} (h : ∀ o, Like t o (enc o).2) (o : Obj) :
    Like t o (objRootStep enc k t o).2 := by
  unfold objRootStep
  split
  · split
    · exact h o
    · exact like_refl t o
  · split
    · split
      · exact like_refl t _
      · exact h _
      · exact like_refl t _
    · exact like_refl t _
    · exact like_refl t _
  · exact h o

theorem additionStep_like {enc : Obj → Step Obj (List BitField)} {t : Ty} (h : ∀ o, Like t o (enc o).2) (prev : Option Prev)
    (o : Obj) : Like t o (objAdditionStep enc t prev o).2 := by
  unfold objAdditionStep
  split
  · split
    · exact like_refl t o
    · split
      · exact h o
      · exact like_refl t o
  · exact like_refl t o

theorem out_ok {f : Fields} {ss us : List (Option Obj)} {ok ok' : Bool} (h : Out f ss us ok) (e : ok' = true → ok = true) :
    Out f ss us ok' :=
  ⟨h.1, fun l => ⟨(h.2 l).1, (h.2 l).2.1, fun k => (h.2 l).2.2 (e k)⟩⟩

theorem isOk_map {α β : Type} (x : Except Err α) (f : α → β) : (x.map f).isOk = x.isOk := by cases x <;> rfl

theorem scan_out : ∀ (f : Fields) (ss : List (Option Obj)) (prev : Option Prev),
    Out f ss (objScan f ss prev).2 (objScan f ss prev).1.isOk
  | .nil, ss, _ => out_nil ss _
  | .cons _ k t r, ss, prev => by
    simp only [objScan]
    split
    · exact out_stop (like_refl t _)
    · simp only [isOk_map]
      exact out_cons (like_refl t _) (scan_out r _ _)

mutual
theorem encObj_like : ∀ (t : Ty) (o : Obj), Like t o (encObj t o).2
  | .boolean, o => by cases o <;> first | (rename_i v; cases v <;> simp [encObj, Like]) | simp [encObj, Like]
  | .integer _, o => by cases o <;> first | (rename_i v; cases v <;> simp [encObj, Like]) | simp [encObj, Like]
  | .enumerated _ _ _, o => by cases o <;> first | (rename_i v; cases v <;> simp [encObj, Like]) | simp [encObj, Like]
  | .bitString _, o => by cases o <;> first | (rename_i v; cases v <;> simp [encObj, Like]) | simp [encObj, Like]
  | .octetString _, o => by cases o <;> first | (rename_i v; cases v <;> simp [encObj, Like]) | simp [encObj, Like]
  | .seqOf c t, .list es => by
    simp only [encObj, Like]
    cases es with
    | none => exact ⟨rfl, trivial⟩
    | some es => exact ⟨rfl, overList_like (encObj_like t) es⟩
  | .seqOf _ _, .leaf _ => by simp [encObj, Like]
  | .seqOf _ _, .choice _ => by simp [encObj, Like]
  | .seqOf _ _, .seq _ => by simp [encObj, Like]
  | .choice _ _ _ _, .choice none => by simp [encObj, Like]
  | .choice _ r a g, .choice (some (pos, o)) => by
    simp only [encObj, Like]
    refine ⟨trivial, ?_⟩
    by_cases c : pos < r.length
    · simp only [if_pos c]; exact encObjAlt_like r pos o
    · simp only [if_neg c]
      by_cases d : pos < r.length + a.length
      · simp only [if_pos d]; exact encObjAlt_like a _ o
      · simp only [if_neg d]; exact encObjAltG_like g _ o
  | .choice _ _ _ _, .leaf _ => by simp [encObj, Like]
  | .choice _ _ _ _, .list _ => by simp [encObj, Like]
  | .choice _ _ _ _, .seq _ => by simp [encObj, Like]
  | .sequence ext r a g, .seq s => by
    have x := encObjRoot_out r ((slotsOf (r.length + a.length + g.size) s).take r.length)
    have y := encObjAdds_out a (((slotsOf (r.length + a.length + g.size) s).drop r.length).take a.length) none
    have z := encObjGroups_like g ((slotsOf (r.length + a.length + g.size) s).drop (r.length + a.length)) none
    have xt := out_ok (ok' := (encObjRoot r ((slotsOf (r.length + a.length + g.size) s).take r.length)).1.isOk) x id
    simp only [encObj]
    split
    · exact like_root x
    next rf he =>
      have xok : (encObjRoot r ((slotsOf (r.length + a.length + g.size) s).take r.length)).1.isOk = true := by
        cases hx : (encObjRoot r ((slotsOf (r.length + a.length + g.size) s).take r.length)).1 with
        | ok _ => rfl
        | error _ => rw [hx] at he; cases he
      rw [xok] at x
      cases ext with
      | false =>
        simp only [if_false, Bool.false_eq_true]
        split
        · exact like_refl _ _
        · exact like_root x
      | true =>
        simp only [if_true]
        split
        · dsimp only
          split
          · exact like_refl _ _
          · exact like_root x
        · split
          · exact like_adds x y
          next hy =>
            rw [hy] at y
            dsimp only
            split
            · exact like_refl _ _
            · exact like_all x y z
  | .sequence _ _ _ _, .leaf _ => by simp [encObj, Like]
  | .sequence _ _ _ _, .list _ => by simp [encObj, Like]
  | .sequence _ _ _ _, .choice _ => by simp [encObj, Like]
theorem encObjAlt_like : ∀ (f : Fields) (p : Nat) (o : Obj), LikeAlt f p o (encObjAlt f p o).2
  | .nil, _, _ => rfl
  | .cons _ _ t _, 0, o => encObj_like t o
  | .cons _ _ _ r, p + 1, o => encObjAlt_like r p o
theorem encObjAltG_like : ∀ (g : Groups) (p : Nat) (o : Obj), LikeAltG g p o (encObjAltG g p o).2
  | .nil, _, _ => rfl
  | .cons f g, p, o => by
    simp only [encObjAltG, LikeAltG]
    by_cases c : p < f.length
    · simp only [if_pos c]; exact encObjAlt_like f p o
    · simp only [if_neg c]; exact encObjAltG_like g _ o
theorem encObjRoot_out : ∀ (f : Fields) (ss : List (Option Obj)), Out f ss (encObjRoot f ss).2 (encObjRoot f ss).1.isOk
  | .nil, ss => out_nil ss _
  | .cons _ k t r, ss => by
    have h := rootStep_like (k := k) (encObj_like t) (instantiate k t (ss.head?.getD none))
    simp only [encObjRoot]
    split
    · exact out_stop h
    · simp only [isOk_map]
      exact out_cons h (encObjRoot_out r _)
theorem encObjAdds_out : ∀ (f : Fields) (ss : List (Option Obj)) (prev : Option Prev),
    Out f ss (encObjAdds f ss prev).2 (encObjAdds f ss prev).1.isOk
  | .nil, ss, _ => out_nil ss _
  | .cons _ k t r, ss, prev => by
    have h := additionStep_like (encObj_like t) prev (instantiate k t (ss.head?.getD none))
    simp only [encObjAdds]
    split
    · exact out_stop h
    · simp only [isOk_map]
      exact out_cons h (encObjAdds_out r _ _)
theorem encObjGroups_like : ∀ (g : Groups) (ss : List (Option Obj)) (prev : Option (List Prev)),
    LikeGroups g ss (encObjGroups g ss prev).2
  | .nil, _, _ => trivial
  | .cons f g, ss, prev => by
    have x := scan_out f (ss.take f.length) none
    have y := encObjRoot_out f (objScan f (ss.take f.length) none).2
    simp only [encObjGroups]
    split
    · exact groups_stop x
    next infos hi =>
      rw [hi] at x
      have xy := out_trans x y
      split
      · split
        · exact groups_stop x
        · split
          · exact groups_stop xy
          next ofl ho =>
            have yok : (encObjRoot f (objScan f (ss.take f.length) none).2).1.isOk = true := by
              cases hy : (encObjRoot f (objScan f (ss.take f.length) none).2).1 with
              | ok _ => rfl
              | error _ => rw [hy] at ho; cases ho
            rw [yok] at xy
            exact groups_cons xy (encObjGroups_like g _ _)
      · exact groups_cons x (encObjGroups_like g _ _)
end

/-! ## `to_dict` -/

mutual
theorem dictObj_like : ∀ (t : Ty) (b : Bool) (o : Obj), Like t o (dictObj t b o).2
  | .boolean, _, o => by cases o <;> first | (rename_i v; cases v <;> simp [dictObj, Like]) | simp [dictObj, Like]
  | .integer _, _, o => by cases o <;> first | (rename_i v; cases v <;> simp [dictObj, Like]) | simp [dictObj, Like]
  | .enumerated _ _ _, _, o => by cases o <;> first | (rename_i v; cases v <;> simp [dictObj, Like]) | simp [dictObj, Like]
  | .bitString _, _, o => by cases o <;> first | (rename_i v; cases v <;> simp [dictObj, Like]) | simp [dictObj, Like]
  | .octetString _, _, o => by cases o <;> first | (rename_i v; cases v <;> simp [dictObj, Like]) | simp [dictObj, Like]
  | .seqOf c t, _, .list es => by
    simp only [dictObj, Like]
    cases es with
    | none => exact ⟨rfl, trivial⟩
    | some es => exact ⟨rfl, overList_like (dictObj_like t false) es⟩
  | .seqOf _ _, _, .leaf _ => by simp [dictObj, Like]
  | .seqOf _ _, _, .choice _ => by simp [dictObj, Like]
  | .seqOf _ _, _, .seq _ => by simp [dictObj, Like]
  | .choice _ _ _ _, _, .choice none => by simp [dictObj, Like]
  | .choice _ r a g, _, .choice (some (pos, o)) => by
    simp only [dictObj, Like]
    refine ⟨trivial, ?_⟩
    by_cases c : pos < r.length
    · simp only [if_pos c]; exact dictObjAlt_like r pos o
    · simp only [if_neg c]
      by_cases d : pos < r.length + a.length
      · simp only [if_pos d]; exact dictObjAlt_like a _ o
      · simp only [if_neg d]; exact dictObjAltG_like g _ o
  | .choice _ _ _ _, _, .leaf _ => by simp [dictObj, Like]
  | .choice _ _ _ _, _, .list _ => by simp [dictObj, Like]
  | .choice _ _ _ _, _, .seq _ => by simp [dictObj, Like]
  | .sequence ext r a g, _, .seq s => by
    have x := dictObjFields_out r ((slotsOf (r.length + a.length + g.size) s).take r.length)
    have y := dictObjFields_out a (((slotsOf (r.length + a.length + g.size) s).drop r.length).take a.length)
    have z := dictObjGroups_like g ((slotsOf (r.length + a.length + g.size) s).drop (r.length + a.length))
    simp only [dictObj]
    split
    · exact like_root x
    next hx =>
      rw [hx] at x
      split
      · exact like_adds x y
      next hy =>
        rw [hy] at y
        dsimp only
        split
        · exact like_refl _ _
        · exact like_all x y z
  | .sequence _ _ _ _, _, .leaf _ => by simp [dictObj, Like]
  | .sequence _ _ _ _, _, .list _ => by simp [dictObj, Like]
  | .sequence _ _ _ _, _, .choice _ => by simp [dictObj, Like]
theorem dictObjAlt_like : ∀ (f : Fields) (p : Nat) (o : Obj), LikeAlt f p o (dictObjAlt f p o).2
  | .nil, _, _ => rfl
  | .cons _ _ t _, 0, o => by
    simp only [dictObjAlt, LikeAlt]
    split
    · exact dictObj_like t false o
    · exact like_refl t o
  | .cons _ _ _ r, p + 1, o => dictObjAlt_like r p o
theorem dictObjAltG_like : ∀ (g : Groups) (p : Nat) (o : Obj), LikeAltG g p o (dictObjAltG g p o).2
  | .nil, _, _ => rfl
  | .cons f g, p, o => by
    simp only [dictObjAltG, LikeAltG]
    by_cases c : p < f.length
    · simp only [if_pos c]; exact dictObjAlt_like f p o
    · simp only [if_neg c]; exact dictObjAltG_like g _ o
theorem dictObjFields_out : ∀ (f : Fields) (ss : List (Option Obj)), Out f ss (dictObjFields f ss).2 (dictObjFields f ss).1.isOk
  | .nil, ss => out_nil ss _
  | .cons _ k t r, ss => by
    have h : Like t (instantiate k t (ss.head?.getD none))
        (if objValue t (instantiate k t (ss.head?.getD none)) || isConstructed t then
          dictObj t false (instantiate k t (ss.head?.getD none))
        else ((.ok none, instantiate k t (ss.head?.getD none)) : Step Obj (Option Dict))).2 := by
      split
      · exact dictObj_like t false _
      · exact like_refl t _
    simp only [dictObjFields]
    split
    · exact out_stop h
    · simp only [isOk_map]
      exact out_cons h (dictObjFields_out r _)
theorem dictObjGroups_like : ∀ (g : Groups) (ss : List (Option Obj)), LikeGroups g ss (dictObjGroups g ss).2
  | .nil, _ => trivial
  | .cons f g, ss => by
    have x := dictObjFields_out f (ss.take f.length)
    simp only [dictObjGroups]
    split
    · exact groups_stop x
    next hi =>
      rw [hi] at x
      exact groups_cons x (dictObjGroups_like g _)
end

/-! ## Reading a component -/

theorem firsts_length : ∀ (n : Nat) (ss : List (Option Obj)), (firsts n ss).length = n
  | 0, _ => rfl
  | n + 1, ss => by simp only [firsts, List.length_cons, firsts_length n]

theorem slot_firsts : ∀ (n : Nat) (ss : List (Option Obj)) (i : Nat), i < n → slot (firsts n ss) i = slot ss i
  | n + 1, ss, 0, _ => by rw [slot_zero ss]; rfl
  | n + 1, ss, i + 1, h => by
    rw [← slot_tail ss, ← slot_firsts n ss.tail i (by omega), ← slot_tail (firsts (n + 1) ss)]; rfl

theorem drop_firsts (n : Nat) (ss l : List (Option Obj)) : (firsts n ss ++ l).drop n = l :=
  drop_parts (Nat.le_of_eq (firsts_length n ss)) (.inl (firsts_length n ss))

theorem likeFields_firsts (f : Fields) {n : Nat} (h : f.length ≤ n) (ss l : List (Option Obj)) :
    LikeFields f ss (firsts n ss ++ l) :=
  likeFields_congr (fun _ _ => rfl)
    (fun i hi => by rw [slot_part (.inl (firsts_length n ss)) (by omega), slot_firsts n ss i (by omega)]) (likeFields_refl f ss)

theorem slot_lookSlot : ∀ (f : Fields) (i : Nat) (p : List Nat) (ss : List (Option Obj)) (j : Nat), f.length ≤ j →
    slot (lookSlot f i p ss) j = slot ss j
  | .nil, _, _, _, _, _ => rfl
  | .cons _ _ _ _, 0, _, ss, 0, h => by simp [Fields.length] at h
  | .cons _ _ _ _, _ + 1, _, ss, 0, h => by simp [Fields.length] at h
  | .cons _ k t r, 0, p, ss, j + 1, _ => by
    rw [← slot_tail ss, ← slot_tail (lookSlot _ _ _ _)]; rfl
  | .cons _ _ _ r, i + 1, p, ss, j + 1, h => by
    rw [← slot_tail ss, ← slot_lookSlot r i p ss.tail j (by simp [Fields.length] at h; omega), ← slot_tail (lookSlot _ _ _ ss)]
    rfl

theorem pairs_modify {t : Ty} {f : Obj → Obj} (h : ∀ o, Like t o (f o)) : ∀ (l : List Obj) (i : Nat),
    AllPairs (Like t) l (l.modify i f)
  | [], _ => by simp only [List.modify_nil]; trivial
  | x :: xs, 0 => by simp only [List.modify_zero_cons]; exact ⟨h x, pairs_refl (like_refl t) xs⟩
  | x :: xs, i + 1 => by simp only [List.modify_succ_cons]; exact ⟨like_refl t x, pairs_modify h xs i⟩

mutual
theorem look_like : ∀ (t : Ty) (p : List Nat) (o : Obj), Like t o (look t p o)
  | t, [], o => by simp only [look]; exact like_refl t o
  | .boolean, _ :: _, o => by simp [look, Like]
  | .integer _, _ :: _, o => by simp [look, Like]
  | .enumerated _ _ _, _ :: _, o => by simp [look, Like]
  | .bitString _, _ :: _, o => by simp [look, Like]
  | .octetString _, _ :: _, o => by simp [look, Like]
  | .seqOf c t, i :: p, .list (some es) => by
    simp only [look, Like]
    exact ⟨rfl, pairs_modify (look_like t p) es i⟩
  | .seqOf c t, _ :: _, .list none => by simp only [look]; exact like_refl _ _
  | .seqOf _ _, _ :: _, .leaf _ => by simp [look, Like]
  | .seqOf _ _, _ :: _, .choice _ => by simp [look, Like]
  | .seqOf _ _, _ :: _, .seq _ => by simp [look, Like]
  | .choice _ _ _ _, _ :: _, .choice none => by simp [look, Like]
  | .choice _ r a g, i :: p, .choice (some (pos, o)) => by
    simp only [look]
    split
    · simp only [Like]
      refine ⟨trivial, ?_⟩
      by_cases c : pos < r.length
      · simp only [if_pos c]; exact lookAlt_like r pos p o
      · simp only [if_neg c]
        by_cases d : pos < r.length + a.length
        · simp only [if_pos d]; exact lookAlt_like a _ p o
        · simp only [if_neg d]; exact lookAltG_like g _ p o
    · exact like_refl _ _
  | .choice _ _ _ _, _ :: _, .leaf _ => by simp [look, Like]
  | .choice _ _ _ _, _ :: _, .list _ => by simp [look, Like]
  | .choice _ _ _ _, _ :: _, .seq _ => by simp [look, Like]
  | .sequence _ r a g, i :: p, .seq s => by
    simp only [look]
    split
    · have e : ∀ j, slot (slotsOf (r.length + a.length + g.size) s) j = slot (s.getD []) j := slot_slotsOf _ s
      have d : ∀ n j, slot ((slotsOf (r.length + a.length + g.size) s).drop n) j = slot ((s.getD []).drop n) j :=
        fun n j => by rw [slot_drop, slot_drop, e]
      simp only [Like, Option.getD_some]
      split
      · refine ⟨likeFields_congr (fun j _ => e j) (fun _ _ => rfl) (lookSlot_like r i p _),
          likeFields_congr (fun j _ => d _ j) (fun j _ => ?_) (likeFields_refl a _),
          likeGroups_congr (fun j _ => d _ j) (fun j _ => ?_) (likeGroups_refl g _)⟩
        · rw [slot_drop, slot_drop, slot_lookSlot _ _ _ _ _ (by omega)]
        · rw [slot_drop, slot_drop, slot_lookSlot _ _ _ _ _ (by omega)]
      · split
        · refine ⟨likeFields_congr (fun j _ => e j) (fun _ _ => rfl) (likeFields_firsts r (Nat.le_refl _) _ _), ?_, ?_⟩
          · rw [drop_firsts]
            exact likeFields_congr (fun j _ => d _ j) (fun _ _ => rfl) (lookSlot_like a _ p _)
          · rw [← List.drop_drop (l := _ ++ _), drop_firsts]
            refine likeGroups_congr (fun j _ => d _ j) (fun j _ => ?_) (likeGroups_refl g _)
            rw [slot_drop, slot_drop, slot_lookSlot _ _ _ _ _ (by omega), slot_drop, Nat.add_assoc r.length a.length j]
        · refine ⟨likeFields_congr (fun j _ => e j) (fun _ _ => rfl) (likeFields_firsts r (Nat.le_add_right _ _) _ _),
            likeFields_congr (fun j _ => d _ j) (fun j hj => ?_) (likeFields_refl a _), ?_⟩
          · rw [slot_drop, slot_drop, slot_part (.inl (firsts_length _ _)) (by omega), slot_firsts _ _ _ (by omega)]
          · rw [drop_firsts]
            exact likeGroups_congr (fun j _ => d _ j) (fun _ _ => rfl) (lookSlotG_like g _ p _)
    · exact like_refl _ _
  | .sequence _ _ _ _, _ :: _, .leaf _ => by simp [look, Like]
  | .sequence _ _ _ _, _ :: _, .list _ => by simp [look, Like]
  | .sequence _ _ _ _, _ :: _, .choice _ => by simp [look, Like]
theorem lookAlt_like : ∀ (f : Fields) (i : Nat) (p : List Nat) (o : Obj), LikeAlt f i o (lookAlt f i p o)
  | .nil, _, _, _ => rfl
  | .cons _ _ t _, 0, p, o => look_like t p o
  | .cons _ _ _ r, i + 1, p, o => lookAlt_like r i p o
theorem lookAltG_like : ∀ (g : Groups) (i : Nat) (p : List Nat) (o : Obj), LikeAltG g i o (lookAltG g i p o)
  | .nil, _, _, _ => rfl
  | .cons f g, i, p, o => by
    simp only [lookAltG, LikeAltG]
    by_cases c : i < f.length
    · simp only [if_pos c]; exact lookAlt_like f i p o
    · simp only [if_neg c]; exact lookAltG_like g _ p o
theorem lookSlot_like : ∀ (f : Fields) (i : Nat) (p : List Nat) (ss : List (Option Obj)), LikeFields f ss (lookSlot f i p ss)
  | .nil, _, _, _ => trivial
  | .cons _ k t r, 0, p, ss => ⟨look_like t p _, likeFields_refl r _⟩
  | .cons _ k t r, i + 1, p, ss => ⟨like_refl t _, lookSlot_like r i p _⟩
theorem lookSlotG_like : ∀ (g : Groups) (i : Nat) (p : List Nat) (ss : List (Option Obj)), LikeGroups g ss (lookSlotG g i p ss)
  | .nil, _, _, _ => trivial
  | .cons f g, i, p, ss => by
    simp only [lookSlotG]
    split
    · refine ⟨lookSlot_like f i p ss, likeGroups_congr (fun _ _ => rfl) (fun j _ => ?_) (likeGroups_refl g _)⟩
      rw [slot_drop, slot_drop, slot_lookSlot _ _ _ _ _ (by omega)]
    · refine ⟨likeFields_firsts f (Nat.le_refl _) ss _, ?_⟩
      rw [drop_firsts]
      exact lookSlotG_like g _ p _
end

/-! ## Assigning -/

theorem likeFields_set : ∀ (f : Fields) (i : Nat) (x : Option Obj) (ss us : List (Option Obj)), LikeFields f ss us →
    i < ss.length → i < us.length → LikeFields f (ss.set i x) (us.set i x)
  | .nil, _, _, _, _, _, _, _ => trivial
  | .cons _ k t r, 0, x, s :: ss, u :: us, h, _, _ => ⟨like_refl t _, h.2⟩
  | .cons _ k t r, i + 1, x, s :: ss, u :: us, h, hs, hu =>
    ⟨h.1, likeFields_set r i x ss us h.2 (Nat.lt_of_succ_lt_succ hs) (Nat.lt_of_succ_lt_succ hu)⟩
  | _, _, _, [], _, _, hs, _ => by simp at hs
  | _, _, _, _ :: _, [], _, _, hu => by simp at hu

theorem likeFields_drop_set {f : Fields} {n i : Nat} {x : Option Obj} {ss us : List (Option Obj)}
    (h : LikeFields f (ss.drop n) (us.drop n)) (hs : i < ss.length) (hu : i < us.length) :
    LikeFields f ((ss.set i x).drop n) ((us.set i x).drop n) := by
  rw [List.drop_set, List.drop_set]
  split
  · exact h
  · exact likeFields_set f _ x _ _ h (by rw [List.length_drop]; omega) (by rw [List.length_drop]; omega)

theorem likeGroups_drop_set : ∀ {g : Groups} {n i : Nat} {x : Option Obj} {ss us : List (Option Obj)},
    LikeGroups g (ss.drop n) (us.drop n) → i < ss.length → i < us.length →
    LikeGroups g ((ss.set i x).drop n) ((us.set i x).drop n)
  | .nil, _, _, _, _, _, _, _, _ => trivial
  | .cons f g, n, i, x, ss, us, h, hs, hu => by
    simp only [LikeGroups, List.drop_drop] at h ⊢
    exact ⟨likeFields_drop_set h.1 hs hu, likeGroups_drop_set h.2 hs hu⟩

theorem slotsOf_length {n : Nat} {s : Option (List (Option Obj))} (h : (s.getD []).isEmpty = true ∨ n ≤ (s.getD []).length) :
    n ≤ (slotsOf n s).length := by
  match s with
  | none => simp [slotsOf]
  | some [] => simp [slotsOf]
  | some (_ :: _) => simpa [slotsOf] using h

theorem tyAt_range : ∀ {f : Fields} {i : Nat} {t : Ty}, f.tyAt i = some t → i < f.length
  | .nil, _, _, h => by simp [Fields.tyAt] at h
  | .cons _ _ _ _, 0, _, _ => by simp [Fields.length]
  | .cons _ _ _ r, i + 1, _, h => by
    have := tyAt_range (f := r) (i := i) (by simpa [Fields.tyAt] using h)
    simp only [Fields.length]; omega

theorem tyAtG_range : ∀ {g : Groups} {i : Nat} {t : Ty}, g.tyAt i = some t → i < g.size
  | .nil, _, _, h => by simp [Groups.tyAt] at h
  | .cons f g, i, _, h => by
    simp only [Groups.tyAt] at h
    simp only [Groups.size]
    split at h
    · omega
    · have := tyAtG_range h; omega

theorem place_range {r a : Fields} {g : Groups} {i : Nat} {t : Ty}
    (h : (if i < r.length then r.tyAt i else if i < r.length + a.length then a.tyAt (i - r.length)
      else g.tyAt (i - (r.length + a.length))) = some t) : i < r.length + a.length + g.size := by
  split at h
  · omega
  · split at h
    · omega
    · have := tyAtG_range h; omega

theorem assign_like : ∀ {t : Ty} {o o' : Obj}, spaced t o = true → spaced t o' = true → Like t o o' → ∀ (i : Nat) (v : Val),
    Like t (assign t i v o) (assign t i v o')
  | .boolean, _, _, _, _, h, _, _ => by simpa only [assign] using h
  | .integer _, _, _, _, _, h, _, _ => by simpa only [assign] using h
  | .enumerated _ _ _, _, _, _, _, h, _, _ => by simpa only [assign] using h
  | .bitString _, _, _, _, _, h, _, _ => by simpa only [assign] using h
  | .octetString _, _, _, _, _, h, _, _ => by simpa only [assign] using h
  | .seqOf _ _, _, _, _, _, h, _, _ => by simpa only [assign] using h
  | .choice _ _ _ _, _, _, _, _, h, _, _ => by simpa only [assign] using h
  | .sequence e r a g, o, o', w, w', h, i, v => by
    cases hp : parted (.sequence e r a g) o with
    | false => rw [like_other hp h]; exact like_refl _ _
    | true =>
      cases o <;> first | cases hp | skip
      obtain ⟨s', rfl, h1, h2, h3⟩ := like_seq h
      rename_i s
      simp only [assign]
      split
      next u hu =>
        have hi := place_range hu
        simp only [spaced, Bool.or_eq_true, decide_eq_true_eq] at w w'
        have l := slotsOf_length w
        have l' := slotsOf_length w'
        have e1 := fun j => slot_slotsOf (r.length + a.length + g.size) s j
        have e2 := fun j => slot_slotsOf (r.length + a.length + g.size) s' j
        simp only [Like, Option.getD_some]
        refine ⟨likeFields_set r i _ _ _ (likeFields_congr (fun j _ => (e1 j).symm) (fun j _ => (e2 j).symm) h1) (by omega) (by omega),
          likeFields_drop_set (likeFields_congr (fun j _ => ?_) (fun j _ => ?_) h2) (by omega) (by omega),
          likeGroups_drop_set (likeGroups_congr (fun j _ => ?_) (fun j _ => ?_) h3) (by omega) (by omega)⟩
        · rw [slot_drop, slot_drop, e1]
        · rw [slot_drop, slot_drop, e2]
        · rw [slot_drop, slot_drop, e1]
        · rw [slot_drop, slot_drop, e2]
      next => exact h

/-! ## The places stay -/

theorem spaced_of {e : Bool} {r a : Fields} {g : Groups} {us : List (Option Obj)}
    (h : r.length + a.length + g.size ≤ us.length) : spaced (.sequence e r a g) (.seq (some us)) = true := by
  simp only [spaced, Option.getD_some, Bool.or_eq_true, decide_eq_true_eq]
  exact .inr h

theorem assign_spaced {t : Ty} {o : Obj} (i : Nat) (v : Val) (w : spaced t o = true) : spaced t (assign t i v o) = true := by
  unfold assign
  split
  · split
    · simp only [spaced, Bool.or_eq_true, decide_eq_true_eq] at w
      exact spaced_of (by rw [List.length_set]; exact slotsOf_length w)
    · exact w
  · exact w

theorem lookSlot_length : ∀ (f : Fields) (i : Nat) (p : List Nat) (ss : List (Option Obj)),
    ss.length ≤ (lookSlot f i p ss).length
  | .nil, _, _, _ => Nat.le_refl _
  | .cons _ k t r, 0, p, ss => by simp only [lookSlot, List.length_cons, List.length_tail]; omega
  | .cons _ k t r, i + 1, p, ss => by
    have := lookSlot_length r i p ss.tail
    simp only [List.length_tail] at this
    simp only [lookSlot, List.length_cons]; omega

theorem lookSlotG_length : ∀ (g : Groups) (i : Nat) (p : List Nat) (ss : List (Option Obj)),
    ss.length ≤ (lookSlotG g i p ss).length
  | .nil, _, _, _ => Nat.le_refl _
  | .cons f g, i, p, ss => by
    simp only [lookSlotG]
    split
    · exact lookSlot_length f i p ss
    · have := lookSlotG_length g (i - f.length) p (ss.drop f.length)
      rw [List.length_drop] at this
      rw [List.length_append, firsts_length]; omega

theorem look_spaced {t : Ty} {o : Obj} (p : List Nat) (w : spaced t o = true) : spaced t (look t p o) = true := by
  match t, p, o, w with
  | .sequence e r a g, i :: p, .seq s, w =>
    simp only [look]
    split
    · simp only [spaced, Bool.or_eq_true, decide_eq_true_eq] at w
      have l := slotsOf_length w
      refine spaced_of ?_
      split
      · exact Nat.le_trans l (lookSlot_length _ _ _ _)
      · split
        · have := lookSlot_length a (i - r.length) p ((slotsOf (r.length + a.length + g.size) s).drop r.length)
          rw [List.length_drop] at this
          rw [List.length_append, firsts_length]; omega
        · have := lookSlotG_length g (i - (r.length + a.length)) p
            ((slotsOf (r.length + a.length + g.size) s).drop (r.length + a.length))
          rw [List.length_drop] at this
          rw [List.length_append, firsts_length]; omega
    · exact w
  | .sequence _ _ _ _, [], _, w => simpa only [look] using w
  | .sequence _ _ _ _, _ :: _, .leaf _, w => simpa only [look] using w
  | .sequence _ _ _ _, _ :: _, .list _, w => simpa only [look] using w
  | .sequence _ _ _ _, _ :: _, .choice _, w => simpa only [look] using w
  | .seqOf _ _, _, _, _ => rfl
  | .choice _ _ _ _, _, _, _ => rfl
  | .boolean, _, _, _ => rfl
  | .integer _, _, _, _ => rfl
  | .enumerated _ _ _, _, _, _ => rfl
  | .bitString _, _, _, _ => rfl
  | .octetString _, _, _, _ => rfl

theorem out_length {f : Fields} {n : Nat} {ss us : List (Option Obj)} {ok : Bool} (e : n = f.length) (h : Out f (ss.take n) us ok) :
    min n ss.length ≤ us.length := by
  subst e
  have := (h.2 (take_le _ _)).1
  rwa [List.length_take] at this

theorem encObjGroups_length : ∀ (g : Groups) (ss : List (Option Obj)) (prev : Option (List Prev)),
    ss.length ≤ (encObjGroups g ss prev).2.length
  | .nil, _, _ => Nat.le_refl _
  | .cons f g, ss, prev => by
    have x := scan_out f (ss.take f.length) none
    have y := encObjRoot_out f (objScan f (ss.take f.length) none).2
    have xl := out_length rfl x
    have xu := (x.2 (take_le _ _)).2.1
    have yl := (y.2 xu).1
    simp only [encObjGroups]
    split
    · rw [List.length_append, List.length_drop]; omega
    next infos _ =>
      split
      · split
        · rw [List.length_append, List.length_drop]; omega
        · split
          · rw [List.length_append, List.length_drop]; omega
          · have := encObjGroups_length g (ss.drop f.length) (some infos)
            rw [List.length_drop] at this
            rw [List.length_append]; omega
      · have := encObjGroups_length g (ss.drop f.length) (some infos)
        rw [List.length_drop] at this
        rw [List.length_append]; omega

theorem encObj_spaced {t : Ty} {o : Obj} (w : spaced t o = true) : spaced t (encObj t o).2 = true := by
  cases t <;> first | rfl | skip
  rename_i ext r a g
  cases o <;> first | (simp only [encObj]; exact w) | skip
  rename_i s
  have x := out_length rfl (encObjRoot_out r ((slotsOf (r.length + a.length + g.size) s).take r.length))
  have y := out_length rfl (encObjAdds_out a (((slotsOf (r.length + a.length + g.size) s).drop r.length).take a.length) none)
  have z := encObjGroups_length g ((slotsOf (r.length + a.length + g.size) s).drop (r.length + a.length)) none
  have w' := w
  simp only [spaced, Bool.or_eq_true, decide_eq_true_eq] at w'
  have l := slotsOf_length w'
  simp only [List.length_drop] at y z
  have fin : ∀ (xs ys zs : List (Option Obj)), min r.length (slotsOf (r.length + a.length + g.size) s).length ≤ xs.length →
      min a.length ((slotsOf (r.length + a.length + g.size) s).length - r.length) ≤ ys.length →
      (slotsOf (r.length + a.length + g.size) s).length - (r.length + a.length) ≤ zs.length →
      spaced (.sequence ext r a g) (.seq (some (xs ++ (ys ++ zs)))) = true := by
    intro xs ys zs h1 h2 h3
    refine spaced_of ?_
    rw [List.length_append, List.length_append]; omega
  have fy : min a.length ((slotsOf (r.length + a.length + g.size) s).length - r.length) ≤
      (((slotsOf (r.length + a.length + g.size) s).drop r.length).take a.length).length := by simp
  have fz : (slotsOf (r.length + a.length + g.size) s).length - (r.length + a.length) ≤
      ((slotsOf (r.length + a.length + g.size) s).drop (r.length + a.length)).length := by simp
  simp only [encObj]
  split
  · exact fin _ _ _ x fy fz
  · cases ext with
    | false =>
      simp only [if_false, Bool.false_eq_true]
      split
      · exact w
      · exact fin _ _ _ x fy fz
    | true =>
      simp only [if_true]
      split
      · dsimp only
        split
        · exact w
        · exact fin _ _ _ x fy fz
      · split
        · exact fin _ _ _ x y fz
        · dsimp only
          split
          · exact w
          · exact fin _ _ _ x y z

theorem dictObjGroups_length : ∀ (g : Groups) (ss : List (Option Obj)), ss.length ≤ (dictObjGroups g ss).2.length
  | .nil, _ => Nat.le_refl _
  | .cons f g, ss => by
    have xl := out_length rfl (dictObjFields_out f (ss.take f.length))
    simp only [dictObjGroups]
    split
    · rw [List.length_append, List.length_drop]; omega
    · have := dictObjGroups_length g (ss.drop f.length)
      rw [List.length_drop] at this
      rw [List.length_append]; omega

theorem dictObj_spaced {t : Ty} (b : Bool) {o : Obj} (w : spaced t o = true) : spaced t (dictObj t b o).2 = true := by
  cases t <;> first | rfl | skip
  rename_i ext r a g
  cases o <;> first | (simp only [dictObj]; exact w) | skip
  rename_i s
  have x := out_length rfl (dictObjFields_out r ((slotsOf (r.length + a.length + g.size) s).take r.length))
  have y := out_length rfl (dictObjFields_out a (((slotsOf (r.length + a.length + g.size) s).drop r.length).take a.length))
  have z := dictObjGroups_length g ((slotsOf (r.length + a.length + g.size) s).drop (r.length + a.length))
  have w' := w
  simp only [spaced, Bool.or_eq_true, decide_eq_true_eq] at w'
  have l := slotsOf_length w'
  simp only [List.length_drop] at y z
  have fin : ∀ (xs ys zs : List (Option Obj)), min r.length (slotsOf (r.length + a.length + g.size) s).length ≤ xs.length →
      min a.length ((slotsOf (r.length + a.length + g.size) s).length - r.length) ≤ ys.length →
      (slotsOf (r.length + a.length + g.size) s).length - (r.length + a.length) ≤ zs.length →
      spaced (.sequence ext r a g) (.seq (some (xs ++ (ys ++ zs)))) = true := by
    intro xs ys zs h1 h2 h3
    refine spaced_of ?_
    rw [List.length_append, List.length_append]; omega
  have fy : min a.length ((slotsOf (r.length + a.length + g.size) s).length - r.length) ≤
      (((slotsOf (r.length + a.length + g.size) s).drop r.length).take a.length).length := by simp
  have fz : (slotsOf (r.length + a.length + g.size) s).length - (r.length + a.length) ≤
      ((slotsOf (r.length + a.length + g.size) s).drop (r.length + a.length)).length := by simp
  simp only [dictObj]
  split
  · exact fin _ _ _ x fy fz
  · split
    · exact fin _ _ _ x y fz
    · dsimp only
      split
      · exact w
      · exact fin _ _ _ x y z

end Verif
