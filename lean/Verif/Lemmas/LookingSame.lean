import Verif.Lemmas.LookingSteps
/-!
# What such objects encode to, and their dictionaries
-/
namespace Verif

open Spec

/-! ## Being a value -/

theorem objAny_nil : ∀ (f : Fields), objAny f [] = false
  | .nil => rfl
  | .cons _ _ _ r => by simp only [objAny, List.head?_nil, Option.getD_none, List.tail_nil, objAny_nil r, Bool.or_false]

theorem objAnyG_nil : ∀ (g : Groups), objAnyG g [] = false
  | .nil => rfl
  | .cons f g => by simp only [objAnyG, objAny_nil, List.drop_nil, objAnyG_nil g, Bool.or_false]

theorem mandatory_any : ∀ (f : Fields) (ss : List (Option Obj)), anyMandatory f = true → objMandatory f ss = true →
    objAny f ss = true
  | .nil, _, h, _ => by simp [anyMandatory] at h
  | .cons _ k t r, ss, h, m => by
    simp only [objMandatory, Bool.and_eq_true] at m
    simp only [anyMandatory, Bool.or_eq_true] at h
    simp only [objAny, Bool.or_eq_true]
    cases k with
    | mandatory => exact .inl m.1
    | optional => exact .inr (mandatory_any r _ (h.resolve_left (by simp)) m.2)
    | default d => exact .inr (mandatory_any r _ (h.resolve_left (by simp)) m.2)

theorem mandatory_anyG : ∀ (g : Groups) (ss : List (Option Obj)), anyMandatoryG g = true → objMandatoryG g ss = true →
    objAnyG g ss = true
  | .nil, _, h, _ => by simp [anyMandatoryG] at h
  | .cons f g, ss, h, m => by
    simp only [objMandatoryG, Bool.and_eq_true] at m
    simp only [anyMandatoryG, Bool.or_eq_true] at h
    simp only [objAnyG, Bool.or_eq_true]
    exact h.imp (fun h => mandatory_any f ss h m.1) (fun h => mandatory_anyG g _ h m.2)

/-- A SEQUENCE with a mandatory component is a value if some component is. -/
theorem value_any {e : Bool} {r a : Fields} {g : Groups} {s : Option (List (Option Obj))}
    (h : (anyMandatory r || anyMandatory a || anyMandatoryG g) = true) :
    objValue (.sequence e r a g) (.seq s) =
      (objAny r (s.getD []) || objAny a ((s.getD []).drop r.length) || objAnyG g ((s.getD []).drop (r.length + a.length))) := by
  cases s with
  | none => simp only [objValue, Option.getD_none, List.drop_nil, objAny_nil, objAnyG_nil, Bool.or_false]
  | some ss =>
    simp only [objValue, Option.getD_some]
    cases m : (objMandatory r ss && objMandatory a (ss.drop r.length) && objMandatoryG g (ss.drop (r.length + a.length))) with
    | false => rw [Bool.false_or]
    | true =>
      rw [Bool.true_or]
      simp only [Bool.and_eq_true] at m
      simp only [Bool.or_eq_true] at h
      symm
      simp only [Bool.or_eq_true]
      exact h.imp (fun h => h.imp (fun h => mandatory_any r _ h m.1.1) (fun h => mandatory_any a _ h m.1.2))
        (fun h => mandatory_anyG g _ h m.2)

theorem slot_value {k : Kind} {t : Ty} (h : ∀ d, k ≠ .default d) (s : Option Obj) :
    (match s with | some o => objValue t o | none => false) = objValue t (instantiate k t s) := by
  cases s with
  | some o => rfl
  | none =>
    cases k with
    | default d => exact (h d rfl).elim
    | mandatory => exact (blank_value t).symm
    | optional => exact (blank_value t).symm

theorem pairs_all {t : Ty} (h : ∀ o o', Like t o o' → objValue t o = objValue t o') : ∀ (l m : List Obj),
    AllPairs (Like t) l m → l.all (objValue t) = m.all (objValue t)
  | [], [], _ => rfl
  | x :: xs, y :: ys, a => by simp only [List.all_cons]; rw [h x y a.1, pairs_all h xs ys a.2]
  | [], _ :: _, a => nomatch a
  | _ :: _, [], a => nomatch a

mutual
theorem like_value : ∀ (t : Ty) (o o' : Obj), sturdy t = true → Like t o o' → objValue t o = objValue t o'
  | .boolean, _, _, _, h => by rw [like_other rfl h]
  | .integer _, _, _, _, h => by rw [like_other rfl h]
  | .enumerated _ _ _, _, _, _, h => by rw [like_other rfl h]
  | .bitString _, _, _, _, h => by rw [like_other rfl h]
  | .octetString _, _, _, _, h => by rw [like_other rfl h]
  | .seqOf c t, o, o', hs, h => by
    cases hp : parted (.seqOf c t) o with
    | false => rw [like_other hp h]
    | true =>
      cases o <;> first | cases hp | skip
      rename_i es
      obtain ⟨es', rfl, e1, e2⟩ := like_list h
      simp only [sturdy] at hs
      match es, es', e1, e2 with
      | none, none, _, _ => rfl
      | some es, some es', _, e2 =>
        simp only [objValue]
        exact pairs_all (fun o o' => like_value t o o' hs) _ _ e2
  | .choice e r a g, o, o', hs, h => by
    cases hp : parted (.choice e r a g) o with
    | false => rw [like_other hp h]
    | true =>
      match o, hp with
      | .choice (some (pos, o)), _ =>
        obtain ⟨o1, rfl, e1⟩ := like_choice h
        simp only [sturdy, Bool.and_eq_true] at hs
        simp only [objValue]
        by_cases c : pos < r.length
        · rw [if_pos c] at e1 ⊢; rw [if_pos c]; exact like_valueAlt r _ o _ hs.1.1 e1
        · rw [if_neg c] at e1 ⊢; rw [if_neg c]
          by_cases d : pos < r.length + a.length
          · rw [if_pos d] at e1 ⊢; rw [if_pos d]; exact like_valueAlt a _ o _ hs.1.2 e1
          · rw [if_neg d] at e1 ⊢; rw [if_neg d]; exact like_valueAltG g _ o _ hs.2 e1
  | .sequence e r a g, o, o', hs, h => by
    cases hp : parted (.sequence e r a g) o with
    | false => rw [like_other hp h]
    | true =>
      cases o <;> first | cases hp | skip
      obtain ⟨s', rfl, e1, e2, e3⟩ := like_seq h
      simp only [sturdy, Bool.and_eq_true] at hs
      obtain ⟨⟨m, ⟨d1, d2⟩, d3⟩, ⟨s1, s2⟩, s3⟩ := hs
      rw [value_any m, value_any m, like_any r _ _ s1 d1 e1, like_any a _ _ s2 d2 e2, like_anyG g _ _ s3 d3 e3]
theorem like_valueAlt : ∀ (f : Fields) (p : Nat) (o o' : Obj), sturdyFields f = true → LikeAlt f p o o' →
    objValueAlt f p o = objValueAlt f p o'
  | .nil, _, _, _, _, h => by rw [show _ = _ from h]
  | .cons _ _ t r, 0, o, o', hs, h => by
    simp only [sturdyFields, Bool.and_eq_true] at hs
    exact like_value t o o' hs.1 h
  | .cons _ _ t r, p + 1, o, o', hs, h => by
    simp only [sturdyFields, Bool.and_eq_true] at hs
    exact like_valueAlt r p o o' hs.2 h
theorem like_valueAltG : ∀ (g : Groups) (p : Nat) (o o' : Obj), sturdyGroups g = true → LikeAltG g p o o' →
    objValueAltG g p o = objValueAltG g p o'
  | .nil, _, _, _, _, h => by rw [show _ = _ from h]
  | .cons f g, p, o, o', hs, h => by
    simp only [sturdyGroups, Bool.and_eq_true] at hs
    simp only [LikeAltG] at h
    simp only [objValueAltG]
    by_cases c : p < f.length
    · rw [if_pos c] at h ⊢; rw [if_pos c]; exact like_valueAlt f p o _ hs.1 h
    · rw [if_neg c] at h ⊢; rw [if_neg c]; exact like_valueAltG g _ o _ hs.2 h
theorem like_any : ∀ (f : Fields) (ss ss' : List (Option Obj)), sturdyFields f = true → noneDefault f = true →
    LikeFields f ss ss' → objAny f ss = objAny f ss'
  | .nil, _, _, _, _, _ => rfl
  | .cons _ k t r, ss, ss', hs, hd, h => by
    simp only [sturdyFields, Bool.and_eq_true] at hs
    simp only [noneDefault, Bool.and_eq_true] at hd
    have nd : ∀ d, k ≠ .default d := by rintro d rfl; exact nomatch hd.1
    simp only [objAny]
    rw [like_any r _ _ hs.2 hd.2 h.2]
    refine congrArg (· || _) ?_
    exact (slot_value nd _).trans ((like_value t _ _ hs.1 h.1).trans (slot_value nd _).symm)
theorem like_anyG : ∀ (g : Groups) (ss ss' : List (Option Obj)), sturdyGroups g = true → noneDefaultG g = true →
    LikeGroups g ss ss' → objAnyG g ss = objAnyG g ss'
  | .nil, _, _, _, _, _ => rfl
  | .cons f g, ss, ss', hs, hd, h => by
    simp only [sturdyGroups, Bool.and_eq_true] at hs
    simp only [noneDefaultG, Bool.and_eq_true] at hd
    simp only [objAnyG]
    rw [like_any f _ _ hs.1 hd.1 h.1, like_anyG g _ _ hs.2 hd.2 h.2]
end

theorem pairs_empty {p : α → α → Prop} : ∀ {l m : List α}, AllPairs p l m → l.isEmpty = m.isEmpty
  | [], [], _ => rfl
  | _ :: _, _ :: _, _ => rfl
  | [], _ :: _, a => nomatch a
  | _ :: _, [], a => nomatch a

theorem like_content {t : Ty} {o o' : Obj} (hs : sturdy t = true) (h : Like t o o') (v : objValue t o = true) :
    objContent o = objContent o' := by
  cases hp : parted t o with
  | false => rw [like_other hp h]
  | true =>
    match t, o, hp with
    | .seqOf _ _, .list es, _ =>
      obtain ⟨es', rfl, _, e2⟩ := like_list h
      simp only [objContent, pairs_empty e2]
    | .choice _ _ _ _, .choice (some (pos, o)), _ =>
      obtain ⟨o1, rfl, _⟩ := like_choice h
      rfl
    | .sequence e r a g, .seq s, _ =>
      have v' := v
      rw [like_value _ _ _ hs h] at v'
      obtain ⟨s', rfl, _⟩ := like_seq h
      simp only [sturdy, Bool.and_eq_true] at hs
      have full : ∀ s : Option (List (Option Obj)), objValue (.sequence e r a g) (.seq s) = true → (s.getD []).isEmpty = false := by
        intro s hv
        cases c : (s.getD []).isEmpty with
        | false => rfl
        | true =>
          rw [value_any hs.1.1, List.isEmpty_iff.mp c] at hv
          simp [objAny_nil, objAnyG_nil] at hv
      simp only [objContent, full s v, full s' v']

theorem like_present {t : Ty} {o o' : Obj} (hs : sturdy t = true) (h : Like t o o') :
    (objValue t o && objContent o) = (objValue t o' && objContent o') := by
  rw [← like_value t o o' hs h]
  cases v : objValue t o with
  | false => rfl
  | true => rw [like_content hs h v]

mutual
theorem sturdy_quiet : ∀ (t : Ty), sturdy t = true → quiet t = true
  | .boolean, _ => rfl
  | .integer _, _ => rfl
  | .enumerated _ _ _, _ => rfl
  | .bitString _, _ => rfl
  | .octetString _, _ => rfl
  | .seqOf _ t, h => by simp only [sturdy] at h; simp only [quiet]; exact sturdy_quiet t h
  | .choice _ r a g, h => by
    simp only [sturdy, Bool.and_eq_true] at h
    simp only [quiet, Bool.and_eq_true]
    exact ⟨⟨sturdy_quietFields r h.1.1, sturdy_quietFields a h.1.2⟩, sturdy_quietGroups g h.2⟩
  | .sequence _ r a g, h => by
    simp only [sturdy, Bool.and_eq_true] at h
    simp only [quiet, Bool.and_eq_true]
    exact ⟨⟨sturdy_quietRoot r h.2.1.1, h.2.1.2⟩, h.2.2⟩
theorem sturdy_quietFields : ∀ (f : Fields), sturdyFields f = true → quietFields f = true
  | .nil, _ => rfl
  | .cons _ _ t r, h => by
    simp only [sturdyFields, Bool.and_eq_true] at h
    simp only [quietFields, Bool.and_eq_true]
    exact ⟨sturdy_quiet t h.1, sturdy_quietFields r h.2⟩
theorem sturdy_quietGroups : ∀ (g : Groups), sturdyGroups g = true → quietGroups g = true
  | .nil, _ => rfl
  | .cons f g, h => by
    simp only [sturdyGroups, Bool.and_eq_true] at h
    simp only [quietGroups, Bool.and_eq_true]
    exact ⟨sturdy_quietFields f h.1, sturdy_quietGroups g h.2⟩
theorem sturdy_quietRoot : ∀ (f : Fields), sturdyFields f = true → quietRoot f = true
  | .nil, _ => rfl
  | .cons _ k t r, h => by
    simp only [sturdyFields, Bool.and_eq_true] at h
    simp only [quietRoot, Bool.and_eq_true]
    refine ⟨?_, sturdy_quietRoot r h.2⟩
    cases k with
    | mandatory => exact sturdy_quiet t h.1
    | optional => exact h.1
    | default d => rfl
end

/-! ## Encoding -/

theorem overList_same {t : Ty} {f : Obj → Step Obj α} (h : ∀ o o', Like t o o' → (f o).1 = (f o').1) :
    ∀ (l m : List Obj), AllPairs (Like t) l m → (overList f l).1 = (overList f m).1
  | [], [], _ => rfl
  | x :: xs, y :: ys, a => by
    have e := h x y a.1
    have i := overList_same h xs ys a.2
    rw [overList_cons, overList_cons]
    rcases hx : f x with ⟨p, p'⟩
    rcases hy : f y with ⟨q, q'⟩
    rcases hu : overList f xs with ⟨u, u'⟩
    rcases hw : overList f ys with ⟨w, w'⟩
    rw [hx, hy] at e
    rw [hu, hw] at i
    cases e
    cases i
    cases p <;> first | rfl | (cases u <;> rfl)
  | [], _ :: _, a => nomatch a
  | _ :: _, [], a => nomatch a

theorem pairs_length {p : α → α → Prop} : ∀ {l m : List α}, AllPairs p l m → l.length = m.length
  | [], [], _ => rfl
  | _ :: xs, _ :: ys, a => congrArg (· + 1) (pairs_length a.2)
  | [], _ :: _, a => nomatch a
  | _ :: _, [], a => nomatch a

theorem leaf_other (t : Ty) (v : Option Val) : parted t (.leaf v) = false := by cases t <;> rfl

/-- Objects of simple types stay as they are, and others do not become one. -/
theorem like_leaf {t : Ty} {o : Obj} {v : Option Val} (h : Like t o (.leaf v)) : o = .leaf v := by
  have := like_symm t _ _ h
  exact (like_other (leaf_other t v) this).symm

theorem rootStep_same {enc : Obj → Step Obj (List BitField)} {k : Kind} {t : Ty} {o o' : Obj}
    (q : match k with | .mandatory => True | .optional => sturdy t = true | .default _ => True)
    (he : (∀ d, k ≠ .default d) → (enc o).1 = (enc o').1)
    (h : Like t o o') : (objRootStep enc k t o).1 = (objRootStep enc k t o').1 := by
  cases k with
  | mandatory =>
    have he := he (by simp)
    simp only [objRootStep, he]
  | optional =>
    have he := he (by simp)
    simp only [objRootStep]
    rw [like_present q h]
    split
    · simp only [he]
    · rfl
  | default d =>
    match o, o', h with
    | .leaf v, o', h => rw [like_other (leaf_other t v) h]
    | o, .leaf v, h => rw [like_leaf h]
    | .list _, .list _, _ => rfl
    | .list _, .choice _, _ => rfl
    | .list _, .seq _, _ => rfl
    | .choice _, .list _, _ => rfl
    | .choice _, .choice _, _ => rfl
    | .choice _, .seq _, _ => rfl
    | .seq _, .list _, _ => rfl
    | .seq _, .choice _, _ => rfl
    | .seq _, .seq _, _ => rfl

theorem additionStep_same {enc : Obj → Step Obj (List BitField)} {t : Ty} {o o' : Obj} (q : sturdy t = true)
    (he : (enc o).1 = (enc o').1) (h : Like t o o') (prev : Option Prev) :
    (objAdditionStep enc t prev o).1 = (objAdditionStep enc t prev o').1 := by
  unfold objAdditionStep
  rw [← like_value t o o' q h]
  cases v : objValue t o with
  | false => simp
  | true =>
    rw [← like_content q h v, he]
    simp only [if_true]
    split
    · rfl
    · split <;> rfl

theorem scan_same : ∀ (f : Fields) (ss ss' : List (Option Obj)) (prev : Option Prev), sturdyFields f = true →
    LikeFields f ss ss' → (objScan f ss prev).1 = (objScan f ss' prev).1
  | .nil, _, _, _, _, _ => rfl
  | .cons _ k t r, ss, ss', prev, hs, h => by
    simp only [sturdyFields, Bool.and_eq_true] at hs
    have v := like_value t _ _ hs.1 h.1
    have c := like_present hs.1 h.1
    simp only [objScan]
    rw [← c, ← v]
    split
    · rfl
    · rw [scan_same r ss.tail ss'.tail _ hs.2 h.2]

theorem map_fst {α β : Type} {x y : Except Err α} (f : α → β) (h : x = y) : x.map f = y.map f := by rw [h]

theorem groups_parts {f : Fields} {ss ss' : List (Option Obj)} (h : LikeFields f ss ss') :
    LikeFields f (ss.take f.length) (ss'.take f.length) :=
  likeFields_congr (fun _ l => (slot_take ss l).symm) (fun _ l => (slot_take ss' l).symm) h

theorem seq_parts {r a : Fields} {g : Groups} {s s' : Option (List (Option Obj))}
    (h : LikeFields r (s.getD []) (s'.getD []) ∧ LikeFields a ((s.getD []).drop r.length) ((s'.getD []).drop r.length) ∧
      LikeGroups g ((s.getD []).drop (r.length + a.length)) ((s'.getD []).drop (r.length + a.length))) (n : Nat) :
    LikeFields r ((slotsOf n s).take r.length) ((slotsOf n s').take r.length) ∧
      LikeFields a (((slotsOf n s).drop r.length).take a.length) (((slotsOf n s').drop r.length).take a.length) ∧
        LikeGroups g ((slotsOf n s).drop (r.length + a.length)) ((slotsOf n s').drop (r.length + a.length)) := by
  have d : ∀ s : Option (List (Option Obj)), ∀ m i, slot ((s.getD []).drop m) i = slot ((slotsOf n s).drop m) i := by
    intro s m i
    rw [slot_drop, slot_drop, slot_slotsOf]
  refine ⟨groups_parts (likeFields_congr (fun i _ => (slot_slotsOf n s i).symm) (fun i _ => (slot_slotsOf n s' i).symm) h.1),
    groups_parts (likeFields_congr (fun i _ => d s _ i) (fun i _ => d s' _ i) h.2.1),
    likeGroups_congr (fun i _ => d s _ i) (fun i _ => d s' _ i) h.2.2⟩

mutual
theorem encObj_same : ∀ (t : Ty) (o o' : Obj), quiet t = true → Like t o o' → (encObj t o).1 = (encObj t o').1
  | .boolean, _, _, _, h => by rw [like_other rfl h]
  | .integer _, _, _, _, h => by rw [like_other rfl h]
  | .enumerated _ _ _, _, _, _, h => by rw [like_other rfl h]
  | .bitString _, _, _, _, h => by rw [like_other rfl h]
  | .octetString _, _, _, _, h => by rw [like_other rfl h]
  | .seqOf c t, o, o', hs, h => by
    cases hp : parted (.seqOf c t) o with
    | false => rw [like_other hp h]
    | true =>
      cases o <;> first | cases hp | skip
      obtain ⟨es', rfl, _, e2⟩ := like_list h
      simp only [quiet] at hs
      simp only [encObj]
      rw [overList_same (fun o o' => encObj_same t o o' hs) _ _ e2, pairs_length e2]
  | .choice e r a g, o, o', hs, h => by
    cases hp : parted (.choice e r a g) o with
    | false => rw [like_other hp h]
    | true =>
      match o, hp with
      | .choice (some (pos, o)), _ =>
        obtain ⟨o1, rfl, e1⟩ := like_choice h
        simp only [quiet, Bool.and_eq_true] at hs
        simp only [encObj]
        by_cases c : pos < r.length
        · rw [if_pos c] at e1 ⊢; rw [if_pos c, encObjAlt_same r _ o _ hs.1.1 e1]
        · rw [if_neg c] at e1 ⊢; rw [if_neg c]
          by_cases d : pos < r.length + a.length
          · rw [if_pos d] at e1 ⊢; rw [if_pos d, encObjAlt_same a _ o _ hs.1.2 e1]
          · rw [if_neg d] at e1 ⊢; rw [if_neg d, encObjAltG_same g _ o _ hs.2 e1]
  | .sequence e r a g, o, o', hs, h => by
    cases hp : parted (.sequence e r a g) o with
    | false => rw [like_other hp h]
    | true =>
      cases o <;> first | cases hp | skip
      obtain ⟨s', rfl, e0⟩ := like_seq h
      obtain ⟨e1, e2, e3⟩ := seq_parts e0 (r.length + a.length + g.size)
      simp only [quiet, Bool.and_eq_true] at hs
      have x := encObjRoot_same r _ _ hs.1.1 e1
      have y := encObjAdds_same a _ _ none hs.1.2 e2
      have z := encObjGroups_same g _ _ none hs.2 e3
      simp only [encObj]
      rw [x]
      split
      · rfl
      · cases e with
        | false => simp only [Bool.false_eq_true, if_false]
        | true =>
          simp only [if_true]
          split
          · rfl
          · rw [y]
            split
            · rfl
            · simp only [z]
theorem encObjAlt_same : ∀ (f : Fields) (p : Nat) (o o' : Obj), quietFields f = true → LikeAlt f p o o' →
    (encObjAlt f p o).1 = (encObjAlt f p o').1
  | .nil, _, _, _, _, _ => rfl
  | .cons _ _ t r, 0, o, o', hs, h => by
    simp only [quietFields, Bool.and_eq_true] at hs
    exact encObj_same t o o' hs.1 h
  | .cons _ _ t r, p + 1, o, o', hs, h => by
    simp only [quietFields, Bool.and_eq_true] at hs
    exact encObjAlt_same r p o o' hs.2 h
theorem encObjAltG_same : ∀ (g : Groups) (p : Nat) (o o' : Obj), quietGroups g = true → LikeAltG g p o o' →
    (encObjAltG g p o).1 = (encObjAltG g p o').1
  | .nil, _, _, _, _, _ => rfl
  | .cons f g, p, o, o', hs, h => by
    simp only [quietGroups, Bool.and_eq_true] at hs
    simp only [LikeAltG] at h
    simp only [encObjAltG]
    by_cases c : p < f.length
    · rw [if_pos c] at h ⊢; rw [if_pos c]; exact encObjAlt_same f p o _ hs.1 h
    · rw [if_neg c] at h ⊢; rw [if_neg c]; exact encObjAltG_same g _ o _ hs.2 h
theorem encObjRoot_same : ∀ (f : Fields) (ss ss' : List (Option Obj)), quietRoot f = true → LikeFields f ss ss' →
    (encObjRoot f ss).1 = (encObjRoot f ss').1
  | .nil, _, _, _, _ => rfl
  | .cons _ k t r, ss, ss', hs, h => by
    simp only [quietRoot, Bool.and_eq_true] at hs
    have x : (objRootStep (encObj t) k t (instantiate k t (ss.head?.getD none))).1 =
        (objRootStep (encObj t) k t (instantiate k t (ss'.head?.getD none))).1 := by
      cases k with
      | mandatory => exact rootStep_same trivial (fun _ => encObj_same t _ _ hs.1 h.1) h.1
      | optional => exact rootStep_same hs.1 (fun _ => encObj_same t _ _ (sturdy_quiet t hs.1) h.1) h.1
      | default d => exact rootStep_same trivial (fun n => (n d rfl).elim) h.1
    have y := encObjRoot_same r _ _ hs.2 h.2
    simp only [encObjRoot]
    rw [x]
    split
    · rfl
    · simp only [y]
theorem encObjAdds_same : ∀ (f : Fields) (ss ss' : List (Option Obj)) (prev : Option Prev), sturdyFields f = true →
    LikeFields f ss ss' → (encObjAdds f ss prev).1 = (encObjAdds f ss' prev).1
  | .nil, _, _, _, _, _ => rfl
  | .cons _ k t r, ss, ss', prev, hs, h => by
    simp only [sturdyFields, Bool.and_eq_true] at hs
    have x := additionStep_same hs.1 (encObj_same t _ _ (sturdy_quiet t hs.1) h.1) h.1 prev
    simp only [encObjAdds]
    rw [x]
    split
    · rfl
    · simp only [encObjAdds_same r _ _ _ hs.2 h.2]
theorem encObjGroups_same : ∀ (g : Groups) (ss ss' : List (Option Obj)) (prev : Option (List Prev)), sturdyGroups g = true →
    LikeGroups g ss ss' → (encObjGroups g ss prev).1 = (encObjGroups g ss' prev).1
  | .nil, _, _, _, _, _ => rfl
  | .cons f g, ss, ss', prev, hs, h => by
    simp only [sturdyGroups, Bool.and_eq_true] at hs
    have p := groups_parts h.1
    have x := scan_same f _ _ none hs.1 p
    have l := likeFields_trans f _ _ _ (likeFields_trans f _ _ _ (likeFields_symm f _ _ (scan_out f (ss.take f.length) none).1) p)
      (scan_out f (ss'.take f.length) none).1
    have y := encObjRoot_same f _ _ (sturdy_quietRoot f hs.1) l
    simp only [encObjGroups]
    rw [x]
    split
    · rfl
    · split
      · split
        · rfl
        · rw [y]
          split
          · rfl
          · simp only [encObjGroups_same g _ _ _ hs.2 h.2]
      · simp only [encObjGroups_same g _ _ _ hs.2 h.2]
end

/-! ## Dictionaries -/

mutual
theorem dictObj_same : ∀ (t : Ty) (b : Bool) (o o' : Obj), clear t = true → Like t o o' → (dictObj t b o).1 = (dictObj t b o').1
  | .boolean, _, _, _, _, h => by rw [like_other rfl h]
  | .integer _, _, _, _, _, h => by rw [like_other rfl h]
  | .enumerated _ _ _, _, _, _, _, h => by rw [like_other rfl h]
  | .bitString _, _, _, _, _, h => by rw [like_other rfl h]
  | .octetString _, _, _, _, _, h => by rw [like_other rfl h]
  | .seqOf c t, b, o, o', hs, h => by
    cases hp : parted (.seqOf c t) o with
    | false => rw [like_other hp h]
    | true =>
      cases o <;> first | cases hp | skip
      obtain ⟨es', rfl, _, e2⟩ := like_list h
      simp only [clear] at hs
      simp only [dictObj]
      rw [overList_same (fun o o' => dictObj_same t false o o' hs) _ _ e2]
  | .choice e r a g, b, o, o', hs, h => by
    cases hp : parted (.choice e r a g) o with
    | false => rw [like_other hp h]
    | true =>
      match o, hp with
      | .choice (some (pos, o)), _ =>
        obtain ⟨o1, rfl, e1⟩ := like_choice h
        simp only [clear, Bool.and_eq_true] at hs
        simp only [dictObj]
        by_cases c : pos < r.length
        · rw [if_pos c] at e1 ⊢; rw [if_pos c, dictObjAlt_same r _ o _ hs.1.1.1 hs.2.1.1 e1]
        · rw [if_neg c] at e1 ⊢; rw [if_neg c]
          by_cases d : pos < r.length + a.length
          · rw [if_pos d] at e1 ⊢; rw [if_pos d, dictObjAlt_same a _ o _ hs.1.1.2 hs.2.1.2 e1]
          · rw [if_neg d] at e1 ⊢; rw [if_neg d, dictObjAltG_same g _ o _ hs.1.2 hs.2.2 e1]
  | .sequence e r a g, b, o, o', hs, h => by
    cases hp : parted (.sequence e r a g) o with
    | false => rw [like_other hp h]
    | true =>
      cases o <;> first | cases hp | skip
      obtain ⟨s', rfl, e0⟩ := like_seq h
      obtain ⟨e1, e2, e3⟩ := seq_parts e0 (r.length + a.length + g.size)
      simp only [clear, Bool.and_eq_true] at hs
      have x := dictObjFields_same r _ _ hs.1.1 e1
      have y := dictObjFields_same a _ _ hs.1.2 e2
      have z := dictObjGroups_same g _ _ hs.2 e3
      simp only [dictObj]
      rw [x]
      split
      · rfl
      · rw [y]
        split
        · rfl
        · simp only [z]
theorem dictObjAlt_same : ∀ (f : Fields) (p : Nat) (o o' : Obj), sturdyFields f = true → clearFields f = true → LikeAlt f p o o' →
    (dictObjAlt f p o).1 = (dictObjAlt f p o').1
  | .nil, _, _, _, _, _, _ => rfl
  | .cons _ _ t r, 0, o, o', hs, hc, h => by
    simp only [sturdyFields, Bool.and_eq_true] at hs
    simp only [clearFields, Bool.and_eq_true] at hc
    simp only [dictObjAlt]
    rw [like_value t o o' hs.1 h]
    split
    · simp only [dictObj_same t false o o' hc.1 h]
    · rfl
  | .cons _ _ t r, p + 1, o, o', hs, hc, h => by
    simp only [sturdyFields, Bool.and_eq_true] at hs
    simp only [clearFields, Bool.and_eq_true] at hc
    exact dictObjAlt_same r p o o' hs.2 hc.2 h
theorem dictObjAltG_same : ∀ (g : Groups) (p : Nat) (o o' : Obj), sturdyGroups g = true → clearGroups g = true → LikeAltG g p o o' →
    (dictObjAltG g p o).1 = (dictObjAltG g p o').1
  | .nil, _, _, _, _, _, _ => rfl
  | .cons f g, p, o, o', hs, hc, h => by
    simp only [sturdyGroups, Bool.and_eq_true] at hs
    simp only [clearGroups, Bool.and_eq_true] at hc
    simp only [LikeAltG] at h
    simp only [dictObjAltG]
    by_cases c : p < f.length
    · rw [if_pos c] at h ⊢; rw [if_pos c]; exact dictObjAlt_same f p o _ hs.1 hc.1 h
    · rw [if_neg c] at h ⊢; rw [if_neg c]; exact dictObjAltG_same g _ o _ hs.2 hc.2 h
theorem dictObjFields_same : ∀ (f : Fields) (ss ss' : List (Option Obj)), clearFields f = true → LikeFields f ss ss' →
    (dictObjFields f ss).1 = (dictObjFields f ss').1
  | .nil, _, _, _, _ => rfl
  | .cons n k t r, ss, ss', hs, h => by
    simp only [clearFields, Bool.and_eq_true] at hs
    have e := dictObj_same t false _ _ hs.1 h.1
    have y := dictObjFields_same r _ _ hs.2 h.2
    have x : (if objValue t (instantiate k t (ss.head?.getD none)) || isConstructed t then
          dictObj t false (instantiate k t (ss.head?.getD none))
        else ((.ok none, instantiate k t (ss.head?.getD none)) : Step Obj (Option Dict))).1 =
        (if objValue t (instantiate k t (ss'.head?.getD none)) || isConstructed t then
          dictObj t false (instantiate k t (ss'.head?.getD none))
        else ((.ok none, instantiate k t (ss'.head?.getD none)) : Step Obj (Option Dict))).1 := by
      cases c : isConstructed t with
      | true => simpa only [Bool.or_true, if_true] using e
      | false =>
        have : instantiate k t (ss.head?.getD none) = instantiate k t (ss'.head?.getD none) := by
          refine like_other ?_ h.1
          cases t <;> first | rfl | cases c
        rw [this]
    simp only [dictObjFields]
    rw [x]
    split
    · rfl
    · simp only [y]
theorem dictObjGroups_same : ∀ (g : Groups) (ss ss' : List (Option Obj)), clearGroups g = true → LikeGroups g ss ss' →
    (dictObjGroups g ss).1 = (dictObjGroups g ss').1
  | .nil, _, _, _, _ => rfl
  | .cons f g, ss, ss', hs, h => by
    simp only [clearGroups, Bool.and_eq_true] at hs
    have x := dictObjFields_same f _ _ hs.1 (groups_parts h.1)
    simp only [dictObjGroups]
    rw [x]
    split
    · rfl
    · simp only [dictObjGroups_same g _ _ hs.2 h.2]
end

/-! ## Histories -/

theorem left_like (t : Ty) (o : Obj) : ∀ (x : Act), (∀ i v, x ≠ .assign i v) → Like t o (x.left t o)
  | .encode, _ => encObj_like t o
  | .dict, _ => dictObj_like t true o
  | .look p, _ => look_like t p o
  | .assign i v, h => (h i v rfl).elim

theorem left_spaced {t : Ty} {o : Obj} (w : spaced t o = true) : ∀ (x : Act), spaced t (x.left t o) = true
  | .encode => encObj_spaced w
  | .dict => dictObj_spaced true w
  | .look p => look_spaced p w
  | .assign i v => assign_spaced i v w

theorem encodings_like {t : Ty} (q : quiet t = true) : ∀ (l : List Act) (o o' : Obj), spaced t o = true → spaced t o' = true →
    Like t o o' → encodings t l o = encodingsAlone t l o'
  | [], _, _, _, _, _ => rfl
  | .encode :: l, o, o', w, w', h => by
    simp only [encodings, encodingsAlone]
    rw [encodings_like q l _ o' (left_spaced w .encode) w'
      (like_trans t _ _ _ (like_symm t _ _ (left_like t o .encode (by simp))) h)]
    simp only [encodeObj, encObj_same t o o' q h]
  | .dict :: l, o, o', w, w', h => by
    simp only [encodings, encodingsAlone]
    exact encodings_like q l _ o' (left_spaced w .dict) w'
      (like_trans t _ _ _ (like_symm t _ _ (left_like t o .dict (by simp))) h)
  | .look p :: l, o, o', w, w', h => by
    simp only [encodings, encodingsAlone]
    exact encodings_like q l _ o' (left_spaced w (.look p)) w'
      (like_trans t _ _ _ (like_symm t _ _ (left_like t o (.look p) (by simp))) h)
  | .assign i v :: l, o, o', w, w', h => by
    simp only [encodings, encodingsAlone]
    exact encodings_like q l _ _ (left_spaced w (.assign i v)) (assign_spaced i v w') (assign_like w w' h i v)

theorem dictionaries_like {t : Ty} (q : clear t = true) : ∀ (l : List Act) (o o' : Obj), spaced t o = true → spaced t o' = true →
    Like t o o' → dictionaries t l o = dictionariesAlone t l o'
  | [], _, _, _, _, _ => rfl
  | .dict :: l, o, o', w, w', h => by
    simp only [dictionaries, dictionariesAlone]
    rw [dictionaries_like q l _ o' (left_spaced w .dict) w'
      (like_trans t _ _ _ (like_symm t _ _ (left_like t o .dict (by simp))) h), dictObj_same t true o o' q h]
  | .encode :: l, o, o', w, w', h => by
    simp only [dictionaries, dictionariesAlone]
    exact dictionaries_like q l _ o' (left_spaced w .encode) w'
      (like_trans t _ _ _ (like_symm t _ _ (left_like t o .encode (by simp))) h)
  | .look p :: l, o, o', w, w', h => by
    simp only [dictionaries, dictionariesAlone]
    exact dictionaries_like q l _ o' (left_spaced w (.look p)) w'
      (like_trans t _ _ _ (like_symm t _ _ (left_like t o (.look p) (by simp))) h)
  | .assign i v :: l, o, o', w, w', h => by
    simp only [dictionaries, dictionariesAlone]
    exact dictionaries_like q l _ _ (left_spaced w (.assign i v)) (assign_spaced i v w') (assign_like w w' h i v)

end Verif
