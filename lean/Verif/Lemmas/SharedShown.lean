import Verif.Lemmas.SharedKept
/-!
# Objects that share parts: `to_dict` gives what it gives for trees, and programs
-/
namespace Verif.Shared

open Spec

/-! ## `to_dict` of trees, without what it leaves -/

theorem dictObjFields_fst (n : String) (k : Kind) (t : Ty) (f : Fields) (ss : List (Option Obj)) :
    (dictObjFields (.cons n k t f) ss).1 =
      ((if objValue t (instantiate k t (ss.head?.getD none)) || isConstructed t then
          (dictObj t false (instantiate k t (ss.head?.getD none))).1 else .ok none) >>= fun d =>
        (dictObjFields f ss.tail).1 >>= fun es => .ok (match d with
          | some d => (n, d) :: es
          | none => es)) := by
  simp only [dictObjFields]
  by_cases c : (objValue t (instantiate k t (ss.head?.getD none)) || isConstructed t) = true
  · rw [if_pos c, if_pos c]
    cases hx : (dictObj t false (instantiate k t (ss.head?.getD none))).1 with
    | error er => rfl
    | ok d =>
      show Except.map _ _ = (dictObjFields f ss.tail).1 >>= _
      cases (dictObjFields f ss.tail).1 <;> cases d <;> rfl
  · rw [if_neg c, if_neg c]
    show Except.map _ _ = (dictObjFields f ss.tail).1 >>= _
    cases (dictObjFields f ss.tail).1 <;> rfl

theorem dictObjGroups_fst (f : Fields) (g : Groups) (ss : List (Option Obj)) :
    (dictObjGroups (.cons f g) ss).1 =
      ((dictObjFields f (ss.take f.length)).1 >>= fun es => (dictObjGroups g (ss.drop f.length)).1 >>= fun es' => .ok (es ++ es')) := by
  simp only [dictObjGroups]
  cases hx : (dictObjFields f (ss.take f.length)).1 with
  | error er => rfl
  | ok es =>
    show Except.map _ _ = (dictObjGroups g (ss.drop f.length)).1 >>= _
    cases (dictObjGroups g (ss.drop f.length)).1 <;> rfl

theorem dictObj_seq_fst (ext : Bool) (r a : Fields) (g : Groups) (b : Bool) (s : Option (List (Option Obj))) :
    (dictObj (.sequence ext r a g) b (.seq s)).1 =
      ((dictObjFields r ((slotsOf (r.length + a.length + g.size) s).take r.length)).1 >>= fun es =>
        (dictObjFields a (((slotsOf (r.length + a.length + g.size) s).drop r.length).take a.length)).1 >>= fun es' =>
          (dictObjGroups g ((slotsOf (r.length + a.length + g.size) s).drop (r.length + a.length))).1 >>= fun es'' =>
            .ok (orNoValue b ((es ++ es' ++ es'').foldl (fun d e => dictSet d e.1 e.2) []).isEmpty
              (.dict ((es ++ es' ++ es'').foldl (fun d e => dictSet d e.1 e.2) [])))) := by
  simp only [dictObj]
  cases hx : (dictObjFields r ((slotsOf (r.length + a.length + g.size) s).take r.length)).1 with
  | error er => rfl
  | ok es =>
    show _ = (dictObjFields a _).1 >>= _
    dsimp only
    cases hy : (dictObjFields a (((slotsOf (r.length + a.length + g.size) s).drop r.length).take a.length)).1 with
    | error er => rfl
    | ok es' =>
      show Except.map _ _ = (dictObjGroups g _).1 >>= _
      cases (dictObjGroups g ((slotsOf (r.length + a.length + g.size) s).drop (r.length + a.length))).1 <;> rfl

/-! ## The simulation -/

theorem sim_overDict {t : Ty} {b : Bool} (ih : ∀ h y, WellTyped h → IsA h t y → Sim h (dictAt t b y) (dictObj t b (treeOf t h y)).1)
    (q : clear t = true) : ∀ (ys : List Nat) (h : Store), WellTyped h → (∀ y, y ∈ ys → IsA h t y) →
    Sim h (overAddresses (dictAt t b) ys) (overList (dictObj t b) (ys.map (treeOf t h))).1
  | [], h, w, _ => sim_pure w _
  | y :: ys, h, w, iy => by
    have s := ih h y w (iy y (by simp))
    have gr := s.2.1
    have n := sim_overDict ih q ys _ s.2.2 fun z m => gr.isA (iy z (by simp [m]))
    have same := overList_same (f := dictObj t b) (fun o o' l => dictObj_same t b o o' q l) _ _
      (pairs_map (p := Like t) (f := treeOf t h) (f' := treeOf t (dictAt t b y h).2) ys
        fun z m => grown_like w gr t z (iy z (by simp [m])))
    rw [← same] at n
    have e : (overList (dictObj t b) ((y :: ys).map (treeOf t h))).1 = ((dictObj t b (treeOf t h y)).1 >>= fun x =>
        (overList (dictObj t b) (ys.map (treeOf t h))).1 >>= fun xs => .ok (x :: xs)) := by
      rw [List.map_cons, overList_cons]
      rcases dictObj t b (treeOf t h y) with ⟨p, p'⟩
      rcases overList (dictObj t b) (ys.map (treeOf t h)) with ⟨u, u'⟩
      cases p <;> cases u <;> rfl
    rw [e]
    exact sim_bind s fun x _ => sim_bind n fun xs _ => sim_pure n.2.2 _

theorem sim_dictLeaf {t : Ty} (c : isConstructed t = false) {h : Store} {b : Bool} {x : Nat} (w : WellTyped h) :
    Sim h (dictAt t b x) (dictObj t b (treeOf t h x)).1 := by
  rw [tree_leaf c]
  have e : dictAt t b x = (state x >>= fun o => match o with
    | some (.leaf (some v)) => lift (toDict t b v)
    | _ => lift (.error .noValue)) := by cases t <;> first | rfl | cases c
  rw [e]
  refine sim_state ?_
  match bodyAt h x with
  | none => cases t <;> first | exact sim_lift w _ | cases c
  | some (.leaf none) => cases t <;> first | exact sim_lift w _ | cases c
  | some (.leaf (some v)) => cases t <;> first | exact sim_lift w _ | cases c
  | some (.list _) => cases t <;> first | exact sim_lift w _ | cases c
  | some (.choice _) => cases t <;> first | exact sim_lift w _ | cases c
  | some (.seq _) => cases t <;> first | exact sim_lift w _ | cases c

mutual
theorem sim_dict : ∀ (t : Ty), clear t = true → ∀ (b : Bool) (h : Store) (x : Nat), WellTyped h → IsA h t x →
    Sim h (dictAt t b x) (dictObj t b (treeOf t h x)).1
  | .boolean, _, _, _, _, w, _ => sim_dictLeaf rfl w
  | .integer _, _, _, _, _, w, _ => sim_dictLeaf rfl w
  | .enumerated _ _ _, _, _, _, _, w, _ => sim_dictLeaf rfl w
  | .bitString _, _, _, _, _, w, _ => sim_dictLeaf rfl w
  | .octetString _, _, _, _, _, w, _ => sim_dictLeaf rfl w
  | .seqOf c t, q, b, h, x, w, ix => by
    simp only [clear] at q
    obtain ⟨o, eb⟩ := isA_cell ix
    have fo := (w _ _ eb).2
    match o, fo, eb with
    | .list es, fo, eb =>
      simp only [Formed] at fo
      have be := body_of eb
      have s := sim_overDict (sim_dict t q false) q (es.getD []) h w fo
      simp only [dictAt, treeOf, be, dictObj]
      refine sim_state ?_
      rw [be]
      have e1 : (es.map fun es => es.map (treeOf t h)).getD [] = (es.getD []).map (treeOf t h) := by cases es <;> rfl
      rw [e1]
      have : ∀ v : Except Err (List (Option Dict)), v.map (fun ds =>
          orNoValue b (ds.filterMap id).isEmpty (.list (ds.filterMap id))) = (v >>= fun ds =>
            .ok (orNoValue b (ds.filterMap id).isEmpty (.list (ds.filterMap id)))) := by
        intro v; cases v <;> rfl
      show Sim _ _ (Except.map _ _)
      rw [this]
      exact sim_bind s fun ds _ => sim_pure s.2.2 _
  | .choice ext r a g, q, b, h, x, w, ix => by
    simp only [clear, Bool.and_eq_true] at q
    obtain ⟨o, eb⟩ := isA_cell ix
    have fo := (w _ _ eb).2
    have be := body_of eb
    match o, fo, be with
    | .choice none, _, be =>
      simp only [dictAt, treeOf, be, dictObj]
      refine sim_state ?_
      rw [be]
      exact sim_pure w _
    | .choice (some (pos, y)), fo, be =>
      simp only [Formed] at fo
      obtain ⟨k, t, p, iy⟩ := fo pos y rfl
      rw [tree_choice be p]
      simp only [dictAt, dictObj]
      refine sim_state ?_
      rw [be]
      dsimp only
      unfold partAt at p
      by_cases c : pos < r.length
      · rw [if_pos c] at p
        rw [if_pos c, if_pos c]
        exact sim_dictAlt r q.2.1.1 pos k t p h y w iy
      · rw [if_neg c] at p
        rw [if_neg c, if_neg c]
        by_cases d : pos < r.length + a.length
        · rw [if_pos d] at p
          rw [if_pos d, if_pos d]
          exact sim_dictAlt a q.2.1.2 _ k t p h y w iy
        · rw [if_neg d] at p
          rw [if_neg d, if_neg d]
          exact sim_dictAltG g q.2.2 _ k t p h y w iy
  | .sequence ext r a g, q, b, h, x, w, ix => by
    simp only [clear, Bool.and_eq_true] at q
    obtain ⟨sl, et, eh⟩ := tree_held w ix
    have so : ∀ i, slot (slotsOf (r.length + a.length + g.size) sl) i = slot (heldAt ext r a g h x) i := by
      intro i; rw [eh]; exact slot_slotsOf _ _ _
    rw [et, dictObj_seq_fst]
    simp only [dictAt]
    have s1 := sim_fields r q.1.1 ext r a g 0 h x w ix (from_root r a g)
    have l1 : LikeFields r ((heldAt ext r a g h x).drop 0) ((slotsOf (r.length + a.length + g.size) sl).take r.length) :=
      likeFields_congr (fun _ _ => rfl) (fun i l => by rw [slot_take _ l, so]; simp) (likeFields_refl r _)
    rw [dictObjFields_same r _ _ q.1.1 l1] at s1
    refine sim_bind s1 fun p _ => ?_
    have ix1 := s1.2.1.isA ix
    have gr1 := s1.2.1
    have w1 := s1.2.2
    generalize (dictFields r (r.length + a.length + g.size) x 0 h).2 = h1 at ix1 gr1 w1
    have s2 := sim_fields a q.1.2 ext r a g r.length h1 x w1 ix1 (from_adds r a g)
    have l2 : LikeFields a ((heldAt ext r a g h1 x).drop r.length)
        (((slotsOf (r.length + a.length + g.size) sl).drop r.length).take a.length) :=
      likeFields_congr (fun _ _ => rfl) (fun i l => by rw [slot_take _ l, slot_drop, slot_drop, so])
        (likeFields_symm a _ _ (held_fields w gr1 w1 ix (from_adds r a g)))
    rw [dictObjFields_same a _ _ q.1.2 l2] at s2
    refine sim_bind s2 fun p' _ => ?_
    have ix2 := s2.2.1.isA ix1
    have w2 := s2.2.2
    have gr2 := grown_trans w1 w2 gr1 s2.2.1
    generalize (dictFields a (r.length + a.length + g.size) x r.length h1).2 = h2 at ix2 gr2 w2
    have s3 := sim_dictGroups g q.2 ext r a g (r.length + a.length) h2 x w2 ix2 (from_groups r a g)
    have l3 : LikeGroups g ((heldAt ext r a g h2 x).drop (r.length + a.length))
        ((slotsOf (r.length + a.length + g.size) sl).drop (r.length + a.length)) :=
      likeGroups_congr (fun _ _ => rfl) (fun i l => by rw [slot_drop, slot_drop, so])
        (likeGroups_symm g _ _ (held_groups w gr2 w2 ix (from_groups r a g)))
    rw [dictObjGroups_same g _ _ q.2 l3] at s3
    exact sim_bind s3 fun u _ => sim_pure s3.2.2 _
theorem sim_dictAlt : ∀ (f : Fields), clearFields f = true → ∀ (p : Nat) (k : Kind) (t : Ty), compOf f p = some (k, t) →
    ∀ (h : Store) (y : Nat), WellTyped h → IsA h t y → Sim h (dictAlt f p y) (dictObjAlt f p (treeOf t h y)).1
  | .nil, _, _, _, _, c, _, _, _, _ => by simp [compOf] at c
  | .cons n _ t f, q, 0, k', t', c, h, y, w, iy => by
    simp only [compOf, Option.some.injEq, Prod.mk.injEq] at c
    obtain ⟨rfl, rfl⟩ := c
    simp only [clearFields, Bool.and_eq_true] at q
    simp only [dictAlt, dictObjAlt]
    refine sim_view ?_
    by_cases d : objValue t (treeOf t h y) = true
    · rw [if_pos d, if_pos d]
      have s := sim_dict t q.1 false h y w iy
      have : ∀ (v : Except Err (Option Dict)) (φ : Option Dict → Option Dict), v.map φ = (v >>= fun d => .ok (φ d)) := by
        intro v φ; cases v <;> rfl
      show Sim _ _ (Except.map _ _)
      rw [this]
      refine sim_bind s fun d _ => ?_
      cases d <;> exact sim_pure s.2.2 _
    · rw [if_neg d, if_neg d]
      exact sim_pure w _
  | .cons _ _ _ f, q, p + 1, k, t, c, h, y, w, iy => by
    simp only [clearFields, Bool.and_eq_true] at q
    simp only [compOf] at c
    simp only [dictAlt, dictObjAlt]
    exact sim_dictAlt f q.2 p k t c h y w iy
theorem sim_dictAltG : ∀ (g : Groups), clearGroups g = true → ∀ (p : Nat) (k : Kind) (t : Ty), compOfG g p = some (k, t) →
    ∀ (h : Store) (y : Nat), WellTyped h → IsA h t y → Sim h (dictAltG g p y) (dictObjAltG g p (treeOf t h y)).1
  | .nil, _, _, _, _, c, _, _, _, _ => by simp [compOfG] at c
  | .cons f g, q, p, k, t, c, h, y, w, iy => by
    simp only [clearGroups, Bool.and_eq_true] at q
    simp only [compOfG] at c
    simp only [dictAltG, dictObjAltG]
    by_cases d : p < f.length
    · rw [if_pos d] at c
      rw [if_pos d, if_pos d]
      exact sim_dictAlt f q.1 p k t c h y w iy
    · rw [if_neg d] at c
      rw [if_neg d, if_neg d]
      exact sim_dictAltG g q.2 _ k t c h y w iy
theorem sim_fields : ∀ (f : Fields), clearFields f = true → ∀ (e : Bool) (r a : Fields) (g : Groups) (i : Nat) (h : Store)
    (x : Nat), WellTyped h → IsA h (.sequence e r a g) x → From r a g f i →
    Sim h (dictFields f (r.length + a.length + g.size) x i) (dictObjFields f ((heldAt e r a g h x).drop i)).1
  | .nil, _, _, _, _, _, _, _, _, w, _, _ => by simp only [dictFields, dictObjFields]; exact sim_pure w _
  | .cons n k t f, q, e, r, a, g, i, h, x, w, ix, fr => by
    simp only [clearFields, Bool.and_eq_true] at q
    rw [dictObjFields_fst, head_held, List.tail_drop]
    simp only [dictFields]
    refine sim_component w ix (fr 0 _ rfl) fun y h1 gr w1 iy ty => ?_
    rw [← ty]
    refine sim_view ?_
    have st : Sim h1 (if (objValue t (treeOf t h1 y) || isConstructed t) = true then dictAt t false y else pure none)
        (if (objValue t (treeOf t h1 y) || isConstructed t) = true then (dictObj t false (treeOf t h1 y)).1 else .ok none) := by
      by_cases c : (objValue t (treeOf t h1 y) || isConstructed t) = true
      · rw [if_pos c, if_pos c]
        exact sim_dict t q.1 false h1 y w1 iy
      · rw [if_neg c, if_neg c]
        exact sim_pure w1 _
    refine sim_bind st fun d _ => ?_
    have w2 := st.2.2
    have gr2 := grown_trans w1 w2 gr st.2.1
    have ih := sim_fields f q.2 e r a g (i + 1) _ x w2 (gr2.isA ix) (from_tail fr)
    rw [← dictObjFields_same f _ _ q.2 (held_fields w gr2 w2 ix (from_tail fr))] at ih
    exact sim_bind ih fun p _ => sim_pure ih.2.2 _
theorem sim_dictGroups : ∀ (f : Groups), clearGroups f = true → ∀ (e : Bool) (r a : Fields) (g : Groups) (i : Nat)
    (h : Store) (x : Nat), WellTyped h → IsA h (.sequence e r a g) x → FromG r a g f i →
    Sim h (dictGroups f (r.length + a.length + g.size) x i) (dictObjGroups f ((heldAt e r a g h x).drop i)).1
  | .nil, _, _, _, _, _, _, _, _, w, _, _ => by simp only [dictGroups, dictObjGroups]; exact sim_pure w _
  | .cons f g', q, e, r, a, g, i, h, x, w, ix, fr => by
    simp only [clearGroups, Bool.and_eq_true] at q
    rw [dictObjGroups_fst]
    simp only [dictGroups]
    have lt : LikeFields f ((heldAt e r a g h x).drop i) (((heldAt e r a g h x).drop i).take f.length) :=
      likeFields_congr (fun _ _ => rfl) (fun j l => (slot_take _ l).symm) (likeFields_refl f _)
    have s1 := sim_fields f q.1 e r a g i h x w ix (fromG_head fr)
    rw [dictObjFields_same f _ _ q.1 lt] at s1
    refine sim_bind s1 fun es _ => ?_
    have gr1 := s1.2.1
    have w1 := s1.2.2
    have ih := sim_dictGroups g' q.2 e r a g (i + f.length) _ x w1 (gr1.isA ix) (fromG_tail fr)
    rw [← dictObjGroups_same g' _ _ q.2 (held_groups w gr1 w1 ix (fromG_tail fr))] at ih
    rw [List.drop_drop]
    exact sim_bind ih fun p _ => sim_pure ih.2.2 _
end

theorem sim_toDict {h : Store} {t : Ty} {x : Nat} (w : WellTyped h) (ix : IsA h t x) (q : clear t = true) :
    Sim h (toDictAt x) (dictObj t true (treeOf t h x)).1 := by
  obtain ⟨b, eb⟩ := isA_cell ix
  have s := sim_dict t q true h x w ix
  unfold Sim toDictAt
  simp only [eb]
  exact s

/-! ## Programs -/

theorem isA_assigned {h : Store} {t : Ty} {z : Nat} (d : Deed) : IsA (d.assigned h) t z ↔ IsA h t z := by
  cases d with
  | encode _ => exact Iff.rfl
  | dict _ => exact Iff.rfl
  | look _ _ => exact Iff.rfl
  | set x j y =>
    simp only [Deed.assigned, setAt]
    split
    · exact isA_update
    · exact Iff.rfl
  | append x y =>
    simp only [Deed.assigned, appendAt]
    split
    · exact isA_update
    · exact Iff.rfl
  | choose x p y =>
    simp only [Deed.assigned, chooseAt]
    split
    · exact isA_update
    · exact Iff.rfl

theorem allowed_assigned {h : Store} (d : Deed) : ∀ (d' : Deed), Allowed h d' → Allowed (d.assigned h) d'
  | .encode _, ⟨t, i⟩ => ⟨t, (isA_assigned d).mpr i⟩
  | .dict _, ⟨t, i⟩ => ⟨t, (isA_assigned d).mpr i⟩
  | .look _ _, ⟨t, i⟩ => ⟨t, (isA_assigned d).mpr i⟩
  | .set _ _ _, ⟨e, r, a, g, k, t, i, p, j⟩ => ⟨e, r, a, g, k, t, (isA_assigned d).mpr i, p, (isA_assigned d).mpr j⟩
  | .append _ _, ⟨c, t, i, j⟩ => ⟨c, t, (isA_assigned d).mpr i, (isA_assigned d).mpr j⟩
  | .choose _ _ _, ⟨e, r, a, g, k, t, i, p, j⟩ => ⟨e, r, a, g, k, t, (isA_assigned d).mpr i, p, (isA_assigned d).mpr j⟩

theorem sends_assigned {h : Store} {p : Ty → Bool} (d d' : Deed) (s : Sends h p d') : Sends (d.assigned h) p d' :=
  fun x t e i => s x t e ((isA_assigned d).mp i)

theorem shows_assigned {h : Store} {p : Ty → Bool} (d d' : Deed) (s : Displays h p d') : Displays (d.assigned h) p d' :=
  fun x t e i => s x t e ((isA_assigned d).mp i)

/-- What is done to a grown store is what is done to the store, up to components that were filled in. -/
theorem done_grown {h h' : Store} (w : WellTyped h) (w' : WellTyped h') (gr : Grown h h') :
    ∀ (d : Deed), Allowed h d → Grown (d.assigned h) (d.done h') ∧ WellTyped (d.assigned h) ∧ WellTyped (d.done h')
  | .encode x, al => by
    obtain ⟨t, i⟩ := al
    have s := keeps_encode w' (gr.isA i)
    exact ⟨grown_trans w' s.2 gr s.1, w, s.2⟩
  | .dict x, al => by
    obtain ⟨t, i⟩ := al
    have s := keeps_toDict w' (gr.isA i)
    exact ⟨grown_trans w' s.2 gr s.1, w, s.2⟩
  | .look x p, _ => by
    have s := keeps_read p x h' w'
    exact ⟨grown_trans w' s.2 gr s.1, w, s.2⟩
  | .set x i y, al => assigned_grown w w' gr _ al
  | .append x y, al => assigned_grown w w' gr _ al
  | .choose x p y, al => assigned_grown w w' gr _ al

theorem performed_other {d : Deed} (n : ∀ x, d ≠ .encode x) (l : List Deed) (h : Store) :
    performed (d :: l) h = performed l (d.done h) ∧ envisaged (d :: l) h = envisaged l (d.assigned h) := by
  cases d <;> first | exact ⟨rfl, rfl⟩ | exact absurd rfl (n _)

theorem displayed_other {d : Deed} (n : ∀ x, d ≠ .dict x) (l : List Deed) (h : Store) :
    displayed (d :: l) h = displayed l (d.done h) ∧ pictured (d :: l) h = pictured l (d.assigned h) := by
  cases d <;> first | exact ⟨rfl, rfl⟩ | exact absurd rfl (n _)

theorem performed_same : ∀ (l : List Deed) (h h' : Store), WellTyped h → WellTyped h' → Grown h h' → (∀ d, d ∈ l → Allowed h d) →
    (∀ d, d ∈ l → Sends h quiet d) → performed l h' = envisaged l h
  | [], _, _, _, _, _, _, _ => rfl
  | d :: l, h, h', w, w', gr, al, se => by
    have ad := al _ (List.mem_cons_self ..)
    have k := done_grown w w' gr d ad
    have ih := performed_same l _ _ k.2.1 k.2.2 k.1 (fun d' m => allowed_assigned d d' (al d' (List.mem_cons_of_mem _ m)))
      fun d' m => sends_assigned d d' (se d' (List.mem_cons_of_mem _ m))
    by_cases c : ∃ x, d = .encode x
    · obtain ⟨x, rfl⟩ := c
      obtain ⟨t, ix⟩ := ad
      have q := se _ (List.mem_cons_self ..) x t rfl ix
      obtain ⟨b, eb⟩ := isA_cell ix
      simp only [performed, envisaged]
      rw [(sim_encode w' (gr.isA ix) q).1, ih]
      simp only [encodeApart, eb, encodeObj, encObj_same t _ _ q (grown_like w gr t x ix)]
      rfl
    · have n : ∀ x, d ≠ .encode x := fun x e => c ⟨x, e⟩
      rw [(performed_other n l h').1, (performed_other n l h).2]
      exact ih

theorem displayed_same : ∀ (l : List Deed) (h h' : Store), WellTyped h → WellTyped h' → Grown h h' → (∀ d, d ∈ l → Allowed h d) →
    (∀ d, d ∈ l → Displays h clear d) → displayed l h' = pictured l h
  | [], _, _, _, _, _, _, _ => rfl
  | d :: l, h, h', w, w', gr, al, se => by
    have ad := al _ (List.mem_cons_self ..)
    have k := done_grown w w' gr d ad
    have ih := displayed_same l _ _ k.2.1 k.2.2 k.1 (fun d' m => allowed_assigned d d' (al d' (List.mem_cons_of_mem _ m)))
      fun d' m => shows_assigned d d' (se d' (List.mem_cons_of_mem _ m))
    by_cases c : ∃ x, d = .dict x
    · obtain ⟨x, rfl⟩ := c
      obtain ⟨t, ix⟩ := ad
      have q := se _ (List.mem_cons_self ..) x t rfl ix
      obtain ⟨b, eb⟩ := isA_cell ix
      simp only [displayed, pictured]
      rw [(sim_toDict w' (gr.isA ix) q).1, ih]
      simp only [dictApart, eb, dictObj_same t true _ _ q (grown_like w gr t x ix)]
      rfl
    · have n : ∀ x, d ≠ .dict x := fun x e => c ⟨x, e⟩
      rw [(displayed_other n l h').1, (displayed_other n l h).2]
      exact ih

end Verif.Shared
