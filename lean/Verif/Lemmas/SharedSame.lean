import Verif.Lemmas.SharedSteps
/-!
# Objects that share parts: encoding gives what it gives for trees
-/
namespace Verif.Shared

open Spec

/-- The computation gives the result and does nothing to the objects but fill in components. -/
def Sim {α : Type} (h : Store) (m : SEnc α) (v : Except Err α) : Prop :=
  (m h).1 = v ∧ Grown h (m h).2 ∧ WellTyped (m h).2

theorem sim_lift {α : Type} {h : Store} (w : WellTyped h) (v : Except Err α) : Sim h (lift v) v := ⟨rfl, grown_refl h, w⟩

theorem sim_pure {α : Type} {h : Store} (w : WellTyped h) (x : α) : Sim h (pure x) (.ok x) := ⟨rfl, grown_refl h, w⟩

theorem sim_bind {α β : Type} {h : Store} {m : SEnc α} {v : Except Err α} {f : α → SEnc β} {u : α → Except Err β} (s : Sim h m v)
    (n : ∀ x, v = .ok x → Sim (m h).2 (f x) (u x)) : Sim h (m >>= f) (v >>= u) := by
  obtain ⟨e, g, w⟩ := s
  show Sim h (SEnc.bind m f) (v >>= u)
  unfold Sim SEnc.bind
  rcases hm : m h with ⟨r, h1⟩
  rw [hm] at e g w n
  dsimp only at e g w n
  subst e
  cases r with
  | error er => exact ⟨rfl, g, w⟩
  | ok x =>
    obtain ⟨e2, g2, w2⟩ := n x rfl
    exact ⟨e2, grown_trans w w2 g g2, w2⟩

theorem sim_view {β : Type} {h : Store} {t : Ty} {x : Nat} {f : Obj → SEnc β} {v : Except Err β} (s : Sim h (f (treeOf t h x)) v) :
    Sim h (view t x >>= f) v := s

theorem sim_state {β : Type} {h : Store} {x : Nat} {f : Option Body → SEnc β} {v : Except Err β} (s : Sim h (f (bodyAt h x)) v) :
    Sim h (state x >>= f) v := s

/-- Asking for a component. -/
theorem sim_component {β : Type} {e : Bool} {r a : Fields} {g : Groups} {h : Store} {x j : Nat} {k : Kind} {t : Ty} {f : Nat → SEnc β}
    {v : Except Err β} (w : WellTyped h) (i : IsA h (.sequence e r a g) x) (p : partAt r a g j = some (k, t))
    (n : ∀ y h1, Grown h h1 → WellTyped h1 → IsA h1 t y → treeOf t h1 y = instantiate k t (slot (heldAt e r a g h x) j) →
      Sim h1 (f y) v) : Sim h (component (r.length + a.length + g.size) x j k t >>= f) v := by
  obtain ⟨y, h1, ec, gr, w1, iy, ty⟩ := component_spec w i p
  have : Sim h (component (r.length + a.length + g.size) x j k t >>= f) ((.ok y : Except Err Nat) >>= fun _ => v) := by
    refine sim_bind (by rw [Sim, ec]; exact ⟨rfl, gr, w1⟩) fun y' q => ?_
    cases q
    rw [ec]
    exact n y h1 gr w1 iy ty
  exact this

theorem held_like {e : Bool} {r a : Fields} {g : Groups} {h h' : Store} {x : Nat} (w : WellTyped h) (gr : Grown h h')
    (w' : WellTyped h') (i : IsA h (.sequence e r a g) x) (j : Nat) (k : Kind) (t : Ty) (p : partAt r a g j = some (k, t)) :
    Like t (instantiate k t (slot (heldAt e r a g h x) j)) (instantiate k t (slot (heldAt e r a g h' x) j)) := by
  obtain ⟨s, e1, e2⟩ := tree_held w i
  obtain ⟨s', e1', e2'⟩ := tree_held w' (gr.isA i)
  have l := grown_like w gr _ _ i
  rw [e1, e1'] at l
  rw [e2, e2']
  exact likeSeq_at l j k t p

/-- `f` are the components from index `i` on. -/
def From (r a : Fields) (g : Groups) (f : Fields) (i : Nat) : Prop :=
  ∀ j q, compOf f j = some q → partAt r a g (i + j) = some q

def FromG (r a : Fields) (g : Groups) (f : Groups) (i : Nat) : Prop :=
  ∀ j q, compOfG f j = some q → partAt r a g (i + j) = some q

theorem from_tail {r a : Fields} {g : Groups} {n : String} {k : Kind} {t : Ty} {f : Fields} {i : Nat}
    (h : From r a g (.cons n k t f) i) : From r a g f (i + 1) := by
  intro j q c
  rw [Nat.add_assoc, Nat.add_comm 1 j]
  exact h (j + 1) q c

theorem fromG_head {r a : Fields} {g : Groups} {f : Fields} {g' : Groups} {i : Nat} (h : FromG r a g (.cons f g') i) :
    From r a g f i := by
  intro j q c
  refine h j q ?_
  simp only [compOfG, if_pos (compOf_lt c), c]

theorem fromG_tail {r a : Fields} {g : Groups} {f : Fields} {g' : Groups} {i : Nat} (h : FromG r a g (.cons f g') i) :
    FromG r a g g' (i + f.length) := by
  intro j q c
  rw [Nat.add_assoc]
  refine h (f.length + j) q ?_
  simp only [compOfG]
  rw [if_neg (by omega), Nat.add_sub_cancel_left]
  exact c

theorem held_fields {e : Bool} {r a : Fields} {g : Groups} {h h' : Store} {x i : Nat} {f : Fields} (w : WellTyped h)
    (gr : Grown h h') (w' : WellTyped h') (ix : IsA h (.sequence e r a g) x) (fr : From r a g f i) :
    LikeFields f ((heldAt e r a g h x).drop i) ((heldAt e r a g h' x).drop i) :=
  likeFields_of fun j k t c => by
    rw [slot_drop, slot_drop]
    exact held_like w gr w' ix _ k t (fr j _ c)

theorem held_groups {e : Bool} {r a : Fields} {g : Groups} {h h' : Store} {x i : Nat} {f : Groups} (w : WellTyped h)
    (gr : Grown h h') (w' : WellTyped h') (ix : IsA h (.sequence e r a g) x) (fr : FromG r a g f i) :
    LikeGroups f ((heldAt e r a g h x).drop i) ((heldAt e r a g h' x).drop i) :=
  likeGroups_of fun j k t c => by
    rw [slot_drop, slot_drop]
    exact held_like w gr w' ix _ k t (fr j _ c)

/-! ## One component -/

theorem sim_rootStep {h : Store} {k : Kind} {t : Ty} {y : Nat} (w : WellTyped h)
    (ih : Sim h (encAt t y) (encObj t (treeOf t h y)).1) :
    Sim h (rootStep (encAt t) k t y) (objRootStep (encObj t) k t (treeOf t h y)).1 := by
  have go : ∀ b : Bits, Sim h (encAt t y >>= fun fl => pure (b, fl)) ((encObj t (treeOf t h y)).1.map fun fl => (b, fl)) := by
    intro b
    have : (encObj t (treeOf t h y)).1.map (fun fl => (b, fl)) = ((encObj t (treeOf t h y)).1 >>= fun fl => .ok (b, fl)) := by
      cases (encObj t (treeOf t h y)).1 <;> rfl
    rw [this]
    exact sim_bind ih fun fl _ => sim_pure ih.2.2 _
  cases k with
  | mandatory => exact go []
  | optional =>
    simp only [rootStep, objRootStep]
    refine sim_view ?_
    by_cases c : (objValue t (treeOf t h y) && objContent (treeOf t h y)) = true
    · rw [if_pos c, if_pos c]
      exact go [true]
    · rw [if_neg c, if_neg c]
      exact sim_pure w _
  | default d =>
    simp only [rootStep, objRootStep]
    refine sim_view ?_
    cases ho : treeOf t h y with
    | leaf v =>
      cases v with
      | none => exact sim_lift w _
      | some v =>
        rw [ho] at go
        cases hn : pyValueNe d v with
        | error er =>
          dsimp only
          rw [hn]
          have := sim_bind (f := fun ne => if ne = true then encAt t y >>= fun fl => pure ([true], fl) else pure ([false], []))
            (u := fun _ => (.error er : Except Err (Bits × List BitField))) (sim_lift w (.error er : Except Err Bool))
            (fun _ q => nomatch q)
          exact this
        | ok b =>
          dsimp only
          rw [hn]
          have := sim_bind (f := fun ne => if ne = true then encAt t y >>= fun fl => pure ([true], fl) else pure ([false], []))
            (u := fun b => (match b with
              | true => ((encObj t (.leaf (some v))).1.map fun fl => ([true], fl) : Except Err (Bits × List BitField))
              | false => .ok ([false], []))) (sim_lift w (.ok b : Except Err Bool))
            (fun b q => by
              cases b with
              | true => exact go [true]
              | false => exact sim_pure w _)
          cases b <;> exact this
    | _ => exact sim_lift w _

theorem sim_additionStep {h : Store} {t : Ty} {y : Nat} (prev : Option Prev) (w : WellTyped h)
    (ih : Sim h (encAt t y) (encObj t (treeOf t h y)).1) :
    Sim h (additionStep (encAt t) t prev y) (objAdditionStep (encObj t) t prev (treeOf t h y)).1 := by
  unfold additionStep objAdditionStep
  refine sim_view ?_
  by_cases c : objValue t (treeOf t h y) = true
  · rw [if_pos c, if_pos c]
    by_cases d : Prev.gap prev = true
    · rw [if_pos d, if_pos d]
      exact sim_lift w _
    · rw [if_neg d, if_neg d]
      by_cases b : objContent (treeOf t h y) = true
      · rw [if_pos b, if_pos b]
        have : ((encObj t (treeOf t h y)).1 >>= encodeOpenTypeField).map (fun ofl => (true, ofl)) =
            ((encObj t (treeOf t h y)).1 >>= fun fl => encodeOpenTypeField fl >>= fun ofl => .ok (true, ofl)) := by
          cases (encObj t (treeOf t h y)).1 with
          | error er => rfl
          | ok fl => show (encodeOpenTypeField fl).map _ = (encodeOpenTypeField fl >>= _); cases encodeOpenTypeField fl <;> rfl
        show Sim _ _ (Except.map _ _)
        rw [this]
        exact sim_bind ih fun fl _ => sim_bind (sim_lift ih.2.2 _) fun ofl _ => sim_pure ih.2.2 _
      · rw [if_neg b, if_neg b]
        exact sim_pure w _
  · rw [if_neg c, if_neg c]
    exact sim_pure w _

theorem sim_scan {e : Bool} {r a : Fields} {g : Groups} {x : Nat} : ∀ (f : Fields) (i : Nat) (prev : Option Prev) (h : Store),
    WellTyped h → IsA h (.sequence e r a g) x → From r a g f i → sturdyFields f = true →
    Sim h (scan (r.length + a.length + g.size) x f i prev) (objScan f ((heldAt e r a g h x).drop i) prev).1
  | .nil, _, _, h, w, _, _, _ => sim_pure w _
  | .cons n k t f, i, prev, h, w, ix, fr, st => by
    simp only [sturdyFields, Bool.and_eq_true] at st
    simp only [scan, objScan]
    refine sim_component w ix (fr 0 _ rfl) fun y h1 gr w1 iy ty => ?_
    have hd : ((heldAt e r a g h x).drop i).head?.getD none = slot (heldAt e r a g h x) i := by
      rw [← slot_zero, slot_drop, Nat.add_zero]
    rw [hd, ← ty]
    refine sim_view ?_
    by_cases c : (objValue t (treeOf t h1 y) && Prev.gap prev) = true
    · rw [if_pos c, if_pos c]
      exact sim_lift w1 _
    · rw [if_neg c, if_neg c]
      have ih := sim_scan f (i + 1) (some ⟨objValue t (treeOf t h1 y) && objContent (treeOf t h1 y), k.isOptional⟩) h1 w1
        (gr.isA ix) (from_tail fr) st.2
      have l := held_fields w gr w1 ix (from_tail fr)
      rw [← scan_same f _ _ _ st.2 l] at ih
      rw [List.tail_drop]
      show Sim _ _ (Except.map _ _)
      have : ∀ v : Except Err (List Prev), v.map (fun rest =>
          (⟨objValue t (treeOf t h1 y) && objContent (treeOf t h1 y), k.isOptional⟩ : Prev) :: rest) = (v >>= fun rest =>
            .ok (⟨objValue t (treeOf t h1 y) && objContent (treeOf t h1 y), k.isOptional⟩ :: rest)) := by
        intro v; cases v <;> rfl
      rw [this]
      exact sim_bind ih fun _ _ => sim_pure ih.2.2 _

/-! ## The encoder of trees, without what it leaves -/

theorem encObjRoot_fst (n : String) (k : Kind) (t : Ty) (f : Fields) (ss : List (Option Obj)) :
    (encObjRoot (.cons n k t f) ss).1 =
      ((objRootStep (encObj t) k t (instantiate k t (ss.head?.getD none))).1 >>= fun b =>
        (encObjRoot f ss.tail).1 >>= fun p => .ok (b.1 ++ p.1, b.2 ++ p.2)) := by
  simp only [encObjRoot]
  split
  · rename_i h; rw [h]; rfl
  · rename_i b fl h
    rw [h]
    show Except.map _ _ = (encObjRoot f ss.tail).1 >>= _
    cases (encObjRoot f ss.tail).1 <;> rfl

theorem encObjAdds_fst (n : String) (k : Kind) (t : Ty) (f : Fields) (ss : List (Option Obj)) (prev : Option Prev) :
    (encObjAdds (.cons n k t f) ss prev).1 =
      ((objAdditionStep (encObj t) t prev (instantiate k t (ss.head?.getD none))).1 >>= fun b =>
        (encObjAdds f ss.tail (some ⟨b.1, k.isOptional⟩)).1 >>= fun p => .ok (b.1 :: p.1, b.2 ++ p.2)) := by
  simp only [encObjAdds]
  split
  · rename_i h; rw [h]; rfl
  · rename_i b fl h
    rw [h]
    show Except.map _ _ = (encObjAdds f ss.tail _).1 >>= _
    cases (encObjAdds f ss.tail (some ⟨b, k.isOptional⟩)).1 <;> rfl

theorem encObjGroups_fst (f : Fields) (g : Groups) (ss : List (Option Obj)) (prev : Option (List Prev)) :
    (encObjGroups (.cons f g) ss prev).1 =
      ((objScan f (ss.take f.length) none).1 >>= fun infos =>
        if infos.any (·.present) then
          checkPreviousGroup prev >>= fun _ => (encObjRoot f (objScan f (ss.take f.length) none).2).1 >>= fun q =>
            (withOptionalBits q.1 q.2 >>= encodeOpenTypeField) >>= fun ofl =>
              (encObjGroups g (ss.drop f.length) (some infos)).1 >>= fun p => .ok (true :: p.1, ofl ++ p.2)
        else (encObjGroups g (ss.drop f.length) (some infos)).1 >>= fun p => .ok (false :: p.1, p.2)) := by
  simp only [encObjGroups]
  cases hx : (objScan f (ss.take f.length) none).1 with
  | error er => rfl
  | ok infos =>
    show _ = (if _ then _ else _ : Except Err (Bits × List BitField))
    dsimp only
    by_cases c : infos.any (·.present) = true
    · rw [if_pos c, if_pos c]
      cases hc : checkPreviousGroup prev with
      | error er => rfl
      | ok u =>
        show _ = (encObjRoot f (objScan f (ss.take f.length) none).2).1 >>= _
        dsimp only
        cases hy : (encObjRoot f (objScan f (ss.take f.length) none).2).1 with
        | error er => rfl
        | ok q =>
          show _ = (withOptionalBits q.1 q.2 >>= encodeOpenTypeField) >>= _
          have : ((.ok q : Except Err (Bits × List BitField)) >>= fun p => withOptionalBits p.1 p.2 >>= encodeOpenTypeField) =
            (withOptionalBits q.1 q.2 >>= encodeOpenTypeField) := rfl
          rw [this]
          cases (withOptionalBits q.1 q.2 >>= encodeOpenTypeField) with
          | error er => rfl
          | ok ofl =>
            show Except.map _ _ = (encObjGroups g (ss.drop f.length) (some infos)).1 >>= _
            cases (encObjGroups g (ss.drop f.length) (some infos)).1 <;> rfl
    · rw [if_neg c, if_neg c]
      show Except.map _ _ = (encObjGroups g (ss.drop f.length) (some infos)).1 >>= _
      cases (encObjGroups g (ss.drop f.length) (some infos)).1 <;> rfl

theorem encObj_seq_fst (ext : Bool) (r a : Fields) (g : Groups) (s : Option (List (Option Obj))) :
    (encObj (.sequence ext r a g) (.seq s)).1 =
      ((encObjRoot r ((slotsOf (r.length + a.length + g.size) s).take r.length)).1 >>= fun p =>
        withOptionalBits p.1 p.2 >>= fun rootFields =>
          if ext then
            if a.length = 0 ∧ g.length = 0 then .ok ([⟨false, [false]⟩] ++ rootFields)
            else
              (encObjAdds a (((slotsOf (r.length + a.length + g.size) s).drop r.length).take a.length) none).1 >>= fun q =>
                (encObjGroups g ((slotsOf (r.length + a.length + g.size) s).drop (r.length + a.length)) none).1 >>= fun u =>
                  assembleSequence rootFields (q.1 ++ u.1) (q.2 ++ u.2)
          else .ok rootFields) := by
  simp only [encObj]
  cases hx : (encObjRoot r ((slotsOf (r.length + a.length + g.size) s).take r.length)).1 with
  | error er => rfl
  | ok p =>
    have : ((.ok p : Except Err (Bits × List BitField)) >>= fun p => withOptionalBits p.1 p.2) = withOptionalBits p.1 p.2 := rfl
    rw [this]
    show _ = withOptionalBits p.1 p.2 >>= _
    cases withOptionalBits p.1 p.2 with
    | error er => rfl
    | ok rf =>
      show _ = (if _ then _ else _ : Except Err (List BitField))
      dsimp only
      cases ext with
      | false => rfl
      | true =>
        simp only [if_true]
        by_cases c : a.length = 0 ∧ g.length = 0
        · rw [if_pos c, if_pos c]
        · rw [if_neg c, if_neg c]
          cases (encObjAdds a (((slotsOf (r.length + a.length + g.size) s).drop r.length).take a.length) none).1 <;> rfl

/-! ## The simulation -/

theorem sim_over {t : Ty} (ih : ∀ h y, WellTyped h → IsA h t y → Sim h (encAt t y) (encObj t (treeOf t h y)).1)
    (q : quiet t = true) : ∀ (ys : List Nat) (h : Store), WellTyped h → (∀ y, y ∈ ys → IsA h t y) →
    Sim h (overAddresses (encAt t) ys) (overList (encObj t) (ys.map (treeOf t h))).1
  | [], h, w, _ => sim_pure w _
  | y :: ys, h, w, iy => by
    have s := ih h y w (iy y (by simp))
    have gr := s.2.1
    have n := sim_over ih q ys _ s.2.2 fun z m => gr.isA (iy z (by simp [m]))
    have same := overList_same (f := encObj t) (fun o o' l => encObj_same t o o' q l) _ _
      (pairs_map (p := Like t) (f := treeOf t h) (f' := treeOf t (encAt t y h).2) ys
        fun z m => grown_like w gr t z (iy z (by simp [m])))
    rw [← same] at n
    have e : (overList (encObj t) ((y :: ys).map (treeOf t h))).1 = ((encObj t (treeOf t h y)).1 >>= fun x =>
        (overList (encObj t) (ys.map (treeOf t h))).1 >>= fun xs => .ok (x :: xs)) := by
      rw [List.map_cons, overList_cons]
      rcases encObj t (treeOf t h y) with ⟨p, p'⟩
      rcases overList (encObj t) (ys.map (treeOf t h)) with ⟨u, u'⟩
      cases p <;> cases u <;> rfl
    rw [e]
    exact sim_bind s fun x _ => sim_bind n fun xs _ => sim_pure n.2.2 _

theorem sim_leaf {t : Ty} (c : isConstructed t = false) {h : Store} {x : Nat} (w : WellTyped h) :
    Sim h (encAt t x) (encObj t (treeOf t h x)).1 := by
  rw [tree_leaf c]
  have e : encAt t x = (state x >>= fun b => match b with
    | some (.leaf (some v)) => lift (encTy t v)
    | _ => lift (.error .noValue)) := by cases t <;> first | rfl | cases c
  rw [e]
  refine sim_state ?_
  match bodyAt h x with
  | none => cases t <;> first | exact sim_lift w _ | cases c
  | some (.leaf none) => cases t <;> first | exact sim_lift w _ | cases c
  | some (.leaf (some v)) => cases t <;> first | exact sim_lift w _ | cases c
  | some (.list _) => cases t <;> first | exact sim_lift w _ | cases c
  | some (.choice _) => cases t <;> first | exact sim_lift w _ | cases c
  | some (.seq _) => cases t <;> first | exact sim_lift w _ | cases c

theorem quietRoot_part {n : String} {k : Kind} {t : Ty} {f : Fields} (q : quietRoot (.cons n k t f) = true)
    (l : ∀ d, k = .default d → isConstructed t = false) : quiet t = true := by
  simp only [quietRoot, Bool.and_eq_true] at q
  cases k with
  | mandatory => exact q.1
  | optional => exact sturdy_quiet t q.1
  | default d =>
    have := l d rfl
    cases t <;> first | rfl | cases this

theorem head_held {e : Bool} {r a : Fields} {g : Groups} {h : Store} {x i : Nat} :
    ((heldAt e r a g h x).drop i).head?.getD none = slot (heldAt e r a g h x) i := by
  rw [← slot_zero, slot_drop, Nat.add_zero]

mutual
theorem sim_enc : ∀ (t : Ty), quiet t = true → ∀ (h : Store) (x : Nat), WellTyped h → IsA h t x →
    Sim h (encAt t x) (encObj t (treeOf t h x)).1
  | .boolean, _, _, _, w, _ => sim_leaf rfl w
  | .integer _, _, _, _, w, _ => sim_leaf rfl w
  | .enumerated _ _ _, _, _, _, w, _ => sim_leaf rfl w
  | .bitString _, _, _, _, w, _ => sim_leaf rfl w
  | .octetString _, _, _, _, w, _ => sim_leaf rfl w
  | .seqOf c t, q, h, x, w, ix => by
    simp only [quiet] at q
    obtain ⟨b, eb⟩ := isA_cell ix
    have fo := (w _ _ eb).2
    match b, fo, eb with
    | .list es, fo, eb =>
      simp only [Formed] at fo
      have be := body_of eb
      have s := sim_over (sim_enc t q) q (es.getD []) h w fo
      simp only [encAt, treeOf, be, encObj]
      refine sim_state ?_
      rw [be]
      have e1 : (es.map fun es => es.map (treeOf t h)).getD [] = (es.getD []).map (treeOf t h) := by cases es <;> rfl
      rw [e1, List.length_map]
      exact sim_bind s fun fls _ => sim_lift s.2.2 _
  | .choice ext r a g, q, h, x, w, ix => by
    simp only [quiet, Bool.and_eq_true] at q
    obtain ⟨b, eb⟩ := isA_cell ix
    have fo := (w _ _ eb).2
    have be := body_of eb
    match b, fo, be with
    | .choice none, _, be =>
      simp only [encAt, treeOf, be, encObj]
      refine sim_state ?_
      rw [be]
      exact sim_lift w _
    | .choice (some (pos, y)), fo, be =>
      simp only [Formed] at fo
      obtain ⟨k, t, p, iy⟩ := fo pos y rfl
      rw [tree_choice be p]
      simp only [encAt, encObj]
      refine sim_state ?_
      rw [be]
      dsimp only
      unfold partAt at p
      by_cases c : pos < r.length
      · rw [if_pos c] at p
        have s := sim_alt r q.1.1 pos k t p h y w iy
        rw [if_pos c, if_pos c]
        exact sim_bind s fun fl _ => sim_lift s.2.2 _
      · rw [if_neg c] at p
        rw [if_neg c, if_neg c]
        by_cases d : pos < r.length + a.length
        · rw [if_pos d] at p
          have s := sim_alt a q.1.2 _ k t p h y w iy
          rw [if_pos d, if_pos d]
          exact sim_bind s fun fl _ => sim_lift s.2.2 _
        · rw [if_neg d] at p
          have s := sim_altG g q.2 _ k t p h y w iy
          rw [if_neg d, if_neg d]
          exact sim_bind s fun fl _ => sim_lift s.2.2 _
  | .sequence ext r a g, q, h, x, w, ix => by
    simp only [quiet, Bool.and_eq_true] at q
    obtain ⟨sl, et, eh⟩ := tree_held w ix
    have fr : From r a g r 0 := fun j p c => by rw [Nat.zero_add]; exact partAt_root c
    have fa : From r a g a r.length := fun j p c => partAt_add c
    have fg : FromG r a g g (r.length + a.length) := fun j p c => partAt_group c
    have so : ∀ i, slot (slotsOf (r.length + a.length + g.size) sl) i = slot (heldAt ext r a g h x) i := by
      intro i; rw [eh]; exact slot_slotsOf _ _ _
    rw [et, encObj_seq_fst]
    simp only [encAt]
    have s1 := sim_root r q.1.1 ext r a g 0 h x w ix fr
    have l1 : LikeFields r ((heldAt ext r a g h x).drop 0) ((slotsOf (r.length + a.length + g.size) sl).take r.length) :=
      likeFields_congr (fun _ _ => rfl) (fun i l => by rw [slot_take _ l, so]; simp) (likeFields_refl r _)
    rw [encObjRoot_same r _ _ q.1.1 l1] at s1
    refine sim_bind s1 fun p _ => sim_bind (sim_lift s1.2.2 _) fun rf _ => ?_
    have ix1 := s1.2.1.isA ix
    have gr1 := s1.2.1
    have w1 := s1.2.2
    show Sim (encRoot r (r.length + a.length + g.size) x 0 h).2 _ _
    generalize (encRoot r (r.length + a.length + g.size) x 0 h).2 = h1 at ix1 gr1 w1
    cases ext with
    | false => exact sim_pure w1 _
    | true =>
      simp only [if_true]
      by_cases c : a.length = 0 ∧ g.length = 0
      · rw [if_pos c, if_pos c]
        exact sim_pure w1 _
      · rw [if_neg c, if_neg c]
        have s2 := sim_adds a q.1.2 true r a g r.length none h1 x w1 ix1 fa
        have l2 : LikeFields a ((heldAt true r a g h1 x).drop r.length)
            (((slotsOf (r.length + a.length + g.size) sl).drop r.length).take a.length) :=
          likeFields_congr (fun _ _ => rfl) (fun i l => by rw [slot_take _ l, slot_drop, slot_drop, so])
            (likeFields_symm a _ _ (held_fields w gr1 w1 ix fa))
        rw [encObjAdds_same a _ _ none q.1.2 l2] at s2
        refine sim_bind s2 fun b _ => ?_
        have ix2 := s2.2.1.isA ix1
        have w2 := s2.2.2
        have gr2 := grown_trans w1 w2 gr1 s2.2.1
        generalize (encAdds a (r.length + a.length + g.size) x r.length none h1).2 = h2 at ix2 gr2 w2
        have s3 := sim_groups g q.2 true r a g (r.length + a.length) none h2 x w2 ix2 fg
        have l3 : LikeGroups g ((heldAt true r a g h2 x).drop (r.length + a.length))
            ((slotsOf (r.length + a.length + g.size) sl).drop (r.length + a.length)) :=
          likeGroups_congr (fun _ _ => rfl) (fun i l => by rw [slot_drop, slot_drop, so])
            (likeGroups_symm g _ _ (held_groups w gr2 w2 ix fg))
        rw [encObjGroups_same g _ _ none q.2 l3] at s3
        exact sim_bind s3 fun u _ => sim_lift s3.2.2 _
theorem sim_alt : ∀ (f : Fields), quietFields f = true → ∀ (p : Nat) (k : Kind) (t : Ty), compOf f p = some (k, t) →
    ∀ (h : Store) (y : Nat), WellTyped h → IsA h t y → Sim h (encAlt f p y) (encObjAlt f p (treeOf t h y)).1
  | .nil, _, _, _, _, c, _, _, _, _ => by simp [compOf] at c
  | .cons _ _ t f, q, 0, k', t', c, h, y, w, iy => by
    simp only [compOf, Option.some.injEq, Prod.mk.injEq] at c
    obtain ⟨rfl, rfl⟩ := c
    simp only [quietFields, Bool.and_eq_true] at q
    simp only [encAlt, encObjAlt]
    exact sim_enc t q.1 h y w iy
  | .cons _ _ _ f, q, p + 1, k, t, c, h, y, w, iy => by
    simp only [quietFields, Bool.and_eq_true] at q
    simp only [compOf] at c
    simp only [encAlt, encObjAlt]
    exact sim_alt f q.2 p k t c h y w iy
theorem sim_altG : ∀ (g : Groups), quietGroups g = true → ∀ (p : Nat) (k : Kind) (t : Ty), compOfG g p = some (k, t) →
    ∀ (h : Store) (y : Nat), WellTyped h → IsA h t y → Sim h (encAltG g p y) (encObjAltG g p (treeOf t h y)).1
  | .nil, _, _, _, _, c, _, _, _, _ => by simp [compOfG] at c
  | .cons f g, q, p, k, t, c, h, y, w, iy => by
    simp only [quietGroups, Bool.and_eq_true] at q
    simp only [compOfG] at c
    simp only [encAltG, encObjAltG]
    by_cases d : p < f.length
    · rw [if_pos d] at c
      rw [if_pos d, if_pos d]
      exact sim_alt f q.1 p k t c h y w iy
    · rw [if_neg d] at c
      rw [if_neg d, if_neg d]
      exact sim_altG g q.2 _ k t c h y w iy
theorem sim_root : ∀ (f : Fields), quietRoot f = true → ∀ (e : Bool) (r a : Fields) (g : Groups) (i : Nat) (h : Store)
    (x : Nat), WellTyped h → IsA h (.sequence e r a g) x → From r a g f i →
    Sim h (encRoot f (r.length + a.length + g.size) x i) (encObjRoot f ((heldAt e r a g h x).drop i)).1
  | .nil, _, _, _, _, _, _, _, _, w, _, _ => by simp only [encRoot, encObjRoot]; exact sim_pure w _
  | .cons n k t f, q, e, r, a, g, i, h, x, w, ix, fr => by
    obtain ⟨s, eb⟩ := isA_seq w ix
    have qt := quietRoot_part q (light_part (w _ _ eb).1 (fr 0 _ rfl)).2
    simp only [quietRoot, Bool.and_eq_true] at q
    rw [encObjRoot_fst, head_held, List.tail_drop]
    simp only [encRoot]
    refine sim_component w ix (fr 0 _ rfl) fun y h1 gr w1 iy ty => ?_
    have st := sim_rootStep (k := k) w1 (sim_enc t qt h1 y w1 iy)
    rw [← ty]
    refine sim_bind st fun b _ => ?_
    have w2 := st.2.2
    have gr2 := grown_trans w1 w2 gr st.2.1
    generalize (rootStep (encAt t) k t y h1).2 = h2 at gr2 w2
    have ih := sim_root f q.2 e r a g (i + 1) h2 x w2 (gr2.isA ix) (from_tail fr)
    rw [← encObjRoot_same f _ _ q.2 (held_fields w gr2 w2 ix (from_tail fr))] at ih
    exact sim_bind ih fun p _ => sim_pure ih.2.2 _
theorem sim_adds : ∀ (f : Fields), sturdyFields f = true → ∀ (e : Bool) (r a : Fields) (g : Groups) (i : Nat)
    (prev : Option Prev) (h : Store) (x : Nat), WellTyped h → IsA h (.sequence e r a g) x → From r a g f i →
    Sim h (encAdds f (r.length + a.length + g.size) x i prev) (encObjAdds f ((heldAt e r a g h x).drop i) prev).1
  | .nil, _, _, _, _, _, _, _, _, _, w, _, _ => by simp only [encAdds, encObjAdds]; exact sim_pure w _
  | .cons n k t f, q, e, r, a, g, i, prev, h, x, w, ix, fr => by
    simp only [sturdyFields, Bool.and_eq_true] at q
    rw [encObjAdds_fst, head_held, List.tail_drop]
    simp only [encAdds]
    refine sim_component w ix (fr 0 _ rfl) fun y h1 gr w1 iy ty => ?_
    have st := sim_additionStep prev w1 (sim_enc t (sturdy_quiet t q.1) h1 y w1 iy)
    rw [← ty]
    refine sim_bind st fun b _ => ?_
    have w2 := st.2.2
    have gr2 := grown_trans w1 w2 gr st.2.1
    generalize (additionStep (encAt t) t prev y h1).2 = h2 at gr2 w2
    have ih := sim_adds f q.2 e r a g (i + 1) (some ⟨b.1, k.isOptional⟩) h2 x w2 (gr2.isA ix) (from_tail fr)
    rw [← encObjAdds_same f _ _ _ q.2 (held_fields w gr2 w2 ix (from_tail fr))] at ih
    exact sim_bind ih fun p _ => sim_pure ih.2.2 _
theorem sim_groups : ∀ (f : Groups), sturdyGroups f = true → ∀ (e : Bool) (r a : Fields) (g : Groups) (i : Nat)
    (prev : Option (List Prev)) (h : Store) (x : Nat), WellTyped h → IsA h (.sequence e r a g) x → FromG r a g f i →
    Sim h (encGroups f (r.length + a.length + g.size) x i prev) (encObjGroups f ((heldAt e r a g h x).drop i) prev).1
  | .nil, _, _, _, _, _, _, _, _, _, w, _, _ => by simp only [encGroups, encObjGroups]; exact sim_pure w _
  | .cons f g', q, e, r, a, g, i, prev, h, x, w, ix, fr => by
    simp only [sturdyGroups, Bool.and_eq_true] at q
    rw [encObjGroups_fst]
    simp only [encGroups]
    have lt : LikeFields f ((heldAt e r a g h x).drop i) (((heldAt e r a g h x).drop i).take f.length) :=
      likeFields_congr (fun _ _ => rfl) (fun j l => (slot_take _ l).symm) (likeFields_refl f _)
    have s1 := sim_scan f i none h w ix (fromG_head fr) q.1
    rw [scan_same f _ _ none q.1 lt] at s1
    have sc := (scan_out f (((heldAt e r a g h x).drop i).take f.length) none).1
    refine sim_bind s1 fun infos _ => ?_
    have ix1 := s1.2.1.isA ix
    have gr1 := s1.2.1
    have w1 := s1.2.2
    generalize (scan (r.length + a.length + g.size) x f i none h).2 = h1 at ix1 gr1 w1
    have rest : ∀ (h' : Store), Grown h h' → WellTyped h' →
        Sim h' (encGroups g' (r.length + a.length + g.size) x (i + f.length) (some infos))
          (encObjGroups g' (((heldAt e r a g h x).drop i).drop f.length) (some infos)).1 := by
      intro h' gr' w'
      have ih := sim_groups g' q.2 e r a g (i + f.length) (some infos) h' x w' (gr'.isA ix) (fromG_tail fr)
      rw [← encObjGroups_same g' _ _ _ q.2 (held_groups w gr' w' ix (fromG_tail fr))] at ih
      rw [List.drop_drop]
      exact ih
    by_cases c : infos.any (·.present) = true
    · rw [if_pos c, if_pos c]
      refine sim_bind (sim_lift w1 _) fun _ _ => ?_
      show Sim h1 _ _
      have s2 := sim_root f (sturdy_quietRoot f q.1) e r a g i h1 x w1 ix1 (fromG_head fr)
      have l2 := likeFields_trans f _ _ _ (likeFields_symm f _ _ (held_fields w gr1 w1 ix (fromG_head fr)))
        (likeFields_trans f _ _ _ lt sc)
      rw [encObjRoot_same f _ _ (sturdy_quietRoot f q.1) l2] at s2
      refine sim_bind s2 fun p _ => sim_bind (sim_lift s2.2.2 _) fun ofl _ => ?_
      have s3 := rest _ (grown_trans w1 s2.2.2 gr1 s2.2.1) s2.2.2
      exact sim_bind s3 fun u _ => sim_pure s3.2.2 _
    · rw [if_neg c, if_neg c]
      have s3 := rest h1 gr1 w1
      exact sim_bind s3 fun u _ => sim_pure s3.2.2 _
end

theorem sim_encode {h : Store} {t : Ty} {x : Nat} (w : WellTyped h) (ix : IsA h t x) (q : quiet t = true) :
    Sim h (encodeAt x) (encodeObj t (treeOf t h x)).1 := by
  obtain ⟨b, eb⟩ := isA_cell ix
  have s := sim_enc t q h x w ix
  unfold Sim encodeAt
  simp only [eb]
  exact ⟨by rw [s.1]; rfl, s.2⟩

end Verif.Shared
