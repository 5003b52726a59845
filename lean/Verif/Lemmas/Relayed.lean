import Verif.Lemmas.Received
/-!
# What assigning does to the object it is done to
-/
namespace Verif.Shared

open Spec

/-! ## Components of a value by index -/

theorem slots_ext {l l' : List (Option Obj)} (e : l.length = l'.length) (s : ∀ i, i < l.length → slot l i = slot l' i) : l = l' := by
  refine List.ext_getElem e fun i h h' => ?_
  have := s i h
  simpa [slot, List.getElem?_eq_getElem h, List.getElem?_eq_getElem h'] using this

theorem slot_ofSlots : ∀ {f : Fields} {cs : List (Option Val)} {i : Nat} {k : Kind} {t : Ty},
    compOf f i = some (k, t) → slot (ofSlots f cs) i = (given cs i).map (ofVal t)
  | .nil, _, _, _, _, h => by simp [compOf] at h
  | .cons _ k t r, cs, 0, k', t', e => by
    simp only [compOf, Option.some.injEq, Prod.mk.injEq] at e
    obtain ⟨rfl, rfl⟩ := e
    simp [ofSlots, slot, given_head]
  | .cons _ k t r, cs, i + 1, k', t', e => by
    simp only [compOf] at e
    have := slot_ofSlots (cs := cs.tail) e
    rw [given_tail] at this
    rw [← this]
    simp [ofSlots, slot]

theorem slot_ofSlotsG : ∀ {g : Groups} {cs : List (Option Val)} {i : Nat} {k : Kind} {t : Ty},
    compOfG g i = some (k, t) → slot (ofSlotsG g cs) i = (given cs i).map (ofVal t)
  | .nil, _, _, _, _, h => by simp [compOfG] at h
  | .cons f g, cs, i, k, t, e => by
    simp only [compOfG] at e
    simp only [ofSlotsG]
    by_cases c : i < f.length
    · rw [if_pos c] at e
      rw [slot_left _ (by rw [ofSlots_length]; exact c)]
      exact slot_ofSlots e
    · rw [if_neg c] at e
      have := slot_ofSlotsG (cs := cs.drop f.length) e
      rw [given_drop, show f.length + (i - f.length) = i by omega] at this
      rw [← this]
      have := slot_right (xs := ofSlots f cs) (ofSlotsG g (cs.drop f.length)) (i - f.length)
      rw [ofSlots_length, show f.length + (i - f.length) = i by omega] at this
      exact this

/-- The components of a value as objects. -/
def ofParts (r a : Fields) (g : Groups) (cs : List (Option Val)) : List (Option Obj) :=
  ofSlots r cs ++ (ofSlots a (cs.drop r.length) ++ ofSlotsG g (cs.drop (r.length + a.length)))

theorem slot_ofParts {r a : Fields} {g : Groups} {cs : List (Option Val)} {i : Nat} {k : Kind} {t : Ty}
    (e : partAt r a g i = some (k, t)) : slot (ofParts r a g cs) i = (given cs i).map (ofVal t) := by
  unfold partAt at e
  unfold ofParts
  by_cases c : i < r.length
  · rw [if_pos c] at e
    rw [slot_left _ (by rw [ofSlots_length]; exact c)]
    exact slot_ofSlots e
  · rw [if_neg c] at e
    have r1 := slot_right (xs := ofSlots r cs)
      (ofSlots a (cs.drop r.length) ++ ofSlotsG g (cs.drop (r.length + a.length))) (i - r.length)
    rw [ofSlots_length, show r.length + (i - r.length) = i by omega] at r1
    rw [r1]
    by_cases d : i < r.length + a.length
    · rw [if_pos d] at e
      rw [slot_left _ (by rw [ofSlots_length]; omega), slot_ofSlots e, given_drop,
        show r.length + (i - r.length) = i by omega]
    · rw [if_neg d] at e
      have r2 := slot_right (xs := ofSlots a (cs.drop r.length)) (ofSlotsG g (cs.drop (r.length + a.length)))
        (i - (r.length + a.length))
      rw [ofSlots_length, show a.length + (i - (r.length + a.length)) = i - r.length by omega] at r2
      rw [r2, slot_ofSlotsG e, given_drop, show r.length + a.length + (i - (r.length + a.length)) = i by omega]

theorem ofParts_length (r a : Fields) (g : Groups) (cs : List (Option Val)) :
    (ofParts r a g cs).length = r.length + a.length + g.size := by
  simp only [ofParts, List.length_append, ofSlots_length, ofSlotsG_length]
  omega

theorem treeSlotsG_length : ∀ (g : Groups) (h : Store) (ss : List (Option Nat)), (treeSlotsG g h ss).length = g.size
  | .nil, _, _ => by simp [treeSlotsG, Groups.size]
  | .cons f g, h, ss => by
    simp only [treeSlotsG, Groups.size, List.length_append, treeSlots_length, treeSlotsG_length g]

theorem parts_length (r a : Fields) (g : Groups) (h : Store) (ss : List (Option Nat)) :
    (parts r a g h ss).length = r.length + a.length + g.size := by
  simp only [parts, List.length_append, treeSlots_length, treeSlotsG_length]
  omega

theorem compOfG_some : ∀ {g : Groups} {i : Nat}, i < g.size → ∃ k t, compOfG g i = some (k, t)
  | .nil, _, h => by simp [Groups.size] at h
  | .cons f g, i, h => by
    simp only [Groups.size] at h
    simp only [compOfG]
    by_cases c : i < f.length
    · rw [if_pos c]
      exact compOf_some c
    · rw [if_neg c]
      exact compOfG_some (by omega)

theorem partAt_some {r a : Fields} {g : Groups} {i : Nat} (h : i < r.length + a.length + g.size) :
    ∃ k t, partAt r a g i = some (k, t) := by
  unfold partAt
  by_cases c : i < r.length
  · rw [if_pos c]
    exact compOf_some c
  · rw [if_neg c]
    by_cases d : i < r.length + a.length
    · rw [if_pos d]
      exact compOf_some (by omega)
    · rw [if_neg d]
      exact compOfG_some (by omega)

theorem slot_set {l : List (Option Obj)} {i : Nat} (o : Option Obj) (j : Nat) (h : i < l.length) :
    slot (l.set i o) j = if i = j then o else slot l j := by
  simp only [slot, List.getElem?_set]
  by_cases c : i = j
  · subst c; simp [h]
  · simp [c]

theorem given_set {l : List (Option Val)} {i : Nat} (o : Option Val) (j : Nat) (h : i < l.length) :
    given (l.set i o) j = if i = j then o else given l j := by
  simp only [given, List.getElem?_set]
  by_cases c : i = j
  · subst c; simp [h]
  · simp [c]

theorem slot_replicate (n i : Nat) : slot (List.replicate n none) i = none := by
  simp only [slot, List.getElem?_replicate]
  split <;> rfl

/-- The components of a value that is set at a component. -/
theorem ofVal_set {e : Bool} {r a : Fields} {g : Groups} {cs : List (Option Val)} {i : Nat} {v : Val} {k : Kind} {t : Ty}
    {s : Option (List (Option Obj))} (p : partAt r a g i = some (k, t)) (l : cs.length = r.length + a.length + g.size)
    (q : ofVal (.sequence e r a g) (.seq cs) = .seq s) :
    ofVal (.sequence e r a g) (.seq (cs.set i (some v))) =
      .seq (some ((s.getD (List.replicate (r.length + a.length + g.size) none)).set i (some (ofVal t v)))) := by
  have li := partAt_lt p
  have any : (cs.set i (some v)).any Option.isSome = true := by
    refine List.any_eq_true.mpr ⟨some v, ?_, rfl⟩
    refine List.mem_of_getElem? (i := i) ?_
    simp [List.getElem?_set, l, li]
  have key : ofParts r a g (cs.set i (some v)) =
      (s.getD (List.replicate (r.length + a.length + g.size) none)).set i (some (ofVal t v)) := by
    have ls : (s.getD (List.replicate (r.length + a.length + g.size) none)).length = r.length + a.length + g.size ∧
        ∀ j k' t', partAt r a g j = some (k', t') →
          slot (s.getD (List.replicate (r.length + a.length + g.size) none)) j = (given cs j).map (ofVal t') := by
      simp only [ofVal, Obj.seq.injEq] at q
      by_cases c : cs.any Option.isSome = true
      · rw [if_pos c] at q
        subst q
        exact ⟨ofParts_length r a g cs, fun j k' t' pj => slot_ofParts pj⟩
      · rw [if_neg c] at q
        subst q
        refine ⟨by simp, fun j k' t' _ => ?_⟩
        have : given cs j = none := by
          cases hg : given cs j with
          | none => rfl
          | some u =>
            exfalso
            apply c
            simp only [given] at hg
            cases hc : cs[j]? with
            | none => rw [hc] at hg; cases hg
            | some o =>
              rw [hc] at hg
              simp only [Option.getD_some] at hg
              subst hg
              exact List.any_eq_true.mpr ⟨_, List.mem_of_getElem? hc, rfl⟩
        rw [this, Option.getD_none, slot_replicate]
        rfl
    refine slots_ext (by rw [ofParts_length, List.length_set, ls.1]) fun j lj => ?_
    rw [ofParts_length] at lj
    obtain ⟨k', t', pj⟩ := partAt_some lj
    rw [slot_ofParts pj, slot_set _ _ (by rw [ls.1]; exact li), given_set _ _ (by rw [l]; exact li)]
    by_cases c : i = j
    · subst c
      rw [p] at pj
      cases pj
      rw [if_pos rfl, if_pos rfl]
      rfl
    · rw [if_neg c, if_neg c, ls.2 j k' t' pj]
  rw [← key]
  simp only [ofVal, any, if_true]
  rfl

/-! ## Assigning -/

theorem isA_seq' {e : Bool} {r a : Fields} {g : Groups} {h : Store} {x : Nat} (w : Typed h) (i : IsA h (.sequence e r a g) x) :
    ∃ s, h[x]? = some ⟨.sequence e r a g, .seq s⟩ := by
  obtain ⟨b, eb⟩ := isA_cell i
  have f := w _ _ eb
  match b, f with
  | .seq s, _ => exact ⟨s, eb⟩


theorem bodyAt_update {h : Store} {x : Nat} {T : Ty} (i : IsA h T x) (b : Body) : bodyAt (update h x b) x = some b := by
  obtain ⟨b', e⟩ := isA_cell i
  exact body_of (update_self e b)

theorem bodyAt_other {x z : Nat} (h : Store) (b : Body) (c : x ≠ z) : bodyAt (update h x b) z = bodyAt h z := by
  simp only [bodyAt, update_other h b c]

/-- An object of a smaller type does not contain the one that is changed. -/
theorem tree_update {h : Store} (w : Typed h) {T t : Ty} {x y : Nat} (b : Body) (ix : IsA h T x) (iy : IsA h t y)
    (l : sizeOf t < sizeOf T) : treeOf t (update h x b) y = treeOf t h y := by
  refine tree_agree w (n := sizeOf T) (fun u z lu iu => bodyAt_other h b fun c => ?_) t y l iy
  subst c
  simp only [IsA] at ix iu
  rw [ix] at iu
  cases iu
  omega

theorem tree_set {e : Bool} {r a : Fields} {g : Groups} {h : Store} {x y i : Nat} {k : Kind} {t : Ty} (w : Typed h)
    (ix : IsA h (.sequence e r a g) x) (p : partAt r a g i = some (k, t)) (iy : IsA h t y) :
    ∃ s, treeOf (.sequence e r a g) h x = .seq s ∧ treeOf (.sequence e r a g) (Deed.assigned h (.set x i y)) x =
      .seq (some ((s.getD (List.replicate (r.length + a.length + g.size) none)).set i (some (treeOf t h y)))) := by
  obtain ⟨s, eb⟩ := isA_seq' w ix
  have fo := w _ _ eb
  simp only [Formed] at fo
  have li := partAt_lt p
  have wd : width h x = r.length + a.length + g.size := by simp only [width, eb, Option.map_some]
  refine ⟨_, tree_seq (body_of eb), ?_⟩
  simp only [Deed.assigned, setAt, wd, body_of eb]
  rw [tree_seq (bodyAt_update ix _)]
  simp only [Option.map_some, Obj.seq.injEq, Option.some.injEq]
  have ls : ((s.map (parts r a g h)).getD (List.replicate (r.length + a.length + g.size) none)).length =
      r.length + a.length + g.size := by
    cases s with
    | none => simp
    | some ss => exact parts_length r a g h ss
  have sl : ∀ j k' t', partAt r a g j = some (k', t') →
      slot ((s.map (parts r a g h)).getD (List.replicate (r.length + a.length + g.size) none)) j =
        (place (places (r.length + a.length + g.size) s) j).map (treeOf t' h) := by
    intro j k' t' pj
    cases s with
    | none => simp [slot_replicate, places, place_none]
    | some ss => exact slot_parts pj
  refine slots_ext (by rw [parts_length, List.length_set, ls]) fun j lj => ?_
  rw [parts_length] at lj
  obtain ⟨k', t', pj⟩ := partAt_some lj
  rw [slot_parts pj, slot_set _ _ (by rw [ls]; exact li), place_set _ _ _ _ (by rw [fo.1]; exact li)]
  have sm : ∀ {j : Nat} {k' : Kind} {t' : Ty}, partAt r a g j = some (k', t') → sizeOf t' < sizeOf (Ty.sequence e r a g) := by
    intro j k' t' pj
    have := partAt_size pj
    simp
    omega
  by_cases c : i = j
  · subst c
    rw [p] at pj
    cases pj
    rw [if_pos rfl, if_pos rfl, Option.map_some, tree_update w _ ix iy (sm p)]
  · rw [if_neg c, if_neg c, sl j k' t' pj]
    cases hp : place (places (r.length + a.length + g.size) s) j with
    | none => rfl
    | some z =>
      obtain ⟨k'', t'', pj', iz⟩ := fo.2 j z hp
      rw [pj] at pj'
      cases pj'
      rw [Option.map_some, Option.map_some, tree_update w _ ix iz (sm pj)]

theorem tree_appended {c : SizeC} {t : Ty} {h : Store} {x y : Nat} (w : Typed h) (ix : IsA h (.seqOf c t) x) (iy : IsA h t y) :
    ∃ es, treeOf (.seqOf c t) h x = .list es ∧
      treeOf (.seqOf c t) (Deed.assigned h (.append x y)) x = .list (some (es.getD [] ++ [treeOf t h y])) := by
  obtain ⟨b, eb⟩ := isA_cell ix
  have fo := w _ _ eb
  match b, fo, eb with
  | .list es, fo, eb =>
    simp only [Formed] at fo
    have sm : sizeOf t < sizeOf (Ty.seqOf c t) := by simp; omega
    refine ⟨es.map (List.map (treeOf t h)), by simp only [treeOf, body_of eb], ?_⟩
    simp only [Deed.assigned, appendAt, body_of eb]
    simp only [treeOf, bodyAt_update ix, Option.map_some, Obj.list.injEq, Option.some.injEq, List.map_append, List.map_cons,
      List.map_nil]
    rw [tree_update w _ ix iy sm]
    congr 1
    cases es with
    | none => rfl
    | some es => exact List.map_congr_left fun z m => tree_update w _ ix (fo z m) sm

theorem tree_chosen {e : Bool} {r a : Fields} {g : Groups} {h : Store} {x y pos : Nat} {k : Kind} {t : Ty} (w : Typed h)
    (ix : IsA h (.choice e r a g) x) (p : partAt r a g pos = some (k, t)) (iy : IsA h t y) :
    treeOf (.choice e r a g) (Deed.assigned h (.choose x pos y)) x = .choice (some (pos, treeOf t h y)) := by
  obtain ⟨b, eb⟩ := isA_cell ix
  have fo := w _ _ eb
  match b, fo, eb with
  | .choice sel, fo, eb =>
    have sm : sizeOf t < sizeOf (Ty.choice e r a g) := by
      have := partAt_size p
      simp
      omega
    simp only [Deed.assigned, chooseAt, body_of eb]
    rw [tree_choice (bodyAt_update ix _) p, tree_update w _ ix iy sm]

end Verif.Shared
