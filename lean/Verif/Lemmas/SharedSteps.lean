import Verif.Lemmas.SharedGrown
/-!
# Objects that share parts: assigning and asking for components
-/
namespace Verif.Shared

open Spec

/-! ## Changing one object -/

theorem update_length (h : Store) (x : Nat) (b : Body) : (update h x b).length = h.length := by simp [update]

theorem update_self {h : Store} {x : Nat} {t : Ty} {b' : Body} (e : h[x]? = some ⟨t, b'⟩) (b : Body) :
    (update h x b)[x]? = some ⟨t, b⟩ := by simp [update, List.getElem?_modify, e]

theorem update_other {x z : Nat} (h : Store) (b : Body) (c : x ≠ z) : (update h x b)[z]? = h[z]? := by
  simp [update, List.getElem?_modify, c]

theorem isA_update {h : Store} {x z : Nat} {b : Body} {t : Ty} : IsA (update h x b) t z ↔ IsA h t z := by
  by_cases c : x = z
  · subst c
    cases e : h[x]? with
    | none => simp [IsA, update, List.getElem?_modify, e]
    | some d => simp [IsA, update, List.getElem?_modify, e]
  · simp [IsA, update_other h b c]

theorem formed_mono {h h' : Store} (m : ∀ t z, IsA h t z → IsA h' t z) {T : Ty} {b : Body} (f : Formed h T b) : Formed h' T b := by
  cases T with
  | seqOf c t =>
    cases b <;> simp only [Formed] at f ⊢
    · exact f
    · exact fun y hy => m _ _ (f y hy)
  | choice e r a g =>
    cases b <;> simp only [Formed] at f ⊢
    · exact f
    · intro pos y hy
      obtain ⟨k, t, p, i⟩ := f pos y hy
      exact ⟨k, t, p, m _ _ i⟩
  | sequence e r a g =>
    cases b <;> simp only [Formed] at f ⊢
    · exact f
    · refine ⟨f.1, fun pos y hy => ?_⟩
      obtain ⟨k, t, p, i⟩ := f.2 pos y hy
      exact ⟨k, t, p, m _ _ i⟩
  | _ => cases b <;> simp only [Formed] at f ⊢ <;> exact f

theorem wellTyped_update {h : Store} {x : Nat} {T : Ty} {b : Body} (w : WellTyped h) (i : IsA h T x) (f : Formed h T b) :
    WellTyped (update h x b) := by
  intro z c e
  by_cases d : x = z
  · subst d
    obtain ⟨b', e'⟩ := isA_cell i
    rw [update_self e'] at e
    cases e
    exact ⟨(w _ _ e').1, formed_mono (fun _ _ => isA_update.mpr) f⟩
  · rw [update_other h b d] at e
    exact ⟨(w _ _ e).1, formed_mono (fun _ _ => isA_update.mpr) (w _ _ e).2⟩

theorem isA_push {h : Store} {c : Cell} {t : Ty} {z : Nat} (i : IsA h t z) : IsA (h ++ [c]) t z := by
  obtain ⟨b, e⟩ := isA_cell i
  have l : z < h.length := (List.getElem?_eq_some_iff.mp e).1
  exact isA_of (b := b) (by rw [List.getElem?_append_left l]; exact e)

theorem wellTyped_push {h : Store} {c : Cell} (w : WellTyped h) (l : light c.ty = true) (f : Formed h c.ty c.body) :
    WellTyped (h ++ [c]) := by
  intro z d e
  by_cases lz : z < h.length
  · rw [List.getElem?_append_left lz] at e
    exact ⟨(w _ _ e).1, formed_mono (fun _ _ => isA_push) (w _ _ e).2⟩
  · by_cases q : z = h.length
    · subst q
      simp only [List.getElem?_concat_length, Option.some.injEq] at e
      subst e
      exact ⟨l, formed_mono (fun _ _ => isA_push) f⟩
    · rw [List.getElem?_eq_none (by simp; omega)] at e
      cases e

/-! ## Asking for a component -/

theorem light_compOf : ∀ {f : Fields} {i : Nat} {k : Kind} {t : Ty}, lightFields f = true → compOf f i = some (k, t) →
    light t = true ∧ ∀ d, k = .default d → isConstructed t = false
  | .nil, _, _, _, _, h => by simp [compOf] at h
  | .cons _ k t r, 0, k', t', l, e => by
    simp only [compOf, Option.some.injEq, Prod.mk.injEq] at e
    obtain ⟨rfl, rfl⟩ := e
    simp only [lightFields, Bool.and_eq_true] at l
    refine ⟨l.1.2, ?_⟩
    rintro d rfl
    simpa using l.1.1
  | .cons _ k t r, i + 1, k', t', l, e => by
    simp only [lightFields, Bool.and_eq_true] at l
    simp only [compOf] at e
    exact light_compOf l.2 e

theorem light_compOfG : ∀ {g : Groups} {i : Nat} {k : Kind} {t : Ty}, lightGroups g = true → compOfG g i = some (k, t) →
    light t = true ∧ ∀ d, k = .default d → isConstructed t = false
  | .nil, _, _, _, _, h => by simp [compOfG] at h
  | .cons f g, i, k, t, l, e => by
    simp only [lightGroups, Bool.and_eq_true] at l
    simp only [compOfG] at e
    by_cases c : i < f.length
    · rw [if_pos c] at e
      exact light_compOf l.1 e
    · rw [if_neg c] at e
      exact light_compOfG l.2 e

theorem light_part {e : Bool} {r a : Fields} {g : Groups} {i : Nat} {k : Kind} {t : Ty} (l : light (.sequence e r a g) = true)
    (p : partAt r a g i = some (k, t)) : light t = true ∧ ∀ d, k = .default d → isConstructed t = false := by
  simp only [light, Bool.and_eq_true] at l
  unfold partAt at p
  by_cases c : i < r.length
  · rw [if_pos c] at p
    exact light_compOf l.1.1 p
  · rw [if_neg c] at p
    by_cases d : i < r.length + a.length
    · rw [if_pos d] at p
      exact light_compOf l.1.2 p
    · rw [if_neg d] at p
      exact light_compOfG l.2 p

theorem tree_new {h : Store} {z : Nat} {k : Kind} {t : Ty} (b : bodyAt h z = some (newBody k t))
    (l : ∀ d, k = .default d → isConstructed t = false) : treeOf t h z = instantiate k t none := by
  cases hc : isConstructed t with
  | false =>
    rw [tree_leaf hc, b]
    cases t <;> first | (cases k <;> rfl) | cases hc
  | true =>
    cases k with
    | default d => rw [l d rfl] at hc; cases hc
    | mandatory => cases t <;> first | (simp only [treeOf, b]; rfl) | cases hc
    | optional => cases t <;> first | (simp only [treeOf, b]; rfl) | cases hc

theorem formed_new (h : Store) (k : Kind) (t : Ty) : Formed h t (newBody k t) := by
  cases t with
  | seqOf c t => simp [newBody, Formed]
  | choice e r a g => simp [newBody, Formed]
  | sequence e r a g => simp [newBody, Formed, places, place_none]
  | _ => cases k <;> rfl

theorem beyond_new (n : Nat) (k : Kind) (t : Ty) : Beyond n (newBody k t) := by
  cases t with
  | seqOf c t => simp [newBody, Beyond]
  | choice e r a g => simp [newBody, Beyond]
  | sequence e r a g => simp [newBody, Beyond, place]
  | _ => cases k <;> trivial

/-- The components of a SEQUENCE object written out. -/
def heldAt (e : Bool) (r a : Fields) (g : Groups) (h : Store) (x : Nat) : List (Option Obj) :=
  match treeOf (.sequence e r a g) h x with
  | .seq s => s.getD []
  | _ => []

theorem isA_seq {e : Bool} {r a : Fields} {g : Groups} {h : Store} {x : Nat} (w : WellTyped h) (i : IsA h (.sequence e r a g) x) :
    ∃ s, h[x]? = some ⟨.sequence e r a g, .seq s⟩ := by
  obtain ⟨b, eb⟩ := isA_cell i
  have f := (w _ _ eb).2
  match b, f with
  | .seq s, _ => exact ⟨s, eb⟩

theorem tree_held {e : Bool} {r a : Fields} {g : Groups} {h : Store} {x : Nat} (w : WellTyped h)
    (i : IsA h (.sequence e r a g) x) :
    ∃ s, treeOf (.sequence e r a g) h x = .seq s ∧ heldAt e r a g h x = s.getD [] := by
  obtain ⟨s, eb⟩ := isA_seq w i
  refine ⟨_, tree_seq (body_of eb), ?_⟩
  simp only [heldAt, tree_seq (body_of eb)]

theorem component_spec {e : Bool} {r a : Fields} {g : Groups} {h : Store} {x j : Nat} {k : Kind} {t : Ty} (w : WellTyped h)
    (i : IsA h (.sequence e r a g) x) (p : partAt r a g j = some (k, t)) :
    ∃ y h1, component (r.length + a.length + g.size) x j k t h = (.ok y, h1) ∧ Grown h h1 ∧ WellTyped h1 ∧ IsA h1 t y ∧
      treeOf t h1 y = instantiate k t (slot (heldAt e r a g h x) j) := by
  obtain ⟨s, eb⟩ := isA_seq w i
  have bx := body_of eb
  have fo := (w _ _ eb).2
  have li := light_part (w _ _ eb).1 p
  dsimp only at fo
  have lx : x < h.length := (List.getElem?_eq_some_iff.mp eb).1
  have sl : slot (heldAt e r a g h x) j = (place (places (r.length + a.length + g.size) s) j).map (treeOf t h) := by
    simp only [heldAt, tree_seq bx]
    exact slot_treeSeq p
  rw [sl]
  simp only [component, bx]
  cases hp : place (places (r.length + a.length + g.size) s) j with
  | some y => exact ⟨y, h, rfl, grown_refl h, w, formed_part fo p hp, rfl⟩
  | none =>
    have fl := fo
    simp only [Formed] at fl
    have lj : j < (places (r.length + a.length + g.size) s).length := by rw [fl.1]; exact partAt_lt p
    have ec : (h ++ [Cell.mk t (newBody k t)])[x]? = some ⟨.sequence e r a g, .seq s⟩ := by
      rw [List.getElem?_append_left lx]; exact eb
    have en : (update (h ++ [Cell.mk t (newBody k t)]) x
        (.seq (some ((places (r.length + a.length + g.size) s).set j (some h.length)))))[h.length]? =
          some ⟨t, newBody k t⟩ := by
      rw [update_other _ _ (by omega)]
      simp
    have w1 := wellTyped_push (c := ⟨t, newBody k t⟩) w li.1 (formed_new h k t)
    have tn := tree_new (body_of en) li.2
    refine ⟨h.length, _, rfl, ⟨?_, fun z c ez => ?_, fun z b lz ez => ?_⟩, ?_, isA_of en, tn⟩
    · rw [update_length]; simp
    · by_cases cx : x = z
      · subst cx
        rw [eb] at ez
        cases ez
        refine ⟨_, update_self ec _, .inr ⟨e, r, a, g, s, _, rfl, rfl, rfl, fun j' k' t' p' => ?_⟩⟩
        have ps : places (r.length + a.length + g.size)
            (some ((places (r.length + a.length + g.size) s).set j (some h.length))) =
              (places (r.length + a.length + g.size) s).set j (some h.length) := rfl
        rw [ps, place_set _ _ _ _ lj]
        by_cases cj : j = j'
        · subst cj
          rw [p] at p'
          cases p'
          rw [if_pos rfl]
          refine .inr ⟨hp, h.length, rfl, Nat.le_refl _, ?_⟩
          rw [tn]
          exact like_refl _ _
        · rw [if_neg cj]
          exact .inl rfl
      · have lz : z < h.length := (List.getElem?_eq_some_iff.mp ez).1
        refine ⟨c.body, ?_, .inl rfl⟩
        rw [update_other _ _ cx, List.getElem?_append_left lz]
        exact ez
    · by_cases c : z = h.length
      · subst c
        rw [body_of en] at ez
        cases ez
        exact beyond_new _ _ _
      · simp only [bodyAt] at ez
        rw [update_other _ _ (by omega), List.getElem?_eq_none (by simp; omega)] at ez
        cases ez
    · refine wellTyped_update w1 (isA_of ec) ?_
      simp only [Formed]
      have ps : places (r.length + a.length + g.size)
          (some ((places (r.length + a.length + g.size) s).set j (some h.length))) =
            (places (r.length + a.length + g.size) s).set j (some h.length) := rfl
      rw [ps]
      refine ⟨by rw [List.length_set]; exact fl.1, fun j' y hy => ?_⟩
      have hy' := hy
      rw [place_set _ _ _ _ lj] at hy'
      by_cases cj : j = j'
      · subst cj
        rw [if_pos rfl] at hy'
        cases hy'
        exact ⟨k, t, p, isA_of (b := newBody k t) (by simp)⟩
      · rw [if_neg cj] at hy'
        obtain ⟨k', t', p', iy⟩ := fl.2 j' y hy'
        exact ⟨k', t', p', isA_push iy⟩

/-! ## Assigning -/

theorem grown_update {h h' : Store} {x : Nat} {T : Ty} {b b' : Body} (i : IsA h T x) (gr : Grown h h')
    (m : Moved h.length h' T b b') : Grown (update h x b) (update h' x b') := by
  have lx : x < h.length := by
    obtain ⟨_, e⟩ := isA_cell i
    exact (List.getElem?_eq_some_iff.mp e).1
  have ag : ∀ z, h.length ≤ z → bodyAt h' z = bodyAt (update h' x b') z := by
    intro z l
    simp only [bodyAt]
    rw [update_other _ _ (by omega)]
  have tr : ∀ t z, h.length ≤ z → treeOf t h' z = treeOf t (update h' x b') z :=
    fun t z l => tree_beyond gr.fresh ag t z l
  have mv : ∀ {T : Ty} {c c' : Body}, Moved h.length h' T c c' → Moved h.length (update h' x b') T c c' := by
    intro T c c' m
    rcases m with q | ⟨e, r, a, g, s, s', q1, q2, q3, q4⟩
    · exact .inl q
    · refine .inr ⟨e, r, a, g, s, s', q1, q2, q3, fun i k t pa => ?_⟩
      rcases q4 i k t pa with q | ⟨q, z, qz, lz, kz⟩
      · exact .inl q
      · exact .inr ⟨q, z, qz, lz, by rw [← tr t z lz]; exact kz⟩
  refine ⟨by rw [update_length, update_length]; exact gr.len, fun z c ez => ?_, fun z d lz ez => ?_⟩
  · rw [update_length]
    by_cases cx : x = z
    · subst cx
      obtain ⟨d, ed⟩ := isA_cell i
      rw [update_self ed] at ez
      cases ez
      obtain ⟨d', ed', _⟩ := gr.cell x _ ed
      exact ⟨b', update_self ed' _, mv m⟩
    · rw [update_other _ _ cx] at ez
      obtain ⟨d', ed', md⟩ := gr.cell z _ ez
      exact ⟨d', by rw [update_other _ _ cx]; exact ed', mv md⟩
  · rw [update_length] at lz ⊢
    exact gr.fresh z d lz (by rw [ag z lz]; exact ez)

/-- What is assigned before some components are filled in can be assigned afterwards. -/
theorem assigned_grown {h h' : Store} (w : WellTyped h) (w' : WellTyped h') (gr : Grown h h') :
    ∀ (d : Deed), Allowed h d → Grown (d.assigned h) (d.assigned h') ∧ WellTyped (d.assigned h) ∧ WellTyped (d.assigned h')
  | .encode _, _ => ⟨gr, w, w'⟩
  | .dict _, _ => ⟨gr, w, w'⟩
  | .look _ _, _ => ⟨gr, w, w'⟩
  | .set x j y, al => by
    obtain ⟨e, r, a, g, k, t, ix, p, iy⟩ := al
    obtain ⟨s, eb⟩ := isA_seq w ix
    obtain ⟨s', eb'⟩ := isA_seq w' (gr.isA ix)
    have fo := (w _ _ eb).2
    have fo' := (w' _ _ eb').2
    simp only [Formed] at fo fo'
    have lj : j < (places (r.length + a.length + g.size) s).length := by rw [fo.1]; exact partAt_lt p
    have lj' : j < (places (r.length + a.length + g.size) s').length := by rw [fo'.1]; exact partAt_lt p
    have wd : width h x = r.length + a.length + g.size := by simp only [width, eb, Option.map_some]
    have wd' : width h' x = r.length + a.length + g.size := by simp only [width, eb', Option.map_some]
    have ps : ∀ l : List (Option Nat), places (r.length + a.length + g.size) (some l) = l := fun _ => rfl
    simp only [Deed.assigned, setAt, wd, wd', body_of eb, body_of eb']
    refine ⟨grown_update ix gr (.inr ⟨e, r, a, g, _, _, rfl, rfl, rfl, fun j' k' t' p' => ?_⟩), wellTyped_update w ix ?_,
      wellTyped_update w' (gr.isA ix) ?_⟩
    · rw [ps, ps, place_set _ _ _ _ lj, place_set _ _ _ _ lj']
      by_cases cj : j = j'
      · rw [if_pos cj, if_pos cj]
        exact .inl rfl
      · rw [if_neg cj, if_neg cj]
        obtain ⟨b', q, m⟩ := gr.cell x _ eb
        rw [eb'] at q
        cases q
        dsimp only at m
        rcases m with q | ⟨_, _, _, _, _, _, q1, q2, q3, q4⟩
        · cases q
          exact .inl rfl
        · cases q1
          cases q2
          cases q3
          exact q4 j' k' t' p'
    · simp only [Formed, ps]
      refine ⟨by rw [List.length_set]; exact fo.1, fun j' z hz => ?_⟩
      rw [place_set _ _ _ _ lj] at hz
      by_cases cj : j = j'
      · subst cj
        rw [if_pos rfl] at hz
        cases hz
        exact ⟨k, t, p, iy⟩
      · rw [if_neg cj] at hz
        exact fo.2 j' z hz
    · simp only [Formed, ps]
      refine ⟨by rw [List.length_set]; exact fo'.1, fun j' z hz => ?_⟩
      rw [place_set _ _ _ _ lj'] at hz
      by_cases cj : j = j'
      · subst cj
        rw [if_pos rfl] at hz
        cases hz
        exact ⟨k, t, p, gr.isA iy⟩
      · rw [if_neg cj] at hz
        exact fo'.2 j' z hz
  | .append x y, al => by
    obtain ⟨c, t, ix, iy⟩ := al
    obtain ⟨b, eb⟩ := isA_cell ix
    have fo := (w _ _ eb).2
    obtain ⟨b', eb', m⟩ := gr.cell x _ eb
    dsimp only at fo m eb'
    rcases m with rfl | ⟨_, _, _, _, _, _, q, _⟩
    · match b, fo, eb, eb' with
      | .list es, fo, eb, eb' =>
        simp only [Formed] at fo
        have f : ∀ z, z ∈ (some (es.getD [] ++ [y])).getD [] → IsA h t z := by
          intro z mz
          simp only [Option.getD_some, List.mem_append, List.mem_singleton] at mz
          rcases mz with mz | rfl
          · exact fo z mz
          · exact iy
        simp only [Deed.assigned, appendAt, body_of eb, body_of eb']
        refine ⟨grown_update ix gr (.inl rfl), wellTyped_update w ix ?_, wellTyped_update w' (gr.isA ix) ?_⟩
        · simp only [Formed]; exact f
        · simp only [Formed]; exact fun z mz => gr.isA (f z mz)
    · cases q
  | .choose x pos y, al => by
    obtain ⟨e, r, a, g, k, t, ix, p, iy⟩ := al
    obtain ⟨b, eb⟩ := isA_cell ix
    have fo := (w _ _ eb).2
    obtain ⟨b', eb', m⟩ := gr.cell x _ eb
    dsimp only at fo m eb'
    rcases m with rfl | ⟨_, _, _, _, _, _, q, _⟩
    · match b, fo, eb, eb' with
      | .choice sel, _, eb, eb' =>
        simp only [Deed.assigned, chooseAt, body_of eb, body_of eb']
        refine ⟨grown_update ix gr (.inl rfl), wellTyped_update w ix ?_, wellTyped_update w' (gr.isA ix) ?_⟩
        · simp only [Formed]
          intro pos' y' q
          cases q
          exact ⟨k, t, p, iy⟩
        · simp only [Formed]
          intro pos' y' q
          cases q
          exact ⟨k, t, p, gr.isA iy⟩
    · cases q

end Verif.Shared
