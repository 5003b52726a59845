import Verif.Lemmas.Shared
/-!
# Objects that share parts: stores in which components were filled in
-/
namespace Verif.Shared

open Spec

/-- The only addresses in the state of an object are those from `n` on. -/
def Beyond (n : Nat) : Body → Prop
  | .leaf _ => True
  | .list es => ∀ y, y ∈ es.getD [] → n ≤ y
  | .choice sel => ∀ pos y, sel = some (pos, y) → n ≤ y
  | .seq s => ∀ i y, place (s.getD []) i = some y → n ≤ y

/-- A component is the same, or was not there and is now new. -/
def Filled (n : Nat) (h' : Store) (k : Kind) (t : Ty) (p p' : Option Nat) : Prop :=
  p = p' ∨ (p = none ∧ ∃ z, p' = some z ∧ n ≤ z ∧ Like t (instantiate k t none) (treeOf t h' z))

/-- The state of an object is the same up to components that were filled in. -/
def Moved (n : Nat) (h' : Store) (T : Ty) (b b' : Body) : Prop :=
  b = b' ∨ ∃ e r a g s s', T = .sequence e r a g ∧ b = .seq s ∧ b' = .seq s' ∧ ∀ i k t, partAt r a g i = some (k, t) →
    Filled n h' k t (place (places (r.length + a.length + g.size) s) i) (place (places (r.length + a.length + g.size) s') i)

/-- A store with more objects, which were put into components that were not set. -/
structure Grown (h h' : Store) : Prop where
  len : h.length ≤ h'.length
  cell : ∀ (x : Nat) (c : Cell), h[x]? = some c → ∃ b', h'[x]? = some ⟨c.ty, b'⟩ ∧ Moved h.length h' c.ty c.body b'
  fresh : ∀ z b, h.length ≤ z → bodyAt h' z = some b → Beyond h.length b

theorem isA_cell {h : Store} {t : Ty} {x : Nat} (i : IsA h t x) : ∃ b, h[x]? = some ⟨t, b⟩ := by
  simp only [IsA, Option.map_eq_some_iff] at i
  obtain ⟨⟨t', b⟩, e, rfl⟩ := i
  exact ⟨b, e⟩

theorem isA_of {h : Store} {t : Ty} {x : Nat} {b : Body} (e : h[x]? = some ⟨t, b⟩) : IsA h t x := by
  simp [IsA, e]

theorem body_of {h : Store} {t : Ty} {x : Nat} {b : Body} (e : h[x]? = some ⟨t, b⟩) : bodyAt h x = some b := by
  simp [bodyAt, e]

theorem Grown.isA {h h' : Store} (gr : Grown h h') {t : Ty} {x : Nat} (i : IsA h t x) : IsA h' t x := by
  obtain ⟨b, e⟩ := isA_cell i
  obtain ⟨b', e', _⟩ := gr.cell x _ e
  exact isA_of e'

theorem place_getD (n : Nat) (s : Option (List (Option Nat))) (i : Nat) : place (places n s) i = place (s.getD []) i := by
  cases s with
  | none => simp only [places, Option.getD_none, place_none]; rfl
  | some _ => rfl

theorem compOf_size : ∀ {f : Fields} {i : Nat} {k : Kind} {t : Ty}, compOf f i = some (k, t) → sizeOf t < sizeOf f
  | .nil, _, _, _, h => by simp [compOf] at h
  | .cons _ k t r, 0, k', t', e => by
    simp only [compOf, Option.some.injEq, Prod.mk.injEq] at e
    obtain ⟨rfl, rfl⟩ := e
    simp; omega
  | .cons _ k t r, i + 1, k', t', e => by
    simp only [compOf] at e
    have := compOf_size (f := r) e
    simp; omega

theorem compOfG_size : ∀ {g : Groups} {i : Nat} {k : Kind} {t : Ty}, compOfG g i = some (k, t) → sizeOf t < sizeOf g
  | .nil, _, _, _, h => by simp [compOfG] at h
  | .cons f g, i, k, t, e => by
    simp only [compOfG] at e
    by_cases c : i < f.length
    · rw [if_pos c] at e
      have := compOf_size e
      simp; omega
    · rw [if_neg c] at e
      have := compOfG_size (g := g) e
      simp; omega

theorem partAt_size {r a : Fields} {g : Groups} {i : Nat} {k : Kind} {t : Ty} (e : partAt r a g i = some (k, t)) :
    sizeOf t < sizeOf r + sizeOf a + sizeOf g := by
  unfold partAt at e
  by_cases c : i < r.length
  · rw [if_pos c] at e
    have := compOf_size e
    omega
  · rw [if_neg c] at e
    by_cases d : i < r.length + a.length
    · rw [if_pos d] at e
      have := compOf_size e
      omega
    · rw [if_neg d] at e
      have := compOfG_size e
      omega

theorem pairs_map {p : α → α → Prop} {f f' : Nat → α} : ∀ (l : List Nat), (∀ y, y ∈ l → p (f y) (f' y)) →
    AllPairs p (l.map f) (l.map f')
  | [], _ => trivial
  | y :: ys, h => ⟨h y (by simp), pairs_map ys fun z m => h z (by simp [m])⟩

/-- Trees in a grown store differ only in components nobody has set. -/
theorem grown_like {h h' : Store} (w : WellTyped h) (gr : Grown h h') (t : Ty) (y : Nat) (i : IsA h t y) :
    Like t (treeOf t h y) (treeOf t h' y) := by
  obtain ⟨b, e⟩ := isA_cell i
  obtain ⟨b', e', m⟩ := gr.cell y _ e
  have fo := (w y _ e).2
  have be := body_of e
  have be' := body_of e'
  dsimp only at fo m be'
  cases hc : isConstructed t with
  | false =>
    rcases m with rfl | ⟨_, _, _, _, _, _, rfl, _⟩
    · rw [tree_leaf hc, tree_leaf hc, be, be']
      exact like_refl _ _
    · cases hc
  | true =>
    match t, hc with
    | .seqOf c u, _ =>
      rcases m with rfl | ⟨_, _, _, _, _, _, q, _⟩
      · match b, fo with
        | .list es, fo =>
          simp only [Formed] at fo
          have ih : ∀ z, z ∈ es.getD [] → Like u (treeOf u h z) (treeOf u h' z) := fun z mz => grown_like w gr u z (fo z mz)
          simp only [treeOf, be, be', Like]
          cases es with
          | none => exact ⟨rfl, trivial⟩
          | some es => exact ⟨rfl, pairs_map es ih⟩
      · cases q
    | .choice ex r a g, _ =>
      rcases m with rfl | ⟨_, _, _, _, _, _, q, _⟩
      · match b, fo with
        | .choice none, _ =>
          simp only [treeOf, be, be', Like]
        | .choice (some (pos, z)), fo =>
          simp only [Formed] at fo
          obtain ⟨k, u, pa, iu⟩ := fo pos z rfl
          have := partAt_size pa
          rw [tree_choice be pa, tree_choice be' pa]
          exact like_choice_of pa (grown_like w gr u z iu)
      · cases q
    | .sequence ex r a g, _ =>
      match b, fo with
      | .seq s, fo =>
        simp only [Formed] at fo
        have m' : ∃ s', b' = .seq s' ∧ ∀ i k t, partAt r a g i = some (k, t) →
            Filled h.length h' k t (place (places (r.length + a.length + g.size) s) i)
              (place (places (r.length + a.length + g.size) s') i) := by
          rcases m with rfl | ⟨_, _, _, _, _, _, q1, q2, q3, q4⟩
          · exact ⟨s, rfl, fun _ _ _ _ => .inl rfl⟩
          · cases q1
            cases q2
            exact ⟨_, q3, q4⟩
        obtain ⟨s', rfl, mv⟩ := m'
        rw [tree_seq be, tree_seq be']
        refine likeSeq_of fun j k u pa => ?_
        have := partAt_size pa
        rw [slot_treeSeq (n := r.length + a.length + g.size) pa, slot_treeSeq (n := r.length + a.length + g.size) pa]
        rcases mv j k u pa with q | ⟨q, z, qz, _, lz⟩
        · rw [← q]
          cases hp : place (places (r.length + a.length + g.size) s) j with
          | none => exact like_refl _ _
          | some z =>
            obtain ⟨k', u', pa', iu⟩ := fo.2 j z hp
            rw [pa] at pa'
            cases pa'
            exact grown_like w gr u z iu
        · rw [q, qz]
          exact lz
termination_by sizeOf t
decreasing_by all_goals (simp_wf; try omega)

mutual
/-- Trees of new objects consist of new objects. -/
theorem tree_beyond {n : Nat} {h h' : Store} (cl : ∀ z b, n ≤ z → bodyAt h z = some b → Beyond n b)
    (ag : ∀ z, n ≤ z → bodyAt h z = bodyAt h' z) : ∀ (t : Ty) (z : Nat), n ≤ z → treeOf t h z = treeOf t h' z
  | .boolean, z, l => by simp only [treeOf]; rw [ag z l]
  | .integer _, z, l => by simp only [treeOf]; rw [ag z l]
  | .enumerated _ _ _, z, l => by simp only [treeOf]; rw [ag z l]
  | .bitString _, z, l => by simp only [treeOf]; rw [ag z l]
  | .octetString _, z, l => by simp only [treeOf]; rw [ag z l]
  | .seqOf _ t, z, l => by
    have c := cl z
    simp only [treeOf]
    rw [← ag z l]
    cases hb : bodyAt h z with
    | none => rfl
    | some b =>
      cases b with
      | list es =>
        have c := c _ l hb
        simp only [Beyond] at c
        cases es with
        | none => rfl
        | some es =>
          simp only [Option.map_some, Obj.list.injEq, Option.some.injEq]
          exact List.map_congr_left fun y m => tree_beyond cl ag t y (c y m)
      | _ => rfl
  | .choice _ r a g, z, l => by
    have c := cl z
    simp only [treeOf]
    rw [← ag z l]
    cases hb : bodyAt h z with
    | none => rfl
    | some b =>
      match b, hb with
      | .choice (some (pos, y)), hb =>
        have c := c _ l hb
        simp only [Beyond] at c
        have ly := c pos y rfl
        dsimp only
        rw [treeAlt_beyond cl ag r pos y ly, treeAlt_beyond cl ag a _ y ly, treeAltG_beyond cl ag g _ y ly]
      | .choice none, _ => rfl
      | .leaf _, _ => rfl
      | .list _, _ => rfl
      | .seq _, _ => rfl
  | .sequence _ r a g, z, l => by
    have c := cl z
    simp only [treeOf]
    rw [← ag z l]
    cases hb : bodyAt h z with
    | none => rfl
    | some b =>
      cases b with
      | seq s =>
        have c := c _ l hb
        simp only [Beyond] at c
        cases s with
        | none => rfl
        | some ss =>
          simp only [Option.getD_some] at c
          simp only [Option.map_some]
          rw [treeSlots_beyond cl ag r ss c, treeSlots_beyond cl ag a _ (fun i y e => c _ y (by rw [← place_drop]; exact e)),
            treeSlotsG_beyond cl ag g _ (fun i y e => c _ y (by rw [← place_drop]; exact e))]
      | _ => rfl
theorem treeAlt_beyond {n : Nat} {h h' : Store} (cl : ∀ z b, n ≤ z → bodyAt h z = some b → Beyond n b)
    (ag : ∀ z, n ≤ z → bodyAt h z = bodyAt h' z) : ∀ (f : Fields) (p z : Nat), n ≤ z → treeAlt f p h z = treeAlt f p h' z
  | .nil, _, _, _ => by simp only [treeAlt]
  | .cons _ _ t _, 0, z, l => by simp only [treeAlt]; exact tree_beyond cl ag t z l
  | .cons _ _ _ r, p + 1, z, l => by simp only [treeAlt]; exact treeAlt_beyond cl ag r p z l
theorem treeAltG_beyond {n : Nat} {h h' : Store} (cl : ∀ z b, n ≤ z → bodyAt h z = some b → Beyond n b)
    (ag : ∀ z, n ≤ z → bodyAt h z = bodyAt h' z) : ∀ (g : Groups) (p z : Nat), n ≤ z → treeAltG g p h z = treeAltG g p h' z
  | .nil, _, _, _ => by simp only [treeAltG]
  | .cons f g, p, z, l => by
    simp only [treeAltG]
    rw [treeAlt_beyond cl ag f p z l, treeAltG_beyond cl ag g _ z l]
theorem treeSlots_beyond {n : Nat} {h h' : Store} (cl : ∀ z b, n ≤ z → bodyAt h z = some b → Beyond n b)
    (ag : ∀ z, n ≤ z → bodyAt h z = bodyAt h' z) : ∀ (f : Fields) (ss : List (Option Nat)),
    (∀ i y, place ss i = some y → n ≤ y) → treeSlots f h ss = treeSlots f h' ss
  | .nil, _, _ => by simp only [treeSlots]
  | .cons _ _ t r, ss, c => by
    simp only [treeSlots]
    rw [treeSlots_beyond cl ag r ss.tail fun i y e => c _ y (by rw [← place_tail]; exact e)]
    cases hp : place ss 0 with
    | none => rfl
    | some y => simp only [Option.map_some, tree_beyond cl ag t y (c 0 y hp)]
theorem treeSlotsG_beyond {n : Nat} {h h' : Store} (cl : ∀ z b, n ≤ z → bodyAt h z = some b → Beyond n b)
    (ag : ∀ z, n ≤ z → bodyAt h z = bodyAt h' z) : ∀ (g : Groups) (ss : List (Option Nat)),
    (∀ i y, place ss i = some y → n ≤ y) → treeSlotsG g h ss = treeSlotsG g h' ss
  | .nil, _, _ => by simp only [treeSlotsG]
  | .cons f g, ss, c => by
    simp only [treeSlotsG]
    rw [treeSlots_beyond cl ag f ss c, treeSlotsG_beyond cl ag g _ fun i y e => c _ y (by rw [← place_drop]; exact e)]
end

theorem grown_refl (h : Store) : Grown h h := by
  refine ⟨Nat.le_refl _, fun x c e => ⟨c.body, e, .inl rfl⟩, fun z b l e => ?_⟩
  simp [bodyAt, List.getElem?_eq_none l] at e

/-- What a new component was filled with stays like it. -/
theorem filled_on {h' h'' : Store} (w' : WellTyped h') (g2 : Grown h' h'') {n : Nat} {k : Kind} {t : Ty}
    {p p' p'' : Option Nat} (i : ∀ z, p' = some z → IsA h' t z) (l : n ≤ h'.length)
    (f : Filled n h' k t p p') (f2 : Filled h'.length h'' k t p' p'') : Filled n h'' k t p p'' := by
  rcases f2 with rfl | ⟨rfl, z, rfl, lz, k2⟩
  · rcases f with rfl | ⟨rfl, z, rfl, lz, k1⟩
    · exact .inl rfl
    · exact .inr ⟨rfl, z, rfl, lz, like_trans t _ _ _ k1 (grown_like w' g2 t z (i z rfl))⟩
  · rcases f with rfl | ⟨_, z', e, _⟩
    · exact .inr ⟨rfl, z, rfl, by omega, k2⟩
    · cases e

theorem formed_part {h : Store} {e : Bool} {r a : Fields} {g : Groups} {s : Option (List (Option Nat))}
    (fo : Formed h (.sequence e r a g) (.seq s)) {i : Nat} {k : Kind} {t : Ty} (pa : partAt r a g i = some (k, t)) {z : Nat}
    (hp : place (places (r.length + a.length + g.size) s) i = some z) : IsA h t z := by
  simp only [Formed] at fo
  obtain ⟨k', t', pa', iz⟩ := fo.2 i z hp
  rw [pa] at pa'
  cases pa'
  exact iz

theorem grown_trans {h h' h'' : Store} (w' : WellTyped h') (w'' : WellTyped h'') (g1 : Grown h h') (g2 : Grown h' h'') : Grown h h'' := by
  refine ⟨Nat.le_trans g1.len g2.len, fun x c e => ?_, fun z b l e => ?_⟩
  · obtain ⟨b', e', m⟩ := g1.cell x c e
    obtain ⟨b'', e'', m'⟩ := g2.cell x _ e'
    have fo := (w' x _ e').2
    dsimp only at e'' m' fo
    refine ⟨b'', e'', ?_⟩
    rcases m' with rfl | ⟨ex, r, a, g, s', s'', q1, q2, q3, q4⟩
    · rcases m with rfl | ⟨ex, r, a, g, s, s', q1, q2, q3, q4⟩
      · exact .inl rfl
      · refine .inr ⟨ex, r, a, g, s, s', q1, q2, q3, fun i k t pa => ?_⟩
        rw [q1, q3] at fo
        exact filled_on w' g2 (fun z hp => formed_part fo pa hp) g1.len (q4 i k t pa) (.inl rfl)
    · rw [q1, q2] at fo
      rcases m with mb | ⟨_, _, _, _, s, _, p1, p2, p3, p4⟩
      · refine .inr ⟨ex, r, a, g, s', s'', q1, mb.trans q2, q3, fun i k t pa => ?_⟩
        exact filled_on w' g2 (fun z hp => formed_part fo pa hp) g1.len (.inl rfl) (q4 i k t pa)
      · rw [p1] at q1
        cases q1
        rw [p3] at q2
        cases q2
        refine .inr ⟨ex, r, a, g, s, s'', p1, p2, q3, fun i k t pa => ?_⟩
        exact filled_on w' g2 (fun z hp => formed_part fo pa hp) g1.len (p4 i k t pa) (q4 i k t pa)
  · by_cases c : h'.length ≤ z
    · have := g2.fresh z b c e
      cases b with
      | leaf _ => trivial
      | list es => exact fun y m => Nat.le_trans g1.len (this y m)
      | choice sel => exact fun p y m => Nat.le_trans g1.len (this p y m)
      | seq s => exact fun p y m => Nat.le_trans g1.len (this p y m)
    · have hz : z < h'.length := by omega
      have e' : h'[z]? = some h'[z] := List.getElem?_eq_getElem hz
      obtain ⟨b'', e'', m⟩ := g2.cell z _ e'
      have bz : bodyAt h' z = some h'[z].body := by simp only [bodyAt, e', Option.map_some]
      have old := g1.fresh z _ l bz
      have : b = b'' := by
        have := body_of e''
        rw [e] at this
        exact Option.some.inj this
      subst this
      rcases m with mb | ⟨ex, r, a, g, s', s'', q1, q2, q3, q4⟩
      · rw [← mb]; exact old
      · rw [q2] at old
        rw [q3]
        intro i y hp
        simp only [Beyond] at old
        have fo := (w'' z _ e'').2
        dsimp only at fo
        rw [q1, q3] at fo
        rw [← place_getD (r.length + a.length + g.size)] at hp
        have fo2 := fo
        simp only [Formed] at fo2
        obtain ⟨k, t, pa, _⟩ := fo2.2 i y hp
        rcases q4 i k t pa with q | ⟨_, z', qz, lz, _⟩
        · rw [hp, place_getD] at q
          exact old i y q
        · rw [hp] at qz
          cases qz
          exact Nat.le_trans g1.len lz

end Verif.Shared
