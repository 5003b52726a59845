import Verif.SpecReceived
import Verif.Lemmas.SharedShown
/-!
# New objects for a message, and assigning them
-/
namespace Verif.Shared

open Spec

/-! ## Trees of objects that did not change -/

theorem treeSlots_congr {h h' : Store} : ∀ {f : Fields} {ss : List (Option Nat)},
    (∀ i k t y, compOf f i = some (k, t) → place ss i = some y → treeOf t h' y = treeOf t h y) →
    treeSlots f h' ss = treeSlots f h ss
  | .nil, _, _ => by simp only [treeSlots]
  | .cons _ k t r, ss, c => by
    simp only [treeSlots]
    rw [treeSlots_congr (f := r) (ss := ss.tail) fun i k' t' y e p => c (i + 1) k' t' y e (by rw [← place_tail]; exact p)]
    cases hp : place ss 0 with
    | none => rfl
    | some y => simp only [Option.map_some, c 0 k t y rfl hp]

theorem treeSlotsG_congr {h h' : Store} : ∀ {g : Groups} {ss : List (Option Nat)},
    (∀ i k t y, compOfG g i = some (k, t) → place ss i = some y → treeOf t h' y = treeOf t h y) →
    treeSlotsG g h' ss = treeSlotsG g h ss
  | .nil, _, _ => by simp only [treeSlotsG]
  | .cons f g, ss, c => by
    simp only [treeSlotsG]
    rw [treeSlots_congr (f := f) (ss := ss) fun i k t y e p => c i k t y (by simp only [compOfG, if_pos (compOf_lt e), e]) p,
      treeSlotsG_congr (g := g) (ss := ss.drop f.length) fun i k t y e p => c (f.length + i) k t y
        (by simp only [compOfG]; rw [if_neg (by omega), Nat.add_sub_cancel_left]; exact e) (by rw [← place_drop]; exact p)]

theorem parts_congr {h h' : Store} {r a : Fields} {g : Groups} {ss : List (Option Nat)}
    (c : ∀ i k t y, partAt r a g i = some (k, t) → place ss i = some y → treeOf t h' y = treeOf t h y) :
    parts r a g h' ss = parts r a g h ss := by
  unfold parts
  rw [treeSlots_congr (f := r) fun i k t y e p => c i k t y (partAt_root e) p,
    treeSlots_congr (f := a) fun i k t y e p => c _ k t y (partAt_add e) (by rw [← place_drop]; exact p),
    treeSlotsG_congr (g := g) fun i k t y e p => c _ k t y (partAt_group e) (by rw [← place_drop]; exact p)]

/-- Objects of small types that did not change have the trees they had. -/
theorem tree_agree {h h' : Store} (w : Typed h) {n : Nat}
    (ag : ∀ t z, sizeOf t < n → IsA h t z → bodyAt h' z = bodyAt h z) (t : Ty) (z : Nat) (l : sizeOf t < n) (i : IsA h t z) :
    treeOf t h' z = treeOf t h z := by
  have e := ag t z l i
  obtain ⟨b, eb⟩ := isA_cell i
  have fo := w _ _ eb
  match t, b with
  | .seqOf c t, .list es =>
    simp only [Formed] at fo
    simp only [treeOf, e, body_of eb]
    cases es with
    | none => rfl
    | some es =>
      simp only [Option.map_some, Obj.list.injEq, Option.some.injEq]
      refine List.map_congr_left fun y m => tree_agree w ag t y ?_ (fo y m)
      simp at l; omega
  | .choice ex r a g, .choice none => simp only [treeOf, e, body_of eb]
  | .choice ex r a g, .choice (some (pos, y)) =>
    simp only [Formed] at fo
    obtain ⟨k, u, p, iy⟩ := fo pos y rfl
    rw [tree_choice (body_of eb) p, tree_choice (e.trans (body_of eb)) p]
    have := partAt_size p
    rw [tree_agree w ag u y (by simp at l; omega) iy]
  | .sequence ex r a g, .seq s =>
    simp only [Formed] at fo
    rw [tree_seq (body_of eb), tree_seq (e.trans (body_of eb))]
    cases s with
    | none => rfl
    | some ss =>
      simp only [Option.map_some, Obj.seq.injEq, Option.some.injEq]
      refine parts_congr fun i k u y p q => ?_
      obtain ⟨k', u', p', iy⟩ := fo.2 i y q
      rw [p] at p'
      cases p'
      have := partAt_size p
      exact tree_agree w ag u y (by simp at l; omega) iy
  | .boolean, _ => simp only [treeOf, e]
  | .integer _, _ => simp only [treeOf, e]
  | .enumerated _ _ _, _ => simp only [treeOf, e]
  | .bitString _, _ => simp only [treeOf, e]
  | .octetString _, _ => simp only [treeOf, e]
termination_by sizeOf t
decreasing_by all_goals (simp_wf; try omega)

/-! ## More objects -/

/-- The parts of all objects have the right types, and if `q` holds the types are `light`. -/
def TypedBy (q : Prop) (h : Store) : Prop :=
  ∀ (x : Nat) (c : Cell), h[x]? = some c → (q → light c.ty = true) ∧ Formed h c.ty c.body

theorem TypedBy.typed {q : Prop} {h : Store} (w : TypedBy q h) : Typed h := fun x c e => (w x c e).2

theorem typedBy_light {h : Store} : TypedBy True h ↔ WellTyped h :=
  ⟨fun w x c e => ⟨(w x c e).1 trivial, (w x c e).2⟩, fun w x c e => ⟨fun _ => (w x c e).1, (w x c e).2⟩⟩

theorem typedBy_all {h : Store} : TypedBy False h ↔ Typed h :=
  ⟨fun w => w.typed, fun w x c e => ⟨fun f => f.elim, w x c e⟩⟩

theorem typedBy_push {q : Prop} {h : Store} {c : Cell} (w : TypedBy q h) (l : q → light c.ty = true)
    (f : Formed h c.ty c.body) : TypedBy q (h ++ [c]) := by
  intro z d e
  by_cases lz : z < h.length
  · rw [List.getElem?_append_left lz] at e
    exact ⟨(w _ _ e).1, formed_mono (fun _ _ => isA_push) (w _ _ e).2⟩
  · by_cases q : z = h.length
    · subst q
      simp only [List.getElem?_concat_length, Option.some.injEq] at e
      subst e
      exact ⟨l, formed_mono (fun _ _ => isA_push) f⟩
    · rw [List.getElem?_eq_none (by simp; omega)] at e
      cases e

/-- More objects, which refer to each other only; those that were there did not change. -/
structure Extends (q : Prop) (h h' : Store) : Prop where
  more : ∃ e, h' = h ++ e
  fresh : ∀ z b, h.length ≤ z → bodyAt h' z = some b → Beyond h.length b
  typed : TypedBy q h'

theorem bodyAt_append {h : Store} (e : Store) {z : Nat} (l : z < h.length) : bodyAt (h ++ e) z = bodyAt h z := by
  simp only [bodyAt, List.getElem?_append_left l]

theorem isA_lt {h : Store} {t : Ty} {z : Nat} (i : IsA h t z) : z < h.length := by
  obtain ⟨b, e⟩ := isA_cell i
  exact (List.getElem?_eq_some_iff.mp e).1

theorem isA_append {h : Store} {t : Ty} {z : Nat} (e : Store) (i : IsA h t z) : IsA (h ++ e) t z := by
  simp only [IsA, List.getElem?_append_left (isA_lt i)]
  exact i

theorem Extends.isA {q : Prop} {h h' : Store} (x : Extends q h h') {t : Ty} {z : Nat} (i : IsA h t z) : IsA h' t z := by
  obtain ⟨e, rfl⟩ := x.more
  exact isA_append e i

theorem Extends.len {q : Prop} {h h' : Store} (x : Extends q h h') : h.length ≤ h'.length := by
  obtain ⟨e, rfl⟩ := x.more
  simp

theorem Extends.body {q : Prop} {h h' : Store} (x : Extends q h h') {z : Nat} (l : z < h.length) : bodyAt h' z = bodyAt h z := by
  obtain ⟨e, rfl⟩ := x.more
  exact bodyAt_append e l

theorem Extends.tree {q : Prop} {h h' : Store} (x : Extends q h h') (w : TypedBy q h) {t : Ty} {z : Nat} (i : IsA h t z) :
    treeOf t h' z = treeOf t h z :=
  tree_agree w.typed (n := sizeOf t + 1) (fun _ _ _ j => x.body (isA_lt j)) t z (Nat.lt_succ_self _) i

theorem tree_append {h : Store} (w : Typed h) (e : Store) {t : Ty} {z : Nat} (i : IsA h t z) :
    treeOf t (h ++ e) z = treeOf t h z :=
  tree_agree w (n := sizeOf t + 1) (fun _ _ _ j => bodyAt_append e (isA_lt j)) t z (Nat.lt_succ_self _) i

theorem beyond_mono {n m : Nat} (l : n ≤ m) {b : Body} (h : Beyond m b) : Beyond n b := by
  cases b with
  | leaf _ => trivial
  | list es => exact fun y m => Nat.le_trans l (h y m)
  | choice sel => exact fun pos y e => Nat.le_trans l (h pos y e)
  | seq s => exact fun i y e => Nat.le_trans l (h i y e)

theorem extends_refl {q : Prop} {h : Store} (w : TypedBy q h) : Extends q h h := by
  refine ⟨⟨[], by simp⟩, fun z b l e => ?_, w⟩
  simp only [bodyAt, List.getElem?_eq_none l] at e
  cases e

theorem extends_trans {q : Prop} {h h' h'' : Store} (x : Extends q h h') (y : Extends q h' h'') : Extends q h h'' := by
  refine ⟨?_, fun z b l e => ?_, y.typed⟩
  · obtain ⟨e, rfl⟩ := x.more
    obtain ⟨e', rfl⟩ := y.more
    exact ⟨e ++ e', by simp⟩
  · by_cases c : z < h'.length
    · rw [y.body c] at e
      exact x.fresh z b l e
    · exact beyond_mono x.len (y.fresh z b (by omega) e)

theorem extends_push {q : Prop} {h h' : Store} (x : Extends q h h') {c : Cell} (l : q → light c.ty = true) (f : Formed h' c.ty c.body)
    (b : Beyond h.length c.body) : Extends q h (h' ++ [c]) := by
  refine ⟨?_, fun z d lz e => ?_, typedBy_push x.typed l f⟩
  · obtain ⟨e, rfl⟩ := x.more
    exact ⟨e ++ [c], by simp⟩
  · by_cases q : z < h'.length
    · rw [bodyAt_append _ q] at e
      exact x.fresh z d lz e
    · by_cases q' : z = h'.length
      · subst q'
        simp only [bodyAt, List.getElem?_concat_length, Option.map_some, Option.some.injEq] at e
        subst e
        exact b
      · rw [show bodyAt (h' ++ [c]) z = none by simp only [bodyAt]; rw [List.getElem?_eq_none (by simp; omega)]; rfl] at e
        cases e

theorem body_push (h : Store) (t : Ty) (b : Body) : bodyAt (h ++ [Cell.mk t b]) h.length = some b := by
  simp [bodyAt]

theorem isA_pushed (h : Store) (t : Ty) (b : Body) : IsA (h ++ [Cell.mk t b]) t h.length := by
  simp [IsA]

/-! ## Building -/

/-- The value in a component. -/
def given (cs : List (Option Val)) (i : Nat) : Option Val := cs[i]?.getD none

theorem given_head (cs : List (Option Val)) : cs.head?.getD none = given cs 0 := by cases cs <;> rfl

theorem given_tail (cs : List (Option Val)) (i : Nat) : given cs.tail i = given cs (i + 1) := by
  simp [given, List.getElem?_tail]

theorem given_drop (n : Nat) (cs : List (Option Val)) (i : Nat) : given (cs.drop n) i = given cs (n + i) := by
  simp [given, List.getElem?_drop]

/-- The values of components have the types of the components. -/
def Fit (count : SizeC → Nat → Bool) (f : Fields) (cs : List (Option Val)) : Prop :=
  ∀ i k t v, compOf f i = some (k, t) → given cs i = some v → hasShape count t v = true

def FitG (count : SizeC → Nat → Bool) (g : Groups) (cs : List (Option Val)) : Prop :=
  ∀ i k t v, compOfG g i = some (k, t) → given cs i = some v → hasShape count t v = true

theorem fit_root {count : SizeC → Nat → Bool} : ∀ {f : Fields} {cs : List (Option Val)}, hasShapeRoot count f cs = true →
    Fit count f cs
  | .nil, _, _, _, _, _, _, e, _ => by simp [compOf] at e
  | .cons _ k t r, cs, h, i, k', t', v, e, gv => by
    simp only [hasShapeRoot, Bool.and_eq_true, given_head] at h
    match i with
    | 0 =>
      simp only [compOf, Option.some.injEq, Prod.mk.injEq] at e
      obtain ⟨rfl, rfl⟩ := e
      rw [gv] at h
      exact h.1
    | i + 1 => exact fit_root h.2 i k' t' v e (by rw [given_tail]; exact gv)

theorem fit_adds {count : SizeC → Nat → Bool} : ∀ {f : Fields} {cs : List (Option Val)}, hasShapeAdds count f cs = true →
    Fit count f cs
  | .nil, _, _, _, _, _, _, e, _ => by simp [compOf] at e
  | .cons _ k t r, cs, h, i, k', t', v, e, gv => by
    simp only [hasShapeAdds, Bool.and_eq_true, given_head] at h
    match i with
    | 0 =>
      simp only [compOf, Option.some.injEq, Prod.mk.injEq] at e
      obtain ⟨rfl, rfl⟩ := e
      rw [gv] at h
      exact h.1
    | i + 1 => exact fit_adds h.2 i k' t' v e (by rw [given_tail]; exact gv)

theorem given_none {cs : List (Option Val)} (h : allNone cs = true) (i : Nat) : given cs i = none := by
  simp only [given]
  cases e : cs[i]? with
  | none => rfl
  | some o =>
    have := List.all_eq_true.mp h o (List.mem_of_getElem? e)
    cases o <;> simp_all

theorem fit_groups {count : SizeC → Nat → Bool} : ∀ {g : Groups} {cs : List (Option Val)}, hasShapeGroups count g cs = true →
    FitG count g cs
  | .nil, _, _, _, _, _, _, e, _ => by simp [compOfG] at e
  | .cons f g, cs, h, i, k, t, v, e, gv => by
    simp only [hasShapeGroups, Bool.and_eq_true, Bool.or_eq_true] at h
    simp only [compOfG] at e
    by_cases c : i < f.length
    · rw [if_pos c] at e
      rcases h.1 with h | h
      · have := given_none h i
        simp only [given, List.getElem?_take, if_pos c] at this
        simp only [given] at gv
        rw [this] at gv
        cases gv
      · exact fit_root h i k t v e gv
    · rw [if_neg c] at e
      exact fit_groups h.2 _ k t v e (by rw [given_drop, show f.length + (i - f.length) = i by omega]; exact gv)

/-- What building an object of a type gives. -/
structure Built (Q : Prop) (t : Ty) (v : Val) (h : Store) (p : Nat × Store) : Prop where
  ext : Extends Q h p.2
  new : h.length ≤ p.1
  isA : IsA p.2 t p.1
  tree : treeOf t p.2 p.1 = ofVal t v

/-- The same for components. -/
structure BuiltSlots (Q : Prop) (f : Fields) (cs : List (Option Val)) (h : Store) (p : List (Option Nat) × Store) : Prop where
  ext : Extends Q h p.2
  len : p.1.length = f.length
  part : ∀ i y, place p.1 i = some y → h.length ≤ y ∧ ∃ k t, compOf f i = some (k, t) ∧ IsA p.2 t y
  tree : treeSlots f p.2 p.1 = ofSlots f cs

structure BuiltSlotsG (Q : Prop) (g : Groups) (cs : List (Option Val)) (h : Store) (p : List (Option Nat) × Store) : Prop where
  ext : Extends Q h p.2
  len : p.1.length = g.size
  part : ∀ i y, place p.1 i = some y → h.length ≤ y ∧ ∃ k t, compOfG g i = some (k, t) ∧ IsA p.2 t y
  tree : treeSlotsG g p.2 p.1 = ofSlotsG g cs

theorem built_many {Q : Prop} {t : Ty} {f : Val → Store → Nat × Store} {P : Val → Prop}
    (ih : ∀ v h, P v → TypedBy Q h → Built Q t v h (f v h)) : ∀ (vs : List Val) (h : Store), (∀ v ∈ vs, P v) → TypedBy Q h →
    Extends Q h (buildMany f vs h).2 ∧ (∀ y ∈ (buildMany f vs h).1, h.length ≤ y ∧ IsA (buildMany f vs h).2 t y) ∧
      (buildMany f vs h).1.map (treeOf t (buildMany f vs h).2) = vs.map (ofVal t)
  | [], h, _, w => ⟨extends_refl w, fun _ m => (nomatch m), rfl⟩
  | v :: vs, h, a, w => by
    have b := ih v h (a v (List.mem_cons_self ..)) w
    obtain ⟨e, p, q⟩ := built_many ih vs (f v h).2 (fun u m => a u (List.mem_cons_of_mem _ m)) b.ext.typed
    simp only [buildMany]
    refine ⟨extends_trans b.ext e, fun y m => ?_, ?_⟩
    · rcases List.mem_cons.mp m with rfl | m
      · exact ⟨b.new, e.isA b.isA⟩
      · exact ⟨Nat.le_trans b.ext.len (p y m).1, (p y m).2⟩
    · simp only [List.map_cons, q, e.tree b.ext.typed b.isA, b.tree]

theorem place_left {ss : List (Option Nat)} (us : List (Option Nat)) {i : Nat} (l : i < ss.length) :
    place (ss ++ us) i = place ss i := by simp only [place, List.getElem?_append_left l]

theorem place_right {ss : List (Option Nat)} (us : List (Option Nat)) {i : Nat} (l : ss.length ≤ i) :
    place (ss ++ us) i = place us (i - ss.length) := by simp only [place, List.getElem?_append_right l]

theorem place_lt {ss : List (Option Nat)} {i y : Nat} (e : place ss i = some y) : i < ss.length := by
  apply Classical.byContradiction
  intro c
  simp only [place, List.getElem?_eq_none (Nat.le_of_not_lt c)] at e
  cases e

theorem treeSlots_left : ∀ (f : Fields) (h : Store) (ss us : List (Option Nat)), ss.length = f.length →
    treeSlots f h (ss ++ us) = treeSlots f h ss
  | .nil, _, _, _, _ => by simp only [treeSlots]
  | .cons _ _ t r, h, s :: ss, us, l => by
    simp only [Fields.length, List.length_cons, Nat.add_right_cancel_iff] at l
    simp only [treeSlots, List.cons_append, List.tail_cons, treeSlots_left r h ss us l]
    rfl

theorem treeSlotsG_left : ∀ (g : Groups) (h : Store) (ss us : List (Option Nat)), ss.length = g.size →
    treeSlotsG g h (ss ++ us) = treeSlotsG g h ss
  | .nil, _, _, _, _ => by simp only [treeSlotsG]
  | .cons f g, h, ss, us, l => by
    simp only [Groups.size] at l
    simp only [treeSlotsG]
    have e : ss = ss.take f.length ++ ss.drop f.length := (List.take_append_drop _ _).symm
    have lt : (ss.take f.length).length = f.length := by simp; omega
    rw [List.drop_append_of_le_length (by omega), treeSlotsG_left g h _ us (by simp; omega)]
    congr 1
    rw [e, List.append_assoc, treeSlots_left f h _ _ lt, treeSlots_left f h _ _ lt]

theorem BuiltSlots.later {Q : Prop} {f : Fields} {cs : List (Option Val)} {h : Store} {p : List (Option Nat) × Store}
    (b : BuiltSlots Q f cs h p) {h' : Store} (x : Extends Q p.2 h') : BuiltSlots Q f cs h (p.1, h') := by
  refine ⟨extends_trans b.ext x, b.len, fun i y e => ?_, ?_⟩
  · obtain ⟨l, k, t, c, i⟩ := b.part i y e
    exact ⟨l, k, t, c, x.isA i⟩
  · rw [← b.tree]
    refine treeSlots_congr fun i k t y c e => ?_
    obtain ⟨_, k', t', c', ia⟩ := b.part i y e
    rw [c] at c'
    cases c'
    exact x.tree b.ext.typed ia

theorem BuiltSlotsG.later {Q : Prop} {g : Groups} {cs : List (Option Val)} {h : Store} {p : List (Option Nat) × Store}
    (b : BuiltSlotsG Q g cs h p) {h' : Store} (x : Extends Q p.2 h') : BuiltSlotsG Q g cs h (p.1, h') := by
  refine ⟨extends_trans b.ext x, b.len, fun i y e => ?_, ?_⟩
  · obtain ⟨l, k, t, c, i⟩ := b.part i y e
    exact ⟨l, k, t, c, x.isA i⟩
  · rw [← b.tree]
    refine treeSlotsG_congr fun i k t y c e => ?_
    obtain ⟨_, k', t', c', ia⟩ := b.part i y e
    rw [c] at c'
    cases c'
    exact x.tree b.ext.typed ia

theorem BuiltSlots.append {Q : Prop} {f : Fields} {cs : List (Option Val)} {h : Store} {p : List (Option Nat) × Store}
    (b : BuiltSlots Q f cs h p) (e : Store) : treeSlots f (p.2 ++ e) p.1 = ofSlots f cs := by
  rw [← b.tree]
  refine treeSlots_congr fun i k t y c q => ?_
  obtain ⟨_, k', t', c', ia⟩ := b.part i y q
  rw [c] at c'
  cases c'
  exact tree_append b.ext.typed.typed e ia

theorem BuiltSlotsG.append {Q : Prop} {g : Groups} {cs : List (Option Val)} {h : Store} {p : List (Option Nat) × Store}
    (b : BuiltSlotsG Q g cs h p) (e : Store) : treeSlotsG g (p.2 ++ e) p.1 = ofSlotsG g cs := by
  rw [← b.tree]
  refine treeSlotsG_congr fun i k t y c q => ?_
  obtain ⟨_, k', t', c', ia⟩ := b.part i y q
  rw [c] at c'
  cases c'
  exact tree_append b.ext.typed.typed e ia

theorem built_leaf {Q : Prop} {t : Ty} {v : Val} {h : Store} (c : isConstructed t = false) (w : TypedBy Q h)
    (e : ofVal t v = .leaf (some v)) : Built Q t v h (h.length, h ++ [Cell.mk t (.leaf (some v))]) := by
  refine ⟨extends_push (extends_refl w) ?_ ?_ trivial, Nat.le_refl _, isA_pushed _ _ _, ?_⟩
  · intro _
    cases t <;> first | rfl | cases c
  · cases t <;> first | rfl | cases c
  · dsimp only
    rw [tree_leaf c, body_push, e]

theorem built_list {Q : Prop} {c : SizeC} {t : Ty} {vs : List Val} {h : Store} {p : List Nat × Store} (l : Q → light t = true)
    (e : Extends Q h p.2) (m : ∀ y ∈ p.1, h.length ≤ y ∧ IsA p.2 t y) (q : p.1.map (treeOf t p.2) = vs.map (ofVal t)) :
    Built Q (.seqOf c t) (.seqOf vs) h
      (p.2.length, p.2 ++ [Cell.mk (.seqOf c t) (.list (if vs.isEmpty then none else some p.1))]) := by
  have el : ∀ y, y ∈ (if vs.isEmpty then none else some p.1).getD [] → h.length ≤ y ∧ IsA p.2 t y := by
    cases vs with
    | nil => exact fun y m => (nomatch m)
    | cons => exact m
  refine ⟨extends_push e l ?_ fun y m => (el y m).1, e.len, isA_pushed _ _ _, ?_⟩
  · simp only [Formed]
    exact fun y m => (el y m).2
  · dsimp only
    simp only [treeOf, body_push, ofVal]
    cases vs with
    | nil => rfl
    | cons u us =>
      simp only [List.isEmpty_cons, Bool.false_eq_true, if_false, Option.map_some, Obj.list.injEq, Option.some.injEq]
      rw [← q]
      exact List.map_congr_left fun y my => tree_append e.typed.typed _ (m y my).2

theorem ofAlt_at : ∀ {f : Fields} {i : Nat} {k : Kind} {t : Ty}, compOf f i = some (k, t) → ∀ (v : Val),
    ofAlt f i v = ofVal t v
  | .nil, _, _, _, h => by simp [compOf] at h
  | .cons _ k t r, 0, k', t', e => by
    simp only [compOf, Option.some.injEq, Prod.mk.injEq] at e
    obtain ⟨rfl, rfl⟩ := e
    intro v
    simp only [ofAlt]
  | .cons _ k t r, i + 1, k', t', e => by
    intro v
    simp only [ofAlt]
    simp only [compOf] at e
    exact ofAlt_at (f := r) e v

theorem ofAltG_at : ∀ {g : Groups} {i : Nat} {k : Kind} {t : Ty}, compOfG g i = some (k, t) → ∀ (v : Val),
    ofAltG g i v = ofVal t v
  | .nil, _, _, _, h => by simp [compOfG] at h
  | .cons f g, i, k, t, e => by
    intro v
    simp only [compOfG] at e
    simp only [ofAltG]
    by_cases c : i < f.length
    · rw [if_pos c] at e ⊢
      exact ofAlt_at e v
    · rw [if_neg c] at e ⊢
      exact ofAltG_at e v

theorem ofVal_choice {e : Bool} {r a : Fields} {g : Groups} {pos : Nat} {v : Val} {k : Kind} {t : Ty}
    (p : partAt r a g pos = some (k, t)) : ofVal (.choice e r a g) (.choice pos v) = .choice (some (pos, ofVal t v)) := by
  unfold partAt at p
  simp only [ofVal]
  by_cases c : pos < r.length
  · rw [if_pos c] at p ⊢
    rw [ofAlt_at p]
  · rw [if_neg c] at p ⊢
    by_cases d : pos < r.length + a.length
    · rw [if_pos d] at p ⊢
      rw [ofAlt_at p]
    · rw [if_neg d] at p ⊢
      rw [ofAltG_at p]

theorem built_choice {Q : Prop} {e : Bool} {r a : Fields} {g : Groups} {pos : Nat} {v : Val} {h : Store} {p : Nat × Store} {k : Kind}
    {t : Ty} (l : Q → light (.choice e r a g) = true) (pa : partAt r a g pos = some (k, t)) (b : Built Q t v h p) :
    Built Q (.choice e r a g) (.choice pos v) h
      (p.2.length, p.2 ++ [Cell.mk (.choice e r a g) (.choice (some (pos, p.1)))]) := by
  refine ⟨extends_push b.ext l ?_ ?_, b.ext.len, isA_pushed _ _ _, ?_⟩
  · simp only [Formed]
    intro pos' y q
    cases q
    exact ⟨k, t, pa, b.isA⟩
  · intro pos' y q
    cases q
    exact b.new
  · dsimp only
    rw [tree_choice (body_push _ _ _) pa, tree_append b.ext.typed.typed _ b.isA, b.tree, ofVal_choice pa]

theorem built_seq {Q : Prop} {e : Bool} {r a : Fields} {g : Groups} {cs : List (Option Val)} {h : Store}
    {p q s : List (Option Nat) × Store} (l : Q → light (.sequence e r a g) = true) (bp : BuiltSlots Q r cs h p)
    (bq : BuiltSlots Q a (cs.drop r.length) p.2 q) (bs : BuiltSlotsG Q g (cs.drop (r.length + a.length)) q.2 s) :
    Built Q (.sequence e r a g) (.seq cs) h (s.2.length, s.2 ++ [Cell.mk (.sequence e r a g)
      (.seq (if cs.any Option.isSome then some (p.1 ++ (q.1 ++ s.1)) else none))]) := by
  have x1 := bp.ext
  have x2 := extends_trans x1 bq.ext
  have x3 := extends_trans x2 bs.ext
  have bp' := bp.later (extends_trans bq.ext bs.ext)
  have bq' := bq.later bs.ext
  have len : (p.1 ++ (q.1 ++ s.1)).length = r.length + a.length + g.size := by
    simp only [List.length_append, bp.len, bq.len, bs.len]; omega
  have part : ∀ i y, place (p.1 ++ (q.1 ++ s.1)) i = some y →
      h.length ≤ y ∧ ∃ k t, partAt r a g i = some (k, t) ∧ IsA s.2 t y := by
    intro i y hy
    by_cases c : i < p.1.length
    · rw [place_left _ c] at hy
      obtain ⟨n, k, t, co, ia⟩ := bp'.part i y hy
      exact ⟨n, k, t, partAt_root co, ia⟩
    · rw [place_right _ (Nat.le_of_not_lt c)] at hy
      by_cases d : i - p.1.length < q.1.length
      · rw [place_left _ d] at hy
        obtain ⟨n, k, t, co, ia⟩ := bq'.part _ y hy
        refine ⟨Nat.le_trans x1.len n, k, t, ?_, ia⟩
        have := partAt_add (r := r) (g := g) co
        rw [bp.len, show r.length + (i - r.length) = i by rw [bp.len] at c; omega] at this
        exact this
      · rw [place_right _ (Nat.le_of_not_lt d)] at hy
        obtain ⟨n, k, t, co, ia⟩ := bs.part _ y hy
        refine ⟨Nat.le_trans x2.len n, k, t, ?_, ia⟩
        have := partAt_group (r := r) (a := a) co
        rw [bp.len, bq.len, show r.length + a.length + (i - r.length - a.length) = i by
          rw [bp.len] at c d; rw [bq.len] at d; omega] at this
        exact this
  refine ⟨extends_push x3 l ?_ ?_, x3.len, isA_pushed _ _ _, ?_⟩
  · simp only [Formed]
    cases cs.any Option.isSome with
    | false => exact ⟨by simp [places], fun i y hy => by simp [places, place_none] at hy⟩
    | true => exact ⟨len, fun i y hy => (part i y hy).2⟩
  · cases cs.any Option.isSome with
    | false => exact fun i y hy => by simp [place] at hy
    | true => exact fun i y hy => (part i y hy).1
  · dsimp only
    rw [tree_seq (body_push _ _ _)]
    simp only [ofVal]
    cases cs.any Option.isSome with
    | false => rfl
    | true =>
      simp only [if_true, Option.map_some, Obj.seq.injEq, Option.some.injEq, parts]
      have dr : (p.1 ++ (q.1 ++ s.1)).drop r.length = q.1 ++ s.1 := by rw [← bp.len]; simp
      have dr' : (p.1 ++ (q.1 ++ s.1)).drop (r.length + a.length) = s.1 := by
        rw [← List.drop_drop, dr, ← bq.len]; simp
      rw [dr, dr', treeSlots_left r _ _ _ bp.len, treeSlots_left a _ _ _ bq.len]
      have t1 := bp'.append [Cell.mk (.sequence e r a g) (.seq (some (p.1 ++ (q.1 ++ s.1))))]
      have t2 := bq'.append [Cell.mk (.sequence e r a g) (.seq (some (p.1 ++ (q.1 ++ s.1))))]
      have t3 := bs.append [Cell.mk (.sequence e r a g) (.seq (some (p.1 ++ (q.1 ++ s.1))))]
      dsimp only at t1 t2 t3
      rw [t1, t2, t3]

theorem light_compOf' {Q : Prop} {f : Fields} {n : String} {k : Kind} {t : Ty} (l : Q → lightFields (.cons n k t f) = true) :
    (Q → light t = true) ∧ (Q → lightFields f = true) := by
  simp only [lightFields, Bool.and_eq_true] at l
  exact ⟨fun q => (l q).1.2, fun q => (l q).2⟩

mutual
theorem built {Q : Prop} {count : SizeC → Nat → Bool} : ∀ (t : Ty) (v : Val) (h : Store), (Q → light t = true) → hasShape count t v = true →
    TypedBy Q h → Built Q t v h (build t v h)
  | .boolean, v, h, _, s, w => by cases v <;> first | exact built_leaf rfl w rfl | simp [hasShape] at s
  | .integer _, v, h, _, s, w => by cases v <;> first | exact built_leaf rfl w rfl | simp [hasShape] at s
  | .enumerated _ _ _, v, h, _, s, w => by cases v <;> first | exact built_leaf rfl w rfl | simp [hasShape] at s
  | .bitString _, v, h, _, s, w => by cases v <;> first | exact built_leaf rfl w rfl | simp [hasShape] at s
  | .octetString _, v, h, _, s, w => by cases v <;> first | exact built_leaf rfl w rfl | simp [hasShape] at s
  | .seqOf c t, v, h, l, s, w => by
    match v, s with
    | .seqOf vs, s =>
      have lt : Q → light t = true := by simpa only [light] using l
      simp only [hasShape, Bool.and_eq_true, List.all_eq_true] at s
      obtain ⟨e, p, q⟩ := built_many (t := t) (f := build t) (P := fun v => hasShape count t v = true)
        (fun v h s w => built t v h lt s w) vs h s.2 w
      simp only [build]
      exact built_list lt e p q
    | .bool _, s | .int _, s | .enum _, s | .bits _, s | .octets _, s | .seq _, s | .choice _ _, s => simp [hasShape] at s
  | .choice ext r a g, v, h, l, s, w => by
    match v, s with
    | .choice pos v, s =>
      have l' := l
      simp only [light, Bool.and_eq_true] at l'
      simp only [hasShape] at s
      simp only [build]
      by_cases c : pos < r.length
      · rw [if_pos c] at s ⊢
        obtain ⟨k, t, co, b⟩ := built_alt r pos v h (fun q => (l' q).1.1) s w
        exact built_choice l (partAt_root co) b
      · rw [if_neg c] at s ⊢
        simp only [Bool.and_eq_true] at s
        by_cases d : pos < r.length + a.length
        · rw [if_pos d] at s ⊢
          obtain ⟨k, t, co, b⟩ := built_alt a _ v h (fun q => (l' q).1.2) s.2 w
          refine built_choice (k := k) l ?_ b
          have := partAt_add (r := r) (g := g) co
          rw [show r.length + (pos - r.length) = pos by omega] at this
          exact this
        · rw [if_neg d] at s ⊢
          obtain ⟨k, t, co, b⟩ := built_altG g _ v h (fun q => (l' q).2) s.2 w
          refine built_choice (k := k) l ?_ b
          have := partAt_group (r := r) (a := a) co
          rw [show r.length + a.length + (pos - (r.length + a.length)) = pos by omega] at this
          exact this
    | .bool _, s | .int _, s | .enum _, s | .bits _, s | .octets _, s | .seq _, s | .seqOf _, s => simp [hasShape] at s
  | .sequence ext r a g, v, h, l, s, w => by
    match v, s with
    | .seq cs, s =>
      have l' := l
      simp only [light, Bool.and_eq_true] at l'
      simp only [hasShape, Bool.and_eq_true] at s
      have fs : Fit count a (cs.drop r.length) ∧ FitG count g (cs.drop (r.length + a.length)) := by
        have s2 := s.2
        cases ext with
        | true =>
          simp only [if_true, Bool.and_eq_true] at s2
          exact ⟨fit_adds s2.1, fit_groups s2.2⟩
        | false =>
          have n := given_none s2
          refine ⟨fun i k t v _ gv => ?_, fun i k t v _ gv => ?_⟩
          · rw [n i] at gv; cases gv
          · have := n (a.length + i)
            rw [given_drop, ← Nat.add_assoc, ← given_drop, gv] at this
            cases this
      have bp := built_slots r cs h (fun q => (l' q).1.1) (fit_root s.1.2) w
      have bq := built_slots a _ _ (fun q => (l' q).1.2) fs.1 bp.ext.typed
      have bs := built_slotsG g _ _ (fun q => (l' q).2) fs.2 bq.ext.typed
      simp only [build]
      exact built_seq l bp bq bs
    | .bool _, s | .int _, s | .enum _, s | .bits _, s | .octets _, s | .choice _ _, s | .seqOf _, s => simp [hasShape] at s
theorem built_alt {Q : Prop} {count : SizeC → Nat → Bool} : ∀ (f : Fields) (p : Nat) (v : Val) (h : Store), (Q → lightFields f = true) →
    hasShapeAlt count f p v = true → TypedBy Q h → ∃ k t, compOf f p = some (k, t) ∧ Built Q t v h (buildAlt f p v h)
  | .nil, _, _, _, _, s, _ => by simp [hasShapeAlt] at s
  | .cons _ k t _, 0, v, h, l, s, w => by
    simp only [hasShapeAlt] at s
    simp only [buildAlt]
    exact ⟨k, t, rfl, built t v h (light_compOf' l).1 s w⟩
  | .cons _ _ _ r, p + 1, v, h, l, s, w => by
    simp only [hasShapeAlt] at s
    simp only [buildAlt]
    exact built_alt r p v h (light_compOf' l).2 s w
theorem built_altG {Q : Prop} {count : SizeC → Nat → Bool} : ∀ (g : Groups) (p : Nat) (v : Val) (h : Store), (Q → lightGroups g = true) →
    hasShapeAltG count g p v = true → TypedBy Q h → ∃ k t, compOfG g p = some (k, t) ∧ Built Q t v h (buildAltG g p v h)
  | .nil, _, _, _, _, s, _ => by simp [hasShapeAltG] at s
  | .cons f g, p, v, h, l, s, w => by
    simp only [lightGroups, Bool.and_eq_true] at l
    simp only [hasShapeAltG] at s
    simp only [buildAltG, compOfG]
    by_cases c : p < f.length
    · rw [if_pos c] at s ⊢
      rw [if_pos c]
      exact built_alt f p v h (fun q => (l q).1) s w
    · rw [if_neg c] at s ⊢
      rw [if_neg c]
      exact built_altG g _ v h (fun q => (l q).2) s w
theorem built_slots {Q : Prop} {count : SizeC → Nat → Bool} : ∀ (f : Fields) (cs : List (Option Val)) (h : Store), (Q → lightFields f = true) →
    Fit count f cs → TypedBy Q h → BuiltSlots Q f cs h (buildSlots f cs h)
  | .nil, _, h, _, _, w => by
    refine ⟨extends_refl w, rfl, fun i y e => ?_, rfl⟩
    simp [buildSlots, place] at e
  | .cons n k t r, cs, h, l, s, w => by
    have lr := light_compOf' l
    have s' : Fit count r cs.tail := fun i k t v c gv => s (i + 1) k t v c (by rw [← given_tail]; exact gv)
    simp only [buildSlots, given_head]
    cases hv : given cs 0 with
    | none =>
      have b := built_slots r cs.tail h lr.2 s' w
      refine ⟨b.ext, by simp only [List.length_cons, b.len, Fields.length], fun i y e => ?_, ?_⟩
      · match i, e with
        | i + 1, e => exact b.part i y (by simpa [place] using e)
      · simp only [treeSlots, ofSlots, given_head, hv, List.tail_cons, b.tree]
        rfl
    | some v =>
      have b0 := built t v h lr.1 (s 0 k t v rfl hv) w
      have b := built_slots r cs.tail _ lr.2 s' b0.ext.typed
      refine ⟨extends_trans b0.ext b.ext, by simp only [List.length_cons, b.len, Fields.length], fun i y e => ?_, ?_⟩
      · match i, e with
        | 0, e =>
          simp only [place, List.getElem?_cons_zero, Option.getD_some, Option.some.injEq] at e
          subst e
          exact ⟨b0.new, k, t, rfl, b.ext.isA b0.isA⟩
        | i + 1, e =>
          obtain ⟨ly, q⟩ := b.part i y (by simpa [place] using e)
          exact ⟨Nat.le_trans b0.ext.len ly, q⟩
      · simp only [treeSlots, ofSlots, given_head, hv, List.tail_cons, b.tree]
        have : place (some (build t v h).1 :: (buildSlots r cs.tail (build t v h).2).1) 0 = some (build t v h).1 := rfl
        rw [this]
        simp only [Option.map_some, b.ext.tree b0.ext.typed b0.isA, b0.tree]
theorem built_slotsG {Q : Prop} {count : SizeC → Nat → Bool} : ∀ (g : Groups) (cs : List (Option Val)) (h : Store), (Q → lightGroups g = true) →
    FitG count g cs → TypedBy Q h → BuiltSlotsG Q g cs h (buildSlotsG g cs h)
  | .nil, _, h, _, _, w => by
    refine ⟨extends_refl w, rfl, fun i y e => ?_, rfl⟩
    simp [buildSlotsG, place] at e
  | .cons f g, cs, h, l, s, w => by
    simp only [lightGroups, Bool.and_eq_true] at l
    have b0 := built_slots (count := count) f cs h (fun q => (l q).1)
      (fun i k t v c gv => s i k t v (by simp only [compOfG, if_pos (compOf_lt c), c]) gv) w
    have b := built_slotsG (count := count) g (cs.drop f.length) _ (fun q => (l q).2)
      (fun i k t v c gv => s (f.length + i) k t v (by
        simp only [compOfG]; rw [if_neg (by omega), Nat.add_sub_cancel_left]; exact c) (by rw [← given_drop]; exact gv)) b0.ext.typed
    have b0' := b0.later b.ext
    simp only [buildSlotsG]
    refine ⟨extends_trans b0.ext b.ext, by simp only [List.length_append, b0.len, b.len, Groups.size], fun i y e => ?_, ?_⟩
    · dsimp only at e
      simp only [compOfG]
      by_cases c : i < f.length
      · rw [place_left _ (by rw [b0.len]; exact c)] at e
        rw [if_pos c]
        exact b0'.part i y e
      · rw [place_right _ (by rw [b0.len]; omega), b0.len] at e
        rw [if_neg c]
        obtain ⟨ly, q⟩ := b.part _ y e
        exact ⟨Nat.le_trans b0.ext.len ly, q⟩
    · simp only [treeSlotsG, ofSlotsG]
      rw [treeSlots_left f _ _ _ b0.len, b0'.tree]
      congr 1
      rw [← b0.len, List.drop_left, b0.len]
      exact b.tree
end

end Verif.Shared
