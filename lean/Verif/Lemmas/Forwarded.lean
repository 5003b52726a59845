import Verif.Lemmas.Relayed
import Verif.SpecReceived
import Verif.Lemmas.Object
/-!
# Programs that receive objects and send them on
-/
namespace Verif.Shared

open Spec

/-! ## Parts of an object that holds a value -/

theorem holds_component {e : Bool} {r a : Fields} {g : Groups} {cs : List (Option Val)} {h : Store} {x i : Nat} {k : Kind} {t : Ty}
    {v : Val} (w : Typed h) (o : Holds h (.sequence e r a g) (.seq cs) x) (p : partAt r a g i = some (k, t))
    (c : cs[i]? = some (some v)) : ∃ s y, h[x]? = some ⟨.sequence e r a g, .seq (some s)⟩ ∧ place s i = some y ∧ Holds h t v y := by
  obtain ⟨s, eb⟩ := isA_seq' w o.1
  have fo := w _ _ eb
  simp only [Formed] at fo
  have tr := o.2
  have any : cs.any Option.isSome = true := List.any_eq_true.mpr ⟨_, List.mem_of_getElem? c, rfl⟩
  rw [tree_seq (body_of eb)] at tr
  simp only [ofVal, any, if_true, Obj.seq.injEq] at tr
  cases s with
  | none => cases tr
  | some s =>
    simp only [Option.map_some, Option.some.injEq] at tr
    have sl := slot_parts (h := h) (ss := s) p
    rw [tr] at sl
    have sv := slot_ofParts (cs := cs) p
    unfold ofParts at sv
    rw [sv] at sl
    simp only [given, c, Option.getD_some, Option.map_some] at sl
    cases hp : place s i with
    | none => rw [hp] at sl; cases sl
    | some y =>
      rw [hp] at sl
      simp only [Option.map_some, Option.some.injEq] at sl
      obtain ⟨k', t', p', iy⟩ := fo.2 i y hp
      rw [p] at p'
      cases p'
      exact ⟨s, y, eb, hp, iy, sl.symm⟩

theorem holds_element {c : SizeC} {t : Ty} {vs : List Val} {h : Store} {x i : Nat} {v : Val} (w : Typed h)
    (o : Holds h (.seqOf c t) (.seqOf vs) x) (m : vs[i]? = some v) :
    ∃ es y, h[x]? = some ⟨.seqOf c t, .list (some es)⟩ ∧ es[i]? = some y ∧ Holds h t v y := by
  obtain ⟨b, eb⟩ := isA_cell o.1
  have fo := w _ _ eb
  match b, fo, eb with
  | .list es, fo, eb =>
    simp only [Formed] at fo
    have tr := o.2
    simp only [treeOf, body_of eb, ofVal, Obj.list.injEq] at tr
    cases vs with
    | nil => cases m
    | cons u us =>
      simp only [List.isEmpty_cons, Bool.false_eq_true, if_false] at tr
      cases es with
      | none => cases tr
      | some es =>
        simp only [Option.map_some, Option.some.injEq] at tr
        have l : (es.map (treeOf t h))[i]? = some (ofVal t v) := by rw [tr, List.getElem?_map, m]; rfl
        rw [List.getElem?_map, Option.map_eq_some_iff] at l
        obtain ⟨y, ey, ty⟩ := l
        exact ⟨es, y, eb, ey, fo y (List.mem_of_getElem? ey), ty⟩

theorem holds_alternative {e : Bool} {r a : Fields} {g : Groups} {h : Store} {x pos : Nat} {k : Kind} {t : Ty}
    {v : Val} (w : Typed h) (o : Holds h (.choice e r a g) (.choice pos v) x) (p : partAt r a g pos = some (k, t)) :
    ∃ y, h[x]? = some ⟨.choice e r a g, .choice (some (pos, y))⟩ ∧ Holds h t v y := by
  obtain ⟨b, eb⟩ := isA_cell o.1
  have fo := w _ _ eb
  match b, fo, eb with
  | .choice none, fo, eb =>
    have tr := o.2
    rw [ofVal_choice p] at tr
    simp only [treeOf, body_of eb] at tr
    cases tr
  | .choice (some (pos', y)), fo, eb =>
    simp only [Formed] at fo
    obtain ⟨k', t', p', iy⟩ := fo pos' y rfl
    have tr := o.2
    rw [ofVal_choice p, tree_choice (body_of eb) p'] at tr
    simp only [Obj.choice.injEq, Option.some.injEq, Prod.mk.injEq] at tr
    obtain ⟨rfl, q⟩ := tr
    rw [p] at p'
    cases p'
    exact ⟨y, eb, iy, q⟩

/-! ## Assigning an object that holds a value -/

theorem holds_set {e : Bool} {r a : Fields} {g : Groups} {cs : List (Option Val)} {h : Store} {x y i : Nat} {k : Kind} {t : Ty}
    {v : Val} (w : Typed h) (o : Holds h (.sequence e r a g) (.seq cs) x) (l : cs.length = r.length + a.length + g.size)
    (p : partAt r a g i = some (k, t)) (oy : Holds h t v y) :
    Holds (Deed.assigned h (.set x i y)) (.sequence e r a g) (.seq (cs.set i (some v))) x := by
  obtain ⟨s, q, q'⟩ := tree_set w o.1 p oy.1
  refine ⟨(isA_assigned _).mpr o.1, ?_⟩
  rw [q', oy.2, ofVal_set p l (o.2.symm.trans q)]

theorem holds_append {c : SizeC} {t : Ty} {vs : List Val} {h : Store} {x y : Nat} {v : Val} (w : Typed h)
    (o : Holds h (.seqOf c t) (.seqOf vs) x) (oy : Holds h t v y) :
    Holds (Deed.assigned h (.append x y)) (.seqOf c t) (.seqOf (vs ++ [v])) x := by
  obtain ⟨es, q, q'⟩ := tree_appended w o.1 oy.1
  refine ⟨(isA_assigned _).mpr o.1, ?_⟩
  rw [q', oy.2]
  have tr := o.2
  rw [q] at tr
  simp only [ofVal, Obj.list.injEq] at tr ⊢
  have : (vs ++ [v]).isEmpty = false := by cases vs <;> rfl
  simp only [this, Bool.false_eq_true, if_false, Option.some.injEq, List.map_append, List.map_cons, List.map_nil]
  congr 1
  cases vs with
  | nil => rw [tr]; rfl
  | cons u us => rw [tr]; rfl

theorem holds_choose {e : Bool} {r a : Fields} {g : Groups} {h : Store} {x y pos : Nat} {k : Kind} {t : Ty} {v : Val}
    (w : Typed h) (ix : IsA h (.choice e r a g) x) (p : partAt r a g pos = some (k, t)) (oy : Holds h t v y) :
    Holds (Deed.assigned h (.choose x pos y)) (.choice e r a g) (.choice pos v) x := by
  refine ⟨(isA_assigned _).mpr ix, ?_⟩
  rw [tree_chosen w ix p oy.1, oy.2, ofVal_choice p]

theorem typed_update {h : Store} {x : Nat} {T : Ty} {b : Body} (w : Typed h) (i : IsA h T x) (f : Formed h T b) :
    Typed (update h x b) := by
  intro z c e
  by_cases d : x = z
  · subst d
    obtain ⟨b', e'⟩ := isA_cell i
    rw [update_self e'] at e
    cases e
    exact formed_mono (fun _ _ => isA_update.mpr) f
  · rw [update_other h b d] at e
    exact formed_mono (fun _ _ => isA_update.mpr) (w _ _ e)

/-- Assigning objects of the right types keeps all types. -/
theorem typed_assigned {h : Store} (w : Typed h) : ∀ (d : Deed), Allowed h d → Typed (d.assigned h)
  | .encode _, _ => w
  | .dict _, _ => w
  | .look _ _, _ => w
  | .set x i y, ⟨e, r, a, g, k, t, ix, p, iy⟩ => by
    obtain ⟨s, eb⟩ := isA_seq' w ix
    have fo := w _ _ eb
    simp only [Formed] at fo
    have wd : width h x = r.length + a.length + g.size := by simp only [width, eb, Option.map_some]
    simp only [Deed.assigned, setAt, wd, body_of eb]
    refine typed_update w ix ?_
    simp only [Formed]
    refine ⟨by simp only [places, Option.getD_some, List.length_set]; exact fo.1, fun j z hz => ?_⟩
    rw [show ∀ n (l : List (Option Nat)), places n (some l) = l from fun _ _ => rfl,
      place_set _ _ _ _ (by rw [fo.1]; exact partAt_lt p)] at hz
    by_cases c : i = j
    · subst c
      rw [if_pos rfl] at hz
      cases hz
      exact ⟨k, t, p, iy⟩
    · rw [if_neg c] at hz
      exact fo.2 j z hz
  | .append x y, ⟨c, t, ix, iy⟩ => by
    obtain ⟨b, eb⟩ := isA_cell ix
    have fo := w _ _ eb
    match b, fo, eb with
    | .list es, fo, eb =>
      simp only [Formed] at fo
      simp only [Deed.assigned, appendAt, body_of eb]
      refine typed_update w ix ?_
      simp only [Formed, Option.getD_some, List.mem_append, List.mem_singleton]
      rintro z (m | rfl)
      · exact fo z m
      · exact iy
  | .choose x pos y, ⟨e, r, a, g, k, t, ix, p, iy⟩ => by
    obtain ⟨b, eb⟩ := isA_cell ix
    have fo := w _ _ eb
    match b, fo, eb with
    | .choice sel, fo, eb =>
      simp only [Deed.assigned, chooseAt, body_of eb]
      refine typed_update w ix ?_
      simp only [Formed]
      intro pos' y' q
      cases q
      exact ⟨k, t, p, iy⟩

/-! ## Objects elsewhere -/

/-- An object has the tree it had if nothing it contains changed. -/
theorem tree_apart {h h' : Store} (w : Typed h) (t : Ty) (z : Nat) (i : IsA h t z)
    (ag : ∀ y, Within h z y → h'[y]? = h[y]?) : treeOf t h' z = treeOf t h z := by
  have e : bodyAt h' z = bodyAt h z := by simp only [bodyAt, ag z (.self z)]
  obtain ⟨b, eb⟩ := isA_cell i
  have fo := w _ _ eb
  match t, b with
  | .seqOf c t, .list es =>
    simp only [Formed] at fo
    simp only [treeOf, e, body_of eb]
    cases es with
    | none => rfl
    | some es =>
      simp only [Option.map_some, Obj.list.injEq, Option.some.injEq]
      exact List.map_congr_left fun y m => tree_apart w t y (fo y m) fun x c => ag x (.element eb m c)
  | .choice ex r a g, .choice none => simp only [treeOf, e, body_of eb]
  | .choice ex r a g, .choice (some (pos, y)) =>
    simp only [Formed] at fo
    obtain ⟨k, u, p, iy⟩ := fo pos y rfl
    rw [tree_choice (body_of eb) p, tree_choice (e.trans (body_of eb)) p]
    have := partAt_size p
    rw [tree_apart w u y iy fun x c => ag x (.alternative eb c)]
  | .sequence ex r a g, .seq s =>
    simp only [Formed] at fo
    rw [tree_seq (body_of eb), tree_seq (e.trans (body_of eb))]
    cases s with
    | none => rfl
    | some ss =>
      simp only [Option.map_some, Obj.seq.injEq, Option.some.injEq]
      refine parts_congr fun i k u y p q => ?_
      obtain ⟨k', u', p', iy⟩ := fo.2 i y q
      rw [p] at p'
      cases p'
      have := partAt_size p
      exact tree_apart w u y iy fun x c => ag x (.component eb q c)
  | .boolean, _ => simp only [treeOf, e]
  | .integer _, _ => simp only [treeOf, e]
  | .enumerated _ _ _, _ => simp only [treeOf, e]
  | .bitString _, _ => simp only [treeOf, e]
  | .octetString _, _ => simp only [treeOf, e]
termination_by sizeOf t
decreasing_by all_goals (simp_wf; try omega)

/-- An assignment changes no other object. -/
theorem assigned_other (h : Store) (d : Deed) {z : Nat} (n : target d ≠ some z) : (d.assigned h)[z]? = h[z]? := by
  cases d with
  | set x i y =>
    simp only [Deed.assigned, setAt]
    split
    · exact update_other h _ fun c => n (congrArg some c)
    · rfl
  | append x y =>
    simp only [Deed.assigned, appendAt]
    split
    · exact update_other h _ fun c => n (congrArg some c)
    · rfl
  | choose x pos y =>
    simp only [Deed.assigned, chooseAt]
    split
    · exact update_other h _ fun c => n (congrArg some c)
    · rfl
  | _ => rfl

/-! ## Programs -/

theorem typed_of {h : Store} (w : WellTyped h) : Typed h := fun x c e => (w x c e).2

theorem performed_append : ∀ (l l' : List Deed) (h : Store),
    performed (l ++ l') h = performed l h ++ performed l' (doneAll l h)
  | [], _, _ => rfl
  | d :: l, l', h => by
    cases d <;> simp only [List.cons_append, performed, doneAll, performed_append l l', List.cons_append]

/-- What was assigned in a program. -/
def assignedAll : List Deed → Store → Store
  | [], h => h
  | d :: l, h => assignedAll l (d.assigned h)

theorem envisaged_append : ∀ (l l' : List Deed) (h : Store),
    envisaged (l ++ l') h = envisaged l h ++ envisaged l' (assignedAll l h)
  | [], _, _ => rfl
  | d :: l, l', h => by
    cases d <;> simp only [List.cons_append, envisaged, assignedAll, envisaged_append l l', List.cons_append] <;> rfl

theorem assignedAll_reads : ∀ (l : List Deed) (h : Store), (∀ d ∈ l, d.reads = true) → assignedAll l h = h
  | [], _, _ => rfl
  | d :: l, h, r => by
    have rd := r d (List.mem_cons_self ..)
    have : d.assigned h = h := by cases d <;> first | rfl | cases rd
    simp only [assignedAll, this]
    exact assignedAll_reads l h fun d m => r d (List.mem_cons_of_mem _ m)

theorem assignedAll_append : ∀ (l l' : List Deed) (h : Store), assignedAll (l ++ l') h = assignedAll l' (assignedAll l h)
  | [], _, _ => rfl
  | d :: l, l', h => by simp only [List.cons_append, assignedAll, assignedAll_append l l']

theorem isA_assignedAll : ∀ (l : List Deed) {h : Store} {t : Ty} {z : Nat}, IsA (assignedAll l h) t z ↔ IsA h t z
  | [], _, _, _ => Iff.rfl
  | d :: l, _, _, _ => (isA_assignedAll l).trans (isA_assigned d)

theorem isA_unique {h : Store} {t t' : Ty} {x : Nat} (i : IsA h t x) (i' : IsA h t' x) : t = t' := by
  simp only [IsA] at i i'
  rw [i] at i'
  cases i'
  rfl

/-- The last of the calls of `encode` in a program. -/
theorem encode_after {h : Store} {l : List Deed} {t : Ty} {x : Nat} (w : WellTyped h) (al : ∀ d ∈ l, Allowed h d)
    (se : ∀ d ∈ l, Sends h quiet d) (ix : IsA h t x) (q : quiet t = true) :
    (encodeAt x (doneAll l h)).1 = (encodeObj t (treeOf t (assignedAll l h) x)).1 := by
  have al' : ∀ d ∈ l ++ [.encode x], Allowed h d := by
    intro d m
    rcases List.mem_append.mp m with m | m
    · exact al d m
    · rw [List.mem_singleton] at m
      subst m
      exact ⟨t, ix⟩
  have se' : ∀ d ∈ l ++ [.encode x], Sends h quiet d := by
    intro d m
    rcases List.mem_append.mp m with m | m
    · exact se d m
    · rw [List.mem_singleton] at m
      subst m
      intro x' t' e i
      cases e
      rw [isA_unique i ix]
      exact q
  have e1 := performed_same l h h w w (grown_refl h) al se
  have e2 := performed_same (l ++ [.encode x]) h h w w (grown_refl h) al' se'
  rw [performed_append, envisaged_append, e1] at e2
  have e3 := List.append_cancel_left e2
  simp only [performed, envisaged, List.cons.injEq, and_true] at e3
  rw [e3]
  obtain ⟨b, eb⟩ := isA_cell ((isA_assignedAll l).mpr ix)
  simp only [encodeApart, eb]

/-! ## Programs that know nothing of the new objects -/

theorem update_append {h : Store} (e : Store) {x : Nat} (b : Body) (l : x < h.length) : update (h ++ e) x b = update h x b ++ e := by
  simp only [update]
  refine List.ext_getElem? fun z => ?_
  simp only [List.getElem?_modify, List.getElem?_append, List.length_modify]
  by_cases c : z < h.length
  · simp [c]
  · have : x ≠ z := by omega
    simp [c, this]

theorem assigned_append {h : Store} (e : Store) (d : Deed) (al : Allowed h d) : d.assigned (h ++ e) = d.assigned h ++ e := by
  cases d with
  | set x i y =>
    obtain ⟨_, _, _, _, _, _, ix, _⟩ := al
    have l := isA_lt ix
    simp only [Deed.assigned, setAt, width, List.getElem?_append_left l, bodyAt_append e l]
    split
    · exact update_append e _ l
    · rfl
  | append x y =>
    obtain ⟨_, _, ix, _⟩ := al
    have l := isA_lt ix
    simp only [Deed.assigned, appendAt, bodyAt_append e l]
    split
    · exact update_append e _ l
    · rfl
  | choose x pos y =>
    obtain ⟨_, _, _, _, _, _, ix, _⟩ := al
    have l := isA_lt ix
    simp only [Deed.assigned, chooseAt, bodyAt_append e l]
    split
    · exact update_append e _ l
    · rfl
  | encode x => rfl
  | dict x => rfl
  | look x p => rfl

theorem envisaged_more (e : Store) : ∀ (l : List Deed) (h : Store), WellTyped h → (∀ d ∈ l, Allowed h d) →
    envisaged l (h ++ e) = envisaged l h
  | [], _, _, _ => rfl
  | d :: l, h, w, al => by
    have ad := al d (List.mem_cons_self ..)
    have rest : envisaged l (d.assigned (h ++ e)) = envisaged l (d.assigned h) := by
      rw [assigned_append e d ad]
      exact envisaged_more e l _ (assigned_grown w w (grown_refl h) d ad).2.1
        fun d' m => allowed_assigned d d' (al d' (List.mem_cons_of_mem _ m))
    cases d with
    | encode x =>
      obtain ⟨t, ix⟩ := ad
      obtain ⟨b, eb⟩ := isA_cell ix
      simp only [envisaged]
      refine congr (congrArg _ ?_) rest
      simp only [encodeApart, List.getElem?_append_left (isA_lt ix), eb, tree_append (typed_of w) e ix]
    | _ => exact rest

theorem pictured_more (e : Store) : ∀ (l : List Deed) (h : Store), WellTyped h → (∀ d ∈ l, Allowed h d) →
    pictured l (h ++ e) = pictured l h
  | [], _, _, _ => rfl
  | d :: l, h, w, al => by
    have ad := al d (List.mem_cons_self ..)
    have rest : pictured l (d.assigned (h ++ e)) = pictured l (d.assigned h) := by
      rw [assigned_append e d ad]
      exact pictured_more e l _ (assigned_grown w w (grown_refl h) d ad).2.1
        fun d' m => allowed_assigned d d' (al d' (List.mem_cons_of_mem _ m))
    cases d with
    | dict x =>
      obtain ⟨t, ix⟩ := ad
      obtain ⟨b, eb⟩ := isA_cell ix
      simp only [pictured]
      refine congr (congrArg _ ?_) rest
      simp only [dictApart, List.getElem?_append_left (isA_lt ix), eb, tree_append (typed_of w) e ix]
    | _ => exact rest

theorem allowed_append {h : Store} (e : Store) : ∀ (d : Deed), Allowed h d → Allowed (h ++ e) d
  | .encode _, ⟨t, i⟩ => ⟨t, isA_append e i⟩
  | .dict _, ⟨t, i⟩ => ⟨t, isA_append e i⟩
  | .look _ _, ⟨t, i⟩ => ⟨t, isA_append e i⟩
  | .set _ _ _, ⟨_, _, _, _, _, _, i, p, j⟩ => ⟨_, _, _, _, _, _, isA_append e i, p, isA_append e j⟩
  | .append _ _, ⟨_, _, i, j⟩ => ⟨_, _, isA_append e i, isA_append e j⟩
  | .choose _ _ _, ⟨_, _, _, _, _, _, i, p, j⟩ => ⟨_, _, _, _, _, _, isA_append e i, p, isA_append e j⟩

theorem sends_append {h : Store} (e : Store) {q : Ty → Bool} {d : Deed} (al : Allowed h d) (s : Sends h q d) :
    Sends (h ++ e) q d := by
  rintro x t rfl i
  obtain ⟨t', i'⟩ := al
  rw [isA_unique i (isA_append e i')]
  exact s x t' rfl i'

theorem displays_append {h : Store} (e : Store) {q : Ty → Bool} {d : Deed} (al : Allowed h d) (s : Displays h q d) :
    Displays (h ++ e) q d := by
  rintro x t rfl i
  obtain ⟨t', i'⟩ := al
  rw [isA_unique i (isA_append e i')]
  exact s x t' rfl i'

end Verif.Shared
