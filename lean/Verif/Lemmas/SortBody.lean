import Verif.Lemmas.TypeGraph
/-!
# The body of a module is in an order in which nothing is used before it is assigned
-/
namespace Verif
open Spec

/-! ## more about aliases -/

theorem additionalSort_keep {α : Type} (ref : α → String) : ∀ (types comps : List α) (t : α), t ∈ types →
    ref t ∉ comps.map ref → t ∈ (additionalSort ref types comps).1
  | u :: types, comps, t, ht, h => by
    rw [additionalSort]
    rcases List.mem_cons.1 ht with rfl | ht'
    · have : (comps.map ref).findIdx? (· == ref t) = none := by
        rw [List.findIdx?_eq_none_iff]
        intro x hx
        rw [beq_eq_false_iff_ne]
        rintro rfl
        exact h hx
      rw [this]
      exact List.mem_cons_self ..
    · split
      · exact List.mem_cons_of_mem _ (additionalSort_keep ref types comps t ht' h)
      · rename_i i hi
        refine additionalSort_keep ref types _ t ht' ?_
        intro hm
        rw [List.map_append, List.map_cons, List.mem_append, List.mem_cons] at hm
        rw [List.findIdx?_eq_some_iff_getElem] at hi
        obtain ⟨hlt, h2, _⟩ := hi
        have hu : ref u ∈ comps.map ref := by
          rw [← eq_of_beq h2]; exact List.getElem_mem ..
        rcases hm with hm | hm | hm
        · exact h ((List.take_sublist _ _).map ref |>.subset hm)
        · rw [hm] at h; exact h hu
        · exact h ((List.drop_sublist _ _).map ref |>.subset hm)

/-! ## what is seen of assignments -/

/-- Types with components. -/
def Composed (t : TObj) : Prop := ¬ Flat t ∧ ∀ m, t ≠ .ref m

theorem node_flat {n : String} {t : TObj} (h : Flat t) : (Assign.type n t).node.cls = .simple ∧
    (Assign.type n t).node.valuereference = "" := by
  cases t with
  | simple k c => cases k <;> exact ⟨rfl, rfl⟩
  | enumerated items => exact ⟨rfl, rfl⟩
  | _ => exact h.elim

theorem node_alias {n m : String} (h : m ∉ builtinTypes) : (Assign.type n (.ref m)).node = .type .defined m n "" [] := by
  rw [Assign.node, TObj.node, Node.assigned, if_neg (by simpa using h)]

theorem node_composed {n : String} {t : TObj} (h : Composed t) : (Assign.type n t).node.cls = .component ∧
    (Assign.type n t).node.typereference = n ∧ (Assign.type n t).node.refs = nodeRefs (t.node "") := by
  cases t with
  | simple k c => exact absurd trivial h.1
  | enumerated items => exact absurd trivial h.1
  | ref m => exact absurd rfl (h.2 m)
  | seqOf c e =>
    refine ⟨rfl, rfl, ?_⟩
    rw [TObj.node, nodeRefs_constructed (by decide), Props.refs_type (by simp), Assign.node, TObj.node, Node.assigned,
      if_pos (by decide), Props.refs_type (by simp)]
  | sequence items =>
    refine ⟨rfl, rfl, ?_⟩
    rw [TObj.node, nodeRefs_constructed (by decide), Props.refs_type (by simp), Assign.node, TObj.node, Node.assigned,
      if_pos (by decide), Props.refs_type (by simp)]
  | choice items =>
    refine ⟨rfl, rfl, ?_⟩
    rw [TObj.node, nodeRefs_constructed (by decide), Props.refs_type (by simp), Assign.node, TObj.node, Node.assigned,
      if_pos (by decide), Props.refs_type (by simp)]

theorem type_cases (t : TObj) : Flat t ∨ (∃ m, t = .ref m) ∨ Composed t := by
  cases t with
  | simple k c => exact .inl trivial
  | enumerated items => exact .inl trivial
  | ref m => exact .inr (.inl ⟨m, rfl⟩)
  | _ => exact .inr (.inr ⟨id, by rintro m ⟨⟩⟩)

theorem node_component {a : Assign} (h : a.node.cls = .component) : ∃ n t, a = .type n t ∧ Composed t := by
  cases a with
  | value n k l => cases h
  | constant n m l => cases h
  | type n t =>
    rcases type_cases t with hf | ⟨m, rfl⟩ | hc
    · rw [(node_flat hf).1] at h; cases h
    · rw [Assign.node, TObj.node, Node.assigned] at h
      split at h <;> cases h
    · exact ⟨n, t, rfl, hc⟩

theorem component_names : ∀ (as : List Assign),
    ((Props.componentTypes Assign.node as).map fun a => a.node.typereference).Sublist (typeNames as)
  | [] => List.Sublist.refl _
  | a :: as => by
    have ih := component_names as
    rw [Props.componentTypes, List.filter_cons]
    have e1 := typeNames_append [a] as
    rw [List.singleton_append] at e1
    rw [e1]
    split
    · rename_i hc
      obtain ⟨n, t, rfl, ht⟩ := node_component (eq_of_beq hc)
      rw [List.map_cons, (node_composed ht).2.1, show typeNames [Assign.type n t] = [n] from rfl]
      exact ih.cons₂ n
    · exact ih.trans (List.sublist_append_right ..)

theorem component_count (as : List Assign) : (Props.componentTypes Assign.node as).length = componentCount as := by
  rw [componentCount, Props.componentTypes]
  congr 2
  funext a
  cases a with
  | value n k l => rfl
  | constant n m l => rfl
  | type n t =>
    cases t with
    | simple k c => cases k <;> rfl
    | ref m =>
      rw [Assign.node, TObj.node, Node.assigned]
      split <;> rfl
    | _ => rfl

/-! ## the order -/

section
variable {as : List Assign} {τ : List (String × Ty)} {ν : List (String × Ty × Val)}

theorem names_component (hn : Names as) : ((Props.componentTypes Assign.node as).map fun a => a.node.typereference).Nodup :=
  hn.distinct.1.sublist (component_names as)

theorem not_library (hn : Names as) {m : String} (h : m ∈ typeNames as) : m ∉ simpleNames ∧ m ∉ constructedNames := by
  have h1 : ∀ x ∈ simpleNames, x ∈ builtinTypes := by decide
  have h2 : ∀ x ∈ constructedNames, x ∈ builtinTypes := by decide
  exact ⟨fun hm => not_builtin hn h (h1 m hm), fun hm => not_builtin hn h (h2 m hm)⟩

theorem component_smaller (hs : Solves as τ ν) (hr : ∀ a ∈ as, RegularAssign as τ ν a) {n m : String} {t : TObj}
    (h : .type n t ∈ as) (hc : Composed t) (hm : m ∈ typesIn t) :
    ∃ T U, τ.lookup n = some T ∧ τ.lookup m = some U ∧ sizeOf U < sizeOf T := by
  obtain ⟨T, h1, h2⟩ := hs.type h
  obtain ⟨U, e1, _, e3⟩ := means_size h2 (hr _ h) m hm
  exact ⟨T, U, h1, e1, e3 hc.2⟩

theorem module_acyclic (hs : Solves as τ ν) (hr : ∀ a ∈ as, RegularAssign as τ ν a) :
    Acyclic (fun a => a.node.typereference) (fun a => a.node.refs) (Props.componentTypes Assign.node as) := by
  have step : ∀ a b, RefersTo (fun a => a.node.typereference) (fun a => a.node.refs) (Props.componentTypes Assign.node as)
      a b → ∃ T U, τ.lookup a = some T ∧ τ.lookup b = some U ∧ sizeOf U < sizeOf T := by
    rintro a b ⟨_, _, c, hc, rfl, hb⟩
    obtain ⟨hc, hcls⟩ := List.mem_filter.1 hc
    obtain ⟨n, t, rfl, ht⟩ := node_component (eq_of_beq hcls)
    obtain ⟨_, h2, h3⟩ := node_composed (n := n) ht
    simp only [h3] at hb
    simp only [h2]
    exact component_smaller hs hr hc ht (mem_nodeRefs t "" hb)
  have path : ∀ a b, Reaches (fun a => a.node.typereference) (fun a => a.node.refs)
      (Props.componentTypes Assign.node as) a b → ∃ T U, τ.lookup a = some T ∧ τ.lookup b = some U ∧ sizeOf U < sizeOf T := by
    intro a b h
    induction h with
    | direct h => exact step _ _ h
    | step _ h ih =>
      obtain ⟨T, U, h1, h2, h3⟩ := ih
      obtain ⟨U', V, e1, e2, e3⟩ := step _ _ h
      rw [h2] at e1
      cases e1
      exact ⟨T, V, h1, e2, by omega⟩
  intro a ha
  obtain ⟨T, U, h1, h2, h3⟩ := path a a ha
  rw [h1] at h2
  cases h2
  omega

theorem moduleBody_perm (hn : Names as) : (moduleBody as).1.Perm as := Props.C31_perm Assign.node (names_component hn)

theorem moduleBody_order (hn : Names as) (hs : Solves as τ ν) (hr : ∀ a ∈ as, RegularAssign as τ ν a)
    (hlt : componentCount as < 100) : (moduleBody as).2 = false ∧
      (Props.componentTypes Assign.node (moduleBody as).1).Pairwise fun a b => ¬ Mentions a.node b.node.typereference :=
  Props.C32_acyclic_partial Assign.node (names_component hn) (module_acyclic hs hr) (by rw [component_count]; exact hlt)

theorem mangle_ne {n : String} (h : LowerName n) : mangle n ≠ "" := by
  obtain ⟨_, c, r, hc, _⟩ := h
  rw [mangle, hc, List.map_cons]
  intro he
  have := congrArg String.toList he
  simp at this

/-- The five parts of the body. -/
structure Parts (as : List Assign) : Type where
  values : List Assign
  flats : List Assign
  aliases : List Assign
  constants : List Assign
  comps : List Assign

def partsOfBody (as : List Assign) : Parts as :=
  let types := as.filter fun a => a.node.cls == .defined && a.node.valuereference == ""
  let comps := (sortComponents Assign.node (as.filter fun a => a.node.cls == .component)).1
  { values := as.filter fun a => a.node.cls == .simple && a.node.valuereference != ""
    flats := as.filter fun a => a.node.cls == .simple && a.node.valuereference == ""
    aliases := (additionalSort (fun a => a.node.typereference) types comps).1
    constants := as.filter fun a => a.node.cls == .defined && a.node.valuereference != ""
    comps := (additionalSort (fun a => a.node.typereference) types comps).2 }

theorem body_parts (as : List Assign) : (moduleBody as).1 =
    (partsOfBody as).values ++ ((partsOfBody as).flats ++ ((partsOfBody as).aliases ++
      ((partsOfBody as).constants ++ (partsOfBody as).comps))) := by
  simp only [moduleBody, sortAssignments, partsOfBody, List.append_assoc]

theorem mem_values (hn : Names as) {n : String} {k : Simple} {l : Lit} (h : .value n k l ∈ as) :
    .value n k l ∈ (partsOfBody as).values := by
  refine List.mem_filter.2 ⟨h, ?_⟩
  have := mangle_ne (hn.values n (List.mem_filterMap.2 ⟨_, h, rfl⟩))
  simpa [Assign.node, Node.cls, Node.valuereference] using this

theorem mem_constants (hn : Names as) {n m : String} {l : Lit} (h : .constant n m l ∈ as) :
    .constant n m l ∈ (partsOfBody as).constants := by
  refine List.mem_filter.2 ⟨h, ?_⟩
  have := mangle_ne (hn.values n (List.mem_filterMap.2 ⟨_, h, rfl⟩))
  simpa [Assign.node, Node.cls, Node.valuereference] using this

theorem mem_flats {n : String} {t : TObj} (h : .type n t ∈ as) (hf : Flat t) : .type n t ∈ (partsOfBody as).flats :=
  List.mem_filter.2 ⟨h, by rw [(node_flat hf).1, (node_flat hf).2]; rfl⟩

theorem comps_perm (hn : Names as) : (sortComponents Assign.node (as.filter fun a => a.node.cls == .component)).1.Perm
    (as.filter fun a => a.node.cls == .component) := sortLoop_perm 100 false (names_component hn)

theorem mem_comps (hn : Names as) {n : String} {t : TObj} (h : .type n t ∈ as) (hc : Composed t) :
    .type n t ∈ (partsOfBody as).comps := by
  refine (additionalSort_sublist _ _ _).subset ((comps_perm hn).mem_iff.2 (List.mem_filter.2 ⟨h, ?_⟩))
  rw [(node_composed hc).1]; rfl

/-- The name an alias names is assigned. -/
theorem alias_target (hs : Solves as τ ν) {n m : String} (h : .type n (.ref m) ∈ as) : m ∈ typeNames as := by
  obtain ⟨T, _, h2⟩ := hs.type h
  cases h2 with
  | ref hl => exact hs.types hl

theorem mem_types (hn : Names as) (hs : Solves as τ ν) {n m : String} (h : .type n (.ref m) ∈ as) :
    .type n (.ref m) ∈ as.filter fun a => a.node.cls == .defined && a.node.valuereference == "" := by
  refine List.mem_filter.2 ⟨h, ?_⟩
  rw [node_alias (not_builtin hn (alias_target hs h))]
  rfl

theorem mem_aliases_or (hn : Names as) (hs : Solves as τ ν) {n m : String} (h : .type n (.ref m) ∈ as) :
    .type n (.ref m) ∈ (partsOfBody as).aliases ∨ .type n (.ref m) ∈ (partsOfBody as).comps := by
  have := (additionalSort_perm (fun a => a.node.typereference)
    (as.filter fun a => a.node.cls == .defined && a.node.valuereference == "")
    (sortComponents Assign.node (as.filter fun a => a.node.cls == .component)).1).mem_iff.2
    (List.mem_append_left _ (mem_types hn hs h))
  exact List.mem_append.1 this

theorem flatName_not_component (hn : Names as) {m : String} (h : FlatName as m) {t : TObj} (ht : .type m t ∈ as) :
    ¬ Composed t := by
  cases h with
  | type h1 h2 => rw [type_unique hn ht h1]; exact fun hc => hc.1 h2
  | alias h1 h2 => rw [type_unique hn ht h1]; exact fun hc => hc.2 _ rfl

theorem mem_aliases (hn : Names as) (hs : Solves as τ ν) {n m : String} (h : .type n (.ref m) ∈ as) (hf : FlatName as m) :
    .type n (.ref m) ∈ (partsOfBody as).aliases := by
  refine additionalSort_keep _ _ _ _ (mem_types hn hs h) ?_
  intro hm
  obtain ⟨c, hc, he⟩ := List.mem_map.1 hm
  obtain ⟨hc, hcls⟩ := List.mem_filter.1 ((comps_perm hn).mem_iff.1 hc)
  obtain ⟨n', t, rfl, ht⟩ := node_component (eq_of_beq hcls)
  have he : (Assign.type n' t).node.typereference = (Assign.type n (.ref m)).node.typereference := he
  rw [(node_composed ht).2.1, node_alias (not_builtin hn (alias_target hs h))] at he
  have he : n' = m := he
  subst he
  exact flatName_not_component hn hf hc ht

theorem flatName_early (hn : Names as) (hs : Solves as τ ν) {m : String} {t : TObj} (h : FlatName as m)
    (ht : .type m t ∈ as) : .type m t ∈ (partsOfBody as).flats ∨ .type m t ∈ (partsOfBody as).aliases := by
  cases h with
  | type h1 h2 => rw [type_unique hn ht h1]; exact .inl (mem_flats h1 h2)
  | alias h1 h2 => rw [type_unique hn ht h1]; exact .inr (mem_aliases hn hs h1 h2)

theorem nodup_as (hn : Names as) : as.Nodup := assign_nodup hn.distinct.1 hn.distinct.2

theorem value_name {s : String} (h : s ∈ valueNames as) : (∃ k l, .value s k l ∈ as) ∨ ∃ m l, .constant s m l ∈ as := by
  obtain ⟨a, ha, he⟩ := List.mem_filterMap.1 h
  cases a with
  | type n t => simp at he
  | value n k l => simp only [Option.some.injEq] at he; subst he; exact .inl ⟨k, l, ha⟩
  | constant n m l => simp only [Option.some.injEq] at he; subst he; exact .inr ⟨m, l, ha⟩

/-- The body is in an order in which nothing is used before it is assigned. -/
theorem body_usedAfter (hn : Names as) (hs : Solves as τ ν) (hr : ∀ a ∈ as, RegularAssign as τ ν a) (ho : Sortable as)
    (hlt : componentCount as < 100) : UsedAfter (moduleBody as).1 := by
  have hp := moduleBody_perm hn
  have hord := (moduleBody_order hn hs hr hlt).2
  have hnd : (moduleBody as).1.Nodup := hp.nodup_iff.2 (nodup_as hn)
  -- members of the parts
  have hb := body_parts as
  have before12 : ∀ {a b}, a ∈ (partsOfBody as).values → b ∈ (partsOfBody as).flats ++ ((partsOfBody as).aliases ++
      ((partsOfBody as).constants ++ (partsOfBody as).comps)) → Before (moduleBody as).1 a b := by
    intro a b ha hb'; rw [hb]; exact before_append ha hb'
  have before2 : ∀ {a b}, a ∈ (partsOfBody as).flats → b ∈ (partsOfBody as).aliases ++
      ((partsOfBody as).constants ++ (partsOfBody as).comps) → Before (moduleBody as).1 a b := by
    intro a b ha hb'; rw [hb]; exact (before_append ha hb').trans (List.sublist_append_right ..)
  have before3 : ∀ {a b}, a ∈ (partsOfBody as).aliases → b ∈ (partsOfBody as).constants ++ (partsOfBody as).comps →
      Before (moduleBody as).1 a b := by
    intro a b ha hb'; rw [hb]
    exact (before_append ha hb').trans ((List.sublist_append_right ..).trans (List.sublist_append_right ..))
  have before4 : ∀ {a b}, a ∈ (partsOfBody as).constants → b ∈ (partsOfBody as).comps → Before (moduleBody as).1 a b := by
    intro a b ha hb'; rw [hb]
    exact (before_append ha hb').trans ((List.sublist_append_right ..).trans ((List.sublist_append_right ..).trans
      (List.sublist_append_right ..)))
  have vname : ∀ {s}, s ∈ valueNames (moduleBody as).1 → s ∈ valueNames as := fun h => (hp.filterMap _).mem_iff.1 h
  -- where types are
  have typePos : ∀ {n t}, .type n t ∈ as → .type n t ∈ (partsOfBody as).flats ++ ((partsOfBody as).aliases ++
      ((partsOfBody as).constants ++ (partsOfBody as).comps)) := by
    intro n t h
    rcases type_cases t with hf | ⟨m, rfl⟩ | hc
    · exact List.mem_append_left _ (mem_flats h hf)
    · rcases mem_aliases_or hn hs h with h | h
      · exact List.mem_append_right _ (List.mem_append_left _ h)
      · exact List.mem_append_right _ (List.mem_append_right _ (List.mem_append_right _ h))
    · exact List.mem_append_right _ (List.mem_append_right _ (List.mem_append_right _ (mem_comps hn h hc)))
  constructor
  · intro a n t ha hu ht
    have ha := hp.mem_iff.1 ha
    have ht := hp.mem_iff.1 ht
    cases a with
    | value n' k l => simp [usedTypes] at hu
    | constant n' m l =>
      rw [usedTypes, List.mem_singleton] at hu
      subst hu
      obtain ⟨k, c, hk, _⟩ := hr _ ha
      rw [type_unique hn ht hk]
      exact before2 (mem_flats hk trivial) (List.mem_append_right _ (List.mem_append_left _ (mem_constants hn ha)))
    | type n' t' =>
      rw [usedTypes] at hu
      rcases type_cases t' with hf | ⟨m, rfl⟩ | hc
      · cases t' with
        | simple k c => simp [typesIn] at hu
        | enumerated items => simp [typesIn] at hu
        | _ => exact hf.elim
      · rw [typesIn, List.mem_singleton] at hu
        subst hu
        have hpos := mem_aliases_or hn hs ha
        rcases type_cases t with hf | ⟨m, rfl⟩ | hc
        · refine before2 (mem_flats ht hf) ?_
          rcases hpos with h | h
          · exact List.mem_append_left _ h
          · exact List.mem_append_right _ (List.mem_append_right _ h)
        · rcases ho.aliases ha ht with h | ⟨hfl, hsub⟩
          · exact absurd rfl (h m)
          · -- both aliases are left in their order
            have h1 : .type n (.ref m) ∈ (partsOfBody as).aliases := by
              cases hfl with
              | type h1 h2 => have := type_unique hn ht h1; subst this; exact h2.elim
              | alias h1 h2 =>
                have := type_unique hn ht h1
                simp only [TObj.ref.injEq] at this
                subst this
                exact mem_aliases hn hs h1 h2
            have h2 := mem_aliases hn hs ha hfl
            have hne : Assign.type n (.ref m) ≠ .type n' (.ref n) := by
              rintro he
              rw [he] at hsub
              exact (List.nodup_cons.1 ((nodup_as hn).sublist hsub)).1 (by simp)
            have hsubl : (partsOfBody as).aliases.Sublist as :=
              (additionalSort_left _ _ _).trans (List.filter_sublist)
            have : Before (partsOfBody as).aliases (.type n (.ref m)) (.type n' (.ref n)) := by
              rcases before_total h1 h2 hne with h | h
              · exact h
              · exact absurd (List.Sublist.trans h hsubl) (before_asymm (nodup_as hn) hsub)
            rw [hb]
            exact this.trans ((List.sublist_append_left ..).trans ((List.sublist_append_right ..).trans
              (List.sublist_append_right ..)))
        · have hcl := node_composed (n := n) hc
          have hnode := node_alias (n := n') (not_builtin hn (alias_target hs ha))
          exact Props.C33_after Assign.node (names_component hn) ha (by rw [hnode]; rfl) (by rw [hnode]; rfl)
            (List.mem_filter.2 ⟨ht, by rw [hcl.1]; rfl⟩) (by rw [hnode, hcl.2.1]; rfl)
      · have hpos := mem_comps hn ha hc
        rcases type_cases t with hf | ⟨m, rfl⟩ | hc'
        · exact before2 (mem_flats ht hf) (List.mem_append_right _ (List.mem_append_right _ hpos))
        · rcases ho.components ha hc.1 hc.2 hu ht with h | hfl
          · exact absurd rfl (h m)
          · rcases flatName_early hn hs hfl ht with h | h
            · exact before2 h (List.mem_append_right _ (List.mem_append_right _ hpos))
            · exact before3 h (List.mem_append_right _ hpos)
        · have hmem : ∀ {n t}, Assign.type n t ∈ as → Composed t →
              Assign.type n t ∈ Props.componentTypes Assign.node (moduleBody as).1 := by
            intro n t h hc
            exact List.mem_filter.2 ⟨hp.mem_iff.2 h, by rw [(node_composed hc).1]; rfl⟩
          have hne : Assign.type n t ≠ .type n' t' := by
            intro he
            cases he
            obtain ⟨T, U, h1, h2, h3⟩ := component_smaller hs hr ha hc hu
            rw [h1] at h2
            cases h2
            omega
          rcases before_total (hmem ht hc') (hmem ha hc) hne with h | h
          · exact List.Sublist.trans h List.filter_sublist
          · exfalso
            have := List.pairwise_iff_forall_sublist.1 hord h
            refine this ((Props.C32_references _ _).1 ?_)
            obtain ⟨hl1, hl2⟩ := not_library hn (typeNames_mem.2 ⟨t, ht⟩)
            rw [(node_composed hc').2.1, (node_composed hc).2.2]
            exact nodeRefs_mem hl1 hl2 t' "" hu
  · intro a s ha hu hv
    have ha := hp.mem_iff.1 ha
    have hv := vname hv
    have hval : ∀ {k l}, .value s k l ∈ as → ∀ {b}, b ∈ (partsOfBody as).flats ++ ((partsOfBody as).aliases ++
      ((partsOfBody as).constants ++ (partsOfBody as).comps)) → ∃ c, s ∈ valueNames [c] ∧ Before (moduleBody as).1 c b :=
      fun hm _ hb' => ⟨_, by simp [valueNames], before12 (mem_values hn hm) hb'⟩
    cases a with
    | value n k l =>
      obtain ⟨k', l', hsub⟩ := ho.values ha hu hv
      refine ⟨.value s k' l', by simp [valueNames], ?_⟩
      have := before_filter (p := fun a => a.node.cls == .simple && a.node.valuereference != "") hsub
        (List.mem_filter.1 (mem_values hn (hsub.subset (by simp)))).2 (List.mem_filter.1 (mem_values hn ha)).2
      rw [hb]
      exact List.Sublist.trans this (List.sublist_append_left ..)
    | constant n m l =>
      rcases ho.constants ha hu hv with ⟨k, l', hm⟩ | ⟨m', l', hsub⟩
      · exact hval hm (List.mem_append_right _ (List.mem_append_right _ (List.mem_append_left _ (mem_constants hn ha))))
      · refine ⟨.constant s m' l', by simp [valueNames], ?_⟩
        have := before_filter (p := fun a => a.node.cls == .defined && a.node.valuereference != "") hsub
          (List.mem_filter.1 (mem_constants hn (hsub.subset (by simp)))).2 (List.mem_filter.1 (mem_constants hn ha)).2
        rw [hb]
        exact List.Sublist.trans this ((List.sublist_append_left ..).trans ((List.sublist_append_right ..).trans
          ((List.sublist_append_right ..).trans (List.sublist_append_right ..))))
    | type n t =>
      rw [usedValues] at hu
      rcases type_cases t with hf | ⟨m, rfl⟩ | hc
      · obtain ⟨k, l, hm⟩ := ho.plain ha hf hu hv
        exact hval hm (typePos ha)
      · simp [valuesIn] at hu
      · rcases value_name hv with ⟨k, l, hm⟩ | ⟨m, l, hm⟩
        · exact hval hm (typePos ha)
        · exact ⟨_, by simp [valueNames], before4 (mem_constants hn hm) (mem_comps hn ha hc)⟩

end

end Verif
