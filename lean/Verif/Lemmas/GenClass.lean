import Verif.Lemmas.GenValue
/-!
# A generated class is the type it was generated from
-/
namespace Verif

open Spec

/-! ## lists of components -/

section lists
variable {α β : Type}

def mapItem (f : α → β) : Item α → Item β
  | .comp x => .comp (f x)
  | .marker => .marker
  | .group xs => .group (xs.map f)

theorem rootOf_map (f : α → β) : ∀ l : List (Item α), rootOf (l.map (mapItem f)) = (rootOf l).map f
  | [] => rfl
  | .comp x :: r => by simp [mapItem, rootOf, rootOf_map f r]
  | .marker :: r => rfl
  | .group xs :: r => by simp [mapItem, rootOf, rootOf_map f r]

theorem singlesOf_map (f : α → β) : ∀ l : List (Item α), singlesOf (l.map (mapItem f)) = (singlesOf l).map f
  | [] => rfl
  | .comp x :: r => by simp [mapItem, singlesOf, singlesOf_map f r]
  | .marker :: r => by simp [mapItem, singlesOf, singlesOf_map f r]
  | .group xs :: r => by simp [mapItem, singlesOf, singlesOf_map f r]

theorem additionsOf_map (f : α → β) : ∀ l : List (Item α), additionsOf (l.map (mapItem f)) = (additionsOf l).map f
  | [] => rfl
  | .comp x :: r => by simp [mapItem, additionsOf, additionsOf_map f r]
  | .marker :: r => by simp [mapItem, additionsOf, singlesOf_map f r]
  | .group xs :: r => by simp [mapItem, additionsOf, additionsOf_map f r]

theorem groupsOf_map (f : α → β) : ∀ l : List (Item α), groupsOf (l.map (mapItem f)) = (groupsOf l).map (List.map f)
  | [] => rfl
  | .comp x :: r => by simp [mapItem, groupsOf, groupsOf_map f r]
  | .marker :: r => by simp [mapItem, groupsOf, groupsOf_map f r]
  | .group xs :: r => by simp [mapItem, groupsOf, groupsOf_map f r]

theorem hasMarker_map (f : α → β) : ∀ l : List (Item α), hasMarker (l.map (mapItem f)) = hasMarker l
  | [] => rfl
  | .comp x :: r => by simp [mapItem, hasMarker, hasMarker_map f r]
  | .marker :: r => rfl
  | .group xs :: r => by simp [mapItem, hasMarker, hasMarker_map f r]

theorem singlesOf_split : ∀ l : List (Item α), singlesOf l = singlesOf (upTo l) ++ singlesOf (past l)
  | [] => rfl
  | .comp x :: r => by simp [singlesOf, upTo, past, singlesOf_split r]
  | .marker :: r => by simp [singlesOf, upTo, past]
  | .group xs :: r => by simp [singlesOf, upTo, past, singlesOf_split r]

theorem groupsOf_split : ∀ l : List (Item α), groupsOf l = groupsOf (upTo l) ++ groupsOf (past l)
  | [] => rfl
  | .comp x :: r => by simp [groupsOf, upTo, past, groupsOf_split r]
  | .marker :: r => by simp [groupsOf, upTo, past]
  | .group xs :: r => by simp [groupsOf, upTo, past, groupsOf_split r]

theorem rootOf_upTo : ∀ l : List (Item α), rootOf l = singlesOf (upTo l)
  | [] => rfl
  | .comp x :: r => by simp [rootOf, singlesOf, upTo, rootOf_upTo r]
  | .marker :: r => rfl
  | .group xs :: r => by simp [rootOf, singlesOf, upTo, rootOf_upTo r]

theorem additionsOf_past : ∀ l : List (Item α), additionsOf l = singlesOf (past l)
  | [] => rfl
  | .comp x :: r => by simp [additionsOf, past, additionsOf_past r]
  | .marker :: r => rfl
  | .group xs :: r => by simp [additionsOf, past, additionsOf_past r]

end lists

/-- The function on components. -/
def onComp (f : String → TObj → Pres → NT) (c : String × TObj × Pres) : NT := f c.1 c.2.1 c.2.2

theorem comps_toks (f : String → TObj → Pres → NT) : ∀ cs : Comps,
    cs.toks f = ((compList cs).map (onComp f)).map .comp
  | .nil => rfl
  | .cons id t p r => by simp [Comps.toks, compList, onComp, comps_toks f r]

theorem items_toks (f : String → TObj → Pres → NT) : ∀ items : Items,
    items.toks f = written ((itemList items).map (mapItem (onComp f)))
  | .nil => rfl
  | .comp id t p r => by simp [Items.toks, itemList, mapItem, written, onComp, items_toks f r]
  | .marker r => by simp [Items.toks, itemList, mapItem, written, items_toks f r]
  | .group cs r => by simp [Items.toks, itemList, mapItem, written, items_toks f r, comps_toks]

theorem partsOf_ok (f : String → TObj → Pres → NT) (items : Items) (h : RegularList (itemList items)) :
    ∃ st, partsOf (items.toks f) = .ok st ∧ st.marker = hasMarker (itemList items) ∧
      st.root = (singlesOf (upTo (itemList items)) ++ singlesOf (past (past (itemList items)))).map (onComp f) ∧
      st.addition = (singlesOf (upTo (past (itemList items)))).map (onComp f) ∧
      st.groups = (groupsOf (upTo (past (itemList items)))).map (List.map (onComp f)) := by
  obtain ⟨_, _, h1, h2, h3⟩ := h
  refine ⟨_, by rw [partsOf, items_toks, Props.C36_parts], ?_, ?_, ?_, ?_⟩
  · exact hasMarker_map _ _
  · show rootOf _ = _
    rw [rootOf_map, rootOf_upTo, h1, List.append_nil]
  · show additionsOf _ = _
    rw [additionsOf_map, additionsOf_past, singlesOf_split (past (itemList items)), h1, List.append_nil]
  · simp only [groupsOf_map]
    rw [groupsOf_split (itemList items), groupsOf_split (past (itemList items)), h2, h3]
    simp

theorem declared_parts {l : List (Item (String × TObj × Pres))} (h : RegularList l) (c : String × TObj × Pres) :
    c ∈ declared l ↔ c ∈ singlesOf (upTo l) ++ singlesOf (past (past l)) ∨ c ∈ singlesOf (upTo (past l)) ∨
      ∃ g ∈ groupsOf (upTo (past l)), c ∈ g := by
  obtain ⟨_, _, h1, h2, h3⟩ := h
  rw [← (Props.C36_perm l).mem_iff, rootOf_upTo, additionsOf_past, singlesOf_split (past l), groupsOf_split l,
    groupsOf_split (past l), h1, h2, h3]
  simp only [List.append_nil, List.nil_append, List.mem_append, List.mem_flatten, or_assoc]

/-! ## the surroundings of a class -/

/-- The module has been loaded up to this point; `as` are all its assignments. -/
structure World (as : List Assign) (env : List (String × PyObj)) (τ : List (String × Ty))
    (ν : List (String × Ty × Val)) : Prop where
  names : Names as
  builtin : ∀ n o, header.lookup n = some o → env.lookup n = some o
  types : ∀ n T, τ.lookup n = some T → UpperName n ∧ env.lookup (pyName n) = some (.cls T)
  values : ValuesIn env ν
  lower : ∀ s x, ν.lookup s = some x → LowerName s
  shapes : ∀ n t T, .type n t ∈ as → τ.lookup n = some T → Shape t T
  constants : ∀ s n l, .constant s n l ∈ as → (∃ k c, .type n (.simple k c) ∈ as) ∧
    ∀ T v, ν.lookup s = some (T, v) → τ.lookup n = some T

/-- The class of a type can be generated and loaded. -/
def ClassOk (ctx : Ctx) (env : List (String × PyObj)) (t : TObj) (T : Ty) : Prop :=
  ∀ name, ∃ code, classOf ctx name t = .ok code ∧ code.name = name ∧ loadCode env code = .ok T

theorem ClassOk.unique {ctx : Ctx} {env : List (String × PyObj)} {t : TObj} {T T' : Ty} (h : ClassOk ctx env t T)
    (h' : ClassOk ctx env t T') : T = T' := by
  obtain ⟨c, h1, _, h2⟩ := h ""
  obtain ⟨c', h1', _, h2'⟩ := h' ""
  rw [h1] at h1'
  cases h1'
  rw [h2] at h2'
  exact Except.ok.inj h2'

theorem ctx_types {as : List Assign} {n : String} {t : TObj} (hn : Names as) (h : .type n t ∈ as) :
    lookupLast (ctxOf as).types n = some t := by
  refine lookupLast_of_mem ?_ (List.mem_filterMap.2 ⟨_, h, rfl⟩)
  have e : ((ctxOf as).types.map Prod.fst) = typeNames as := by
    simp only [ctxOf, typeNames, List.map_filterMap]
    congr 1
    funext a
    cases a <;> rfl
  rw [e]
  exact hn.distinct.1

theorem valueNames_constant {as : List Assign} {s m : String} {l : Lit} (h : .constant s m l ∈ as) :
    s ∈ valueNames as := List.mem_filterMap.2 ⟨_, h, rfl⟩

/-- Names without underscore are not confused by the mangling. -/
theorem word_of_mangle {s n : String} (hs : Word s) (hn : Word n) (h : mangle n = s) : n = s := by
  rw [mangle_eq] at h
  by_cases hh : '-' ∈ n.toList
  · exfalso
    have : '_' ∈ s.toList := by
      rw [← h, pyName_toList]
      exact List.mem_map.2 ⟨'-', hh, rfl⟩
    have := hs _ this
    revert this
    decide
  · rwa [pyName_id hh] at h

theorem not_constant {as : List Assign} (hn : Names as) {s : String} (hs : Word s)
    (h : ∀ m l, .constant s m l ∉ as) : (ctxOf as).constants.contains s = false := by
  cases hc : (ctxOf as).constants.contains s with
  | false => rfl
  | true =>
    exfalso
    have := List.contains_iff_mem.1 hc
    obtain ⟨a, ha, he⟩ := List.mem_filterMap.1 this
    cases a with
    | type n t => simp at he
    | value n k l => simp at he
    | constant n m l =>
      simp only [Option.some.injEq] at he
      have := word_of_mangle hs (hn.values n (valueNames_constant ha)).1 he
      subst this
      exact h m l ha

theorem is_constant {as : List Assign} {s m : String} {l : Lit} (hh : '-' ∉ s.toList) (h : .constant s m l ∈ as) :
    (ctxOf as).constants.contains s = true := by
  refine List.contains_iff_mem.2 (List.mem_filterMap.2 ⟨_, h, ?_⟩)
  simp only [mangle_eq, pyName_id hh]

/-- Types of simple notation have simple values. -/
theorem shape_simple {k : Simple} {c : Option Con} {T : Ty} (h : Shape (.simple k c) T) {s : String} {v : Val}
    {ν : List (String × Ty × Val)} (hl : LowerName s) (hv : LitIs ν T (.word s) v) : ∃ T', ν.lookup s = some (T', v) := by
  have up : ∀ s, s = "TRUE" ∨ s = "FALSE" → LowerName s → False := by
    rintro s hs ⟨_, c, r, hc, hl⟩
    rcases hs with rfl | rfl
    · have h2 : "TRUE".toList = ['T', 'R', 'U', 'E'] := rfl
      rw [h2] at hc
      rw [← (List.cons.inj hc).1] at hl
      exact absurd hl (by decide)
    · have h2 : "FALSE".toList = ['F', 'A', 'L', 'S', 'E'] := rfl
      rw [h2] at hc
      rw [← (List.cons.inj hc).1] at hl
      exact absurd hl (by decide)
  generalize hg : Lit.word s = w at hv
  cases hv with
  | tt => injection hg with hg; exact (up s (.inl hg) hl).elim
  | ff => injection hg with hg; exact (up s (.inr hg) hl).elim
  | item => cases k <;> exact h.elim
  | intRef h => injection hg with hg; subst hg; exact ⟨_, h⟩
  | boolRef h => injection hg with hg; subst hg; exact ⟨_, h⟩
  | bitsRef h => injection hg with hg; subst hg; exact ⟨_, h⟩
  | octetsRef h => injection hg with hg; subst hg; exact ⟨_, h⟩
  | _ => cases hg

section component
variable {as : List Assign} {env : List (String × PyObj)} {τ : List (String × Ty)} {ν : List (String × Ty × Val)}

/-- A word that is a literal of some type. -/
theorem literal_word {ids : List String} {t : TObj} {T : Ty} {s : String} {v : Val} (w : World as env τ ν)
    (hl : LiteralFor as ids t (.word s)) (hs : Shape t T) (hv : LitIs ν T (.word s) v) :
    (ctxOf as).constants.contains s = false := by
  have nt : ∀ s, s = "TRUE" ∨ s = "FALSE" → (ctxOf as).constants.contains s = false := by
    intro s hs
    refine not_constant w.names ?_ fun m l h => ?_
    · rcases hs with rfl | rfl <;> (intro c hc; revert c; decide)
    · obtain ⟨_, c, r, hc, hl⟩ := w.names.values s (valueNames_constant h)
      rcases hs with rfl | rfl
      · have h2 : "TRUE".toList = ['T', 'R', 'U', 'E'] := rfl
        rw [h2] at hc
        rw [← (List.cons.inj hc).1] at hl
        exact absurd hl (by decide)
      · have h2 : "FALSE".toList = ['F', 'A', 'L', 'S', 'E'] := rfl
        rw [h2] at hc
        rw [← (List.cons.inj hc).1] at hl
        exact absurd hl (by decide)
  generalize hg : Lit.word s = l at hl
  cases hl with
  | name h1 h2 h3 =>
    injection hg with hg; subst hg
    cases hv with
    | intRef h => exact not_constant w.names (w.lower _ _ h).1 h1
    | _ => exact hs.elim
  | tt => injection hg with hg; exact nt s (.inl hg)
  | ff => injection hg with hg; exact nt s (.inr hg)
  | item h1 =>
    injection hg with hg; subst hg
    cases hv with
    | item hm => exact not_constant w.names (hs.2 _ (List.mem_map.2 ⟨_, hm, rfl⟩)).1 h1
    | _ => exact hs.elim
  | _ => cases hg

/-- The DEFAULT of a component. -/
theorem default_ok {ids : List String} {env' : List (String × PyObj)} {id : String} {t : TObj} {l : Lit} {T : Ty} {v : Val}
    (w : World as env τ ν) (hd : DefaultFor as ids t l) (hm : Means τ ν t T) (hs : Shape t T) (hv : LitIs ν T l v)
    (hnamed : Named env' ids ν) (hcls : classNamed env' (fieldType id t) = .ok T) :
    loadNT env' (fillNamed (ctxOf as) id t (.default l)) = .ok (id, .default v, T) := by
  cases hd with
  | direct hl =>
    obtain ⟨e, h1, h2, h3⟩ := literal_ok hl hs hv hnamed w.lower
    have hk : defaultKind (ctxOf as) t l = .default e := by
      have hr : ∀ n, t ≠ .ref n := by rintro n rfl; cases hl
      have hv' : defaultKind.viaType (ctxOf as) l t e = .default e := by
        cases t <;> first | rfl | exact absurd rfl (hr _)
      unfold defaultKind
      rw [h1]
      cases e with
      | name s =>
        obtain ⟨rfl, _⟩ := h3 s rfl
        simp only [literal_word w hl hs hv, Bool.false_eq_true, if_false]
        exact hv'
      | _ => exact hv'
    simp only [loadNT, fillNamed, hk, hcls, h2, bind, Except.bind, pure, Except.pure]
  | @behind n t' _ ha hl =>
    cases hm with
    | ref hτ =>
      have hs' := w.shapes _ _ _ ha hτ
      obtain ⟨e, h1, h2, h3⟩ := literal_ok hl hs' hv hnamed w.lower
      have hk : defaultKind (ctxOf as) (.ref n) l = .default e := by
        have hv' : ∀ e', defaultKind.viaType (ctxOf as) l (.ref n) e' = .default e := by
          intro e'
          simp only [defaultKind.viaType, ctx_types w.names ha, h1, Option.getD_some]
        unfold defaultKind
        cases l with
        | word s =>
          simp only [parseValue, literal_word w hl hs' hv, Bool.false_eq_true, if_false]
          exact hv' _
        | _ => exact hv' _
      simp only [loadNT, fillNamed, hk, hcls, h2, bind, Except.bind, pure, Except.pure]
  | @constant n s l' ha hh hids =>
    cases hm with
    | ref hτ =>
      obtain ⟨⟨k, c, hsimple⟩, hc⟩ := w.constants _ _ _ ha
      obtain ⟨T', hT'⟩ := shape_simple (w.shapes _ _ _ hsimple hτ) (w.names.values s (valueNames_constant ha)) hv
      have e := hc _ _ hT'
      rw [hτ] at e
      cases e
      have hk : defaultKind (ctxOf as) (.ref n) (.word s) = .constant s := by
        simp only [defaultKind, parseValue, is_constant hh ha, if_true]
      simp only [loadNT, fillNamed, hk, hnamed _ _ _ hh hids hT']

/-- The nested classes of a list of components. -/
structure Locals (as : List Assign) (env locs : List (String × PyObj)) (cs : List (String × TObj × Pres)) : Prop where
  only : ∀ x ∈ locs, ∃ c ∈ cs, nested c.2.1 = true ∧ ∃ T, x = (pyName c.1, .cls T) ∧ ClassOk (ctxOf as) env c.2.1 T
  all : ∀ c ∈ cs, nested c.2.1 = true → ∃ T, (pyName c.1, .cls T) ∈ locs

theorem Locals.skip {locs : List (String × PyObj)} {cs : List (String × TObj × Pres)} {c : String × TObj × Pres}
    (h : Locals as env locs cs) (hc : nested c.2.1 = false) : Locals as env locs (c :: cs) where
  only x hx := by
    obtain ⟨d, hd, r⟩ := h.only x hx
    exact ⟨d, List.mem_cons_of_mem _ hd, r⟩
  all d hd hn := by
    rcases List.mem_cons.1 hd with rfl | hd
    · rw [hc] at hn; cases hn
    · exact h.all d hd hn

theorem Locals.add {locs : List (String × PyObj)} {cs : List (String × TObj × Pres)} {c : String × TObj × Pres} {T : Ty}
    (h : Locals as env locs cs) (hc : nested c.2.1 = true) (hT : ClassOk (ctxOf as) env c.2.1 T) :
    Locals as env (locs ++ [(pyName c.1, .cls T)]) (c :: cs) where
  only x hx := by
    rcases List.mem_append.1 hx with hx | hx
    · obtain ⟨d, hd, r⟩ := h.only x hx
      exact ⟨d, List.mem_cons_of_mem _ hd, r⟩
    · rw [List.mem_singleton] at hx
      exact ⟨c, by simp, hc, T, hx, hT⟩
  all d hd hn := by
    rcases List.mem_cons.1 hd with rfl | hd
    · exact ⟨T, by simp⟩
    · obtain ⟨T', h'⟩ := h.all d hd hn
      exact ⟨T', List.mem_append_left _ h'⟩

/-- One more component. -/
theorem subs_step {id : String} {t : TObj} {p : Pres} {rest : Codes} {locs : List (String × PyObj)}
    {cs : List (String × TObj × Pres)} (hl : loadCodes env rest = .ok locs) (hr : Locals as env locs cs)
    (ht : nested t = true → nestable (pyName id) = .ok () ∧ ∃ T, ClassOk (ctxOf as) env t T) :
    ∃ subs locs', (if nested t then do return .cons (← classOf (ctxOf as) (mangle id) t) rest else return rest :
        Except GenErr Codes) = .ok subs ∧ loadCodes env subs = .ok locs' ∧ Locals as env locs' ((id, t, p) :: cs) := by
  cases hn : nested t with
  | false => exact ⟨rest, locs, rfl, hl, hr.skip hn⟩
  | true =>
    obtain ⟨hb, T, hT⟩ := ht hn
    obtain ⟨code, h1, h2, h3⟩ := hT (mangle id)
    refine ⟨.cons code rest, locs ++ [(pyName id, .cls T)], ?_, ?_, hr.add (c := (id, t, p)) hn hT⟩
    · simp only [if_true, h1, bind, Except.bind, pure, Except.pure]
    · simp only [loadCodes, h3, hl, bind, Except.bind, pure, Except.pure, h2, mangle_eq, hb]

theorem comps_subs : ∀ (cs : Comps) (rest : Codes) (locs : List (String × PyObj)) (l : List (String × TObj × Pres)),
    loadCodes env rest = .ok locs → Locals as env locs l →
    (∀ c ∈ compList cs, nested c.2.1 = true →
      nestable (pyName c.1) = .ok () ∧ ∃ T, ClassOk (ctxOf as) env c.2.1 T) →
    ∃ subs locs', subsComps (ctxOf as) cs rest = .ok subs ∧ loadCodes env subs = .ok locs' ∧
      Locals as env locs' (compList cs ++ l)
  | .nil, rest, locs, l, h1, h2, _ => ⟨rest, locs, by rw [subsComps], h1, h2⟩
  | .cons id t p r, rest, locs, l, h1, h2, h => by
    obtain ⟨subs, locs', e1, e2, e3⟩ := comps_subs r rest locs l h1 h2 fun c hc => h c (List.mem_cons_of_mem _ hc)
    obtain ⟨subs', locs'', e1', e2', e3'⟩ := subs_step (id := id) (p := p) e2 e3 (h (id, t, p) (by simp [compList]))
    refine ⟨subs', locs'', ?_, e2', e3'⟩
    rw [subsComps, e1]
    exact e1'

theorem items_subs : ∀ (items : Items),
    (∀ c ∈ declared (itemList items), nested c.2.1 = true →
      nestable (pyName c.1) = .ok () ∧ ∃ T, ClassOk (ctxOf as) env c.2.1 T) →
    ∃ subs locs, subsItems (ctxOf as) items = .ok subs ∧ loadCodes env subs = .ok locs ∧
      Locals as env locs (declared (itemList items))
  | .nil, _ => ⟨.nil, [], by rw [subsItems], by rw [loadCodes], ⟨by simp, by simp [itemList, declared]⟩⟩
  | .comp id t p r, h => by
    obtain ⟨subs, locs, e1, e2, e3⟩ := items_subs r fun c hc => h c (List.mem_cons_of_mem _ hc)
    obtain ⟨subs', locs'', e1', e2', e3'⟩ := subs_step (id := id) (p := p) e2 e3 (h (id, t, p) (by simp [itemList, declared]))
    refine ⟨subs', locs'', ?_, e2', e3'⟩
    rw [subsItems, e1]
    exact e1'
  | .marker r, h => by
    obtain ⟨subs, locs, e1, e2, e3⟩ := items_subs r h
    exact ⟨subs, locs, by rw [subsItems, e1], e2, e3⟩
  | .group cs r, h => by
    obtain ⟨subs, locs, e1, e2, e3⟩ := items_subs r fun c hc => h c (List.mem_append_right _ hc)
    obtain ⟨subs', locs', e1', e2', e3'⟩ := comps_subs cs subs locs _ e2 e3 fun c hc => h c (List.mem_append_left _ hc)
    refine ⟨subs', locs', ?_, e2', e3'⟩
    rw [subsItems, e1]
    exact e1'

/-- A name that is none of the nested classes' is looked up in the module. -/
theorem locals_none {locs : List (String × PyObj)} {cs : List (String × TObj × Pres)} (h : Locals as env locs cs)
    {s : String} (hs : s ∉ (cs.map Prod.fst).map pyName) : (locs ++ env).lookup s = env.lookup s := by
  rw [lookup_append']
  cases hl : locs.lookup s with
  | none => rfl
  | some o =>
    obtain ⟨c, hc, _, T, hx, _⟩ := h.only _ (mem_of_lookup hl)
    exfalso
    refine hs (List.mem_map.2 ⟨c.1, List.mem_map.2 ⟨c, hc, rfl⟩, ?_⟩)
    exact (Prod.mk.inj hx).1.symm

theorem upper_notin {cs : List (String × TObj × Pres)} (hl : ∀ c ∈ cs, LowerName c.1) {n : String} (hn : UpperName n) :
    pyName n ∉ (cs.map Prod.fst).map pyName := by
  intro h
  obtain ⟨i, hi, he⟩ := List.mem_map.1 h
  obtain ⟨c, hc, rfl⟩ := List.mem_map.1 hi
  exact lower_ne_upper (hl c hc) hn he

theorem upper_of {s : String} (h1 : s.toList.all (fun c => c.isAlphanum || c == '-') = true)
    (h2 : (match s.toList with | c :: _ => c.isUpper | [] => false) = true) : UpperName s := by
  refine ⟨fun c hc => ?_, ?_⟩
  · have := List.all_eq_true.1 h1 c hc
    simpa using this
  · cases hl : s.toList with
    | nil => rw [hl] at h2; cases h2
    | cons c r => rw [hl] at h2; exact ⟨c, r, rfl, h2⟩

theorem lower_of {s : String} (h1 : s.toList.all (fun c => c.isAlphanum || c == '-') = true)
    (h2 : (match s.toList with | c :: _ => c.isLower | [] => false) = true) : LowerName s := by
  refine ⟨fun c hc => ?_, ?_⟩
  · have := List.all_eq_true.1 h1 c hc
    simpa using this
  · cases hl : s.toList with
    | nil => rw [hl] at h2; cases h2
    | cons c r => rw [hl] at h2; exact ⟨c, r, rfl, h2⟩

theorem cls_upper (k : Simple) : UpperName k.cls := by cases k <;> exact upper_of (by decide) (by decide)

theorem cls_pyName (k : Simple) : pyName k.cls = k.cls := pyName_id (by cases k <;> decide)

/-- The type of a component without class of its own. -/
theorem plain_ok (w : World as env τ ν) {t : TObj} {T : Ty} (hm : Means τ ν t T) (hn : nested t = false)
    (env' : List (String × PyObj)) (h : ∀ n, UpperName n → env'.lookup (pyName n) = env.lookup (pyName n)) (id : String) :
    classNamed env' (fieldType id t) = .ok T := by
  have hb : ∀ (k : Simple) T, header.lookup k.cls = some (.cls T) → classNamed env' k.cls = .ok T := by
    intro k T hh
    have := h _ (cls_upper k)
    rw [cls_pyName, w.builtin _ _ hh] at this
    simp only [classNamed, this]
  cases hm with
  | boolean => exact hb .boolean _ rfl
  | integer => exact hb .integer _ rfl
  | octetString => exact hb .octetString _ rfl
  | bitString => exact hb .bitString _ rfl
  | ref hτ =>
    have := (w.types _ _ hτ).2
    simp only [fieldType, mangle_eq, classNamed, h _ (w.types _ _ hτ).1, this]
  | _ => cases hn

theorem nodup_fst {α β : Type} {l : List (α × β)} (h : (l.map Prod.fst).Nodup) {a : α} {b c : β} (hb : (a, b) ∈ l)
    (hc : (a, c) ∈ l) : b = c := by
  induction l with
  | nil => cases hb
  | cons x l ih =>
    rw [List.map_cons, List.nodup_cons] at h
    rcases List.mem_cons.1 hb with rfl | hb' <;> rcases List.mem_cons.1 hc with hc | hc'
    · exact (Prod.mk.inj hc).2.symm
    · exact absurd (List.mem_map.2 ⟨_, hc', rfl⟩) h.1
    · subst hc; exact absurd (List.mem_map.2 ⟨(a, b), hb', rfl⟩) h.1
    · exact ih h.2 hb' hc'

/-- The class of every component is found. -/
theorem field_ok (w : World as env τ ν) {locs : List (String × PyObj)} {cs : List (String × TObj × Pres)}
    (hloc : Locals as env locs cs) (hlow : ∀ c ∈ cs, LowerName c.1) (hdup : (cs.map Prod.fst).Nodup)
    {c : String × TObj × Pres} (hc : c ∈ cs) {T : Ty} (hm : Means τ ν c.2.1 T)
    (hok : nested c.2.1 = true → ClassOk (ctxOf as) env c.2.1 T) :
    classNamed (locs ++ env) (fieldType c.1 c.2.1) = .ok T := by
  cases hn : nested c.2.1 with
  | false => exact plain_ok w hm hn _ (fun n hn => locals_none hloc (upper_notin hlow hn)) _
  | true =>
    obtain ⟨T', hT'⟩ := hloc.all c hc hn
    have hf : fieldType c.1 c.2.1 = pyName c.1 := by
      rw [← mangle_eq]
      revert hn
      cases c.2.1 with
      | simple k con => cases con <;> simp [nested, fieldType]
      | ref n => simp [nested]
      | _ => intro _; rfl
    have hlk : ∃ o, locs.lookup (pyName c.1) = some o := by
      cases hl : locs.lookup (pyName c.1) with
      | some o => exact ⟨o, rfl⟩
      | none =>
        exfalso
        have := List.lookup_eq_none_iff.1 hl _ hT'
        simp at this
    obtain ⟨o, ho⟩ := hlk
    obtain ⟨d, hd, hdn, T2, hx, hT2⟩ := hloc.only _ (mem_of_lookup ho)
    obtain ⟨hx1, hx2⟩ := Prod.mk.inj hx
    have hid : c.1 = d.1 := pyName_inj (hlow c hc).1 (hlow d hd).1 hx1
    have hcd : c.2 = d.2 := nodup_fst hdup (a := c.1) hc (by rw [hid]; exact hd)
    rw [← hcd] at hT2
    have := (hok hn).unique hT2
    subst this
    rw [hf, classNamed, lookup_append', ho, hx2]
    rfl

/-- A list of components is loaded. -/
theorem fields_ok {ctx : Ctx} {env' : List (String × PyObj)} : ∀ {l : List (String × TObj × Pres)} {f : Fields},
    MeansAll τ ν l f →
    (∀ c ∈ l, ∀ T, Means τ ν c.2.1 T → classNamed env' (fieldType c.1 c.2.1) = .ok T) →
    (∀ id t d, (id, t, .default d) ∈ l → ∀ T v, Means τ ν t T → LitIs ν T d v →
      loadNT env' (fillNamed ctx id t (.default d)) = .ok (id, .default v, T)) →
    ∃ x, (l.map (onComp (fillNamed ctx))).mapM (loadNT env') = .ok x ∧ Fields.ofList x = f
  | [], f, h, _, _ => by cases h; exact ⟨[], rfl, rfl⟩
  | (id, t, p) :: l, f, h, h1, h2 => by
    have step : ∀ {f' : Fields} {k : Kind} {T : Ty}, MeansAll τ ν l f' →
        loadNT env' (fillNamed ctx id t p) = .ok (id, k, T) →
        ∃ x, (((id, t, p) :: l).map (onComp (fillNamed ctx))).mapM (loadNT env') = .ok x ∧
          Fields.ofList x = .cons id k T f' := by
      intro f' k T hf' hk
      obtain ⟨x, e1, e2⟩ := fields_ok hf' (fun c hc => h1 c (List.mem_cons_of_mem _ hc))
        fun id t d hd => h2 id t d (List.mem_cons_of_mem _ hd)
      refine ⟨(id, k, T) :: x, ?_, by rw [Fields.ofList, e2]⟩
      rw [List.map_cons, List.mapM_cons, onComp, hk, e1]
      rfl
    cases h with
    | mandatory hm hf' =>
      refine step hf' ?_
      simp only [loadNT, fillNamed, h1 _ (List.mem_cons_self ..) _ hm, bind, Except.bind, pure, Except.pure]
    | optional hm hf' =>
      refine step hf' ?_
      simp only [loadNT, fillNamed, h1 _ (List.mem_cons_self ..) _ hm, bind, Except.bind, pure, Except.pure]
    | default hm hv hf' => exact step hf' (h2 _ _ _ (List.mem_cons_self ..) _ _ hm hv)

theorem groups_ok {ctx : Ctx} {env' : List (String × PyObj)} : ∀ {ls : List (List (String × TObj × Pres))} {g : Groups},
    MeansGroups τ ν ls g →
    (∀ l ∈ ls, ∀ c ∈ l, ∀ T, Means τ ν c.2.1 T → classNamed env' (fieldType c.1 c.2.1) = .ok T) →
    (∀ l ∈ ls, ∀ id t d, (id, t, .default d) ∈ l → ∀ T v, Means τ ν t T → LitIs ν T d v →
      loadNT env' (fillNamed ctx id t (.default d)) = .ok (id, .default v, T)) →
    ∃ x, (ls.map (List.map (onComp (fillNamed ctx)))).mapM (fun g => g.mapM (loadNT env')) = .ok x ∧ Groups.ofList x = g
  | [], g, h, _, _ => by cases h; exact ⟨[], rfl, rfl⟩
  | l :: ls, g, h, h1, h2 => by
    cases h with
    | cons hl hls =>
      obtain ⟨x, e1, e2⟩ := groups_ok hls (fun l hl => h1 l (List.mem_cons_of_mem _ hl))
        fun l hl => h2 l (List.mem_cons_of_mem _ hl)
      obtain ⟨y, e1', e2'⟩ := fields_ok hl (h1 l (by simp)) (h2 l (by simp))
      refine ⟨y :: x, ?_, by rw [Groups.ofList, e2, e2']⟩
      rw [List.map_cons, List.mapM_cons, e1', e1]
      rfl

theorem meansAll_mem : ∀ {l : List (String × TObj × Pres)} {f : Fields}, MeansAll τ ν l f →
    ∀ c ∈ l, ∃ T, Means τ ν c.2.1 T
  | [], _, _, c, hc => by cases hc
  | (id, t, p) :: l, f, h, c, hc => by
    cases h with
    | mandatory hm hf =>
      rcases List.mem_cons.1 hc with rfl | hc
      · exact ⟨_, hm⟩
      · exact meansAll_mem hf c hc
    | optional hm hf =>
      rcases List.mem_cons.1 hc with rfl | hc
      · exact ⟨_, hm⟩
      · exact meansAll_mem hf c hc
    | default hm hv hf =>
      rcases List.mem_cons.1 hc with rfl | hc
      · exact ⟨_, hm⟩
      · exact meansAll_mem hf c hc

theorem meansGroups_mem : ∀ {ls : List (List (String × TObj × Pres))} {g : Groups}, MeansGroups τ ν ls g →
    ∀ l ∈ ls, ∀ c ∈ l, ∃ T, Means τ ν c.2.1 T
  | [], _, _, l, hl => by cases hl
  | l' :: ls, g, h, l, hl => by
    cases h with
    | cons h1 h2 =>
      rcases List.mem_cons.1 hl with rfl | hl
      · exact meansAll_mem h1
      · exact meansGroups_mem h2 l hl

/-- Kinds of types. -/
theorem shape_ok {t : TObj} {T : Ty} (hm : Means τ ν t T) : Shape t T := by
  cases hm with
  | @enumerated root adds hl hd =>
    have e : (numberFrom 0 root ++ numberFrom root.length (adds.getD [])).map Prod.fst = root ++ adds.getD [] := by
      rw [List.map_append, numberFrom_names, numberFrom_names]
    exact ⟨by rw [e]; exact hd, by rw [e]; exact hl⟩
  | _ => first | trivial | exact True.intro

/-- Regularity of every component. -/
theorem comps_regular {ids : List String} : ∀ (cs : Comps), RegularComps ν as ids cs →
    ∀ c ∈ compList cs, Regular ν as c.2.1 ∧ ∀ l, c.2.2 = .default l → DefaultFor as ids c.2.1 l
  | .nil, _, c, hc => by cases hc
  | .cons id t p r, h, c, hc => by
    rw [RegularComps] at h
    rcases List.mem_cons.1 hc with rfl | hc
    · exact h.1
    · exact comps_regular r h.2 c hc

theorem items_regular {ids : List String} : ∀ (items : Items), RegularItems ν as ids items →
    ∀ c ∈ declared (itemList items), Regular ν as c.2.1 ∧ ∀ l, c.2.2 = .default l → DefaultFor as ids c.2.1 l
  | .nil, _, c, hc => by cases hc
  | .comp id t p r, h, c, hc => by
    rw [RegularItems] at h
    rcases List.mem_cons.1 hc with rfl | hc
    · exact h.1
    · exact items_regular r h.2 c hc
  | .marker r, h, c, hc => by
    rw [RegularItems] at h
    exact items_regular r h c hc
  | .group cs r, h, c, hc => by
    rw [RegularItems] at h
    rcases List.mem_append.1 hc with hc | hc
    · exact comps_regular cs h.1 c hc
    · exact items_regular r h.2 c hc

theorem nestable_ok {l : List (Item (String × TObj × Pres))} (h : Nameable l) {c : String × TObj × Pres}
    (hc : c ∈ declared l) (hn : nested c.2.1 = true) : nestable (pyName c.1) = .ok () := by
  rcases h c hc with ⟨k, hk⟩ | ⟨n, hk⟩ | ⟨h1, h2⟩
  · rw [hk] at hn; cases hn
  · rw [hk] at hn; cases hn
  · simp only [nestable, List.contains_iff_mem, h1, h2, if_false]

/-- What is needed of a list of components. -/
theorem list_ok (w : World as env τ ν) {items : Items} {r a : Fields} {g : Groups}
    (hreg : RegularItems ν as ((declared (itemList items)).map Prod.fst) items) (hlist : RegularList (itemList items))
    (hname : Nameable (itemList items))
    (h1 : MeansAll τ ν (singlesOf (upTo (itemList items)) ++ singlesOf (past (past (itemList items)))) r)
    (h2 : MeansAll τ ν (singlesOf (upTo (past (itemList items)))) a)
    (h3 : MeansGroups τ ν (groupsOf (upTo (past (itemList items)))) g)
    (ih : ∀ c ∈ declared (itemList items), nested c.2.1 = true → ∀ T, Means τ ν c.2.1 T →
      ClassOk (ctxOf as) env c.2.1 T) :
    ∃ subs st locs, subsItems (ctxOf as) items = .ok subs ∧
      partsOf (items.toks (fillNamed (ctxOf as))) = .ok st ∧ loadCodes env subs = .ok locs ∧
      st.marker = hasMarker (itemList items) ∧
      loadNTs (locs ++ env) st.root = .ok r ∧ loadNTs (locs ++ env) st.addition = .ok a ∧
      ∃ x, st.groups.mapM (fun g => g.mapM (loadNT (locs ++ env))) = .ok x ∧ Groups.ofList x = g := by
  have hmeans : ∀ c ∈ declared (itemList items), ∃ T, Means τ ν c.2.1 T := by
    intro c hc
    rcases (declared_parts hlist c).1 hc with h | h | ⟨l, hl, h⟩
    · exact meansAll_mem h1 c h
    · exact meansAll_mem h2 c h
    · exact meansGroups_mem h3 l hl c h
  obtain ⟨subs, locs, e1, e2, hloc⟩ := items_subs items fun c hc hn => by
    obtain ⟨T, hT⟩ := hmeans c hc
    exact ⟨nestable_ok hname hc hn, T, ih c hc hn T hT⟩
  obtain ⟨st, e3, hmark, hroot, hadd, hgr⟩ := partsOf_ok (fillNamed (ctxOf as)) items hlist
  have hfield : ∀ c ∈ declared (itemList items), ∀ T, Means τ ν c.2.1 T →
      classNamed (locs ++ env) (fieldType c.1 c.2.1) = .ok T := fun c hc T hm =>
    field_ok w hloc hlist.2.1 hlist.1 hc hm fun hn => ih c hc hn T hm
  have hnamed : Named (locs ++ env) ((declared (itemList items)).map Prod.fst) ν := by
    intro s T v hh hs hν
    rw [locals_none hloc hs]
    have := w.values _ _ _ hν
    rwa [pyName_id hh] at this
  have hdef : ∀ id t d, (id, t, Pres.default d) ∈ declared (itemList items) → ∀ T v, Means τ ν t T → LitIs ν T d v →
      loadNT (locs ++ env) (fillNamed (ctxOf as) id t (.default d)) = .ok (id, .default v, T) := by
    intro id t d hc T v hm hv
    exact default_ok w ((items_regular items hreg _ hc).2 d rfl) hm (shape_ok hm) hv hnamed (hfield _ hc T hm)
  refine ⟨subs, st, locs, e1, e3, e2, hmark, ?_, ?_, ?_⟩
  · obtain ⟨x, hx, hf⟩ := fields_ok (ctx := ctxOf as) (env' := locs ++ env) h1
      (fun c hc => hfield c ((declared_parts hlist c).2 (.inl hc)))
      (fun id t d hc => hdef id t d ((declared_parts hlist _).2 (.inl hc)))
    rw [loadNTs, hroot, hx]
    simp only [bind, Except.bind, pure, Except.pure, hf]
  · obtain ⟨x, hx, hf⟩ := fields_ok (ctx := ctxOf as) (env' := locs ++ env) h2
      (fun c hc => hfield c ((declared_parts hlist c).2 (.inr (.inl hc))))
      (fun id t d hc => hdef id t d ((declared_parts hlist _).2 (.inr (.inl hc))))
    rw [loadNTs, hadd, hx]
    simp only [bind, Except.bind, pure, Except.pure, hf]
  · rw [hgr]
    exact groups_ok (ctx := ctxOf as) (env' := locs ++ env) h3
      (fun l hl c hc => hfield c ((declared_parts hlist c).2 (.inr (.inr ⟨l, hl, hc⟩))))
      (fun l hl id t d hc => hdef id t d ((declared_parts hlist _).2 (.inr (.inr ⟨l, hl, hc⟩))))

theorem compList_alt (cs : Comps) (f g : String → TObj → Pres → NT)
    (h : ∀ c ∈ compList cs, onComp f c = onComp g c) : cs.toks f = cs.toks g := by
  rw [comps_toks, comps_toks, List.map_congr_left h]

theorem items_alt (f g : String → TObj → Pres → NT) : ∀ (items : Items),
    (∀ c ∈ declared (itemList items), onComp f c = onComp g c) → items.toks f = items.toks g
  | .nil, _ => rfl
  | .comp id t p r, h => by
    rw [Items.toks, Items.toks, items_alt f g r fun c hc => h c (List.mem_cons_of_mem _ hc)]
    have := h (id, t, p) (by simp [itemList, declared])
    simp only [onComp] at this
    rw [this]
  | .marker r, h => by rw [Items.toks, Items.toks, items_alt f g r h]
  | .group cs r, h => by
    rw [Items.toks, Items.toks, items_alt f g r fun c hc => h c (List.mem_append_right _ hc),
      compList_alt cs f g fun c hc => h c (List.mem_append_left _ hc)]

theorem header_class (w : World as env τ ν) {n : String} {T : Ty} (h : header.lookup n = some (.cls T)) :
    classNamed env n = .ok T := by
  simp only [classNamed, w.builtin _ _ h]

theorem size_class (w : World as env τ ν) {con : Con} {s : SizeC} (ha : AscendingSize ν con) (hs : SizeOf ν con s) :
    ∃ c p, con.tuple = .ok c ∧ endpointsOf env c = .ok p ∧ checked p = .ok p ∧ sizeConstraint c.ext p = .ok s :=
  size_ok w.values ha hs

/-- The type of an element. -/
theorem elem_ok (w : World as env τ ν) {e : TObj} {T : Ty} (hm : Means τ ν e T)
    (he : (∃ k, e = .simple k none) ∨ ∃ n, e = .ref n) : classNamed env (mangle e.cls) = .ok T := by
  have hn : nested e = false := by rcases he with ⟨k, rfl⟩ | ⟨n, rfl⟩ <;> rfl
  have := plain_ok w hm hn env (fun _ _ => rfl) ""
  rcases he with ⟨k, rfl⟩ | ⟨n, rfl⟩
  · rw [TObj.cls, mangle_eq, cls_pyName]
    exact this
  · exact this

theorem numberFrom_append : ∀ (l r : List String) (k : Nat), numberFrom k l ++ numberFrom (k + l.length) r = numberFrom k (l ++ r)
  | [], r, k => rfl
  | s :: l, r, k => by
    have := numberFrom_append l r (k + 1)
    simp only [numberFrom, List.cons_append, List.length_cons]
    rw [← this]
    congr 3
    omega

theorem numberFrom_fst : ∀ (l : List String) (k : Nat), (numberFrom k l).map Prod.fst = l
  | [], _ => rfl
  | s :: l, k => by rw [numberFrom, List.map_cons, numberFrom_fst l]

theorem numberFrom_snd : ∀ (l : List String) (k : Nat), (∀ z ∈ (numberFrom k l).map Prod.snd, (k : Int) ≤ z) ∧
    ((numberFrom k l).map Prod.snd).Nodup
  | [], _ => by simp [numberFrom]
  | s :: l, k => by
    obtain ⟨h1, h2⟩ := numberFrom_snd l (k + 1)
    rw [numberFrom, List.map_cons]
    refine ⟨fun z hz => ?_, List.nodup_cons.2 ⟨fun hm => ?_, h2⟩⟩
    · rcases List.mem_cons.1 hz with rfl | hz
      · exact Int.le_refl _
      · have := h1 z hz; omega
    · have := h1 _ hm; simp only at this; omega

theorem quotable_word {s : String} (h : Word s) : quotable s = true := by
  refine List.all_eq_true.2 fun c hc => ?_
  rcases h c hc with h | h
  · have a : c ≠ '\'' := by rintro rfl; exact absurd h (by decide)
    have b : c ≠ '\\' := by rintro rfl; exact absurd h (by decide)
    have d : ¬ c < ' ' := by
      intro hlt
      have hv : c.val < 32 := hlt
      simp only [Char.isAlphanum, Char.isAlpha, Char.isUpper, Char.isLower, Char.isDigit, Bool.or_eq_true, Bool.and_eq_true,
        decide_eq_true_eq, UInt32.le_iff_toNat_le] at h
      rw [UInt32.lt_iff_toNat_lt] at hv
      simp at hv h
      omega
    simp [a, b, d]
  · subst h; decide

theorem numbered_quotable {root : List String} {adds : List String} (h : ∀ s ∈ root ++ adds, LowerName s) :
    ((numberFrom 0 root ++ numberFrom root.length adds).all fun i => quotable i.1) = true := by
  have e := numberFrom_append root adds 0
  rw [Nat.zero_add] at e
  rw [e]
  refine List.all_eq_true.2 fun i hi => ?_
  have := List.mem_map_of_mem (f := Prod.fst) hi
  rw [numberFrom_fst] at this
  exact quotable_word (h _ this).1

theorem numbered_distinct {root : List String} {adds : List String} (h : (root ++ adds).Nodup) :
    distinct (numberFrom 0 root ++ numberFrom root.length adds) = .ok (numberFrom 0 root ++ numberFrom root.length adds) := by
  have e := numberFrom_append root adds 0
  rw [Nat.zero_add] at e
  rw [e, distinct, if_pos]
  rw [numberFrom_fst]
  exact ⟨h, (numberFrom_snd _ _).2⟩

mutual
/-- The class of a regular type can be generated and loaded. -/
theorem class_ok (w : World as env τ ν) : ∀ (t : TObj), (∀ n, t ≠ .ref n) → Regular ν as t → ∀ T, Means τ ν t T →
    ClassOk (ctxOf as) env t T
  | .simple k con, _, hr, T, hm => by
    intro name
    cases hm with
    | boolean => exact ⟨_, rfl, rfl, by simp only [loadCode, header_class w (n := Simple.cls .boolean) rfl]; rfl⟩
    | integer => exact ⟨_, rfl, rfl, by simp only [loadCode, header_class w (n := Simple.cls .integer) rfl]; rfl⟩
    | octetString => exact ⟨_, rfl, rfl, by simp only [loadCode, header_class w (n := Simple.cls .octetString) rfl]; rfl⟩
    | bitString => exact ⟨_, rfl, rfl, by simp only [loadCode, header_class w (n := Simple.cls .bitString) rfl]; rfl⟩
    | range h =>
      rw [Regular] at hr
      obtain ⟨c, h1, h2, h3, h4⟩ := range_ok w.values hr h
      refine ⟨.simple name .integer (some c), ?_, rfl, ?_⟩
      · simp only [classOf, constraintOf, Con.tuple, h1]; rfl
      · simp only [loadCode, header_class w (n := Simple.cls .integer) rfl, h2, h3, h4, bind, Except.bind, pure, Except.pure]
    | @octetStringSize con s h =>
      rw [Regular] at hr
      obtain ⟨c, p, h1, h2, h3, h4⟩ := size_class w hr h
      refine ⟨.simple name .octetString (some c), ?_, rfl, ?_⟩
      · simp only [classOf, constraintOf, h1]; rfl
      · simp only [loadCode, header_class w (n := Simple.cls .octetString) rfl, h2, h3, h4, bind, Except.bind, pure,
          Except.pure]
    | @bitStringSize con s h =>
      rw [Regular] at hr
      obtain ⟨c, p, h1, h2, h3, h4⟩ := size_class w hr h
      refine ⟨.simple name .bitString (some c), ?_, rfl, ?_⟩
      · simp only [classOf, constraintOf, h1]; rfl
      · simp only [loadCode, header_class w (n := Simple.cls .bitString) rfl, h2, h3, h4, bind, Except.bind, pure,
          Except.pure]
  | .enumerated items, _, _, T, hm => by
    intro name
    cases hm with
    | @enumerated root adds hl hd =>
      obtain ⟨h1, h2, h3⟩ := enumItems_exact hl
      refine ⟨.enumerated name adds.isSome (numberFrom 0 root) (numberFrom root.length (adds.getD [])), ?_, rfl, ?_⟩
      · simp only [classOf, h1, h2, h3]
      · rw [loadCode, header_class w (n := "EnumeratedType") rfl]
        simp only [bind, Except.bind, pure, Except.pure, Bool.or_false, numbered_quotable hl, numbered_distinct hd, if_true]
  | .seqOf con e, _, hr, T, hm => by
    intro name
    rw [Regular] at hr
    obtain ⟨hc, he⟩ := hr
    cases hm with
    | sequenceOf hm =>
      refine ⟨.seqOf name none (mangle e.cls), rfl, rfl, ?_⟩
      simp only [loadCode, header_class w (n := "SequenceOfType") rfl, elem_ok w hm he, bind, Except.bind, pure, Except.pure]
    | @sequenceOfSize _ _ con s hm hs =>
      obtain ⟨c, p, h1, h2, h3, h4⟩ := size_class w (hc _ rfl) hs
      refine ⟨.seqOf name (some c) (mangle e.cls), ?_, rfl, ?_⟩
      · simp only [classOf, constraintOf, h1]; rfl
      · simp only [loadCode, header_class w (n := "SequenceOfType") rfl, elem_ok w hm he, h2, h4, bind, Except.bind, pure,
          Except.pure]
  | .sequence items, _, hr, T, hm => by
    intro name
    rw [Regular] at hr
    cases hm with
    | sequence h1 h2 h3 =>
      obtain ⟨subs, st, locs, e1, e2, e3, e4, e5, e6, x, e7, e8⟩ :=
        list_ok w hr.1 hr.2.1 hr.2.2 h1 h2 h3 (class_items w items _ hr.1)
      refine ⟨.sequence name subs st.marker st.root st.addition st.groups, ?_, rfl, ?_⟩
      · simp only [classOf, e1, e2, bind, Except.bind, pure, Except.pure]
      · simp only [loadCode, header_class w (n := "SequenceType") rfl, e3, e4, e5, e6, e7, e8, bind, Except.bind, pure,
          Except.pure, Bool.or_false]
  | .choice items, _, hr, T, hm => by
    intro name
    rw [Regular] at hr
    cases hm with
    | @choice _ r _ _ hp h1 h2 h3 =>
      have hroot : MeansAll τ ν (singlesOf (upTo (itemList items)) ++ singlesOf (past (past (itemList items)))) r := by
        rw [hr.2.1.2.2.1, List.append_nil]; exact h1
      obtain ⟨subs, st, locs, e1, e2, e3, e4, e5, e6, x, e7, e8⟩ :=
        list_ok w hr.1 hr.2.1 hr.2.2 hroot h2 h3 (class_items w items _ hr.1)
      have ha : items.toks fillNamedAlt = items.toks (fillNamed (ctxOf as)) := by
        refine items_alt _ _ items fun c hc => ?_
        simp only [onComp, fillNamedAlt, fillNamed, hp c hc]
      refine ⟨.choice name subs st.marker st.root st.addition st.groups, ?_, rfl, ?_⟩
      · simp only [classOf, e1, ha, e2, bind, Except.bind, pure, Except.pure]
      · simp only [loadCode, header_class w (n := "ChoiceType") rfl, e3, e4, e5, e6, e7, e8, bind, Except.bind, pure,
          Except.pure, Bool.or_false]
  | .ref n, h, _, _, _ => absurd rfl (h n)
theorem class_items (w : World as env τ ν) : ∀ (items : Items) (ids : List String), RegularItems ν as ids items →
    ∀ c ∈ declared (itemList items), nested c.2.1 = true → ∀ T, Means τ ν c.2.1 T → ClassOk (ctxOf as) env c.2.1 T
  | .nil, _, _, c, hc => by cases hc
  | .comp id t p r, ids, h, c, hc => by
    rw [RegularItems] at h
    rcases List.mem_cons.1 hc with rfl | hc
    · intro hn T hm
      exact class_ok w t (by rintro n rfl; cases hn) h.1.1 T hm
    · exact class_items w r ids h.2 c hc
  | .marker r, ids, h, c, hc => by
    rw [RegularItems] at h
    exact class_items w r ids h c hc
  | .group cs r, ids, h, c, hc => by
    rw [RegularItems] at h
    rcases List.mem_append.1 hc with hc | hc
    · exact class_comps w cs ids h.1 c hc
    · exact class_items w r ids h.2 c hc
theorem class_comps (w : World as env τ ν) : ∀ (cs : Comps) (ids : List String), RegularComps ν as ids cs →
    ∀ c ∈ compList cs, nested c.2.1 = true → ∀ T, Means τ ν c.2.1 T → ClassOk (ctxOf as) env c.2.1 T
  | .nil, _, _, c, hc => by cases hc
  | .cons id t p r, ids, h, c, hc => by
    rw [RegularComps] at h
    rcases List.mem_cons.1 hc with rfl | hc
    · intro hn T hm
      exact class_ok w t (by rintro n rfl; cases hn) h.1.1 T hm
    · exact class_comps w r ids h.2 c hc
end

end component

end Verif
