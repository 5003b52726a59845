import Verif.Session
import Verif.SpecSession
import Verif.Lemmas.SortBody
/-!
# What the generator looks up in the dictionaries
-/
namespace Verif
open Verif.Spec

/-- The two contexts have the same entries for the type names in `N` and the words in `W`. -/
structure Agree (N W : String → Prop) (ctx ctx' : Ctx) : Prop where
  types : ∀ n, N n → lookupLast ctx'.types n = lookupLast ctx.types n
  words : ∀ s, W s → ctx'.constants.contains s = ctx.constants.contains s
  /-- and the types among them mention no others -/
  closed : ∀ n t, lookupLast ctx.types n = some t → (∀ m ∈ typesIn t, N m) ∧ ∀ s ∈ defaultsIn t, W s

section
variable {N W : String → Prop} {ctx ctx' : Ctx} {objs : Objs} (A : Agree N W ctx ctx')
include A

theorem viaType_agree {t : TObj} (ht : ∀ m ∈ typesIn t, N m) (l : Lit) (e : Expr) :
    defaultKind.viaType ctx' l t e = defaultKind.viaType ctx l t e := by
  cases t with
  | ref n => simp only [defaultKind.viaType, A.types n (ht n (by simp [typesIn]))]
  | _ => rfl

theorem parseValue_name {t : TObj} {l : Lit} {s : String} (h : parseValue t l = some (.name s)) : l = .word s := by
  clear A
  cases t with
  | simple k c => cases k <;> cases l <;> simp [parseValue] at h <;> first | (rw [h]) | (split at h <;> simp at h)
  | _ => cases l <;> simp [parseValue] at h <;> rw [h]

theorem defaultKind_agree {t : TObj} {l : Lit} (ht : ∀ m ∈ typesIn t, N m) (hl : ∀ s ∈ litNames l, W s) :
    defaultKind ctx' t l = defaultKind ctx t l := by
  unfold defaultKind
  cases h : parseValue t l with
  | none => rfl
  | some e =>
    cases e with
    | name s =>
      have : l = .word s := parseValue_name A h
      simp only [viaType_agree A ht, A.words s (hl s (by simp [this, litNames]))]
    | _ => simp only [viaType_agree A ht]

theorem fillNamed_agree {id : String} {t : TObj} {p : Pres} (ht : ∀ m ∈ typesIn t, N m) (hp : ∀ s ∈ presNames p, W s) :
    fillNamed ctx' id t p = fillNamed ctx id t p := by
  cases p with
  | default l => simp only [fillNamed, defaultKind_agree A ht hp]
  | _ => rfl

theorem comps_toks_agree : ∀ {cs : Comps}, (∀ m ∈ typesInComps cs, N m) → (∀ s ∈ defaultsInComps cs, W s) →
    cs.toks (fillNamed ctx') = cs.toks (fillNamed ctx)
  | .nil, _, _ => rfl
  | .cons id t p r, hn, hw => by
    simp only [typesInComps, defaultsInComps, List.mem_append] at hn hw
    rw [Comps.toks, Comps.toks, fillNamed_agree A (fun m h => hn m (.inl h)) (fun s h => hw s (.inr (.inl h))),
      comps_toks_agree (fun m h => hn m (.inr h)) (fun s h => hw s (.inr (.inr h)))]

theorem items_toks_agree : ∀ {items : Items}, (∀ m ∈ typesInItems items, N m) → (∀ s ∈ defaultsInItems items, W s) →
    items.toks (fillNamed ctx') = items.toks (fillNamed ctx)
  | .nil, _, _ => rfl
  | .comp id t p r, hn, hw => by
    simp only [typesInItems, defaultsInItems, List.mem_append] at hn hw
    rw [Items.toks, Items.toks, fillNamed_agree A (fun m h => hn m (.inl h)) (fun s h => hw s (.inr (.inl h))),
      items_toks_agree (fun m h => hn m (.inr h)) (fun s h => hw s (.inr (.inr h)))]
  | .marker r, hn, hw => by
    simp only [typesInItems, defaultsInItems] at hn hw
    rw [Items.toks, Items.toks, items_toks_agree hn hw]
  | .group cs r, hn, hw => by
    simp only [typesInItems, defaultsInItems, List.mem_append] at hn hw
    rw [Items.toks, Items.toks, comps_toks_agree A (fun m h => hn m (.inl h)) (fun s h => hw s (.inl h)),
      items_toks_agree (fun m h => hn m (.inr h)) (fun s h => hw s (.inr h))]

mutual
theorem classOf_agree (name : String) : ∀ t : TObj, (∀ m ∈ typesIn t, N m) → (∀ s ∈ defaultsIn t, W s) →
    classOf ctx' name t = classOf ctx name t
  | .simple k c, _, _ => by rw [classOf, classOf]
  | .enumerated items, _, _ => by rw [classOf, classOf]
  | .seqOf c e, _, _ => by rw [classOf, classOf]
  | .sequence items, hn, hw => by
    rw [typesIn] at hn; rw [defaultsIn] at hw
    rw [classOf, classOf, subsItems_agree items hn hw, items_toks_agree A hn hw]
  | .choice items, hn, hw => by
    rw [typesIn] at hn; rw [defaultsIn] at hw
    rw [classOf, classOf, subsItems_agree items hn hw]
  | .ref _, _, _ => by rw [classOf, classOf]
theorem subsItems_agree : ∀ items : Items, (∀ m ∈ typesInItems items, N m) → (∀ s ∈ defaultsInItems items, W s) →
    subsItems ctx' items = subsItems ctx items
  | .nil, _, _ => by rw [subsItems, subsItems]
  | .comp id t p r, hn, hw => by
    simp only [typesInItems, defaultsInItems, List.mem_append] at hn hw
    rw [subsItems, subsItems, subsItems_agree r (fun m h => hn m (.inr h)) (fun s h => hw s (.inr (.inr h))),
      classOf_agree (mangle id) t (fun m h => hn m (.inl h)) (fun s h => hw s (.inl h))]
  | .marker r, hn, hw => by
    simp only [typesInItems, defaultsInItems] at hn hw
    rw [subsItems, subsItems, subsItems_agree r hn hw]
  | .group cs r, hn, hw => by
    simp only [typesInItems, defaultsInItems, List.mem_append] at hn hw
    rw [subsItems, subsItems, subsItems_agree r (fun m h => hn m (.inr h)) (fun s h => hw s (.inr h))]
    congr 1
    funext rest
    exact subsComps_agree cs (fun m h => hn m (.inl h)) (fun s h => hw s (.inl h)) rest
theorem subsComps_agree : ∀ cs : Comps, (∀ m ∈ typesInComps cs, N m) → (∀ s ∈ defaultsInComps cs, W s) → ∀ rest,
    subsComps ctx' cs rest = subsComps ctx cs rest
  | .nil, _, _, _ => by rw [subsComps, subsComps]
  | .cons id t p r, hn, hw, rest => by
    simp only [typesInComps, defaultsInComps, List.mem_append] at hn hw
    rw [subsComps, subsComps, subsComps_agree r (fun m h => hn m (.inr h)) (fun s h => hw s (.inr (.inr h))) rest,
      classOf_agree (mangle id) t (fun m h => hn m (.inl h)) (fun s h => hw s (.inl h))]
end

theorem needsType_agree {n : String} (p : Pres) (hn : N n) : needsType ctx' n p = needsType ctx n p := by
  simp only [needsType, A.types n hn]

/-- Objects of types that are looked up have the same attributes. -/
def SameObjs (N : String → Prop) (objs objs' : Objs) : Prop := ∀ n, N n → objs'.lookup n = objs.lookup n

theorem refStmts_agree {objs' : Objs} (O : SameObjs N objs objs') {n : String} (hn : N n) :
    refStmts ctx' objs' n = refStmts ctx objs n := by
  simp only [refStmts, A.types n hn, O n hn]
  cases hl : lookupLast ctx.types n with
  | none => rfl
  | some t =>
    have h := fun m => classOf_agree A m t (A.closed n t hl).1 (A.closed n t hl).2
    cases t with
    | ref _ => rfl
    | _ => simp only [h]

mutual
theorem fillTop_agree {objs' : Objs} (O : SameObjs N objs objs') (name : String) : ∀ t : TObj, (∀ m ∈ typesIn t, N m) →
    (∀ s ∈ defaultsIn t, W s) → fillTop ctx' objs' name t = fillTop ctx objs name t
  | .simple k c, hn, hw => by rw [fillTop, fillTop, classOf_agree A name _ hn hw]
  | .enumerated items, hn, hw => by rw [fillTop, fillTop, classOf_agree A name _ hn hw]
  | .seqOf c e, hn, hw => by
    rw [fillTop, fillTop, classOf_agree A name _ hn hw]
    rw [typesIn] at hn; rw [defaultsIn] at hw
    rw [elemStmts_agree O e hn hw]
  | .sequence items, hn, hw => by
    rw [fillTop, fillTop, classOf_agree A name _ hn hw]
    rw [typesIn] at hn; rw [defaultsIn] at hw
    rw [itemsStmts_agree O items hn hw]
  | .choice items, hn, hw => by
    rw [fillTop, fillTop, classOf_agree A name _ hn hw]
    rw [typesIn] at hn; rw [defaultsIn] at hw
    rw [itemsStmts_agree O items hn hw]
  | .ref _, _, _ => by rw [fillTop, fillTop]
theorem elemStmts_agree {objs' : Objs} (O : SameObjs N objs objs') : ∀ t : TObj, (∀ m ∈ typesIn t, N m) →
    (∀ s ∈ defaultsIn t, W s) → elemStmts ctx' objs' t = elemStmts ctx objs t
  | .simple k c, _, _ => by rw [elemStmts, elemStmts]
  | .enumerated items, hn, hw => by rw [elemStmts, elemStmts, classOf_agree A _ _ hn hw]
  | .seqOf c e, hn, hw => by
    rw [elemStmts, elemStmts, classOf_agree A _ _ hn hw]
    rw [typesIn] at hn; rw [defaultsIn] at hw
    rw [elemStmts_agree O e hn hw]
  | .sequence items, hn, hw => by
    rw [elemStmts, elemStmts, classOf_agree A _ _ hn hw]
    rw [typesIn] at hn; rw [defaultsIn] at hw
    rw [itemsStmts_agree O items hn hw]
  | .choice items, hn, hw => by
    rw [elemStmts, elemStmts, classOf_agree A _ _ hn hw]
    rw [typesIn] at hn; rw [defaultsIn] at hw
    rw [itemsStmts_agree O items hn hw]
  | .ref n, hn, _ => by rw [elemStmts, elemStmts, refStmts_agree A O (hn n (by simp [typesIn]))]
theorem compStmts_agree {objs' : Objs} (O : SameObjs N objs objs') (p : Pres) : ∀ t : TObj, (∀ m ∈ typesIn t, N m) →
    (∀ s ∈ defaultsIn t, W s) → compStmts ctx' objs' p t = compStmts ctx objs p t
  | .simple k c, _, _ => by rw [compStmts, compStmts]
  | .enumerated items, _, _ => by rw [compStmts, compStmts]
  | .seqOf c e, hn, hw => by
    rw [typesIn] at hn; rw [defaultsIn] at hw
    rw [compStmts, compStmts, innerStmts_agree O e hn hw]
  | .sequence items, hn, hw => by
    rw [typesIn] at hn; rw [defaultsIn] at hw
    rw [compStmts, compStmts, itemsStmts_agree O items hn hw]
  | .choice items, hn, hw => by
    rw [typesIn] at hn; rw [defaultsIn] at hw
    rw [compStmts, compStmts, itemsStmts_agree O items hn hw]
  | .ref n, hn, _ => by rw [compStmts, compStmts, needsType_agree A p (hn n (by simp [typesIn]))]
theorem innerStmts_agree {objs' : Objs} (O : SameObjs N objs objs') : ∀ t : TObj, (∀ m ∈ typesIn t, N m) →
    (∀ s ∈ defaultsIn t, W s) → innerStmts ctx' objs' t = innerStmts ctx objs t
  | .simple k c, hn, hw => by rw [innerStmts, innerStmts, classOf_agree A _ _ hn hw]
  | .enumerated items, hn, hw => by rw [innerStmts, innerStmts, classOf_agree A _ _ hn hw]
  | .seqOf c e, hn, hw => by
    rw [innerStmts, innerStmts, classOf_agree A _ _ hn hw]
    rw [typesIn] at hn; rw [defaultsIn] at hw
    rw [elemStmts_agree O e hn hw]
  | .sequence items, hn, hw => by
    rw [innerStmts, innerStmts, classOf_agree A _ _ hn hw]
    rw [typesIn] at hn; rw [defaultsIn] at hw
    rw [itemsStmts_agree O items hn hw]
  | .choice items, hn, hw => by
    rw [innerStmts, innerStmts, classOf_agree A _ _ hn hw]
    rw [typesIn] at hn; rw [defaultsIn] at hw
    rw [itemsStmts_agree O items hn hw]
  | .ref n, hn, _ => by rw [innerStmts, innerStmts, needsType_agree A _ (hn n (by simp [typesIn]))]
theorem itemsStmts_agree {objs' : Objs} (O : SameObjs N objs objs') : ∀ items : Items, (∀ m ∈ typesInItems items, N m) →
    (∀ s ∈ defaultsInItems items, W s) → itemsStmts ctx' objs' items = itemsStmts ctx objs items
  | .nil, _, _ => by rw [itemsStmts, itemsStmts]
  | .comp id t p r, hn, hw => by
    simp only [typesInItems, defaultsInItems, List.mem_append] at hn hw
    rw [itemsStmts, itemsStmts, compStmts_agree O p t (fun m h => hn m (.inl h)) (fun s h => hw s (.inl h)),
      itemsStmts_agree O r (fun m h => hn m (.inr h)) (fun s h => hw s (.inr (.inr h)))]
  | .marker r, hn, hw => by
    simp only [typesInItems, defaultsInItems] at hn hw
    rw [itemsStmts, itemsStmts, itemsStmts_agree O r hn hw]
  | .group cs r, hn, hw => by
    simp only [typesInItems, defaultsInItems, List.mem_append] at hn hw
    rw [itemsStmts, itemsStmts, compsStmts_agree O cs (fun m h => hn m (.inl h)) (fun s h => hw s (.inl h)),
      itemsStmts_agree O r (fun m h => hn m (.inr h)) (fun s h => hw s (.inr h))]
theorem compsStmts_agree {objs' : Objs} (O : SameObjs N objs objs') : ∀ cs : Comps, (∀ m ∈ typesInComps cs, N m) →
    (∀ s ∈ defaultsInComps cs, W s) → compsStmts ctx' objs' cs = compsStmts ctx objs cs
  | .nil, _, _ => by rw [compsStmts, compsStmts]
  | .cons id t p r, hn, hw => by
    simp only [typesInComps, defaultsInComps, List.mem_append] at hn hw
    rw [compsStmts, compsStmts, compStmts_agree O p t (fun m h => hn m (.inl h)) (fun s h => hw s (.inl h)),
      compsStmts_agree O r (fun m h => hn m (.inr h)) (fun s h => hw s (.inr (.inr h)))]
end

theorem behind_agree : ∀ (fuel : Nat) {n : String}, N n → behind ctx' fuel n = behind ctx fuel n
  | 0, _, _ => rfl
  | fuel + 1, n, hn => by
    simp only [behind, A.types n hn]
    cases hl : lookupLast ctx.types n with
    | none => rfl
    | some t =>
      cases t with
      | ref m =>
        simp only
        split
        · rfl
        · exact behind_agree fuel ((A.closed n _ hl).1 m (by simp [typesIn]))
      | _ => rfl

end

/-! ## aliases -/

theorem behind_more {ctx : Ctx} : ∀ {f : Nat} {n : String}, behind ctx f n ≠ .error .hang →
    behind ctx (f + 1) n = behind ctx f n
  | 0, _, h => absurd rfl h
  | f + 1, n, h => by
    rw [behind] at h
    rw [behind, behind]
    cases hl : lookupLast ctx.types n with
    | none => rfl
    | some t =>
      rw [hl] at h
      cases t with
      | ref m =>
        simp only at h ⊢
        split
        · rfl
        · next hc =>
          rw [if_neg hc] at h
          exact behind_more h
      | _ => rfl

theorem behind_le {ctx : Ctx} {f g : Nat} {n : String} (h : behind ctx f n ≠ .error .hang) (hg : f ≤ g) :
    behind ctx g n = behind ctx f n := by
  induction hg with
  | refl => rfl
  | step hg ih => rw [behind_more (by rw [ih]; exact h), ih]

/-- What can be found in `f + 1` steps but not in `f` is behind `f` different aliases. -/
theorem behind_chain {ctx : Ctx} : ∀ {f : Nat} {n : String}, behind ctx f n = .error .hang → behind ctx (f + 1) n ≠ .error .hang →
    ∃ l : List String, l.length = f ∧ l.Nodup ∧ ∀ m ∈ l, m ∈ ctx.types.map Prod.fst ∧ behind ctx (f + 1) m ≠ .error .hang
  | 0, _, _, _ => ⟨[], rfl, List.nodup_nil, by simp⟩
  | f + 1, n, h, h' => by
    have hn := h
    have hn' := h'
    rw [behind] at h h'
    cases hl : lookupLast ctx.types n with
    | none => rw [hl] at h; cases h
    | some t =>
      rw [hl] at h h'
      cases t with
      | ref m =>
        simp only at h h'
        split at h
        · next hc => rw [if_pos hc] at h'; exact absurd rfl h'
        · next hc =>
          rw [if_neg hc] at h'
          obtain ⟨l, h1, h2, h3⟩ := behind_chain h h'
          refine ⟨n :: l, by simp [h1], ?_, ?_⟩
          · rw [List.nodup_cons]
            exact ⟨fun hm => (h3 n hm).2 hn, h2⟩
          · intro k hk
            rcases List.mem_cons.1 hk with rfl | hk
            · refine ⟨?_, hn'⟩
              have := mem_of_lookup hl
              rw [List.mem_reverse] at this
              exact List.mem_map.2 ⟨_, this, rfl⟩
            · refine ⟨(h3 k hk).1, ?_⟩
              rw [behind_more (h3 k hk).2]
              exact (h3 k hk).2
      | simple k c => cases h
      | _ => exact absurd rfl h'

theorem nodup_length : ∀ {l l' : List String}, l.Nodup → (∀ x ∈ l, x ∈ l') → l.length ≤ l'.length
  | [], _, _, _ => Nat.zero_le _
  | a :: l, l', hd, h => by
    rw [List.nodup_cons] at hd
    have ha := h a (List.mem_cons_self ..)
    have ih := nodup_length (l' := l'.erase a) hd.2 fun x hx =>
      (List.mem_erase_of_ne (fun e : x = a => hd.1 (e ▸ hx))).2 (h x (List.mem_cons_of_mem _ hx))
    rw [List.length_erase_of_mem ha] at ih
    have := List.length_pos_of_mem ha
    rw [List.length_cons]
    omega

/-- More steps than there are types do not help. -/
theorem behind_enough {ctx : Ctx} {f : Nat} {n : String} (hf : ctx.types.length + 1 ≤ f) :
    behind ctx f n = behind ctx (ctx.types.length + 1) n := by
  by_cases h : behind ctx (ctx.types.length + 1) n = .error .hang
  · rw [h]
    induction hf with
    | refl => exact h
    | @step f hf ih =>
      by_cases h' : behind ctx (f + 1) n = .error .hang
      · exact h'
      · obtain ⟨l, h1, h2, h3⟩ := behind_chain ih h'
        have := nodup_length h2 fun m hm => (h3 m hm).1
        rw [List.length_map] at this
        have hf : ctx.types.length + 1 ≤ f := hf
        omega
  · exact behind_le h hf

/-! ## the module -/

theorem lookupLast_append {α : Type} {l l' : List (String × α)} {n : String} (h : n ∈ l'.map Prod.fst) :
    lookupLast (l ++ l') n = lookupLast l' n := by
  unfold lookupLast
  rw [List.reverse_append]
  have : n ∈ (l'.reverse).map Prod.fst := by simpa using h
  generalize l'.reverse = r at this
  induction r with
  | nil => cases this
  | cons x r ih =>
    obtain ⟨k, a⟩ := x
    rw [List.cons_append, List.lookup_cons, List.lookup_cons]
    cases hk : n == k with
    | true => rfl
    | false =>
      refine ih ?_
      rw [List.map_cons, List.mem_cons] at this
      rcases this with h | h
      · simp [h] at hk
      · exact h

theorem lookup_filter {α : Type} {l : List (String × α)} {n : String} {q : String → Bool} (h : q n = true) :
    (l.filter fun x => q x.1).lookup n = l.lookup n := by
  induction l with
  | nil => rfl
  | cons x l ih =>
    obtain ⟨k, a⟩ := x
    rw [List.filter_cons]
    split
    · rw [List.lookup_cons, List.lookup_cons, ih]
    · next hq =>
      rw [List.lookup_cons, ih]
      cases hk : n == k with
      | false => rfl
      | true =>
        rw [beq_iff_eq] at hk
        subst hk
        exact absurd h hq

theorem types_fst (as : List Assign) : (ctxOf as).types.map Prod.fst = typeNames as := by
  simp only [ctxOf, typeNames, List.map_filterMap]
  congr 1
  funext a
  cases a <;> rfl

theorem constants_eq (as : List Assign) : (ctxOf as).constants = (constantNames as).map pyName := by
  simp only [ctxOf, constantNames, List.map_filterMap]
  congr 1
  funext a
  cases a <;> simp [mangle_eq]

theorem types_mem {as : List Assign} {n : String} {t : TObj} (h : lookupLast (ctxOf as).types n = some t) : .type n t ∈ as := by
  have := mem_of_lookup h
  rw [List.mem_reverse] at this
  simp only [ctxOf, List.mem_filterMap] at this
  obtain ⟨a, ha, he⟩ := this
  cases a <;> simp at he
  obtain ⟨rfl, rfl⟩ := he
  exact ha

/-- The dictionaries of a module, alone and with what was in them. -/
theorem agree {g : Globals} {as : List Assign} (hc : Closed as) (hu : Unaffected g.constants as) :
    Agree (· ∈ typeNames as) (fun s => s ∈ g.constants → s ∈ (ctxOf as).constants) (ctxOf as)
      ⟨(g.parsed as).types, (g.parsed as).constants⟩ where
  types n hn := lookupLast_append (by rw [types_fst]; exact hn)
  words s hs := by
    rw [Bool.eq_iff_iff, List.contains_iff_mem, List.contains_iff_mem]
    simp only [Globals.parsed, List.mem_append]
    exact ⟨fun h => h.elim hs id, .inr⟩
  closed n t h := ⟨fun m hm => hc.1 n t (types_mem h) m hm, fun s hs hg => by
    rw [constants_eq]; exact hu n t (types_mem h) s hs hg⟩

theorem fillAssign_agree {g : Globals} {as : List Assign} (hc : Closed as) (hu : Unaffected g.constants as) {objs objs' : Objs}
    (O : SameObjs (· ∈ typeNames as) objs objs') {a : Assign} (ha : a ∈ as) :
    (∃ e, fillAssign (ctxOf as) objs a = .error e ∧ fillAssign ⟨(g.parsed as).types, (g.parsed as).constants⟩ objs' a = .error e) ∨
    ∃ new ss, fillAssign (ctxOf as) objs a = .ok (new ++ objs, ss) ∧
      fillAssign ⟨(g.parsed as).types, (g.parsed as).constants⟩ objs' a = .ok (new ++ objs', ss) := by
  have A := agree hc hu
  cases a with
  | value n k l =>
    right
    simp only [fillAssign]
    cases parseValue (.simple k none) l <;> exact ⟨[], _, rfl, rfl⟩
  | constant n m l =>
    have hb : behind ⟨(g.parsed as).types, (g.parsed as).constants⟩ ((g.parsed as).types.length + 1) m =
        behind (ctxOf as) ((ctxOf as).types.length + 1) m := by
      rw [behind_agree A _ (hc.2 n m l ha)]
      exact behind_enough (by simp [Globals.parsed])
    unfold fillAssign
    dsimp only
    rw [hb]
    cases behind (ctxOf as) ((ctxOf as).types.length + 1) m with
    | error e => exact .inl ⟨e, rfl, rfl⟩
    | ok x => exact .inr ⟨[_], _, rfl, rfl⟩
  | type n t =>
    have hn := hc.1 n t ha
    have hw : ∀ s ∈ defaultsIn t, s ∈ g.constants → s ∈ (ctxOf as).constants := fun s hs hg => by
      rw [constants_eq]; exact hu n t ha s hs hg
    have hf := fillTop_agree A O (mangle n) t hn hw
    cases t with
    | ref m =>
      simp only [fillAssign, A.types m (hn m (by simp [typesIn]))]
      split
      · exact .inr ⟨[], _, rfl, rfl⟩
      · cases lookupLast (ctxOf as).types m with
        | none => exact .inl ⟨_, rfl, rfl⟩
        | some _ => exact .inr ⟨[], _, rfl, rfl⟩
    | _ =>
      simp only [fillAssign, hf]
      cases fillTop (ctxOf as) objs (mangle n) _ with
      | error e => exact .inl ⟨e, rfl, rfl⟩
      | ok x => exact .inr ⟨[], _, rfl, rfl⟩

theorem generate_alone {g : Globals} {as : List Assign} (hc : Closed as) (hu : Unaffected g.constants as) :
    (generateIn g as).bind (fun x => emitted x.2) = generate as := by
  have key : ∀ (l : List Assign), (∀ a ∈ l, a ∈ as) → ∀ (objs objs' : Objs) (ss : List Plan),
      SameObjs (· ∈ typeNames as) objs objs' →
      (l.foldlM (genStep ⟨(g.parsed as).types, (g.parsed as).constants⟩) (objs', ss)).map Prod.snd =
        (l.foldlM (genStep (ctxOf as)) (objs, ss)).map Prod.snd := by
    intro l
    induction l with
    | nil => intro _ objs objs' ss _; rfl
    | cons a l ih =>
      intro hl objs objs' ss O
      rw [List.foldlM_cons, List.foldlM_cons]
      rcases fillAssign_agree hc hu O (hl a (List.mem_cons_self ..)) with ⟨e, h1, h2⟩ | ⟨new, st, h1, h2⟩
      · simp only [genStep, h1, h2]
        rfl
      · simp only [genStep, h1, h2, bind, Except.bind, pure, Except.pure]
        apply ih fun b hb => hl b (List.mem_cons_of_mem _ hb)
        intro n hn
        simp only [List.lookup_append, O n hn]
  simp only [generateIn, generate]
  have := key as (fun _ h => h) [] (g.parsed as).objs [] ?_
  · revert this
    generalize as.foldlM (genStep (ctxOf as)) ([], []) = x
    generalize as.foldlM (genStep ⟨(g.parsed as).types, (g.parsed as).constants⟩) ((g.parsed as).objs, []) = y
    intro this
    cases x with
    | error e => cases y with
      | error e' => cases this; rfl
      | ok y => cases this
    | ok x => cases y with
      | error e' => cases this
      | ok y =>
        have : y.2 = x.2 := by injection this
        show emitted y.2 = emitted x.2
        rw [this]
  · intro n hn
    rw [List.lookup_nil, List.lookup_eq_none_iff]
    intro x hx
    simp only [Globals.parsed, List.mem_filter, Bool.not_eq_true', types_fst] at hx
    rw [bne_iff_ne]
    rintro rfl
    have := List.contains_iff_mem.2 hn
    rw [hx.2] at this
    cases this

theorem closed_perm {as as' : List Assign} (hp : as'.Perm as) (hc : Closed as) : Closed as' := by
  have hT : ∀ n, n ∈ typeNames as' ↔ n ∈ typeNames as := fun n => (hp.filterMap _).mem_iff
  exact ⟨fun n t h m hm => (hT m).2 (hc.1 n t (hp.mem_iff.1 h) m hm), fun n m l h => (hT m).2 (hc.2 n m l (hp.mem_iff.1 h))⟩

theorem unaffected_perm {as as' : List Assign} {ws : List String} (hp : as'.Perm as) (hu : Unaffected ws as) : Unaffected ws as' := by
  intro n t h s hs hw
  have := hu n t (hp.mem_iff.1 h) s hs hw
  rw [List.mem_map] at this ⊢
  obtain ⟨x, hx, e⟩ := this
  exact ⟨x, (hp.filterMap _).mem_iff.2 hx, e⟩

theorem compile_alone {g : Globals} {as : List Assign} (hd : (typeNames as).Nodup) (hc : Closed as)
    (hu : Unaffected g.constants as) : compileIn g as = compileModule as := by
  have hp : (moduleBody as).1.Perm as := Props.C31_perm Assign.node (hd.sublist (component_names as))
  have := generate_alone (closed_perm hp hc) (unaffected_perm hp hu)
  simp only [compileIn, compileModule, compile, ← this]
  cases generateIn g (moduleBody as).1 <;> rfl

end Verif
