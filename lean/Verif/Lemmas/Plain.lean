import Verif.Compiler
import Verif.SpecSchema
/-!
# The compiler only looks at the ends of a constraint
-/
namespace Verif
open Verif.Spec

theorem plainCon_tuple (c : Con) : (plainCon c).tuple = c.tuple := by
  unfold plainCon
  split
  · next t h =>
    rw [h]
    obtain ⟨lo, hi, ext⟩ := t
    cases ext <;> simp [Con.tuple, Notation.toks, unionToks, interToks, Elem.toks, parseConstraint, List.erase_cons] <;> rfl
  · rfl

def plainCtx (ctx : Ctx) : Ctx := ⟨ctx.types.map fun x => (x.1, plainType x.2), ctx.constants⟩

section
variable {ctx : Ctx} {objs : Objs}

theorem lookup_map {α β : Type} (f : α → β) (n : String) : ∀ l : List (String × α),
    (l.map fun x => (x.1, f x.2)).lookup n = (l.lookup n).map f
  | [] => rfl
  | (k, a) :: l => by
    simp only [List.map_cons, List.lookup_cons, lookup_map f n l]
    cases n == k <;> rfl

theorem lookup_plain (n : String) : lookupLast (plainCtx ctx).types n = (lookupLast ctx.types n).map plainType := by
  simp only [lookupLast, plainCtx, ← List.map_reverse, lookup_map]

theorem constraintOf_plain (c : Option Con) : constraintOf (c.map plainCon) = constraintOf c := by
  cases c with
  | none => rfl
  | some c => simp only [Option.map_some, constraintOf, plainCon_tuple]

theorem cls_plain (t : TObj) : (plainType t).cls = t.cls := by cases t <;> simp [plainType, TObj.cls]

theorem fieldType_plain (id : String) (t : TObj) : fieldType id (plainType t) = fieldType id t := by
  cases t with
  | simple k c => cases c <;> simp [plainType, fieldType]
  | _ => simp [plainType, fieldType]

theorem nested_plain (t : TObj) : nested (plainType t) = nested t := by
  cases t with
  | simple k c => cases c <;> simp [plainType, nested]
  | _ => simp [plainType, nested]

theorem parseValue_plain (t : TObj) (l : Lit) : parseValue (plainType t) l = parseValue t l := by
  cases t with
  | simple k c => cases k <;> cases l <;> simp [plainType, parseValue]
  | _ => cases l <;> simp [plainType, parseValue]

theorem viaType_plain (t : TObj) (l : Lit) (e : Expr) :
    defaultKind.viaType (plainCtx ctx) l (plainType t) e = defaultKind.viaType ctx l t e := by
  cases t with
  | ref n =>
    simp only [plainType, defaultKind.viaType, lookup_plain]
    cases lookupLast ctx.types n <;> simp [parseValue_plain]
  | _ => simp [plainType, defaultKind.viaType]

theorem defaultKind_plain (t : TObj) (l : Lit) : defaultKind (plainCtx ctx) (plainType t) l = defaultKind ctx t l := by
  simp only [defaultKind, parseValue_plain, viaType_plain]
  rfl

theorem fillNamed_plain (id : String) (t : TObj) (p : Pres) : fillNamed (plainCtx ctx) id (plainType t) p = fillNamed ctx id t p := by
  cases p <;> simp [fillNamed, fieldType_plain, defaultKind_plain]

theorem fillNamedAlt_plain (id : String) (t : TObj) (p : Pres) : fillNamedAlt id (plainType t) p = fillNamedAlt id t p := by
  simp [fillNamedAlt, fieldType_plain]

theorem comps_toks_plain {f g : String → TObj → Pres → NT} (h : ∀ id t p, f id (plainType t) p = g id t p) :
    ∀ cs : Comps, (plainComps cs).toks f = cs.toks g
  | .nil => by rw [plainComps]; rfl
  | .cons id t p r => by rw [plainComps, Comps.toks, Comps.toks, h, comps_toks_plain h r]

theorem items_toks_plain {f g : String → TObj → Pres → NT} (h : ∀ id t p, f id (plainType t) p = g id t p) :
    ∀ items : Items, (plainItems items).toks f = items.toks g
  | .nil => by rw [plainItems]; rfl
  | .comp id t p r => by rw [plainItems, Items.toks, Items.toks, h, items_toks_plain h r]
  | .marker r => by rw [plainItems, Items.toks, Items.toks, items_toks_plain h r]
  | .group cs r => by rw [plainItems, Items.toks, Items.toks, items_toks_plain h r, comps_toks_plain h cs]

mutual
theorem classOf_plain (name : String) : ∀ t : TObj, classOf (plainCtx ctx) name (plainType t) = classOf ctx name t
  | .simple k c => by rw [plainType, classOf, classOf, constraintOf_plain]
  | .enumerated items => by rw [plainType, classOf, classOf]
  | .seqOf c e => by rw [plainType, classOf, classOf, constraintOf_plain, cls_plain]
  | .sequence items => by
    rw [plainType, classOf, classOf, subsItems_plain items, items_toks_plain fillNamed_plain]
  | .choice items => by
    rw [plainType, classOf, classOf, subsItems_plain items, items_toks_plain fillNamedAlt_plain]
  | .ref _ => by rw [plainType, classOf, classOf]
theorem subsItems_plain : ∀ items : Items, subsItems (plainCtx ctx) (plainItems items) = subsItems ctx items
  | .nil => by rw [plainItems, subsItems, subsItems]
  | .comp id t p r => by
    rw [plainItems, subsItems, subsItems, subsItems_plain r, nested_plain, classOf_plain (mangle id) t]
  | .marker r => by rw [plainItems, subsItems, subsItems, subsItems_plain r]
  | .group cs r => by
    rw [plainItems, subsItems, subsItems, subsItems_plain r]
    congr 1
    funext rest
    exact subsComps_plain cs rest
theorem subsComps_plain : ∀ (cs : Comps) (rest : Codes), subsComps (plainCtx ctx) (plainComps cs) rest = subsComps ctx cs rest
  | .nil, rest => by rw [plainComps, subsComps, subsComps]
  | .cons id t p r, rest => by
    rw [plainComps, subsComps, subsComps, subsComps_plain r rest, nested_plain, classOf_plain (mangle id) t]
end

theorem needsType_plain (n : String) (p : Pres) : needsType (plainCtx ctx) n p = needsType ctx n p := by
  simp only [needsType, lookup_plain]
  cases lookupLast ctx.types n <;> rfl

theorem refStmts_plain (n : String) : refStmts (plainCtx ctx) objs n = refStmts ctx objs n := by
  simp only [refStmts, lookup_plain]
  cases lookupLast ctx.types n with
  | none => rfl
  | some t =>
    have h := fun m => classOf_plain (ctx := ctx) m t
    cases t <;> simp only [Option.map_some, plainType] at h ⊢ <;> simp only [h]

mutual
theorem fillTop_plain (name : String) : ∀ t : TObj, fillTop (plainCtx ctx) objs name (plainType t) = fillTop ctx objs name t
  | .simple k c => by
    have h := classOf_plain (ctx := ctx) name (.simple k c)
    rw [plainType] at h ⊢; rw [fillTop, fillTop, h]
  | .enumerated items => by
    have h := classOf_plain (ctx := ctx) name (.enumerated items)
    rw [plainType] at h ⊢; rw [fillTop, fillTop, h]
  | .seqOf c e => by
    have h := classOf_plain (ctx := ctx) name (.seqOf c e)
    rw [plainType] at h ⊢; rw [fillTop, fillTop, h, elemStmts_plain e]
  | .sequence items => by
    have h := classOf_plain (ctx := ctx) name (.sequence items)
    rw [plainType] at h ⊢; rw [fillTop, fillTop, h, itemsStmts_plain items]
  | .choice items => by
    have h := classOf_plain (ctx := ctx) name (.choice items)
    rw [plainType] at h ⊢; rw [fillTop, fillTop, h, itemsStmts_plain items]
  | .ref _ => by rw [plainType, fillTop, fillTop]
theorem elemStmts_plain : ∀ t : TObj, elemStmts (plainCtx ctx) objs (plainType t) = elemStmts ctx objs t
  | .simple k c => by rw [plainType, elemStmts, elemStmts]
  | .enumerated items => by
    have h := classOf_plain (ctx := ctx) "EnumeratedType" (.enumerated items)
    rw [plainType] at h ⊢; rw [elemStmts, elemStmts, h]
  | .seqOf c e => by
    have h := classOf_plain (ctx := ctx) "SequenceOfType" (.seqOf c e)
    rw [plainType] at h ⊢; rw [elemStmts, elemStmts, h, elemStmts_plain e]
  | .sequence items => by
    have h := classOf_plain (ctx := ctx) "SequenceType" (.sequence items)
    rw [plainType] at h ⊢; rw [elemStmts, elemStmts, h, itemsStmts_plain items]
  | .choice items => by
    have h := classOf_plain (ctx := ctx) "ChoiceType" (.choice items)
    rw [plainType] at h ⊢; rw [elemStmts, elemStmts, h, itemsStmts_plain items]
  | .ref n => by rw [plainType, elemStmts, elemStmts, refStmts_plain]
theorem compStmts_plain (p : Pres) : ∀ t : TObj, compStmts (plainCtx ctx) objs p (plainType t) = compStmts ctx objs p t
  | .simple k c => by rw [plainType, compStmts, compStmts]
  | .enumerated items => by rw [plainType, compStmts, compStmts]
  | .seqOf c e => by rw [plainType, compStmts, compStmts, innerStmts_plain e]
  | .sequence items => by rw [plainType, compStmts, compStmts, itemsStmts_plain items]
  | .choice items => by rw [plainType, compStmts, compStmts, itemsStmts_plain items]
  | .ref n => by rw [plainType, compStmts, compStmts, needsType_plain]
theorem innerStmts_plain : ∀ t : TObj, innerStmts (plainCtx ctx) objs (plainType t) = innerStmts ctx objs t
  | .simple k c => by
    have h := classOf_plain (ctx := ctx) k.cls (.simple k c)
    rw [plainType] at h ⊢; rw [innerStmts, innerStmts, h]
  | .enumerated items => by
    have h := classOf_plain (ctx := ctx) "EnumeratedType" (.enumerated items)
    rw [plainType] at h ⊢; rw [innerStmts, innerStmts, h]
  | .seqOf c e => by
    have h := classOf_plain (ctx := ctx) "SequenceOfType" (.seqOf c e)
    rw [plainType] at h ⊢; rw [innerStmts, innerStmts, h, elemStmts_plain e]
  | .sequence items => by
    have h := classOf_plain (ctx := ctx) "SequenceType" (.sequence items)
    rw [plainType] at h ⊢; rw [innerStmts, innerStmts, h, itemsStmts_plain items]
  | .choice items => by
    have h := classOf_plain (ctx := ctx) "ChoiceType" (.choice items)
    rw [plainType] at h ⊢; rw [innerStmts, innerStmts, h, itemsStmts_plain items]
  | .ref n => by rw [plainType, innerStmts, innerStmts, needsType_plain]
theorem itemsStmts_plain : ∀ items : Items, itemsStmts (plainCtx ctx) objs (plainItems items) = itemsStmts ctx objs items
  | .nil => by rw [plainItems, itemsStmts, itemsStmts]
  | .comp id t p r => by rw [plainItems, itemsStmts, itemsStmts, compStmts_plain p t, itemsStmts_plain r]
  | .marker r => by rw [plainItems, itemsStmts, itemsStmts, itemsStmts_plain r]
  | .group cs r => by rw [plainItems, itemsStmts, itemsStmts, compsStmts_plain cs, itemsStmts_plain r]
theorem compsStmts_plain : ∀ cs : Comps, compsStmts (plainCtx ctx) objs (plainComps cs) = compsStmts ctx objs cs
  | .nil => by rw [plainComps, compsStmts, compsStmts]
  | .cons id t p r => by rw [plainComps, compsStmts, compsStmts, compStmts_plain p t, compsStmts_plain r]
end

theorem behind_plain : ∀ (fuel : Nat) (n : String),
    behind (plainCtx ctx) fuel n = (behind ctx fuel n).map fun x => (x.1, plainType x.2)
  | 0, _ => rfl
  | fuel + 1, n => by
    simp only [behind, lookup_plain]
    cases lookupLast ctx.types n with
    | none => rfl
    | some t =>
      cases t with
      | ref m =>
        simp only [Option.map_some, plainType]
        split
        · rfl
        · exact behind_plain fuel m
      | _ => simp [plainType, Except.map]

theorem fillAssign_plain (a : Assign) : fillAssign (plainCtx ctx) objs (plainAssign a) = fillAssign ctx objs a := by
  cases a with
  | value n k l => rfl
  | constant n m l =>
    have hlen : (plainCtx ctx).types.length = ctx.types.length := by simp [plainCtx]
    simp only [plainAssign, fillAssign, hlen, behind_plain]
    cases behind ctx (ctx.types.length + 1) m with
    | error e => rfl
    | ok x => simp [Except.map, bind, Except.bind, parseValue_plain]
  | type n t =>
    have h := fillTop_plain (ctx := ctx) (objs := objs) (mangle n) t
    cases t with
    | ref m =>
      simp only [plainAssign, plainType, fillAssign, lookup_plain]
      split
      · rfl
      · cases lookupLast ctx.types m <;> rfl
    | _ => simp only [plainAssign, plainType] at h ⊢; simp only [fillAssign, h]

end

theorem ctxOf_plain (as : List Assign) : ctxOf (as.map plainAssign) = plainCtx (ctxOf as) := by
  unfold ctxOf plainCtx
  simp only [List.filterMap_map, Ctx.mk.injEq]
  constructor
  · induction as with
    | nil => rfl
    | cons a as ih =>
      cases a with
      | type n t => exact congrArg ((n, plainType t) :: ·) ih
      | value n k l => exact ih
      | constant n m l => exact ih
  · congr 1
    funext a
    cases a <;> rfl

theorem generate_plain (as : List Assign) : generate (as.map plainAssign) = generate as := by
  have key : ∀ (l : List Assign) (st : Objs × List Plan),
      (l.map plainAssign).foldlM (genStep (plainCtx (ctxOf as))) st = l.foldlM (genStep (ctxOf as)) st := by
    intro l
    induction l with
    | nil => intro st; rfl
    | cons a l ih =>
      intro st
      simp only [List.map_cons, List.foldlM_cons, genStep, fillAssign_plain]
      congr 1
      funext st
      exact ih st
  simp only [generate, ctxOf_plain, key]

/-! ## the order -/

section
variable {α β : Type} {ref : α → String} {refs : α → List String} {ref' : β → String} {refs' : β → List String} {g : α → β}

def PassState.map (g : α → β) (st : PassState α) : PassState β := ⟨st.newRefs, st.newComps.map g, st.moved, st.allSorted⟩

theorem pull_map (h : ∀ a, ref' (g a) = ref a) (comps : List α) (idx : Nat) (st : PassState α) (s : String) :
    pull ref' (comps.map g) idx (st.map g) s = (pull ref comps idx st s).map g := by
  have e : (comps.map g).map ref' = comps.map ref := by simp [h]
  simp only [pull, e, PassState.map]
  split
  · rfl
  · split
    · rfl
    · next i hi =>
      rw [List.getElem?_map]
      by_cases hc : (decide (i > idx) && !st.moved.contains s) = true
      · rw [if_pos hc]
        refine (if_pos hc).trans ?_
        cases comps[i]? <;> simp
      · rw [if_neg hc]
        exact if_neg hc

theorem place_map (h : ∀ a, ref' (g a) = ref a) (h' : ∀ a, refs' (g a) = refs a) (comps : List α) (st : PassState α) (c : α × Nat) :
    place ref' refs' (comps.map g) (st.map g) (g c.1, c.2) = (place ref refs comps st c).map g := by
  have key : ∀ (l : List String) (st : PassState α),
      l.foldl (pull ref' (comps.map g) c.2) (st.map g) = (l.foldl (pull ref comps c.2) st).map g := by
    intro l
    induction l with
    | nil => intro st; rfl
    | cons s l ih => intro st; rw [List.foldl_cons, List.foldl_cons, pull_map h, ih]
  simp only [place, h, h', key]
  generalize (refs c.1).foldl (pull ref comps c.2) st = st
  by_cases hc : st.newRefs.contains (ref c.1) = true
  · rw [if_pos hc]; exact if_pos hc
  · rw [if_neg hc]; refine (if_neg hc).trans ?_; simp [PassState.map]

theorem sortPass_map (h : ∀ a, ref' (g a) = ref a) (h' : ∀ a, refs' (g a) = refs a) (comps : List α) :
    sortPass ref' refs' (comps.map g) = (sortPass ref refs comps).map g := by
  have key : ∀ (l : List (α × Nat)) (st : PassState α),
      (l.map fun x => (g x.1, x.2)).foldl (place ref' refs' (comps.map g)) (st.map g) = (l.foldl (place ref refs comps) st).map g := by
    intro l
    induction l with
    | nil => intro st; rfl
    | cons c l ih => intro st; rw [List.map_cons, List.foldl_cons, List.foldl_cons, place_map h h', ih]
  unfold sortPass
  rw [List.zipIdx_map]
  exact key comps.zipIdx ⟨[], [], [], true⟩

theorem sortLoop_map (h : ∀ a, ref' (g a) = ref a) (h' : ∀ a, refs' (g a) = refs a) : ∀ (n : Nat) (b : Bool) (comps : List α),
    sortLoop ref' refs' n b (comps.map g) = ((sortLoop ref refs n b comps).1.map g, (sortLoop ref refs n b comps).2)
  | 0, _, _ => rfl
  | _ + 1, true, _ => rfl
  | n + 1, false, comps => by
    rw [sortLoop, sortLoop, sortPass_map h h']
    exact sortLoop_map h h' n _ _

theorem additionalSort_map (h : ∀ a, ref' (g a) = ref a) : ∀ (types comps : List α),
    additionalSort ref' (types.map g) (comps.map g) = ((additionalSort ref types comps).1.map g, (additionalSort ref types comps).2.map g)
  | [], _ => rfl
  | t :: types, comps => by
    have e : (comps.map g).map ref' = comps.map ref := by simp [h]
    simp only [List.map_cons, additionalSort, e, h]
    split
    · simp [additionalSort_map h types comps]
    · next i _ =>
      rw [← additionalSort_map h]
      simp

theorem sortAssignments_map {view : α → Node} {view' : β → Node} (h : ∀ a, view' (g a) = view a) (l : List α) :
    sortAssignments view' (l.map g) = ((sortAssignments view l).1.map g, (sortAssignments view l).2) := by
  have hf : ∀ p : Node → Bool, (l.map g).filter (fun b => p (view' b)) = (l.filter fun a => p (view a)).map g := by
    intro p
    rw [List.filter_map]
    congr 1
    simp only [Function.comp_def, h]
  simp only [sortAssignments, hf fun n => n.cls == .simple && n.valuereference != "", hf fun n => n.cls == .simple && n.valuereference == "",
    hf fun n => n.cls == .defined && n.valuereference != "", hf fun n => n.cls == .defined && n.valuereference == "",
    hf fun n => n.cls == .component, sortComponents]
  rw [sortLoop_map (ref := fun a => (view a).typereference) (refs := fun a => (view a).refs) (by simp [h]) (by simp [h])]
  rw [additionalSort_map (ref := fun a => (view a).typereference) (by simp [h])]
  simp

end

mutual
theorem node_plain (id : String) : ∀ t : TObj, (plainType t).node id = t.node id
  | .simple k c => by rw [plainType, TObj.node, TObj.node]
  | .enumerated items => by rw [plainType]
  | .seqOf c e => by rw [plainType, TObj.node, TObj.node, node_plain "" e]
  | .sequence items => by rw [plainType, TObj.node, TObj.node, nodes_plain items]
  | .choice items => by rw [plainType, TObj.node, TObj.node, nodes_plain items]
  | .ref n => by rw [plainType]
theorem nodes_plain : ∀ items : Items, (plainItems items).nodes = items.nodes
  | .nil => by rw [plainItems]
  | .comp id t p r => by rw [plainItems, Items.nodes, Items.nodes, node_plain id t, nodes_plain r]
  | .marker r => by rw [plainItems, Items.nodes, Items.nodes, nodes_plain r]
  | .group cs r => by rw [plainItems, Items.nodes, Items.nodes, comps_nodes_plain cs, nodes_plain r]
theorem comps_nodes_plain : ∀ cs : Comps, (plainComps cs).nodes = cs.nodes
  | .nil => by rw [plainComps]
  | .cons id t p r => by rw [plainComps, Comps.nodes, Comps.nodes, node_plain id t, comps_nodes_plain r]
end

theorem assign_node_plain (a : Assign) : (plainAssign a).node = a.node := by
  cases a with
  | type n t => simp only [plainAssign, Assign.node, node_plain]
  | _ => rfl

/-- The compiler does not see the difference. -/
theorem compileModule_plain (as : List Assign) : compileModule (as.map plainAssign) = compileModule as := by
  simp only [compileModule, moduleBody, sortAssignments_map assign_node_plain, compile, generate_plain]

end Verif
