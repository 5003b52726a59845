import Verif.Lemmas.GenClass
/-!
# A generated module declares what the schema declares
-/
namespace Verif

open Spec

/-- Emitting and loading at once. -/
structure Ran where
  env : List (String × PyObj)
  done : List Code

mutual
def runPlan (st : Ran) : Plan → Except GenErr Ran
  | .cls c pre =>
    if st.done.contains c then .ok st
    else do
      let st ← runPlans ⟨st.env, c :: st.done⟩ pre
      bindable c.name
      return ⟨(c.name, .cls (← loadCode st.env c)) :: st.env, st.done⟩
  | .again c => if st.done.contains c then .ok st else .error .unmodelled
  | .alias n m => do
    bindable n
    match st.env.lookup m with
    | some o => .ok ⟨(n, o) :: st.env, st.done⟩
    | none => .error .nameError
  | .value n m e => do
    bindable n
    let t ← classNamed st.env m
    return ⟨(n, .val t (← construct st.env t e)) :: st.env, st.done⟩
def runPlans (st : Ran) : List Plan → Except GenErr Ran
  | [] => .ok st
  | p :: ps => do
    let st ← runPlan st p
    runPlans st ps
end

theorem runPlans_append : ∀ (a b : List Plan) (st : Ran), runPlans st (a ++ b) = runPlans st a >>= fun st => runPlans st b
  | [], _, _ => rfl
  | p :: a, b, st => by
    rw [List.cons_append, runPlans, runPlans]
    cases runPlan st p with
    | error e => rfl
    | ok st' => exact runPlans_append a b st'

mutual
theorem emitPlan_run : ∀ (p : Plan) {st st' : Ran}, runPlan st p = .ok st' →
    ∃ stmts, emitPlan st.done p = .ok (st'.done, stmts) ∧ stmts.foldlM loadStmt ⟨st.env⟩ = .ok ⟨st'.env⟩
  | .cls c pre, st, st', h => by
    rw [runPlan] at h
    rw [emitPlan]
    cases hc : st.done.contains c with
    | true =>
      rw [hc, if_pos rfl] at h
      cases h
      exact ⟨[], by rw [if_pos rfl], rfl⟩
    | false =>
      rw [hc, if_neg (by simp)] at h
      rw [if_neg (by simp)]
      cases h1 : runPlans ⟨st.env, c :: st.done⟩ pre with
      | error e => rw [h1] at h; cases h
      | ok st1 =>
        rw [h1] at h
        obtain ⟨stmts, e1, e2⟩ := emitPlans_run pre h1
        simp only [bind, Except.bind] at h
        cases hb : bindable c.name with
        | error e => rw [hb] at h; cases h
        | ok u =>
          rw [hb] at h
          dsimp only at h
          cases hl : loadCode st1.env c with
          | error e => rw [hl] at h; cases h
          | ok T =>
            rw [hl] at h
            cases h
            refine ⟨stmts ++ [.cls c], ?_, ?_⟩
            · rw [e1]; rfl
            · rw [List.foldlM_append, e2]
              show [Stmt.cls c].foldlM loadStmt ⟨st1.env⟩ = _
              simp only [List.foldlM_cons, List.foldlM_nil, loadStmt, hb, hl, bind, Except.bind, pure, Except.pure]
  | .again c, st, st', h => by
    rw [runPlan] at h
    rw [emitPlan]
    cases hc : st.done.contains c with
    | true =>
      rw [hc, if_pos rfl] at h
      cases h
      exact ⟨[], by rw [if_pos rfl], rfl⟩
    | false =>
      rw [hc, if_neg (by simp)] at h
      cases h
  | .alias n m, st, st', h => by
    rw [runPlan] at h
    refine ⟨[.alias n m], ?_, ?_⟩ <;> simp only [emitPlan, List.foldlM_cons, List.foldlM_nil, loadStmt] <;>
      cases hb : bindable n with
      | error e => rw [hb] at h; cases h
      | ok u =>
        rw [hb] at h
        simp only [bind, Except.bind] at h ⊢
        cases hl : st.env.lookup m with
        | none => rw [hl] at h; cases h
        | some o => rw [hl] at h; cases h; rfl
  | .value n m e, st, st', h => by
    rw [runPlan] at h
    refine ⟨[.value n m e], ?_, ?_⟩ <;> simp only [emitPlan, List.foldlM_cons, List.foldlM_nil, loadStmt] <;>
      cases hb : bindable n with
      | error e => rw [hb] at h; cases h
      | ok u =>
        rw [hb] at h
        simp only [bind, Except.bind] at h ⊢
        cases hl : classNamed st.env m with
        | error e => rw [hl] at h; cases h
        | ok T =>
          rw [hl] at h
          dsimp only at h ⊢
          cases hv : construct st.env T e with
          | error e => rw [hv] at h; cases h
          | ok v => rw [hv] at h; cases h; rfl
theorem emitPlans_run : ∀ (l : List Plan) {st st' : Ran}, runPlans st l = .ok st' →
    ∃ stmts, emitPlans st.done l = .ok (st'.done, stmts) ∧ stmts.foldlM loadStmt ⟨st.env⟩ = .ok ⟨st'.env⟩
  | [], st, st', h => by
    rw [runPlans] at h
    cases h
    exact ⟨[], by rw [emitPlans], rfl⟩
  | p :: l, st, st', h => by
    rw [runPlans] at h
    cases h1 : runPlan st p with
    | error e => rw [h1] at h; cases h
    | ok st1 =>
      rw [h1] at h
      obtain ⟨a, a1, a2⟩ := emitPlan_run p h1
      obtain ⟨b, b1, b2⟩ := emitPlans_run l h
      refine ⟨a ++ b, ?_, ?_⟩
      · rw [emitPlans, a1]
        simp only [bind, Except.bind, b1]
        rfl
      · rw [List.foldlM_append, a2]
        exact b2
end

/-- Statements that do not change what the names of the module stand for. -/
inductive Harmless (st : Ran) : Plan → Prop
  | simple (k : Simple) : Harmless st (.cls (.simple k.cls k none) [])
  | alias {x : String} {o : PyObj} : bindable x = .ok () → st.env.lookup x = some o → Harmless st (.alias x x)
  | again {c : Code} : c ∈ st.done → Harmless st (.again c)
  | value {x m : String} {e : Expr} {T : Ty} {v : Val} : bindable x = .ok () → st.env.lookup m = some (.cls T) →
      (∀ env, (∀ y, env.lookup y = st.env.lookup y) → construct env T e = .ok v) →
      st.env.lookup x = some (.val T v) → Harmless st (.value x m e)

theorem lookup_refresh {env : List (String × PyObj)} {x : String} {o : PyObj} (h : env.lookup x = some o) (y : String) :
    ((x, o) :: env).lookup y = env.lookup y := by
  rw [List.lookup_cons]
  cases hb : y == x with
  | false => rfl
  | true => rw [eq_of_beq hb, h]

/-- The classes of the library. -/
def Builtin (env : List (String × PyObj)) : Prop := ∀ n o, header.lookup n = some o → env.lookup n = some o

theorem load_harmless : ∀ (l : List Plan) (st : Ran), Builtin st.env → (∀ s ∈ l, Harmless st s) →
    ∃ st', runPlans st l = .ok st' ∧ (∀ x, st'.env.lookup x = st.env.lookup x) ∧
      (∀ c ∈ st.done, c ∈ st'.done) ∧ ∀ c ∈ st'.done, c ∈ st.done ∨ ∃ k, c = .simple k.cls k none
  | [], st, _, _ => ⟨st, rfl, fun _ => rfl, fun _ h => h, fun _ h => .inl h⟩
  | s :: l, st, hb, h => by
    have step : ∃ st', runPlan st s = .ok st' ∧ (∀ x, st'.env.lookup x = st.env.lookup x) ∧
        (∀ c ∈ st.done, c ∈ st'.done) ∧ ∀ c ∈ st'.done, c ∈ st.done ∨ ∃ k, c = .simple k.cls k none := by
      cases h s (by simp) with
      | simple k =>
        cases hc : st.done.contains (.simple k.cls k none) with
        | true => exact ⟨st, by simp only [runPlan, hc, if_true], fun _ => rfl, fun _ h => h, fun _ h => .inl h⟩
        | false =>
          obtain ⟨T, hT⟩ : ∃ T, header.lookup k.cls = some (.cls T) := by cases k <;> exact ⟨_, rfl⟩
          have hl := hb _ _ hT
          refine ⟨⟨(k.cls, .cls T) :: st.env, .simple k.cls k none :: st.done⟩, ?_, lookup_refresh hl,
            fun _ h => List.mem_cons_of_mem _ h, fun c hc => ?_⟩
          · have hbd : bindable k.cls = .ok () := by cases k <;> decide
            simp only [runPlan, runPlans, hc, Bool.false_eq_true, if_false, loadCode, classNamed, hl, bind, Except.bind, pure,
              Except.pure, Code.name, hbd]
          · rcases List.mem_cons.1 hc with rfl | hc
            · exact .inr ⟨k, rfl⟩
            · exact .inl hc
      | @alias x o hbd hl =>
        exact ⟨⟨(x, o) :: st.env, st.done⟩, by simp only [runPlan, hl, hbd, bind, Except.bind], lookup_refresh hl,
          fun _ h => h, fun _ h => .inl h⟩
      | @value x m e T v hbd hm hv hl =>
        refine ⟨⟨(x, .val T v) :: st.env, st.done⟩, ?_, lookup_refresh hl, fun _ h => h, fun _ h => .inl h⟩
        simp only [runPlan, hbd, classNamed, hm, hv st.env fun _ => rfl, bind, Except.bind, pure, Except.pure]
      | again hc =>
        refine ⟨st, ?_, fun _ => rfl, fun _ h => h, fun _ h => .inl h⟩
        simp only [runPlan, List.contains_iff_mem.2 hc, if_true]
    obtain ⟨st', e1, e2, e3, e4⟩ := step
    obtain ⟨st'', f1, f2, f3, f4⟩ := load_harmless l st' (fun n o hh => by rw [e2]; exact hb n o hh) fun s hs => by
      cases h s (List.mem_cons_of_mem _ hs) with
      | simple k => exact .simple k
      | alias hbd hl => exact .alias hbd (by rw [e2]; exact hl)
      | value hbd hm hv hl =>
        exact .value hbd (by rw [e2]; exact hm) (fun env he => hv env fun y => by rw [he, e2]) (by rw [e2]; exact hl)
      | again hc => exact .again (e3 _ hc)
    refine ⟨st'', by rw [runPlans, e1]; exact f1, fun x => by rw [f2, e2], fun c hc => f3 c (e3 c hc), ?_⟩
    intro c hc
    rcases f4 c hc with hc | hc
    · exact e4 c hc
    · exact .inr hc

section
variable {as : List Assign} {env : List (String × PyObj)} {τ : List (String × Ty)} {ν : List (String × Ty × Val)}

theorem declared_means {items : Items} {r a : Fields} {g : Groups} (hlist : RegularList (itemList items))
    (h1 : MeansAll τ ν (singlesOf (upTo (itemList items)) ++ singlesOf (past (past (itemList items)))) r)
    (h2 : MeansAll τ ν (singlesOf (upTo (past (itemList items)))) a)
    (h3 : MeansGroups τ ν (groupsOf (upTo (past (itemList items)))) g) :
    ∀ c ∈ declared (itemList items), ∃ T, Means τ ν c.2.1 T := by
  intro c hc
  rcases (declared_parts hlist c).1 hc with h | h | ⟨l, hl, h⟩
  · exact meansAll_mem h1 c h
  · exact meansAll_mem h2 c h
  · exact meansGroups_mem h3 l hl c h

theorem sequence_means {items : Items} {T : Ty} (hlist : RegularList (itemList items)) (h : Means τ ν (.sequence items) T) :
    ∀ c ∈ declared (itemList items), ∃ T, Means τ ν c.2.1 T := by
  cases h with
  | sequence h1 h2 h3 => exact declared_means hlist h1 h2 h3

theorem choice_means {items : Items} {T : Ty} (hlist : RegularList (itemList items)) (h : Means τ ν (.choice items) T) :
    ∀ c ∈ declared (itemList items), ∃ T, Means τ ν c.2.1 T := by
  cases h with
  | @choice _ r _ _ hp h1 h2 h3 =>
    have hroot : MeansAll τ ν (singlesOf (upTo (itemList items)) ++ singlesOf (past (past (itemList items)))) r := by
      rw [hlist.2.2.1, List.append_nil]; exact h1
    exact declared_means hlist hroot h2 h3

/-- Only the classes of the library. -/
def Plain (s : Plan) : Prop := ∃ k : Simple, s = .cls (.simple k.cls k none) []

theorem plain_append {a b : List Plan} (ha : ∀ s ∈ a, Plain s) (hb : ∀ s ∈ b, Plain s) : ∀ s ∈ a ++ b, Plain s := by
  intro s hs
  rcases List.mem_append.1 hs with h | h
  · exact ha s h
  · exact hb s h

variable {objs : Objs} (hτ : ∀ n T, τ.lookup n = some T → ∃ t, lookupLast (ctxOf as).types n = some t)
include hτ

mutual
/-- What is emitted before the class of a SEQUENCE or CHOICE. -/
theorem comp_stmts : ∀ (t : TObj) (p : Pres) (T : Ty), Regular ν as t → Means τ ν t T →
    ∃ pre, compStmts (ctxOf as) objs p t = .ok pre ∧ ∀ s ∈ pre, Plain s
  | .simple _ _, _, _, _, _ => ⟨[], by rw [compStmts], by simp⟩
  | .enumerated _, _, _, _, _ => ⟨[], by rw [compStmts], by simp⟩
  | .ref n, p, T, _, hm => by
    cases hm with
    | ref h =>
      obtain ⟨t, ht⟩ := hτ _ _ h
      exact ⟨[], by simp only [compStmts, needsType, ht], by simp⟩
  | .seqOf con e, p, T, hr, hm => by
    rw [Regular] at hr
    obtain ⟨_, he⟩ := hr
    rcases he with ⟨k, rfl⟩ | ⟨n, rfl⟩
    · exact ⟨[.cls (.simple k.cls k none) []], by rw [compStmts, innerStmts]; cases k <;> rfl, by simp [Plain]⟩
    · have : ∃ T, Means τ ν (.ref n) T := by cases hm <;> exact ⟨_, by assumption⟩
      obtain ⟨T, hm⟩ := this
      cases hm with
      | ref h =>
        obtain ⟨t, ht⟩ := hτ _ _ h
        exact ⟨[], by simp only [compStmts, innerStmts, needsType, ht], by simp⟩
  | .sequence items, p, T, hr, hm => by
    rw [Regular] at hr
    rw [compStmts]
    exact items_stmts items _ hr.1 (sequence_means hr.2.1 hm)
  | .choice items, p, T, hr, hm => by
    rw [Regular] at hr
    rw [compStmts]
    exact items_stmts items _ hr.1 (choice_means hr.2.1 hm)
theorem items_stmts : ∀ (items : Items) (ids : List String), RegularItems ν as ids items →
    (∀ c ∈ declared (itemList items), ∃ T, Means τ ν c.2.1 T) →
    ∃ pre, itemsStmts (ctxOf as) objs items = .ok pre ∧ ∀ s ∈ pre, Plain s
  | .nil, _, _, _ => ⟨[], by rw [itemsStmts], by simp⟩
  | .comp id t p r, ids, h, hm => by
    rw [RegularItems] at h
    obtain ⟨T, hT⟩ := hm (id, t, p) (by simp [itemList, declared])
    obtain ⟨a, e1, h1⟩ := comp_stmts t p T h.1.1 hT
    obtain ⟨b, e2, h2⟩ := items_stmts r ids h.2 fun c hc => hm c (List.mem_cons_of_mem _ hc)
    exact ⟨a ++ b, by rw [itemsStmts, e1, e2]; rfl, plain_append h1 h2⟩
  | .marker r, ids, h, hm => by
    rw [RegularItems] at h
    rw [itemsStmts]
    exact items_stmts r ids h hm
  | .group cs r, ids, h, hm => by
    rw [RegularItems] at h
    obtain ⟨a, e1, h1⟩ := comps_stmts cs ids h.1 fun c hc => hm c (List.mem_append_left _ hc)
    obtain ⟨b, e2, h2⟩ := items_stmts r ids h.2 fun c hc => hm c (List.mem_append_right _ hc)
    exact ⟨a ++ b, by rw [itemsStmts, e1, e2]; rfl, plain_append h1 h2⟩
theorem comps_stmts : ∀ (cs : Comps) (ids : List String), RegularComps ν as ids cs →
    (∀ c ∈ compList cs, ∃ T, Means τ ν c.2.1 T) →
    ∃ pre, compsStmts (ctxOf as) objs cs = .ok pre ∧ ∀ s ∈ pre, Plain s
  | .nil, _, _, _ => ⟨[], by rw [compsStmts], by simp⟩
  | .cons id t p r, ids, h, hm => by
    rw [RegularComps] at h
    obtain ⟨T, hT⟩ := hm (id, t, p) (by simp [compList])
    obtain ⟨a, e1, h1⟩ := comp_stmts t p T h.1.1 hT
    obtain ⟨b, e2, h2⟩ := comps_stmts r ids h.2 fun c hc => hm c (List.mem_cons_of_mem _ hc)
    exact ⟨a ++ b, by rw [compsStmts, e1, e2]; rfl, plain_append h1 h2⟩
end

end

/-! ## one assignment after the other -/

/-- What holds after loading the assignments `pre` of `as`. -/
structure Inv (as pre : List Assign) (τ : List (String × Ty)) (ν : List (String × Ty × Val)) (st : Ran) : Prop where
  builtin : Builtin st.env
  types : ∀ n T, τ.lookup n = some T → n ∈ typeNames pre ∧ st.env.lookup (pyName n) = some (.cls T)
  values : ∀ n T v, ν.lookup n = some (T, v) → n ∈ valueNames pre ∧ st.env.lookup (pyName n) = some (.val T v)
  only : ∀ x o, st.env.lookup x = some o → header.lookup x = some o ∨ (∃ n ∈ typeNames pre, x = pyName n) ∨
    ∃ n ∈ valueNames pre, x = pyName n
  shapes : ∀ n t T, .type n t ∈ pre → τ.lookup n = some T → Shape t T
  constants : ∀ s T v, ν.lookup s = some (T, v) → (∃ k l, .value s k l ∈ pre) ∨
    ∃ m l, .constant s m l ∈ pre ∧ τ.lookup m = some T
  done : ∀ c ∈ st.done, (∃ k : Simple, c = .simple k.cls k none) ∨ ∃ n ∈ typeNames pre, c.name = pyName n
  emitted : ∀ n t, .type n t ∈ pre → (∀ m, t ≠ .ref m) → ∃ code, classOf (ctxOf as) (pyName n) t = .ok code ∧ code ∈ st.done

/-- Values left behind in the objects of types are those of constants: to emit them once more changes nothing. -/
def ObjsOk (pre : List Assign) (τ : List (String × Ty)) (ν : List (String × Ty × Val)) (objs : Objs) : Prop :=
  ∀ n x, objs.lookup n = some x → ∃ s m e T v, x = (pyName s, pyName m, some e) ∧ s ∈ valueNames pre ∧
    ν.lookup s = some (T, v) ∧ τ.lookup m = some T ∧ ∀ env, ValuesIn env ν → construct env T e = .ok v

theorem bindable_ok {as : List Assign} (hn : Names as) {n : String} (h : n ∈ typeNames as ∨ n ∈ valueNames as) :
    bindable (pyName n) = .ok () := by
  obtain ⟨h1, h2⟩ := hn.python n h
  simp only [bindable, List.contains_iff_mem, h1, h2, if_false]

theorem not_builtin {as : List Assign} (hn : Names as) {n : String} (h : n ∈ typeNames as) : n ∉ builtinTypes := by
  intro hb
  have hs : ∀ m ∈ builtinTypes, m ∈ ["IntegerType", "BooleanType", "OctetStringType", "BitStringType",
    "EnumeratedType", "SequenceOfType", "SequenceType", "ChoiceType",
    "DateType", "IA5String", "NullType", "NumericString", "RealType", "UTF8String", "VisibleString"] := by decide
  exact hn.library n h (hs n hb)

theorem typeNames_mem {as : List Assign} {n : String} : n ∈ typeNames as ↔ ∃ t, .type n t ∈ as := by
  constructor
  · intro h
    obtain ⟨a, ha, he⟩ := List.mem_filterMap.1 h
    cases a <;> simp at he
    subst he
    exact ⟨_, ha⟩
  · rintro ⟨t, ht⟩
    exact List.mem_filterMap.2 ⟨_, ht, rfl⟩

theorem filterMap_unique {α β : Type} {f : α → Option β} : ∀ {l : List α} {a b : α} {s : β}, (l.filterMap f).Nodup →
    a ∈ l → b ∈ l → f a = some s → f b = some s → a = b
  | [], _, _, _, _, h, _, _, _ => by cases h
  | x :: l, a, b, s, hn, ha, hb, fa, fb => by
    rcases List.mem_cons.1 ha with rfl | ha' <;> rcases List.mem_cons.1 hb with hb | hb'
    · exact hb.symm
    · rw [List.filterMap_cons_some fa, List.nodup_cons] at hn
      exact absurd (List.mem_filterMap.2 ⟨b, hb', fb⟩) hn.1
    · subst hb
      rw [List.filterMap_cons_some fb, List.nodup_cons] at hn
      exact absurd (List.mem_filterMap.2 ⟨a, ha', fa⟩) hn.1
    · refine filterMap_unique ?_ ha' hb' fa fb
      rw [List.filterMap_cons] at hn
      split at hn
      · exact hn
      · exact (List.nodup_cons.1 hn).2

theorem type_unique {as : List Assign} (hn : Names as) {n : String} {t t' : TObj} (h : .type n t ∈ as)
    (h' : .type n t' ∈ as) : t = t' := by
  have := filterMap_unique hn.distinct.1 h h' rfl rfl
  cases this; rfl

theorem value_unique {as : List Assign} (hn : Names as) {n : String} {a b : Assign} (h : a ∈ as) (h' : b ∈ as)
    (ha : (∃ k l, a = .value n k l) ∨ ∃ m l, a = .constant n m l)
    (hb : (∃ k l, b = .value n k l) ∨ ∃ m l, b = .constant n m l) : a = b := by
  have hs : ∀ a : Assign, ((∃ k l, a = .value n k l) ∨ ∃ m l, a = .constant n m l) →
      (match a with | .value n _ _ => some n | .constant n _ _ => some n | _ => none) = some n := by
    rintro a (⟨k, l, rfl⟩ | ⟨m, l, rfl⟩) <;> rfl
  exact filterMap_unique hn.distinct.2 h h' (hs a ha) (hs b hb)

theorem inv_world {as pre rest : List Assign} {τ : List (String × Ty)} {ν : List (String × Ty × Val)} {st : Ran}
    (hn : Names as) (he : as = pre ++ rest)
    (hc : ∀ s n l, .constant s n l ∈ as → ∃ k c, .type n (.simple k c) ∈ as) (h : Inv as pre τ ν st) :
    World as st.env τ ν where
  names := hn
  builtin := h.builtin
  types n T hτ := by
    obtain ⟨h1, h2⟩ := h.types n T hτ
    obtain ⟨t, ht⟩ := typeNames_mem.1 h1
    exact ⟨hn.types n (typeNames_mem.2 ⟨t, by rw [he]; exact List.mem_append_left _ ht⟩), h2⟩
  values n T v hν := (h.values n T v hν).2
  lower s x hν := by
    obtain ⟨a, ha, hf⟩ := List.mem_filterMap.1 (h.values s x.1 x.2 hν).1
    exact hn.values s (List.mem_filterMap.2 ⟨a, by rw [he]; exact List.mem_append_left _ ha, hf⟩)
  shapes n t T ht hτ := by
    obtain ⟨t', ht'⟩ := typeNames_mem.1 (h.types n T hτ).1
    have := type_unique hn ht (by rw [he]; exact List.mem_append_left _ ht' : Assign.type n t' ∈ as)
    subst this
    exact h.shapes n t T ht' hτ
  constants s n l hs := by
    refine ⟨hc s n l hs, fun T v hν => ?_⟩
    rcases h.constants s T v hν with ⟨k, l', hv⟩ | ⟨m, l', hv, hm⟩
    · have := value_unique hn hs (by rw [he]; exact List.mem_append_left _ hv : Assign.value s k l' ∈ as)
        (.inr ⟨_, _, rfl⟩) (.inl ⟨_, _, rfl⟩)
      cases this
    · have := value_unique hn hs (by rw [he]; exact List.mem_append_left _ hv : Assign.constant s m l' ∈ as)
        (.inr ⟨_, _, rfl⟩) (.inr ⟨_, _, rfl⟩)
      cases this
      exact hm

theorem header_word {x : String} {o : PyObj} (h : header.lookup x = some o) :
    Word x ∧ x ∈ ["IntegerType", "BooleanType", "OctetStringType", "BitStringType", "EnumeratedType", "SequenceOfType",
      "SequenceType", "ChoiceType"] ∧ UpperName x := by
  have hm : x ∈ header.map Prod.fst := List.mem_map.2 ⟨_, mem_of_lookup h, rfl⟩
  simp only [header, List.map_cons, List.map_nil, List.mem_cons, List.not_mem_nil, or_false] at hm
  have hu : UpperName x := by
    rcases hm with rfl | rfl | rfl | rfl | rfl | rfl | rfl | rfl <;> exact upper_of (by decide) (by decide)
  exact ⟨hu.1, by simpa using hm, hu⟩

theorem header_ne {as : List Assign} (hn : Names as) {n x : String} {o : PyObj} (h : n ∈ typeNames as)
    (hx : header.lookup x = some o) : x ≠ pyName n := by
  rintro rfl
  obtain ⟨hw, hm, _⟩ := header_word hx
  have := word_of_mangle hw (hn.types n h).1 (mangle_eq n)
  rw [← this] at hm
  exact hn.library n h (List.mem_append_left ["DateType", "IA5String", "NullType", "NumericString", "RealType",
    "UTF8String", "VisibleString"] hm)

theorem header_ne_value {as : List Assign} (hn : Names as) {n x : String} {o : PyObj} (h : n ∈ valueNames as)
    (hx : header.lookup x = some o) : x ≠ pyName n := by
  rintro rfl
  obtain ⟨hw, _, hu⟩ := header_word hx
  have e := word_of_mangle hw (hn.values n h).1 (mangle_eq n)
  rw [← e] at hu
  exact lower_ne_upper (hn.values n h) hu rfl

theorem lookup_push {env : List (String × PyObj)} {x y : String} {o : PyObj} (h : y ≠ x) :
    ((x, o) :: env).lookup y = env.lookup y := by
  rw [List.lookup_cons, beq_false_of_ne h]

theorem lookup_cons_cases {α : Type} {l : List (String × α)} {n m : String} {x y : α}
    (h : ((n, x) :: l).lookup m = some y) : (m = n ∧ y = x) ∨ (m ≠ n ∧ l.lookup m = some y) := by
  rw [List.lookup_cons] at h
  cases hb : m == n with
  | true => rw [hb] at h; simp only [Option.some.injEq] at h; exact .inl ⟨eq_of_beq hb, h.symm⟩
  | false => rw [hb] at h; exact .inr ⟨ne_of_beq_false hb, h⟩

theorem typeNames_append (a b : List Assign) : typeNames (a ++ b) = typeNames a ++ typeNames b :=
  List.filterMap_append ..

theorem valueNames_append (a b : List Assign) : valueNames (a ++ b) = valueNames a ++ valueNames b :=
  List.filterMap_append ..

section
variable {as pre rest : List Assign} {τ : List (String × Ty)} {ν : List (String × Ty × Val)} {st : Ran}

/-- A type is added. -/
theorem inv_type {n : String} {t : TObj} {T : Ty} {st' : Ran} (hn : Names as) (he : as = (pre ++ [.type n t]) ++ rest)
    (h : Inv as pre τ ν st) (hs : Shape t T)
    (hl : ∀ x, st'.env.lookup x = ((pyName n, PyObj.cls T) :: st.env).lookup x)
    (hd1 : ∀ c ∈ st.done, c ∈ st'.done)
    (hd2 : ∀ c ∈ st'.done, c ∈ st.done ∨ (∃ k : Simple, c = .simple k.cls k none) ∨ c.name = pyName n)
    (hd3 : (∀ m, t ≠ .ref m) → ∃ code, classOf (ctxOf as) (pyName n) t = .ok code ∧ code ∈ st'.done) :
    Inv as (pre ++ [.type n t]) ((n, T) :: τ) ν st' := by
  have e1 : typeNames (pre ++ [.type n t]) = typeNames pre ++ [n] := typeNames_append ..
  have e2 : valueNames (pre ++ [.type n t]) = valueNames pre := by rw [valueNames_append]; simp [valueNames]
  have hn' : n ∈ typeNames as := typeNames_mem.2 ⟨t, by rw [he]; simp⟩
  have hnew : n ∉ typeNames pre := by
    have := hn.distinct.1
    rw [he, typeNames_append, e1, List.append_assoc] at this
    intro hm
    have := (List.nodup_append.1 this).2.2 n hm n (by simp)
    exact this rfl
  have sub : ∀ m ∈ typeNames pre, m ∈ typeNames as := by
    intro m hm; rw [he, typeNames_append, e1]; simp [hm]
  have subv : ∀ m ∈ valueNames pre, m ∈ valueNames as := by
    intro m hm; rw [he, valueNames_append, e2]; simp [hm]
  have htyne : ∀ m ∈ typeNames pre, pyName m ≠ pyName n := by
    intro m hm hc
    have := pyName_inj (hn.types m (sub m hm)).1 (hn.types n hn').1 hc
    subst this
    exact hnew hm
  have hvne : ∀ m ∈ valueNames pre, pyName m ≠ pyName n := fun m hm =>
    lower_ne_upper (hn.values m (subv m hm)) (hn.types n hn')
  have hlook : ∀ m T', ((n, T) :: τ).lookup m = some T' → (m = n ∧ T' = T) ∨ (m ≠ n ∧ τ.lookup m = some T') :=
    fun m T' => lookup_cons_cases
  refine ⟨?_, ?_, ?_, ?_, ?_, ?_, ?_, ?_⟩
  · intro x o hx
    rw [hl, lookup_push (header_ne hn hn' hx)]
    exact h.builtin x o hx
  · intro m T' hm
    rw [e1]
    rcases hlook m T' hm with ⟨rfl, rfl⟩ | ⟨hne, hm⟩
    · exact ⟨by simp, by rw [hl]; simp⟩
    · obtain ⟨h1, h2⟩ := h.types m T' hm
      exact ⟨by simp [h1], by rw [hl, lookup_push (htyne m h1)]; exact h2⟩
  · intro m T' v hm
    obtain ⟨h1, h2⟩ := h.values m T' v hm
    rw [e2]
    exact ⟨h1, by rw [hl, lookup_push (hvne m h1)]; exact h2⟩
  · intro x o hx
    rw [hl] at hx
    rw [e1, e2]
    rcases lookup_cons_cases hx with ⟨rfl, _⟩ | ⟨_, hx⟩
    · exact .inr (.inl ⟨n, by simp, rfl⟩)
    · rcases h.only x o hx with h | ⟨m, hm, r⟩ | h
      · exact .inl h
      · exact .inr (.inl ⟨m, by simp [hm], r⟩)
      · exact .inr (.inr h)
  · intro m t' T' hm hτ
    rcases List.mem_append.1 hm with hm' | hm
    · rcases hlook m T' hτ with ⟨rfl, _⟩ | ⟨_, hτ⟩
      · exact absurd (typeNames_mem.2 ⟨t', hm'⟩) hnew
      · exact h.shapes m t' T' hm' hτ
    · simp only [List.mem_singleton, Assign.type.injEq] at hm
      obtain ⟨rfl, rfl⟩ := hm
      rcases hlook m T' hτ with ⟨_, rfl⟩ | ⟨hne, _⟩
      · exact hs
      · exact absurd rfl hne
  · intro s T' v hν
    rcases h.constants s T' v hν with ⟨k, l, hv⟩ | ⟨m, l, hv, hm⟩
    · exact .inl ⟨k, l, List.mem_append_left _ hv⟩
    · refine .inr ⟨m, l, List.mem_append_left _ hv, ?_⟩
      have : m ≠ n := by rintro rfl; exact hnew (h.types m T' hm).1
      rw [List.lookup_cons, beq_false_of_ne this]
      exact hm
  · intro c hc
    rw [e1]
    rcases hd2 c hc with hc | hc | hc
    · rcases h.done c hc with h | ⟨m, hm, r⟩
      · exact .inl h
      · exact .inr ⟨m, by simp [hm], r⟩
    · exact .inl hc
    · exact .inr ⟨n, by simp, hc⟩
  · intro m t' hm hr
    rcases List.mem_append.1 hm with hm | hm
    · obtain ⟨code, h1, h2⟩ := h.emitted m t' hm hr
      exact ⟨code, h1, hd1 _ h2⟩
    · simp only [List.mem_singleton, Assign.type.injEq] at hm
      obtain ⟨rfl, rfl⟩ := hm
      exact hd3 hr

/-- A value is added. -/
theorem inv_value {n : String} {a : Assign} {T : Ty} {v : Val} (hn : Names as) (he : as = (pre ++ [a]) ++ rest)
    (ha : (∃ k l, a = .value n k l) ∨ ∃ m l, a = .constant n m l ∧ τ.lookup m = some T)
    (h : Inv as pre τ ν st) :
    Inv as (pre ++ [a]) τ ((n, T, v) :: ν) ⟨(pyName n, .val T v) :: st.env, st.done⟩ := by
  have e1 : typeNames (pre ++ [a]) = typeNames pre := by
    rw [typeNames_append]; rcases ha with ⟨k, l, rfl⟩ | ⟨m, l, rfl, _⟩ <;> simp [typeNames]
  have e2 : valueNames (pre ++ [a]) = valueNames pre ++ [n] := by
    rw [valueNames_append]; rcases ha with ⟨k, l, rfl⟩ | ⟨m, l, rfl, _⟩ <;> rfl
  have hn' : n ∈ valueNames as := by rw [he, valueNames_append, e2]; simp
  have hnew : n ∉ valueNames pre := by
    have := hn.distinct.2
    rw [he, valueNames_append, e2, List.append_assoc] at this
    intro hm
    have := (List.nodup_append.1 this).2.2 n hm n (by simp)
    exact this rfl
  have sub : ∀ m ∈ typeNames pre, m ∈ typeNames as := by
    intro m hm; rw [he, typeNames_append, e1]; simp [hm]
  have subv : ∀ m ∈ valueNames pre, m ∈ valueNames as := by
    intro m hm; rw [he, valueNames_append, e2]; simp [hm]
  have htyne : ∀ m ∈ typeNames pre, pyName m ≠ pyName n := fun m hm hc =>
    lower_ne_upper (hn.values n hn') (hn.types m (sub m hm)) hc.symm
  have hvne : ∀ m ∈ valueNames pre, pyName m ≠ pyName n := by
    intro m hm hc
    have := pyName_inj (hn.values m (subv m hm)).1 (hn.values n hn').1 hc
    subst this
    exact hnew hm
  have htype : ∀ m t, Assign.type m t ∈ pre ++ [a] → Assign.type m t ∈ pre := by
    intro m t hm
    rcases List.mem_append.1 hm with hm | hm
    · exact hm
    · rw [List.mem_singleton] at hm
      rcases ha with ⟨k, l, rfl⟩ | ⟨m, l, rfl, _⟩ <;> cases hm
  refine ⟨?_, ?_, ?_, ?_, ?_, ?_, ?_, ?_⟩
  · intro x o hx
    rw [lookup_push (header_ne_value hn hn' hx)]
    exact h.builtin x o hx
  · intro m T' hm
    obtain ⟨h1, h2⟩ := h.types m T' hm
    rw [e1]
    exact ⟨h1, by rw [lookup_push (htyne m h1)]; exact h2⟩
  · intro m T' v' hm
    rw [e2]
    rcases lookup_cons_cases hm with ⟨rfl, hx⟩ | ⟨hne, hm⟩
    · cases hx
      exact ⟨by simp, by simp⟩
    · obtain ⟨h1, h2⟩ := h.values m T' v' hm
      exact ⟨by simp [h1], by rw [lookup_push (hvne m h1)]; exact h2⟩
  · intro x o hx
    rw [e1, e2]
    rcases lookup_cons_cases hx with ⟨rfl, _⟩ | ⟨_, hx⟩
    · exact .inr (.inr ⟨n, by simp, rfl⟩)
    · rcases h.only x o hx with h | h | ⟨m, hm, r⟩
      · exact .inl h
      · exact .inr (.inl h)
      · exact .inr (.inr ⟨m, by simp [hm], r⟩)
  · exact fun m t' T' hm => h.shapes m t' T' (htype m t' hm)
  · intro s T' v' hν
    rcases lookup_cons_cases hν with ⟨rfl, hx⟩ | ⟨_, hν⟩
    · cases hx
      rcases ha with ⟨k, l, rfl⟩ | ⟨m, l, rfl, hm⟩
      · exact .inl ⟨k, l, by simp⟩
      · exact .inr ⟨m, l, by simp, hm⟩
    · rcases h.constants s T' v' hν with ⟨k, l, hv⟩ | ⟨m, l, hv, hm⟩
      · exact .inl ⟨k, l, List.mem_append_left _ hv⟩
      · exact .inr ⟨m, l, List.mem_append_left _ hv, hm⟩
  · intro c hc
    rw [e1]
    exact h.done c hc
  · exact fun m t' hm => h.emitted m t' (htype m t' hm)

/-- Only what the names stand for matters. -/
theorem World.congr {env env' : List (String × PyObj)} (h : ∀ x, env'.lookup x = env.lookup x) (w : World as env τ ν) :
    World as env' τ ν where
  names := w.names
  builtin n o hn := by rw [h]; exact w.builtin n o hn
  types n T hn := by rw [h]; exact w.types n T hn
  values n T v hn := by rw [h]; exact w.values n T v hn
  lower := w.lower
  shapes := w.shapes
  constants := w.constants

/-- What is emitted for a type that is not a reference: something harmless and the class. -/
theorem fill_type {n : String} {t : TObj} {T : Ty} {objs : Objs} (hw : World as st.env τ ν) (h : Inv as pre τ ν st)
    (he : as = pre ++ rest) (ho : ObjsOk pre τ ν objs)
    (hr : Regular ν as t) (hm : Means τ ν t T) (ht : ∀ m, t ≠ .ref m) :
    ∃ hs code, fillTop (ctxOf as) objs (pyName n) t = .ok [.cls code hs] ∧ classOf (ctxOf as) (pyName n) t = .ok code ∧
      code.name = pyName n ∧ (∀ env, (∀ x, env.lookup x = st.env.lookup x) → loadCode env code = .ok T) ∧
      ∀ s ∈ hs, Harmless st s := by
  obtain ⟨code, h1, h2, _⟩ := class_ok hw t ht hr T hm (pyName n)
  have h3 : ∀ env, (∀ x, env.lookup x = st.env.lookup x) → loadCode env code = .ok T := by
    intro env he
    obtain ⟨code', h1', _, h3'⟩ := class_ok (hw.congr he) t ht hr T hm (pyName n)
    rw [h1] at h1'
    cases h1'
    exact h3'
  have hτ : ∀ n T, τ.lookup n = some T → ∃ t, lookupLast (ctxOf as).types n = some t := by
    intro m T' hm
    obtain ⟨t, ht⟩ := typeNames_mem.1 (h.types m T' hm).1
    exact ⟨t, ctx_types hw.names (by rw [he]; exact List.mem_append_left _ ht)⟩
  cases t with
  | simple k c => exact ⟨[], code, by rw [fillTop, h1]; rfl, h1, h2, h3, by simp⟩
  | enumerated items => exact ⟨[], code, by rw [fillTop, h1]; rfl, h1, h2, h3, by simp⟩
  | ref m => exact absurd rfl (ht m)
  | sequence items =>
    rw [Regular] at hr
    obtain ⟨p, e1, hp⟩ := items_stmts hτ items _ hr.1 (sequence_means hr.2.1 hm)
    refine ⟨p, code, by rw [fillTop, h1, e1]; rfl, h1, h2, h3, fun s hs => ?_⟩
    obtain ⟨k, rfl⟩ := hp s hs
    exact .simple k
  | choice items =>
    rw [Regular] at hr
    obtain ⟨p, e1, hp⟩ := items_stmts hτ items _ hr.1 (choice_means hr.2.1 hm)
    refine ⟨p, code, by rw [fillTop, h1, e1]; rfl, h1, h2, h3, fun s hs => ?_⟩
    obtain ⟨k, rfl⟩ := hp s hs
    exact .simple k
  | seqOf con e =>
    rw [Regular] at hr
    rcases hr.2 with ⟨k, rfl⟩ | ⟨m, rfl⟩
    · exact ⟨[], code, by rw [fillTop, h1, elemStmts]; rfl, h1, h2, h3, by simp⟩
    · have : ∃ T, Means τ ν (.ref m) T := by cases hm <;> exact ⟨_, by assumption⟩
      obtain ⟨T', hm'⟩ := this
      cases hm' with
      | ref hl =>
        obtain ⟨hin, hlk⟩ := h.types m T' hl
        obtain ⟨t', ht'⟩ := typeNames_mem.1 hin
        have hctx : lookupLast (ctxOf as).types m = some t' :=
          ctx_types hw.names (by rw [he]; exact List.mem_append_left _ ht')
        by_cases hr' : ∃ q, t' = .ref q
        · obtain ⟨q, rfl⟩ := hr'
          refine ⟨[.alias (mangle m) (mangle m)], code, ?_, h1, h2, h3, ?_⟩
          · rw [fillTop, h1, elemStmts, refStmts, hctx]; rfl
          · intro s hs
            rw [List.mem_singleton] at hs
            subst hs
            rw [mangle_eq]
            exact .alias (o := .cls T') (bindable_ok hw.names (.inl (by rw [he, typeNames_append]; simp [hin]))) hlk
        · have hne : ∀ q, t' ≠ .ref q := fun q hq => hr' ⟨q, hq⟩
          by_cases hv : ∃ k c x, t' = .simple k c ∧ objs.lookup m = some x
          · obtain ⟨k, c, x, rfl, hx⟩ := hv
            obtain ⟨s, m', e, T'', v, rfl, hs, hν, hτ', hcon⟩ := ho m x hx
            refine ⟨[.value (pyName s) (pyName m') e], code, ?_, h1, h2, h3, ?_⟩
            · simp only [fillTop, h1, elemStmts, refStmts, hctx, hx]
              rfl
            · intro s' hs'
              rw [List.mem_singleton] at hs'
              subst hs'
              have hall : ∀ env, (∀ y, env.lookup y = st.env.lookup y) → construct env T'' e = .ok v := fun env hee =>
                hcon env fun n' T3 v3 h3 => by rw [hee]; exact hw.values _ _ _ h3
              exact .value (bindable_ok hw.names (.inr (by rw [he, valueNames_append]; simp [hs])))
                (h.types m' T'' hτ').2 hall (h.values s T'' v hν).2
          · obtain ⟨code', e1, e2⟩ := h.emitted m t' ht' hne
            refine ⟨[.again code'], code, ?_, h1, h2, h3, ?_⟩
            · rw [fillTop, h1, elemStmts, refStmts, hctx]
              cases t' with
              | ref q => exact absurd rfl (hne q)
              | simple k c =>
                have : objs.lookup m = none := by
                  cases hx : objs.lookup m with
                  | none => rfl
                  | some x => exact absurd ⟨k, c, x, rfl, hx⟩ hv
                simp only [mangle_eq, e1, this]; rfl
              | _ => simp only [mangle_eq, e1]; rfl
            · intro s hs
              rw [List.mem_singleton] at hs
              subst hs
              exact .again e2

/-- A statement that loads a new class. -/
theorem load_class {n : String} {T : Ty} {hs : List Plan} {code : Code} (hw : Names as) (hn : n ∈ typeNames as)
    (hnew : n ∉ typeNames pre) (sub : ∀ m ∈ typeNames pre, m ∈ typeNames as)
    (h : Inv as pre τ ν st) (hname : code.name = pyName n)
    (hload : ∀ env, (∀ x, env.lookup x = st.env.lookup x) → loadCode env code = .ok T)
    (hh : ∀ s ∈ hs, Harmless st s) :
    ∃ st', runPlans st [Plan.cls code hs] = .ok st' ∧
      (∀ x, st'.env.lookup x = ((pyName n, PyObj.cls T) :: st.env).lookup x) ∧ (∀ c ∈ st.done, c ∈ st'.done) ∧
      (∀ c ∈ st'.done, c ∈ st.done ∨ (∃ k : Simple, c = .simple k.cls k none) ∨ c.name = pyName n) ∧ code ∈ st'.done := by
  have hh' : ∀ s ∈ hs, Harmless ⟨st.env, code :: st.done⟩ s := by
    intro s hs
    cases hh s hs with
    | simple k => exact .simple k
    | alias a b => exact .alias a b
    | value a b c d => exact .value a b c d
    | again hc => exact .again (List.mem_cons_of_mem _ hc)
  obtain ⟨st1, e1, e2, e3, e4⟩ := load_harmless hs ⟨st.env, code :: st.done⟩ h.builtin hh'
  have hk : ∀ k : Simple, Code.name (.simple k.cls k none) ≠ pyName n := by
    intro k
    obtain ⟨T, hT⟩ : ∃ T, header.lookup k.cls = some (.cls T) := by cases k <;> exact ⟨_, rfl⟩
    exact header_ne hw hn hT
  have hfresh : st.done.contains code = false := by
    cases hc : st.done.contains code with
    | false => rfl
    | true =>
      exfalso
      have hc := List.contains_iff_mem.1 hc
      rcases h.done code hc with ⟨k, rfl⟩ | ⟨m, hm, he⟩
      · exact hk k hname
      · rw [hname] at he
        have := pyName_inj (hw.types n hn).1 (hw.types m (sub m hm)).1 he
        subst this
        exact hnew hm
  refine ⟨⟨(pyName n, .cls T) :: st1.env, st1.done⟩, ?_, ?_, ?_, ?_, ?_⟩
  · simp only [runPlans, runPlan, hfresh, Bool.false_eq_true, if_false, e1, hload _ e2, bind,
      Except.bind, pure, Except.pure, hname, bindable_ok hw (.inl hn)]
  · intro x
    rw [List.lookup_cons, List.lookup_cons, e2]
  · exact fun c hc => e3 c (List.mem_cons_of_mem _ hc)
  · intro c hc
    rcases e4 c hc with hc | hc
    · rcases List.mem_cons.1 hc with rfl | hc
      · exact .inr (.inr hname)
      · exact .inl hc
    · exact .inr (.inl hc)
  · exact e3 _ (List.mem_cons_self ..)

end

/-! ## the module -/

theorem declares_mem {Q : List (String × Ty) → List (String × Ty × Val) → Assign → Prop} {as : List Assign}
    {τ : List (String × Ty)} {ν : List (String × Ty × Val)} (h : Declares Q as τ ν) : ∀ a ∈ as, ∃ τ ν, Q τ ν a := by
  induction h with
  | nil => simp
  | type _ hq _ ih =>
    intro a ha
    rcases List.mem_append.1 ha with ha | ha
    · exact ih a ha
    · rw [List.mem_singleton] at ha; subst ha; exact ⟨_, _, hq⟩
  | value _ hq _ _ ih =>
    intro a ha
    rcases List.mem_append.1 ha with ha | ha
    · exact ih a ha
    · rw [List.mem_singleton] at ha; subst ha; exact ⟨_, _, hq⟩
  | constant _ hq _ _ ih =>
    intro a ha
    rcases List.mem_append.1 ha with ha | ha
    · exact ih a ha
    · rw [List.mem_singleton] at ha; subst ha; exact ⟨_, _, hq⟩

/-- The assignments so far have been generated and loaded. -/
def LoadedTo (as pre : List Assign) (objs : Objs) (st : Ran) : Prop :=
  ∃ l, pre.foldlM (genStep (ctxOf as)) ([], []) = .ok (objs, l) ∧ runPlans ⟨header, []⟩ l = .ok st

theorem loadedTo_snoc {as pre : List Assign} {a : Assign} {objs objs' : Objs} {st st' : Ran} {stmts : List Plan}
    (h : LoadedTo as pre objs st) (h1 : fillAssign (ctxOf as) objs a = .ok (objs', stmts))
    (h2 : runPlans st stmts = .ok st') : LoadedTo as (pre ++ [a]) objs' st' := by
  obtain ⟨l, e1, e2⟩ := h
  refine ⟨l ++ stmts, ?_, ?_⟩
  · rw [List.foldlM_append, e1]
    show [a].foldlM (genStep (ctxOf as)) (objs, l) = _
    simp only [List.foldlM_cons, List.foldlM_nil, genStep, h1, bind, Except.bind, pure, Except.pure]
  · rw [runPlans_append, e2]
    exact h2

/-- A new name changes nothing about the others. -/
theorem objs_type {pre : List Assign} {τ : List (String × Ty)} {ν : List (String × Ty × Val)} {objs : Objs} {n : String}
    {t : TObj} {T : Ty} (h : ObjsOk pre τ ν objs) (hτ : ∀ m T, τ.lookup m = some T → m ∈ typeNames pre)
    (hnew : n ∉ typeNames pre) : ObjsOk (pre ++ [.type n t]) ((n, T) :: τ) ν objs := by
  intro m x hx
  obtain ⟨s, m', e, T', v, h1, h2, h3, h4, h5⟩ := h m x hx
  refine ⟨s, m', e, T', v, h1, by rw [valueNames_append]; simp [h2], h3, ?_, h5⟩
  have : m' ≠ n := by rintro rfl; exact hnew (hτ _ _ h4)
  rw [List.lookup_cons, beq_false_of_ne this]
  exact h4

theorem objs_value {pre : List Assign} {τ : List (String × Ty)} {ν : List (String × Ty × Val)} {objs : Objs} {n : String}
    {a : Assign} {x : Ty × Val} (h : ObjsOk pre τ ν objs) (hnew : ∀ x, ν.lookup n ≠ some x) :
    ObjsOk (pre ++ [a]) τ ((n, x) :: ν) objs := by
  intro m y hy
  obtain ⟨s, m', e, T', v, h1, h2, h3, h4, h5⟩ := h m y hy
  have keep : ∀ s x', ν.lookup s = some x' → ((n, x) :: ν).lookup s = some x' := by
    intro s x' hs
    have : s ≠ n := by rintro rfl; exact hnew _ hs
    rw [List.lookup_cons, beq_false_of_ne this]
    exact hs
  exact ⟨s, m', e, T', v, h1, by rw [valueNames_append]; simp [h2], keep _ _ h3, h4, fun env he =>
    h5 env fun s' T3 v3 h3 => he _ _ _ (keep _ _ h3)⟩

theorem named_nil {env : List (String × PyObj)} {ν : List (String × Ty × Val)} (h : ValuesIn env ν) : Named env [] ν := by
  intro s T v hh _ hν
  have := h _ _ _ hν
  rwa [pyName_id hh] at this

/-- The name of a value is new. -/
theorem unused_value {as pre rest : List Assign} {a : Assign} {n : String} {τ : List (String × Ty)}
    {ν : List (String × Ty × Val)} {st : Ran} (hn : Names as) (he : as = (pre ++ [a]) ++ rest) (h : Inv as pre τ ν st)
    (ha : (∃ k l, a = .value n k l) ∨ ∃ m l, a = .constant n m l) : n ∈ valueNames as ∧ ∀ x, ν.lookup n ≠ some x := by
  have e2 : valueNames (pre ++ [a]) = valueNames pre ++ [n] := by
    rw [valueNames_append]; rcases ha with ⟨k, l, rfl⟩ | ⟨m, l, rfl⟩ <;> rfl
  refine ⟨by rw [he, valueNames_append, e2]; simp, fun x hx => ?_⟩
  have := hn.distinct.2
  rw [he, valueNames_append, e2, List.append_assoc] at this
  exact (List.nodup_append.1 this).2.2 n (h.values n x.1 x.2 hx).1 n (by simp) rfl

theorem declares_loaded {as : List Assign} (hn : Names as) (Q : List (String × Ty) → List (String × Ty × Val) → Assign → Prop)
    (hQ : ∀ τ ν a, Q τ ν a → RegularAssign as τ ν a)
    (hc : ∀ s n l, .constant s n l ∈ as → ∃ k c, .type n (.simple k c) ∈ as)
    {pre : List Assign} {τ : List (String × Ty)} {ν : List (String × Ty × Val)} (h : Declares Q pre τ ν) :
    ∀ rest, as = pre ++ rest → ∃ objs st, LoadedTo as pre objs st ∧ Inv as pre τ ν st ∧ ObjsOk pre τ ν objs := by
  induction h with
  | nil =>
    intro rest _
    refine ⟨[], ⟨header, []⟩, ⟨[], rfl, rfl⟩, ⟨fun _ _ h => h, ?_, ?_, fun _ _ h => .inl h, ?_, ?_, ?_, ?_⟩, ?_⟩ <;>
      simp [ObjsOk]
  | @type pre τ ν n t T hd hq hm ih =>
    intro rest he
    obtain ⟨objs, st, hl, hi, ho⟩ := ih ([.type n t] ++ rest) (by rw [he, List.append_assoc])
    have he' : as = pre ++ ([.type n t] ++ rest) := by rw [he, List.append_assoc]
    have w := inv_world hn he' hc hi
    have hr : Regular ν as t := hQ _ _ _ hq
    have e1 : typeNames (pre ++ [.type n t]) = typeNames pre ++ [n] := typeNames_append ..
    have hn' : n ∈ typeNames as := typeNames_mem.2 ⟨t, by rw [he]; simp⟩
    have hnew : n ∉ typeNames pre := by
      have := hn.distinct.1
      rw [he, typeNames_append, e1, List.append_assoc] at this
      intro hm
      have := (List.nodup_append.1 this).2.2 n hm n (by simp)
      exact this rfl
    have sub : ∀ m ∈ typeNames pre, m ∈ typeNames as := by
      intro m hm; rw [he, typeNames_append, e1]; simp [hm]
    have ho' : ObjsOk (pre ++ [.type n t]) ((n, T) :: τ) ν objs := objs_type ho (fun m T hm => (hi.types m T hm).1) hnew
    by_cases hr' : ∃ m, t = .ref m
    · obtain ⟨m, rfl⟩ := hr'
      have hτ : τ.lookup m = some T := by cases hm; assumption
      obtain ⟨hin, hlk⟩ := hi.types m T hτ
      obtain ⟨t', ht'⟩ := typeNames_mem.1 hin
      have hctx : lookupLast (ctxOf as).types m = some t' := ctx_types hn (by rw [he']; exact List.mem_append_left _ ht')
      refine ⟨objs, ⟨(pyName n, .cls T) :: st.env, st.done⟩,
        loadedTo_snoc hl (stmts := [.alias (pyName n) (pyName m)]) ?_ ?_,
        inv_type hn he hi (by cases T <;> trivial) (fun _ => rfl) (fun _ h => h) (fun _ h => .inl h)
          (fun h => absurd rfl (h m)), ho'⟩
      · have hb : builtinTypes.contains m = false := by
          rw [Bool.eq_false_iff]
          exact fun h => not_builtin hn (sub m hin) (List.contains_iff_mem.1 h)
        simp only [fillAssign, hctx, mangle_eq, hb, Bool.false_eq_true, if_false]
      · simp only [runPlans, runPlan, hlk, bindable_ok hn (.inl hn'), bind, Except.bind, pure, Except.pure]
    · have hne : ∀ m, t ≠ .ref m := fun m hm => hr' ⟨m, hm⟩
      obtain ⟨hs, code, f1, f2, f3, f4, f5⟩ := fill_type (n := n) w hi he' ho hr hm hne
      obtain ⟨st', g1, g2, g3, g4, g5⟩ := load_class hn hn' hnew sub hi f3 f4 f5
      refine ⟨objs, st', loadedTo_snoc hl ?_ g1, inv_type hn he hi (shape_ok hm) g2 g3 g4 fun _ => ⟨code, f2, g5⟩, ho'⟩
      cases t with
      | ref m => exact absurd rfl (hne m)
      | _ => simp only [fillAssign, mangle_eq, f1, bind, Except.bind, pure, Except.pure]
  | @value pre τ ν n k l T v hd hq hm hv ih =>
    intro rest he
    obtain ⟨objs, st, hl, hi, ho⟩ := ih ([.value n k l] ++ rest) (by rw [he, List.append_assoc])
    have he' : as = pre ++ ([.value n k l] ++ rest) := by rw [he, List.append_assoc]
    have w := inv_world hn he' hc hi
    obtain ⟨e, h1, h2, _⟩ := literal_ok (hQ _ _ _ hq) (shape_ok hm) hv (named_nil w.values) w.lower
    have hcls : classNamed st.env k.cls = .ok T := plain_ok w hm rfl st.env (fun _ _ => rfl) ""
    obtain ⟨hn', hnew⟩ := unused_value hn he hi (.inl ⟨k, l, rfl⟩)
    refine ⟨objs, ⟨(pyName n, .val T v) :: st.env, st.done⟩,
      loadedTo_snoc hl (stmts := [.value (pyName n) k.cls e]) ?_ ?_,
      inv_value hn he (.inl ⟨k, l, rfl⟩) hi, objs_value ho hnew⟩
    · simp only [fillAssign, h1, mangle_eq]
    · simp only [runPlans, runPlan, hcls, h2, bindable_ok hn (.inr hn'), bind, Except.bind, pure,
        Except.pure]
  | @constant pre τ ν n m l T v hd hq hτ hv ih =>
    intro rest he
    obtain ⟨objs, st, hl, hi, ho⟩ := ih ([.constant n m l] ++ rest) (by rw [he, List.append_assoc])
    have he' : as = pre ++ ([.constant n m l] ++ rest) := by rw [he, List.append_assoc]
    have w := inv_world hn he' hc hi
    obtain ⟨k, c, hk, hlit⟩ := hQ _ _ _ hq
    obtain ⟨e, h1, h2, _⟩ := literal_ok hlit (w.shapes _ _ _ hk hτ) hv (named_nil w.values) w.lower
    have hcls : classNamed st.env (pyName m) = .ok T := by
      simp only [classNamed, (w.types _ _ hτ).2]
    obtain ⟨hn', hnew⟩ := unused_value hn he hi (.inr ⟨m, l, rfl⟩)
    refine ⟨(m, pyName n, pyName m, some e) :: objs, ⟨(pyName n, .val T v) :: st.env, st.done⟩,
      loadedTo_snoc hl (stmts := [.value (pyName n) (pyName m) e]) ?_ ?_,
      inv_value hn he (.inr ⟨m, l, rfl, hτ⟩) hi, ?_⟩
    · simp only [fillAssign, ctx_types hn hk, behind, h1, mangle_eq, bind, Except.bind, pure, Except.pure, Option.getD_some]
    · simp only [runPlans, runPlan, hcls, h2, bindable_ok hn (.inr hn'), bind, Except.bind, pure,
        Except.pure]

    · intro q x hx
      rcases lookup_cons_cases hx with ⟨rfl, rfl⟩ | ⟨_, hx⟩
      · refine ⟨n, q, e, T, v, rfl, by rw [valueNames_append]; simp [valueNames], by simp, hτ, fun env hv' => ?_⟩
        have hv0 : ValuesIn env ν := by
          intro s T3 v3 h3
          refine hv' s T3 v3 ?_
          have : s ≠ n := by rintro rfl; exact hnew _ h3
          rw [List.lookup_cons, beq_false_of_ne this]
          exact h3
        obtain ⟨e', h1', h2', _⟩ := literal_ok hlit (w.shapes _ _ _ hk hτ) hv (named_nil hv0) w.lower
        rw [h1] at h1'
        cases h1'
        exact h2'
      · exact objs_value ho hnew q x hx

theorem compile_ok {as : List Assign} {τ : List (String × Ty)} {ν : List (String × Ty × Val)} (hn : Names as)
    (h : Declares (RegularAssign as) as τ ν) : ∃ st : Ran, compile as = .ok ⟨st.env⟩ ∧ Inv as as τ ν st := by
  obtain ⟨objs, st, ⟨l, h1, h2⟩, hi, _⟩ := declares_loaded hn (RegularAssign as) (fun _ _ _ h => h) (fun s n l hs => by
    obtain ⟨_, _, k, c, hk, _⟩ := declares_mem h _ hs
    exact ⟨k, c, hk⟩) h [] (by simp)
  refine ⟨st, ?_, hi⟩
  obtain ⟨stmts, e1, e2⟩ := emitPlans_run l h2
  simp only [compile, generate, emitted, load, h1, e1, bind, Except.bind, pure, Except.pure]
  exact e2

end Verif
