import Verif.Lemmas.PyExec
/-!
# A module that loads is written, read and run
-/
namespace Verif.Python
open Spec (imported)

variable {g : Env} {env : List (String × PyObj)}

/-! ## what is referred to can be written -/

theorem Scope.nm (h : Scope g env) {n : String} {o : PyObj} (hn : env.lookup n = some o) : Nm n := (h.names n o hn).1

theorem nm_class (h : Scope g env) {f : String} {t : Ty} (hf : classNamed env f = .ok t) : Nm f := h.nm (eval_class h hf).1

theorem good_endValue (h : Scope g env) {e : End} {z : Option Int} (hz : endValue env e = .ok z) : EndGood e := by
  cases e with
  | ref s =>
    unfold endValue at hz
    cases hl : env.lookup s with
    | none => simp [hl] at hz
    | some o => exact h.nm hl
  | _ => trivial

theorem good_endpoints (h : Scope g env) {c : CTuple} {p : Option Int × Option Int} (hp : endpointsOf env c = .ok p) :
    SpecGood (some c) := by
  unfold endpointsOf at hp
  split at hp
  · cases hp
  · simp only [bind, Except.bind] at hp
    cases h1 : endValue env c.lower with
    | error e => rw [h1] at hp; cases hp
    | ok a =>
      cases h2 : endValue env c.upper with
      | error e => rw [h1, h2] at hp; cases hp
      | ok b => exact ⟨good_endValue h h1, good_endValue h h2⟩

theorem good_construct (h : Scope g env) {t : Ty} {e : Expr} {v : Val} (hw : Spec.quotableValue e = true)
    (hv : construct env t e = .ok v) : ExprGood e := by
  cases e with
  | name s =>
    cases hl : env.lookup s with
    | none => cases t <;> simp [construct, hl] at hv
    | some o => exact h.nm hl
  | str s => exact quotable_of hw
  | junk => cases t <;> simp [construct] at hv
  | _ => trivial

theorem good_loadNT (h : Scope g env) {nt : NT} {c : Component} (hw : Spec.writableNT nt = true)
    (hc : loadNT env nt = .ok c) : NTGood nt := by
  simp only [Spec.writableNT, Bool.and_eq_true] at hw
  obtain ⟨hq, hk⟩ := hw
  refine ⟨quotable_of hq, ?_⟩
  unfold loadNT at hc
  cases e : nt.kind with
  | mandatory =>
    simp only [e, bind, Except.bind] at hc
    cases hf : classNamed env nt.fieldType with
    | error _ => rw [hf] at hc; cases hc
    | ok t => exact ⟨fun _ => nm_class h hf, trivial⟩
  | optional =>
    simp only [e, bind, Except.bind] at hc
    cases hf : classNamed env nt.fieldType with
    | error _ => rw [hf] at hc; cases hc
    | ok t => exact ⟨fun _ => nm_class h hf, trivial⟩
  | default x =>
    simp only [e, bind, Except.bind] at hc hk
    cases hf : classNamed env nt.fieldType with
    | error _ => rw [hf] at hc; cases hc
    | ok t =>
      rw [hf] at hc
      simp only at hc
      cases hv : construct env t x with
      | error _ => rw [hv] at hc; cases hc
      | ok v => exact ⟨fun _ => nm_class h hf, good_construct h hk hv⟩
  | constant s =>
    simp only [e] at hc
    refine ⟨fun hn => absurd rfl (hn s), ?_⟩
    cases hl : env.lookup s with
    | none => simp [hl] at hc
    | some o => exact h.nm hl

theorem good_mapM (h : Scope g env) {l : List NT} {cs : List Component} (hc : l.mapM (loadNT env) = .ok cs) :
    ∀ nt ∈ l, Spec.writableNT nt = true → NTGood nt := by
  induction l generalizing cs with
  | nil => intro nt hn; cases hn
  | cons a l ih =>
    obtain ⟨b, r, h1, h2, _⟩ := mapM_cons_ok hc
    intro nt hn hw
    rcases List.mem_cons.1 hn with rfl | hn
    · exact good_loadNT h hw h1
    · exact ih h2 nt hn hw

theorem good_mapMs (h : Scope g env) {l : List (List NT)} {cs : List (List Component)}
    (hc : l.mapM (fun g : List NT => g.mapM (loadNT env)) = .ok cs) : ∀ u ∈ l, ∀ nt ∈ u, Spec.writableNT nt = true → NTGood nt := by
  induction l generalizing cs with
  | nil => intro nt hn; cases hn
  | cons a l ih =>
    obtain ⟨b, r, h1, h2, _⟩ := mapM_cons_ok hc
    intro nt hn
    rcases List.mem_cons.1 hn with rfl | hn
    · exact good_mapM h h1
    · exact ih h2 nt hn

theorem mandatory_of {nt : NT} (h : Spec.mandatory nt = true) : nt.kind = .mandatory := by
  unfold Spec.mandatory at h
  split at h
  · assumption
  · cases h

theorem good_parts_of (h : Scope g env) {root add : List NT}
    {groups : List (List NT)} {marker ext : Bool} {k : Bool → Fields → Fields → Groups → Ty} {t : Ty}
    (hl : (do
      return k (marker || ext) (← loadNTs env root) (← loadNTs env add)
        (Groups.ofList (← groups.mapM fun g : List NT => g.mapM (loadNT env))) : Except GenErr Ty) = .ok t) :
    (∀ nt ∈ root, Spec.writableNT nt = true → NTGood nt) ∧ (∀ nt ∈ add, Spec.writableNT nt = true → NTGood nt) ∧
      ∀ u ∈ groups, ∀ nt ∈ u, Spec.writableNT nt = true → NTGood nt := by
  simp only [loadNTs, bind, Except.bind, pure, Except.pure] at hl
  cases hr : root.mapM (loadNT env) with
  | error e => rw [hr] at hl; cases hl
  | ok r =>
    cases ha : add.mapM (loadNT env) with
    | error e => rw [hr, ha] at hl; cases hl
    | ok a =>
      cases hg : groups.mapM (fun g : List NT => g.mapM (loadNT env)) with
      | error e => rw [hr, ha, hg] at hl; cases hl
      | ok u => exact ⟨good_mapM h hr, good_mapM h ha, good_mapMs h hg⟩

mutual
theorem good_code (h : Scope g env) : (c : Code) → (t : Ty) → Spec.writableCode c = true → usable c.name = true →
    loadCode env c = .ok t → CodeGood c
  | .simple x k spec, t, hw, hu, hl => by
    have hx : Nm x := ⟨ident_of hw, hu⟩
    refine ⟨hx, ?_⟩
    cases spec with
    | none => cases k <;> trivial
    | some c =>
      unfold loadCode at hl
      cases hb : classNamed env k.cls with
      | error e => rw [hb] at hl; cases hl
      | ok base =>
        rw [hb] at hl
        simp only [bind, Except.bind] at hl
        cases hp : endpointsOf env c with
        | error e => cases k <;> simp [hp] at hl; trivial
        | ok p => cases k <;> first | trivial | exact good_endpoints h hp
  | .enumerated x marker root add, t, hw, hu, hl => by
    obtain ⟨_, _, _, _, hq, _⟩ := load_enumerated hl
    rw [List.all_eq_true] at hq
    exact ⟨⟨ident_of hw, hu⟩, fun i hi => quotable_of (hq i (List.mem_append_left _ hi)),
      fun i hi => quotable_of (hq i (List.mem_append_right _ hi))⟩
  | .seqOf x spec f, t, hw, hu, hl => by
    have hx : Nm x := ⟨ident_of hw, hu⟩
    unfold loadCode at hl
    obtain ⟨T, hb, hl⟩ := bind_ok hl
    split at hl
    case h_2 => cases hl
    simp only [bind, Except.bind, pure, Except.pure] at hl
    have hf : Nm f := by
      cases hf : classNamed env f with
      | error e => rw [hf] at hl; revert hl; repeat' split
                   all_goals first | (intro hl; cases hl; done) | (rename_i hh; cases hh)
      | ok u => exact nm_class h hf
    cases spec with
    | none => exact ⟨hx, trivial, hf⟩
    | some c =>
      cases hp : endpointsOf env c with
      | error e => simp only [hp] at hl; cases hl
      | ok p => exact ⟨hx, good_endpoints h hp, hf⟩
  | .sequence x subs marker root add groups, t, hw, hu, hl => by
    simp only [Spec.writableCode, Bool.and_eq_true, List.all_eq_true, List.mem_append, List.mem_flatten] at hw
    unfold loadCode at hl
    obtain ⟨T, hb, hl⟩ := bind_ok hl
    split at hl
    case h_2 => cases hl
    next ext _ =>
    simp only [Bind.bind, Except.bind] at hl
    cases hs : loadCodes env subs with
    | error e => rw [hs] at hl; cases hl
    | ok l =>
      rw [hs] at hl
      obtain ⟨_, h2, _⟩ := runs_codes h subs l hw.1.2 hs [] env h (fun _ _ => rfl) (fun _ _ => rfl)
      obtain ⟨a, b, c⟩ := good_parts_of (k := .sequence) (marker := marker) (ext := ext) (t := t) h2 hl
      exact ⟨⟨ident_of hw.1.1, hu⟩, good_codes h subs l hw.1.2 hs, fun nt hn => a nt hn (hw.2 nt (.inl (.inl hn))),
        fun nt hn => b nt hn (hw.2 nt (.inl (.inr hn))), fun u hu nt hn => c u hu nt hn (hw.2 nt (.inr ⟨u, hu, hn⟩))⟩
  | .choice x subs marker root add groups, t, hw, hu, hl => by
    simp only [Spec.writableCode, Bool.and_eq_true, List.all_eq_true, List.mem_append, List.mem_flatten] at hw
    unfold loadCode at hl
    obtain ⟨T, hb, hl⟩ := bind_ok hl
    split at hl
    case h_2 => cases hl
    next ext _ =>
    simp only [Bind.bind, Except.bind] at hl
    cases hs : loadCodes env subs with
    | error e => rw [hs] at hl; cases hl
    | ok l =>
      rw [hs] at hl
      obtain ⟨_, h2, _⟩ := runs_codes h subs l hw.1.2 hs [] env h (fun _ _ => rfl) (fun _ _ => rfl)
      obtain ⟨a, b, c⟩ := good_parts_of (k := .choice) (marker := marker) (ext := ext) (t := t) h2 hl
      exact ⟨⟨ident_of hw.1.1, hu⟩, good_codes h subs l hw.1.2 hs,
        fun nt hn => ⟨a nt hn (hw.2 nt (.inl (.inl hn))).1, mandatory_of (hw.2 nt (.inl (.inl hn))).2⟩,
        fun nt hn => ⟨b nt hn (hw.2 nt (.inl (.inr hn))).1, mandatory_of (hw.2 nt (.inl (.inr hn))).2⟩,
        fun u hu nt hn => ⟨c u hu nt hn (hw.2 nt (.inr ⟨u, hu, hn⟩)).1, mandatory_of (hw.2 nt (.inr ⟨u, hu, hn⟩)).2⟩⟩
theorem good_codes (h : Scope g env) : (cs : Codes) → (l : List (String × PyObj)) → Spec.writableCodes cs = true →
    loadCodes env cs = .ok l → CodesGood cs
  | .nil, _, _, _ => trivial
  | .cons c r, l, hw, hl => by
    simp only [Spec.writableCodes, Bool.and_eq_true] at hw
    unfold loadCodes at hl
    simp only [Bind.bind, Except.bind, pure, Except.pure] at hl
    cases hn : nestable c.name with
    | error e => rw [hn] at hl; cases hl
    | ok _ =>
      rw [hn] at hl
      simp only at hl
      cases hc : loadCode env c with
      | error e => rw [hc] at hl; cases hl
      | ok t =>
        rw [hc] at hl
        simp only at hl
        cases hr : loadCodes env r with
        | error e => rw [hr] at hl; cases hl
        | ok rest => exact ⟨good_code h c t hw.1.2 (nestable_of hn).1 hc, good_codes h r rest hw.2 hr⟩
end

/-! ## statements -/

/-- The module's variables after its imports. -/
def headEnv : Env :=
  [("ConstraintAnd", .lib "ConstraintAnd"), ("ConstraintOr", .lib "ConstraintOr"), ("ValueSize", .lib "ValueSize"),
   ("SingleValue", .lib "SingleValue"), ("ValueRange", .lib "ValueRange"), ("SequenceOfValueSize", .lib "SequenceOfValueSize"),
   ("ExtensionMarker", .lib "ExtensionMarker"), ("NoConstraint", .lib "NoConstraint"), ("MAX", .max), ("MIN", .min),
   ("AdditiveNamedTypes", .lib "AdditiveNamedTypes")] ++ objs header ++
  [("UTF8String", .lib "UTF8String"), ("NamedValues", .lib "NamedValues"), ("DefaultedNamedType", .lib "DefaultedNamedType"),
   ("OptionalNamedType", .lib "OptionalNamedType"), ("NamedTypes", .lib "NamedTypes"), ("NamedType", .lib "NamedType")]

theorem exec_head : execAll [] headAst = .ok headEnv := by rfl

theorem head_imported : ∀ n ∉ imported, headEnv.lookup n = none := by
  intro n hn
  rw [List.lookup_eq_none_iff]
  intro p hp
  have : p.1 ∈ headEnv.map Prod.fst := List.mem_map.2 ⟨p, hp, rfl⟩
  have := (by decide : ∀ x ∈ headEnv.map Prod.fst, x ∈ imported) _ this
  simp only [bne_iff_ne]
  rintro rfl
  exact hn this

theorem lookup_mem {β : Type} {l : List (String × β)} {n : String} {o : β} (h : l.lookup n = some o) : (n, o) ∈ l := by
  rw [List.lookup_eq_some_iff] at h
  obtain ⟨a, b, e, _⟩ := h
  rw [e]; simp

theorem scope_head : Scope headEnv header := by
  refine ⟨fun n o h => ?_, fun n o h => ?_, ?_, rfl, rfl, fun k o h => ?_⟩
  · have : ∀ p ∈ header, headEnv.lookup p.1 = some (.obj p.2) := by
      intro p hp
      simp only [header, List.mem_cons, List.not_mem_nil, or_false] at hp
      rcases hp with rfl | rfl | rfl | rfl | rfl | rfl | rfl | rfl <;> rfl
    exact this _ (lookup_mem h)
  · have : ∀ x ∈ header.map Prod.fst, Spec.identifier x = true ∧ usable x = true ∧ x ∉ headerNames := by decide
    obtain ⟨a, b, c⟩ := this n (List.mem_map.2 ⟨_, lookup_mem h, rfl⟩)
    exact ⟨⟨ident_of a, b⟩, c⟩
  · intro f hf
    simp only [callables, List.mem_cons, List.not_mem_nil, or_false] at hf
    rcases hf with rfl | rfl | rfl | rfl | rfl | rfl | rfl | rfl | rfl <;> rfl
  · cases k <;> cases h <;> rfl

/-- A class that has the name of a class of the library keeps its kind. -/
theorem kind_kept (h : Scope g env) {c : Code} {t : Ty} (hw : (Spec.fresh c.name || c.name == Spec.base c) = true)
    (hc : loadCode env c = .ok t) (k : Simple) (hk : c.name = k.cls) : kindOf (.cls t) = some k := by
  simp only [Bool.or_eq_true, beq_iff_eq] at hw
  rcases hw with hw | hw
  · exact not_kind (fresh_of hw).2 _ k hk
  · rw [hw] at hk
    cases c with
    | simple x k' spec =>
      have hk' : k' = k := by cases k <;> cases k' <;> first | rfl | simp [Spec.base, Simple.cls] at hk
      subst hk'
      unfold loadCode at hc
      obtain ⟨T, hb, hl⟩ := bind_ok hc
      have ht := h.simple hb
      cases spec with
      | none => cases hl; exact ht
      | some s =>
        cases k' with
        | boolean => cases hl; exact ht
        | _ =>
          simp only [bind, Except.bind, pure, Except.pure] at hl
          repeat' split at hl
          all_goals cases hl
          rfl
    | _ => cases k <;> simp [Spec.base, Simple.cls] at hk

theorem exec_stmt (h : Scope g env) {s : Stmt} {st : Loaded} (hw : Spec.writable s = true) (hl : loadStmt ⟨env⟩ s = .ok st) :
    ∃ n o, st.env = (n, o) :: env ∧ exec g (stmtAst s) = .ok ((n, .obj o) :: g) ∧ Scope ((n, .obj o) :: g) ((n, o) :: env) ∧
      StmtGood s := by
  cases s with
  | cls c =>
    unfold loadStmt at hl
    simp only [Bind.bind, Except.bind, pure, Except.pure] at hl
    cases hb : bindable c.name with
    | error e => rw [hb] at hl; cases hl
    | ok _ =>
      rw [hb] at hl
      simp only at hl
      cases hc : loadCode env c with
      | error e => rw [hc] at hl; cases hl
      | ok t =>
        rw [hc] at hl
        cases hl
        simp only [Spec.writable, Bool.and_eq_true] at hw
        have i1 := writable_name c hw.2
        obtain ⟨u1, u2⟩ := bindable_of hb
        obtain ⟨bs, tb, d', e1, e2, e3, e4⟩ := runs_code h c t hw.2 hc
        refine ⟨_, _, rfl, ?_, h.bind (.cls t) ⟨i1, u1⟩ u2 (kind_kept h hw.1 hc), good_code h c t hw.2 u1 hc⟩
        have eb : baseOf g (Spec.base c) = .ok tb := by
          unfold baseOf
          rw [h.sees _ _ (eval_class h e2).1]
        rw [stmtAst, e1, exec]
        simp only [Bind.bind, Except.bind, pure, Except.pure, eb, hb, e3, e4]
  | alias n m =>
    unfold loadStmt at hl
    simp only [Bind.bind, Except.bind, pure, Except.pure] at hl
    cases hb : bindable n with
    | error e => rw [hb] at hl; cases hl
    | ok _ =>
      rw [hb] at hl
      simp only at hl
      cases hm : env.lookup m with
      | none => rw [hm] at hl; cases hl
      | some o =>
        rw [hm] at hl
        cases hl
        obtain ⟨i1, i2⟩ := fresh_of hw
        obtain ⟨u1, u2⟩ := bindable_of hb
        refine ⟨_, _, rfl, ?_, h.bind o ⟨i1, u1⟩ u2 (not_kind i2 _), ⟨i1, u1⟩, h.nm hm⟩
        rw [stmtAst, exec, eval_ref h hm, hb]
        rfl
  | value n m e =>
    simp only [Spec.writable, Bool.and_eq_true] at hw
    unfold loadStmt at hl
    simp only [Bind.bind, Except.bind, pure, Except.pure] at hl
    cases hb : bindable n with
    | error e => rw [hb] at hl; cases hl
    | ok _ =>
      rw [hb] at hl
      simp only at hl
      cases hm : classNamed env m with
      | error e => rw [hm] at hl; cases hl
      | ok t =>
        rw [hm] at hl
        simp only at hl
        cases hv : construct env t e with
        | error e => rw [hv] at hl; cases hl
        | ok v =>
          rw [hv] at hl
          cases hl
          obtain ⟨i1, i2⟩ := fresh_of hw.1
          obtain ⟨u1, u2⟩ := bindable_of hb
          refine ⟨_, _, rfl, ?_, h.bind _ ⟨i1, u1⟩ u2 (not_kind i2 _), ⟨i1, u1⟩, nm_class h hm, good_construct h hw.2 hv⟩
          obtain ⟨o, h1, h2⟩ := eval_arg h hv
          have ec : eval g (.call m [exprArg e]) = .ok (.obj (.val t v)) := by
            refine eval_call (h.sees m _ (eval_class h hm).1) h1 ?_
            simp [apply, h2, bind, Except.bind, pure, Except.pure]
          rw [stmtAst, exec, ec, hb]
          rfl

theorem stmt_fresh {s : Stmt} {st : Loaded} {n : String} {o : PyObj} (hl : loadStmt ⟨env⟩ s = .ok st)
    (he : st.env = (n, o) :: env) : n ∉ headerNames := by
  cases s with
  | cls c =>
    unfold loadStmt at hl
    simp only [Bind.bind, Except.bind, pure, Except.pure] at hl
    cases hb : bindable c.name with
    | error e => rw [hb] at hl; cases hl
    | ok _ =>
      rw [hb] at hl
      repeat' split at hl
      all_goals cases hl
      cases he
      exact (bindable_of hb).2
  | alias m m' =>
    unfold loadStmt at hl
    simp only [Bind.bind, Except.bind, pure, Except.pure] at hl
    cases hb : bindable m with
    | error e => rw [hb] at hl; cases hl
    | ok _ =>
      rw [hb] at hl
      repeat' split at hl
      all_goals cases hl
      cases he
      exact (bindable_of hb).2
  | value m m' e =>
    unfold loadStmt at hl
    simp only [Bind.bind, Except.bind, pure, Except.pure] at hl
    cases hb : bindable m with
    | error e => rw [hb] at hl; cases hl
    | ok _ =>
      rw [hb] at hl
      repeat' split at hl
      all_goals cases hl
      cases he
      exact (bindable_of hb).2

theorem exec_stmts {prog : List Stmt} {st : Loaded} (h : Scope g env) (hw : ∀ s ∈ prog, Spec.writable s = true)
    (hl : prog.foldlM loadStmt ⟨env⟩ = .ok st) :
    ∃ new, st.env = new ++ env ∧ execAll g (prog.map stmtAst) = .ok (objs new ++ g) ∧ (∀ s ∈ prog, StmtGood s) ∧
      ∀ p ∈ new, p.1 ∉ headerNames := by
  induction prog generalizing g env with
  | nil => cases hl; exact ⟨[], rfl, rfl, by simp, by simp⟩
  | cons s prog ih =>
    rw [List.foldlM_cons] at hl
    cases hs : loadStmt ⟨env⟩ s with
    | error e => rw [hs] at hl; cases hl
    | ok st' =>
      rw [hs] at hl
      obtain ⟨n, o, e1, e2, e3, e4⟩ := exec_stmt h (hw s (by simp)) hs
      have e5 : n ∉ headerNames := stmt_fresh hs e1
      obtain ⟨env'⟩ := st'
      cases e1
      obtain ⟨new, k1, k2, k3, k4⟩ := ih e3 (fun s' h' => hw s' (by simp [h'])) hl
      refine ⟨new ++ [(n, o)], by rw [k1]; simp, ?_, ?_, ?_⟩
      · rw [List.map_cons, execAll, e2]
        refine Eq.trans k2 ?_
        simp [objs]
      · intro s' h'
        rcases List.mem_cons.1 h' with rfl | h'
        · exact e4
        · exact k3 s' h'
      · intro p hp
        rcases List.mem_append.1 hp with hp | hp
        · exact k4 p hp
        · cases List.mem_singleton.1 hp; exact e5

theorem execAll_append (g : Env) (a b : List PStmt) : execAll g (a ++ b) = (execAll g a).bind fun g => execAll g b := by
  induction a generalizing g with
  | nil => rfl
  | cons s a ih =>
    rw [List.cons_append, execAll, execAll]
    cases exec g s with
    | error e => rfl
    | ok g' => exact ih g'

/-- A module that loads is written down, and its text read by Python and run gives the same. -/
theorem run_module {prog : List Stmt} {st : Loaded} (hw : ∀ s ∈ prog, Spec.writable s = true) (hl : load prog = .ok st) :
    ∃ text new, Render.moduleText prog = some text ∧ st.env = new ++ header ∧ run text = .ok (objs new ++ headEnv) ∧
      ∀ p ∈ new, p.1 ∉ headerNames := by
  obtain ⟨new, h1, h2, h3, h4⟩ := exec_stmts scope_head hw hl
  obtain ⟨text, t1, t2⟩ := parse_module prog h3
  refine ⟨text, new, t1, h1, ?_, h4⟩
  unfold run
  rw [t2]
  simp only [execAll_append, exec_head, Except.bind, h2]

end Verif.Python
