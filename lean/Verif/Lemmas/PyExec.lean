import Verif.Lemmas.PyModule
import Verif.SpecText
/-!
# Running a generated module
-/
namespace Verif.Python

/-! ## names -/

open Spec (imported)

/-- What can be called, apart from classes. -/
def callables : List String :=
  ["NamedType", "OptionalNamedType", "DefaultedNamedType", "NamedValues", "AdditiveNamedTypes", "ExtensionMarker",
   "SequenceOfValueSize", "ValueRange", "ValueSize"]

/-- The kind of a class of a simple type. -/
def kindOf : PyObj → Option Simple
  | .cls (.integer _) => some .integer
  | .cls .boolean => some .boolean
  | .cls (.octetString _) => some .octetString
  | .cls (.bitString _) => some .bitString
  | _ => none

/-- A scope in which the names of `env` mean the same, and those of the library what they mean. -/
structure Scope (g : Env) (env : List (String × PyObj)) : Prop where
  sees : ∀ n o, env.lookup n = some o → g.lookup n = some (.obj o)
  names : ∀ n o, env.lookup n = some o → Nm n ∧ n ∉ headerNames
  libs : ∀ f ∈ callables, g.lookup f = some (.lib f)
  min : g.lookup "MIN" = some .min
  max : g.lookup "MAX" = some .max
  kinds : ∀ (k : Simple) o, env.lookup k.cls = some o → kindOf o = some k

theorem lookup_cons_ne {β : Type} {n m : String} {v : β} {l : List (String × β)} (h : n ≠ m) : ((m, v) :: l).lookup n = l.lookup n := by
  rw [List.lookup_cons]
  have : (n == m) = false := by simpa using h
  simp [this]

theorem lookup_cons_eq {β : Type} {n : String} {v : β} {l : List (String × β)} : ((n, v) :: l).lookup n = some v := by
  rw [List.lookup_cons]; simp

/-- A variable of the class. -/
theorem Scope.attr {g : Env} {env : List (String × PyObj)} (h : Scope g env) {a : String} (v : Obj) (ha : a ∈ headerNames)
    (hi : a ∉ imported) : Scope ((a, v) :: g) env := by
  have hc : ∀ f ∈ callables, f ≠ a := by
    rintro f hf rfl
    exact hi ((by decide : ∀ f ∈ callables, f ∈ imported) f hf)
  refine ⟨fun n o hn => ?_, h.names, fun f hf => ?_, ?_, ?_, h.kinds⟩
  · rw [lookup_cons_ne]
    · exact h.sees n o hn
    · rintro rfl; exact (h.names _ o hn).2 ha
  · rw [lookup_cons_ne (hc f hf)]; exact h.libs f hf
  · rw [lookup_cons_ne]
    · exact h.min
    · rintro rfl; exact hi (by decide)
  · rw [lookup_cons_ne]
    · exact h.max
    · rintro rfl; exact hi (by decide)

/-- A class. -/
theorem Scope.bind {g : Env} {env : List (String × PyObj)} (h : Scope g env) {x : String} (o : PyObj) (hx : Nm x)
    (hn : x ∉ headerNames) (hk : ∀ k : Simple, x = k.cls → kindOf o = some k) : Scope ((x, .obj o) :: g) ((x, o) :: env) := by
  refine ⟨fun n p hp => ?_, fun n p hp => ?_, fun f hf => ?_, ?_, ?_, fun k p hp => ?_⟩
  · by_cases e : n = x
    · subst e; rw [lookup_cons_eq] at hp ⊢; cases hp; rfl
    · rw [lookup_cons_ne e] at hp ⊢; exact h.sees n p hp
  · by_cases e : n = x
    · subst e; exact ⟨hx, hn⟩
    · rw [lookup_cons_ne e] at hp; exact h.names n p hp
  · rw [lookup_cons_ne]
    · exact h.libs f hf
    · rintro rfl; exact hn ((by decide : ∀ f ∈ callables, f ∈ headerNames) f hf)
  · rw [lookup_cons_ne]
    · exact h.min
    · rintro rfl; exact hn (by decide)
  · rw [lookup_cons_ne]
    · exact h.max
    · rintro rfl; exact hn (by decide)
  · by_cases e : k.cls = x
    · rw [e, lookup_cons_eq] at hp
      cases hp
      exact hk k e.symm
    · rw [lookup_cons_ne e] at hp
      exact h.kinds k p hp

/-! ## expressions -/

variable {g : Env} {env : List (String × PyObj)}

theorem eval_nm {x : String} (hx : usable x = true) {o : Obj} (h : g.lookup x = some o) : eval g (.name x) = .ok o := by
  have h1 : x ≠ "True" := by rintro rfl; exact absurd hx (by decide)
  have h2 : x ≠ "False" := by rintro rfl; exact absurd hx (by decide)
  simp [eval, h1, h2, h]

theorem eval_ref (h : Scope g env) {x : String} {o : PyObj} (hx : env.lookup x = some o) : eval g (.name x) = .ok (.obj o) :=
  eval_nm (h.names x o hx).1.2 (h.sees x o hx)

theorem eval_call {f : String} {o v : Obj} {args : List (Option String × PExpr)} {as : List (Option String × Obj)}
    (hf : g.lookup f = some o) (ha : evalArgs g args = .ok as) (hv : apply o as = .ok v) : eval g (.call f args) = .ok v := by
  rw [eval, hf]
  simp only [bind, Except.bind, ha]
  exact hv

theorem evalArgs_cons {k : Option String} {e : PExpr} {r : List (Option String × PExpr)} {v : Obj}
    {vs : List (Option String × Obj)} (h : eval g e = .ok v) (hr : evalArgs g r = .ok vs) :
    evalArgs g ((k, e) :: r) = .ok ((k, v) :: vs) := by
  rw [evalArgs, h]
  simp only [bind, Except.bind, hr]
  rfl

theorem evalArgs_nil : evalArgs g [] = .ok [] := by rw [evalArgs]

theorem eval_str (s : String) : eval g (.str s) = .ok (.str s) := by rw [eval]

theorem eval_int (z : Int) : eval g (intExpr z) = .ok (.int z) := by
  unfold intExpr
  split
  · simp only [eval, bind, Except.bind, pure, Except.pure]
    congr 2; omega
  · rw [eval]; congr 2; omega

theorem eval_true : eval g (.name "True") = .ok (.bool true) := by simp [eval]
theorem eval_false : eval g (.name "False") = .ok (.bool false) := by simp [eval]

/-! ### constraints -/

theorem eval_lower (h : Scope g env) {e : End} {z : Option Int} (he : e ≠ .max) (hz : endValue env e = .ok z) :
    ∃ o, eval g (endExpr e) = .ok o ∧ lowerEnd o = .ok z := by
  cases e with
  | num n => cases hz; exact ⟨_, eval_int n, rfl⟩
  | min => cases hz; exact ⟨_, eval_nm (by decide) h.min, rfl⟩
  | max => exact absurd rfl he
  | ref s =>
    simp only [endValue] at hz
    cases hl : env.lookup s with
    | none => simp [hl] at hz
    | some o =>
      refine ⟨_, eval_ref h hl, ?_⟩
      rw [hl] at hz
      cases o with
      | cls t => simp at hz
      | val t v => cases v <;> simp at hz; cases hz; rfl

theorem eval_upper (h : Scope g env) {e : End} {z : Option Int} (he : e ≠ .min) (hz : endValue env e = .ok z) :
    ∃ o, eval g (endExpr e) = .ok o ∧ upperEnd o = .ok z := by
  cases e with
  | num n => cases hz; exact ⟨_, eval_int n, rfl⟩
  | max => cases hz; exact ⟨_, eval_nm (by decide) h.max, rfl⟩
  | min => exact absurd rfl he
  | ref s =>
    simp only [endValue] at hz
    cases hl : env.lookup s with
    | none => simp [hl] at hz
    | some o =>
      refine ⟨_, eval_ref h hl, ?_⟩
      rw [hl] at hz
      cases o with
      | cls t => simp at hz
      | val t v => cases v <;> simp at hz; cases hz; rfl

theorem eval_spec (h : Scope g env) {c : CTuple} {p : Option Int × Option Int} (hp : endpointsOf env c = .ok p) :
    ∃ as, evalArgs g (specArgs c) = .ok as ∧ endpoints as = .ok (p, c.ext) := by
  unfold endpointsOf at hp
  split at hp
  · cases hp
  · next hn =>
    simp only [Bool.or_eq_true, decide_eq_true_eq, not_or] at hn
    cases h1 : endValue env c.lower with
    | error e => rw [h1] at hp; cases hp
    | ok a =>
      cases h2 : endValue env c.upper with
      | error e => rw [h1, h2] at hp; cases hp
      | ok b =>
        rw [h1, h2] at hp
        cases hp
        obtain ⟨o, ho, hl⟩ := eval_lower h hn.1 h1
        obtain ⟨o', ho', hl'⟩ := eval_upper h hn.2 h2
        unfold specArgs
        cases c.ext with
        | true =>
          refine ⟨_, evalArgs_cons ho (evalArgs_cons ho' (evalArgs_cons eval_true evalArgs_nil)), ?_⟩
          simp [endpoints, hl, hl', bind, Except.bind, pure, Except.pure]
        | false =>
          refine ⟨_, evalArgs_cons ho (evalArgs_cons ho' evalArgs_nil), ?_⟩
          simp [endpoints, hl, hl', bind, Except.bind, pure, Except.pure]

/-! ### values -/

theorem binDigits_map (b : Bits) : binDigits (String.ofList (b.map Render.binChar)) = some b := by
  unfold binDigits
  rw [String.toList_ofList]
  induction b with
  | nil => rfl
  | cons x b ih =>
    rw [List.map_cons, List.mapM_cons, ih]
    cases x <;> rfl

theorem hexDigits_map (b : List (Fin 16)) : hexDigits (String.ofList (b.map Render.hexChar)) = some b := by
  unfold hexDigits
  rw [String.toList_ofList]
  induction b with
  | nil => rfl
  | cons x b ih =>
    rw [List.map_cons, List.mapM_cons, ih]
    have : ∀ x : Fin 16, (if (Render.hexChar x).isDigit then some (Fin.ofNat 16 ((Render.hexChar x).toNat - 48))
      else if 'A' ≤ Render.hexChar x ∧ Render.hexChar x ≤ 'F' then some (Fin.ofNat 16 ((Render.hexChar x).toNat - 55))
      else none) = some x := by decide
    rw [this x]
    rfl

theorem eval_arg (h : Scope g env) {t : Ty} {e : Expr} {v : Val} (hv : construct env t e = .ok v) :
    ∃ o, evalArgs g [exprArg e] = .ok [((exprArg e).1, o)] ∧ make t [((exprArg e).1, o)] = .ok v := by
  cases e with
  | int z =>
    refine ⟨_, evalArgs_cons (eval_int z) evalArgs_nil, ?_⟩
    cases t <;> simp [construct, make, exprArg] at hv ⊢
    exact hv
  | bool b =>
    refine ⟨.bool b, ?_, ?_⟩
    · cases b
      · exact evalArgs_cons eval_false evalArgs_nil
      · exact evalArgs_cons eval_true evalArgs_nil
    · cases t <;> simp [construct, make, exprArg] at hv ⊢
      exact hv
  | str s =>
    refine ⟨_, evalArgs_cons (eval_str s) evalArgs_nil, ?_⟩
    cases t <;> simp [construct, make, exprArg] at hv ⊢
    exact hv
  | bin b =>
    refine ⟨_, evalArgs_cons (eval_str _) evalArgs_nil, ?_⟩
    cases t <;> simp [construct, make, exprArg, binDigits_map] at hv ⊢ <;> exact hv
  | hex b =>
    refine ⟨_, evalArgs_cons (eval_str _) evalArgs_nil, ?_⟩
    cases t <;> simp [construct, make, exprArg, hexDigits_map] at hv ⊢ <;> exact hv
  | junk => cases t <;> simp [construct] at hv
  | name s =>
    cases hl : env.lookup s with
    | none => cases t <;> simp [construct, hl] at hv
    | some o =>
      refine ⟨_, evalArgs_cons (eval_ref h hl) evalArgs_nil, ?_⟩
      cases o with
      | cls t' => cases t <;> simp [construct, hl] at hv
      | val t' w => cases t <;> cases w <;> simp [construct, hl, make, exprArg] at hv ⊢ <;> exact hv

/-! ### components -/

theorem eval_class (h : Scope g env) {f : String} {t : Ty} (hf : classNamed env f = .ok t) :
    env.lookup f = some (.cls t) ∧ eval g (.call f []) = .ok (.schema t) := by
  unfold classNamed at hf
  cases hl : env.lookup f with
  | none => simp [hl] at hf
  | some o =>
    cases o with
    | val t' v => simp [hl] at hf
    | cls t' =>
      simp only [hl] at hf
      cases hf
      exact ⟨rfl, eval_call (h.sees f _ hl) evalArgs_nil (by simp [apply])⟩

theorem apply_named (s : String) (t : Ty) : apply (.lib "NamedType") [(none, .str s), (none, .schema t)] = .ok (.named (s, .mandatory, t)) := by
  simp [apply]
theorem apply_optional (s : String) (t : Ty) :
    apply (.lib "OptionalNamedType") [(none, .str s), (none, .schema t)] = .ok (.named (s, .optional, t)) := by
  simp [apply]
theorem apply_default (s : String) (t : Ty) (v : Val) :
    apply (.lib "DefaultedNamedType") [(none, .str s), (none, .obj (.val t v))] = .ok (.named (s, .default v, t)) := by
  simp [apply]

theorem eval_nt (h : Scope g env) {nt : NT} {c : Component} (hc : loadNT env nt = .ok c) : eval g (ntAst nt) = .ok (.named c) := by
  unfold loadNT at hc
  unfold ntAst
  split at hc
  · next e =>
    rw [e]
    cases hf : classNamed env nt.fieldType with
    | error x => rw [hf] at hc; cases hc
    | ok t =>
      rw [hf] at hc; cases hc
      exact eval_call (h.libs _ (by decide)) (evalArgs_cons (eval_str _) (evalArgs_cons (eval_class h hf).2 evalArgs_nil))
        (apply_named _ _)
  · next e =>
    rw [e]
    cases hf : classNamed env nt.fieldType with
    | error x => rw [hf] at hc; cases hc
    | ok t =>
      rw [hf] at hc; cases hc
      exact eval_call (h.libs _ (by decide)) (evalArgs_cons (eval_str _) (evalArgs_cons (eval_class h hf).2 evalArgs_nil))
        (apply_optional _ _)
  · next x e =>
    rw [e]
    cases hf : classNamed env nt.fieldType with
    | error x => rw [hf] at hc; cases hc
    | ok t =>
      rw [hf] at hc
      simp only [bind, Except.bind] at hc
      cases hv : construct env t x with
      | error y => rw [hv] at hc; cases hc
      | ok v =>
        rw [hv] at hc; cases hc
        obtain ⟨o, ho, hm⟩ := eval_arg h hv
        have : eval g (.call nt.fieldType [exprArg x]) = .ok (.obj (.val t v)) := by
          refine eval_call (h.sees _ _ (eval_class h hf).1) ho ?_
          simp [apply, hm, bind, Except.bind, pure, Except.pure]
        exact eval_call (h.libs _ (by decide)) (evalArgs_cons (eval_str _) (evalArgs_cons this evalArgs_nil)) (apply_default _ _ _)
  · next s e =>
    rw [e]
    split at hc
    · next t v hl =>
      cases hc
      exact eval_call (h.libs _ (by decide)) (evalArgs_cons (eval_str _) (evalArgs_cons (eval_ref h hl) evalArgs_nil))
        (apply_default _ _ _)
    · cases hc
    · cases hc

theorem mapM_cons_ok {α β : Type} {f : α → Except GenErr β} {a : α} {l : List α} {r : List β} (h : (a :: l).mapM f = .ok r) :
    ∃ b r', f a = .ok b ∧ l.mapM f = .ok r' ∧ r = b :: r' := by
  rw [List.mapM_cons] at h
  cases hb : f a with
  | error e => rw [hb] at h; cases h
  | ok b =>
    rw [hb] at h
    simp only [bind, Except.bind] at h
    cases hr : l.mapM f with
    | error e => rw [hr] at h; cases h
    | ok r' => rw [hr] at h; cases h; exact ⟨b, r', rfl, rfl, rfl⟩

/-- Arguments that are components. -/
theorem eval_nts (h : Scope g env) {l : List NT} {cs : List Component} (hc : l.mapM (loadNT env) = .ok cs) :
    evalArgs g (plain (l.map ntAst)) = .ok (cs.map fun c => (none, .named c)) := by
  induction l generalizing cs with
  | nil => cases hc; exact evalArgs_nil
  | cons nt l ih =>
    obtain ⟨c, r, h1, h2, rfl⟩ := mapM_cons_ok hc
    exact evalArgs_cons (eval_nt h h1) (ih h2)

theorem componentsOf_map (cs : List Component) : componentsOf (cs.map fun c => (none, .named c)) = .ok cs := by
  induction cs with
  | nil => rfl
  | cons c cs ih => simp [componentsOf, ih, bind, Except.bind, pure, Except.pure]

theorem eval_types (h : Scope g env) {l : List NT} {cs : List Component} (hc : l.mapM (loadNT env) = .ok cs) :
    eval g (typesAst l) = .ok (.namedTypes cs) := by
  refine eval_call (h.libs _ (by decide)) (eval_nts h hc) ?_
  simp [apply, componentsOf_map, bind, Except.bind, pure, Except.pure]

theorem eval_groups (h : Scope g env) {gs : List (List NT)} {cs : List (List Component)}
    (hc : gs.mapM (fun g => g.mapM (loadNT env)) = .ok cs) : eval g (.list (gs.map typesAst)) = .ok (.groups cs) := by
  have : evalList g (gs.map typesAst) = .ok (cs.map .namedTypes) := by
    induction gs generalizing cs with
    | nil => cases hc; rw [List.map_nil, evalList]; rfl
    | cons x gs ih =>
      obtain ⟨c, r, h1, h2, rfl⟩ := mapM_cons_ok hc
      rw [List.map_cons, evalList, eval_types h h1]
      simp only [bind, Except.bind, ih h2]
      rfl
  have hg : ∀ cs : List (List Component), groupsOf (cs.map .namedTypes) = .ok cs := by
    intro cs
    induction cs with
    | nil => rfl
    | cons c cs ih => simp [groupsOf, ih, bind, Except.bind, pure, Except.pure]
  rw [eval, this]
  simp only [bind, Except.bind, hg]
  rfl

theorem eval_items (h : g.lookup "NamedValues" = some (.lib "NamedValues")) (l : List (String × Int)) (hd : distinct l = .ok l) :
    eval g (itemsAst l) = .ok (.namedValues l) := by
  have h1 : evalArgs g (plain (l.map itemAst)) = .ok (l.map fun i => (none, .pair i.1 i.2)) := by
    clear hd
    induction l with
    | nil => exact evalArgs_nil
    | cons i l ih =>
      refine evalArgs_cons ?_ ih
      unfold itemAst
      rw [eval, evalList, evalList, evalList, eval_str, eval_int]
      rfl
  have h2 : pairsOf (l.map fun i => (none, .pair i.1 i.2)) = .ok l := by
    clear h1 hd
    induction l with
    | nil => rfl
    | cons c cs ih => simp [pairsOf, ih, bind, Except.bind, pure, Except.pure]
  refine eval_call h h1 ?_
  simp [apply, h2, hd, bind, Except.bind, pure, Except.pure]

/-! ## classes -/

theorem execBody_append {d : Env} {a b : List PStmt} : execBody g d (a ++ b) = (execBody g d a).bind fun d => execBody g d b := by
  induction a generalizing d with
  | nil => rw [List.nil_append, execBody]; rfl
  | cons s a ih =>
    rw [List.cons_append, execBody, execBody]
    cases h : execIn g d s with
    | error e => rfl
    | ok d' => simp only [bind, Except.bind]; rw [ih]; rfl

theorem exec_assign {d : Env} {x : String} {e : PExpr} {v : Obj} (hx : own.contains x = true) (h : eval (d ++ g) e = .ok v)
    {ss : List PStmt} : execBody g d (.assign x e :: ss) = execBody g ((x, v) :: d) ss := by
  rw [execBody, execIn]
  simp only [hx, if_true, h, bind, Except.bind, pure, Except.pure]

theorem execBody_nil {d : Env} : execBody g d [] = .ok d := by rw [execBody]

theorem exec_marker {d : Env} (h : Scope (d ++ g) env) (b : Bool) :
    execBody g d (markerAst b) = .ok (if b then ("subtypeSpec", .marker true) :: d else d) := by
  cases b with
  | false => exact execBody_nil
  | true =>
    unfold markerAst
    rw [if_pos rfl, exec_assign (v := .marker true) (by decide), execBody_nil]
    · rfl
    · exact eval_call (h.libs _ (by decide)) (evalArgs_cons eval_true evalArgs_nil) (by simp [apply])

/-- The variables of a class that are not nested classes. -/
def variables : List String := ["subtypeSpec", "rootComponent", "extensionAddition", "extensionAdditionGroups", "componentType"]

theorem Scope.variable (h : Scope g env) {a : String} (v : Obj) (ha : a ∈ variables) : Scope ((a, v) :: g) env :=
  h.attr v ((by decide : ∀ a ∈ variables, a ∈ headerNames) a ha) ((by decide : ∀ a ∈ variables, a ∉ imported) a ha)

theorem eval_add {d : Env} {a b : PExpr} {x y z : Obj} (ha : eval d a = .ok x) (hb : eval d b = .ok y) (h : plus x y = .ok z) :
    eval d (.add a b) = .ok z := by
  rw [eval, ha]; simp only [bind, Except.bind, hb]; exact h

theorem eval_sum {d : Env} {x : String} {a g' : Bool} {u : List (List Component)} {root add : List Component}
    (hx : usable x = true) (h1 : d.lookup x = some (.namedTypes root))
    (h2 : a = false → d.lookup "extensionAddition" = some (.namedTypes add)) (h2' : a = true → add = [])
    (h3 : g' = false → d.lookup "extensionAdditionGroups" = some (.groups u)) (h3' : g' = true → u = []) :
    eval d (sumAst x a g') = .ok (.namedTypes (root ++ add ++ u.flatten)) := by
  have e1 := eval_nm hx h1
  have u2 : usable "extensionAddition" = true := by decide
  have u3 : usable "extensionAdditionGroups" = true := by decide
  cases a with
  | true =>
    cases h2' rfl
    cases g' with
    | true => cases h3' rfl; simpa [sumAst] using e1
    | false => exact eval_add e1 (eval_nm u3 (h3 rfl)) (by simp [plus])
  | false =>
    cases g' with
    | true => cases h3' rfl; exact eval_add e1 (eval_nm u2 (h2 rfl)) (by simp [plus])
    | false => exact eval_add (eval_add e1 (eval_nm u2 (h2 rfl)) rfl) (eval_nm u3 (h3 rfl)) (by simp [plus])

theorem exec_if {d : Env} {b : Bool} {x : String} {e : PExpr} {v : Obj} (hx : own.contains x = true)
    (h : eval (d ++ g) e = .ok v) {ss : List PStmt} :
    execBody g d ((if b then [] else [.assign x e]) ++ ss) = execBody g (if b then d else (x, v) :: d) ss := by
  cases b with
  | true => rfl
  | false => exact exec_assign hx h

theorem mapM_isEmpty {α β : Type} {f : α → Except GenErr β} {l : List α} {r : List β} (h : l.mapM f = .ok r)
    (he : l.isEmpty = true) : r = [] := by
  cases l with
  | nil => cases h; rfl
  | cons x l => cases he

theorem Scope.push {d : Env} (h : Scope (d ++ g) env) {a : String} {v : Obj} (ha : a ∈ variables) (b : Bool) :
    Scope ((if b then d else (a, v) :: d) ++ g) env := by
  cases b with
  | true => exact h
  | false => exact h.variable v ha

theorem exec_parts {d : Env} (h : Scope (d ++ g) env) (hd : ∀ a ∈ variables, d.lookup a = none) {root add : List NT}
    {groups : List (List NT)} (marker ext : Bool) {r a : List Component} {u : List (List Component)}
    (hr : root.mapM (loadNT env) = .ok r) (ha : add.mapM (loadNT env) = .ok a)
    (hg : groups.mapM (fun g : List NT => g.mapM (loadNT env)) = .ok u) :
    ∃ d', execBody g d (markerAst marker ++ partsAst root add groups) = .ok d' ∧ attributesOf ext [] [] d' = .ok (marker || ext, r, a, u) := by
  rw [execBody_append, exec_marker h]
  simp only [Except.bind]
  have s1 : Scope ((if marker then ("subtypeSpec", Obj.marker true) :: d else d) ++ g) env := by
    cases marker with
    | true => exact h.variable _ (by decide)
    | false => exact h
  have l1 : ∀ a ∈ variables.drop 1, (if marker then ("subtypeSpec", Obj.marker true) :: d else d).lookup a = none := by
    intro x hx
    have hn : x ≠ "subtypeSpec" := by rintro rfl; exact absurd hx (by decide)
    cases marker with
    | true => rw [if_pos rfl, lookup_cons_ne hn]; exact hd x (List.mem_of_mem_drop hx)
    | false => exact hd x (List.mem_of_mem_drop hx)
  have l0 : (if marker then ("subtypeSpec", Obj.marker true) :: d else d).lookup "subtypeSpec" =
      if marker then some (.marker true) else none := by
    cases marker with
    | true => rw [if_pos rfl, if_pos rfl, lookup_cons_eq]
    | false => exact hd _ (by decide)
  generalize (if marker then ("subtypeSpec", Obj.marker true) :: d else d) = d1 at *
  unfold partsAst
  rw [exec_assign (by decide) (eval_types s1 hr)]
  have s2 : Scope ((("rootComponent", Obj.namedTypes r) :: d1) ++ g) env := s1.variable _ (by decide)
  rw [exec_if (by decide) (eval_types s2 ha)]
  have s3 := s2.push (a := "extensionAddition") (v := .namedTypes a) (by decide) add.isEmpty
  rw [exec_if (by decide) (eval_groups s3 hg)]
  have k1 := l1 "rootComponent" (by decide)
  have k2 := l1 "extensionAddition" (by decide)
  have k3 := l1 "extensionAdditionGroups" (by decide)
  have k4 := l1 "componentType" (by decide)
  have hsum := eval_sum (d := (if groups.isEmpty then (if add.isEmpty then ("rootComponent", Obj.namedTypes r) :: d1
      else ("extensionAddition", .namedTypes a) :: ("rootComponent", .namedTypes r) :: d1) else
      ("extensionAdditionGroups", .groups u) :: (if add.isEmpty then ("rootComponent", Obj.namedTypes r) :: d1
      else ("extensionAddition", .namedTypes a) :: ("rootComponent", .namedTypes r) :: d1)) ++ g) (x := "rootComponent")
      (a := add.isEmpty) (g' := groups.isEmpty) (root := r) (add := a) (u := u) (by decide) ?_ ?_ (mapM_isEmpty ha) ?_ (mapM_isEmpty hg)
  · rw [exec_assign (by decide) hsum, execBody_nil]
    refine ⟨_, rfl, ?_⟩
    have ea := mapM_isEmpty ha
    have eg := mapM_isEmpty hg
    unfold attributesOf extOf typesOf partsOk
    cases hae : add.isEmpty <;> cases hge : groups.isEmpty <;> rw [hae] at ea <;> rw [hge] at eg <;>
      first | (have ea := ea rfl; subst ea) | skip
    all_goals first | (have eg := eg rfl; subst eg) | skip
    all_goals cases marker <;> simp [List.lookup, l0, k2, k3, bind, Except.bind, pure, Except.pure]
  · cases add.isEmpty <;> cases groups.isEmpty <;> simp [List.lookup]
  · intro e; rw [e]; cases groups.isEmpty <;> simp [List.lookup]
  · intro e; rw [e]; simp [List.lookup]

/-! ### names -/

theorem ident_of {s : String} (h : Spec.identifier s = true) : Ident s := by
  unfold Spec.identifier at h
  cases e : s.toList with
  | nil => simp [e] at h
  | cons c r =>
    simp only [e, Bool.and_eq_true] at h
    exact ⟨c, r, e, h.1, List.all_eq_true.1 h.2⟩

theorem quotable_of {s : String} (h : Spec.quotable s = true) : Quotable s.toList := by
  intro c hc
  have := List.all_eq_true.1 h c hc
  simp only [ne_eq, decide_not, Bool.and_eq_true, Bool.not_eq_true', decide_eq_false_iff_not] at this
  exact ⟨this.1.1, this.1.2, this.2⟩

theorem fresh_of {s : String} (h : Spec.fresh s = true) : Ident s ∧ s ∉ imported := by
  simp only [Spec.fresh, Bool.and_eq_true, Bool.not_eq_true', List.contains_eq_mem, decide_eq_false_iff_not] at h
  exact ⟨ident_of h.1, h.2⟩

theorem writable_name (c : Code) (h : Spec.writableCode c = true) : Ident c.name := by
  cases c <;> simp only [Spec.writableCode, Bool.and_eq_true] at h
  · exact ident_of h
  · exact ident_of h
  · exact ident_of h
  · exact ident_of h.1.1
  · exact ident_of h.1.1

/-- Nothing that is imported. -/
theorem not_kind {n : String} (h : n ∉ imported) (o : PyObj) (k : Simple) (hk : n = k.cls) : kindOf o = some k := by
  subst hk
  cases k <;> exact absurd (by decide) h

theorem nestable_of {n : String} (h : nestable n = .ok ()) : usable n = true ∧ n ∉ attributes := by
  unfold nestable at h
  split at h
  · cases h
  · next hk =>
    split at h
    · cases h
    · next ha => exact ⟨by simpa [usable] using hk, by simpa using ha⟩

theorem bindable_of {n : String} (h : bindable n = .ok ()) : usable n = true ∧ n ∉ headerNames := by
  unfold bindable at h
  split at h
  · cases h
  · next hk =>
    split at h
    · cases h
    · next ha => exact ⟨by simpa [usable] using hk, by simpa using ha⟩

theorem not_header {n : String} (ha : n ∉ attributes) (hi : n ∉ imported) : n ∉ headerNames := by
  intro h
  rcases (by decide : ∀ x ∈ headerNames, x ∈ attributes ∨ x ∈ imported) n h with h | h
  · exact ha h
  · exact hi h

/-! ### a class and the classes in it -/

theorem bind_ok {α β : Type} {x : Except GenErr α} {f : α → Except GenErr β} {b : β} (h : (x >>= f) = .ok b) :
    ∃ a, x = .ok a ∧ f a = .ok b := by
  cases x with
  | error e => cases h
  | ok a => exact ⟨a, rfl, h⟩

theorem base_imported (c : Code) : Spec.base c ∈ imported := by
  cases c with
  | simple x k s => cases k <;> simp [Spec.base, imported, Simple.cls]
  | _ => simp [Spec.base, imported]

/-- The statement runs and gives this type. -/
def Runs (g : Env) (env : List (String × PyObj)) (c : Code) (t : Ty) : Prop := ∃ bs tb d,
  codeAst c = .cls c.name (Spec.base c) bs ∧ classNamed env (Spec.base c) = .ok tb ∧ execBody g [] bs = .ok d ∧
    classType tb d = .ok t

theorem runs_spec (h : Scope g env) {c : CTuple} {p : Option Int × Option Int} (hp : endpointsOf env c = .ok p) {f : String}
    (hf : f ∈ callables) {v : Obj} (hv : ∀ as, endpoints as = .ok (p, c.ext) → apply (.lib f) as = .ok v) {ss : List PStmt} :
    execBody g [] (specAst f c :: ss) = execBody g [("subtypeSpec", v)] ss := by
  obtain ⟨as, h1, h2⟩ := eval_spec h hp
  refine exec_assign (by decide) ?_
  rw [List.nil_append]
  exact eval_call (h.libs f hf) h1 (hv as h2)

theorem Scope.simple (h : Scope g env) {k : Simple} {t : Ty} (hc : classNamed env k.cls = .ok t) : kindOf (.cls t) = some k :=
  h.kinds k _ (eval_class h hc).1

theorem runs_simple (h : Scope g env) {x : String} {k : Simple} {spec : Option CTuple} {t : Ty}
    (hl : loadCode env (.simple x k spec) = .ok t) : Runs g env (.simple x k spec) t := by
  unfold loadCode at hl
  cases hb : classNamed env k.cls with
  | error e => rw [hb] at hl; cases hl
  | ok base =>
    rw [hb] at hl
    simp only [bind, Except.bind] at hl
    cases spec with
    | none =>
      cases hl
      cases k with
      | integer => have hk := h.simple (k := .integer) hb; cases t <;> cases hk; exact ⟨_, _, _, rfl, hb, rfl, rfl⟩
      | boolean => have hk := h.simple (k := .boolean) hb; cases t <;> cases hk; exact ⟨_, _, _, rfl, hb, rfl, rfl⟩
      | octetString => have hk := h.simple (k := .octetString) hb; cases t <;> cases hk; exact ⟨_, _, _, rfl, hb, rfl, rfl⟩
      | bitString => have hk := h.simple (k := .bitString) hb; cases t <;> cases hk; exact ⟨_, _, _, rfl, hb, rfl, rfl⟩
    | some c =>
      cases k with
      | boolean => cases hl; have hk := h.simple (k := .boolean) hb; cases t <;> cases hk; exact ⟨_, _, _, rfl, hb, rfl, rfl⟩
      | integer =>
        have hk := h.simple (k := .integer) hb; cases base <;> cases hk
        simp only at hl
        cases hp : endpointsOf env c with
        | error e => rw [hp] at hl; cases hl
        | ok p =>
          rw [hp] at hl
          simp only at hl
          cases hq : checked p with
          | error e => rw [hq] at hl; cases hl
          | ok q =>
            rw [hq] at hl
            cases hl
            refine ⟨_, _, [("subtypeSpec", .range q.1 q.2 c.ext)], rfl, hb, ?_, rfl⟩
            refine (runs_spec h hp (f := "ValueRange") (ss := []) (by decide) (v := .range q.1 q.2 c.ext) ?_).trans execBody_nil
            intro as ha
            simp [specClass, apply, ha, hq, bind, Except.bind, pure, Except.pure]
      | octetString =>
        have hk := h.simple (k := .octetString) hb; cases base <;> cases hk
        simp only at hl
        cases hp : endpointsOf env c with
        | error e => rw [hp] at hl; cases hl
        | ok p =>
          rw [hp] at hl
          simp only at hl
          cases hq : checked p with
          | error e => rw [hq] at hl; cases hl
          | ok q =>
            rw [hq] at hl
            simp only at hl
            cases hs : sizeConstraint c.ext q with
            | error e => rw [hs] at hl; cases hl
            | ok z =>
              rw [hs] at hl
              cases hl
              refine ⟨_, _, [("subtypeSpec", .size z)], rfl, hb, ?_, rfl⟩
              refine (runs_spec h hp (f := "ValueSize") (ss := []) (by decide) (v := .size z) ?_).trans execBody_nil
              intro as ha
              simp [specClass, apply, ha, hq, hs, bind, Except.bind, pure, Except.pure]
      | bitString =>
        have hk := h.simple (k := .bitString) hb; cases base <;> cases hk
        simp only at hl
        cases hp : endpointsOf env c with
        | error e => rw [hp] at hl; cases hl
        | ok p =>
          rw [hp] at hl
          simp only at hl
          cases hq : checked p with
          | error e => rw [hq] at hl; cases hl
          | ok q =>
            rw [hq] at hl
            simp only at hl
            cases hs : sizeConstraint c.ext q with
            | error e => rw [hs] at hl; cases hl
            | ok z =>
              rw [hs] at hl
              cases hl
              refine ⟨_, _, [("subtypeSpec", .size z)], rfl, hb, ?_, rfl⟩
              refine (runs_spec h hp (f := "ValueSize") (ss := []) (by decide) (v := .size z) ?_).trans execBody_nil
              intro as ha
              simp [specClass, apply, ha, hq, hs, bind, Except.bind, pure, Except.pure]

theorem distinct_ok {l l' : List (String × Int)} (h : distinct l = .ok l') :
    (l.map Prod.fst).Nodup ∧ (l.map Prod.snd).Nodup := by
  unfold distinct at h
  split at h
  · assumption
  · cases h

theorem distinct_split {l r l' : List (String × Int)} (h : distinct (l ++ r) = .ok l') :
    distinct l = .ok l ∧ distinct r = .ok r ∧ distinct (l ++ r) = .ok (l ++ r) := by
  have hd := distinct_ok h
  have he := hd
  rw [List.map_append, List.map_append, List.nodup_append, List.nodup_append] at he
  exact ⟨if_pos ⟨he.1.1, he.2.1⟩, if_pos ⟨he.1.2.1, he.2.2.1⟩, if_pos hd⟩

theorem load_enumerated {env : List (String × PyObj)} {x : String} {marker : Bool} {root add : List (String × Int)} {t : Ty}
    (hl : loadCode env (.enumerated x marker root add) = .ok t) : ∃ ext r0,
    classNamed env "EnumeratedType" = .ok (.enumerated ext r0 []) ∧ t = .enumerated (marker || ext) root add ∧
    ((root ++ add).all fun i => quotable i.1) = true ∧ ∃ l, distinct (root ++ add) = .ok l := by
  unfold loadCode at hl
  obtain ⟨T, hb, hl⟩ := bind_ok hl
  split at hl
  case h_2 => cases hl
  next ext r0 =>
  split at hl
  case isFalse => cases hl
  next hq =>
  obtain ⟨l, hd, hl⟩ := bind_ok hl
  cases hl
  exact ⟨ext, r0, hb, rfl, hq, l, hd⟩

theorem runs_enumerated (h : Scope g env) {x : String} {marker : Bool} {root add : List (String × Int)} {t : Ty}
    (hl : loadCode env (.enumerated x marker root add) = .ok t) : Runs g env (.enumerated x marker root add) t := by
  obtain ⟨ext, r0, hb, rfl, -, l, hd⟩ := load_enumerated hl
  obtain ⟨hd1, hd2, hd3⟩ := distinct_split hd
  have h0 : Scope (([] : Env) ++ g) env := h
  refine ⟨markerAst marker ++ (.assign "enumerationRoot" (itemsAst root) ::
      ((if add.isEmpty then [] else [.assign "extensionAddition" (itemsAst add)]) ++
      [.assign "namedValues" (sumAst "enumerationRoot" add.isEmpty true)])), .enumerated ext r0 [], ?_⟩
  let d1 : Env := ("enumerationRoot", .namedValues root) :: (if marker then [("subtypeSpec", .marker true)] else [])
  let d2 : Env := if add.isEmpty then d1 else ("extensionAddition", .namedValues add) :: d1
  refine ⟨("namedValues", .namedValues (root ++ add)) :: d2, by rw [codeAst]; rfl, hb, ?_, ?_⟩
  · rw [execBody_append, exec_marker h0]
    simp only [Except.bind]
    have n0 := h.libs "NamedValues" (by decide)
    have n1 : ((if marker then [("subtypeSpec", Obj.marker true)] else []) ++ g).lookup "NamedValues" = some (.lib "NamedValues") := by
      cases marker with
      | true => exact (lookup_cons_ne (by decide)).trans n0
      | false => exact n0
    have n2 : (d1 ++ g).lookup "NamedValues" = some (.lib "NamedValues") := (lookup_cons_ne (by decide)).trans n1
    rw [exec_assign (by decide) (eval_items n1 root hd1), exec_if (by decide) (eval_items n2 add hd2)]
    refine (exec_assign (v := .namedValues (root ++ add)) (by decide) ?_).trans execBody_nil
    cases add with
    | nil =>
      rw [List.append_nil]
      exact eval_nm (by decide) lookup_cons_eq
    | cons a l =>
      exact eval_add (x := .namedValues root) (y := .namedValues (a :: l)) (eval_nm (by decide) ((lookup_cons_ne (by decide)).trans lookup_cons_eq))
        (eval_nm (by decide) lookup_cons_eq) (by simp only [plus, hd3, bind, Except.bind, pure, Except.pure])
  · cases add <;> cases marker <;> simp [classType, extOf, d2, d1, List.lookup, bind, Except.bind, pure, Except.pure]

theorem runs_seqOf (h : Scope g env) {x : String} {spec : Option CTuple} {f : String} {t : Ty}
    (hl : loadCode env (.seqOf x spec f) = .ok t) : Runs g env (.seqOf x spec f) t := by
  unfold loadCode at hl
  simp only [bind, Except.bind, pure, Except.pure] at hl
  cases hb : classNamed env "SequenceOfType" with
  | error e => rw [hb] at hl; cases hl
  | ok T =>
  rw [hb] at hl
  cases T <;> try cases hl
  next c' u' =>
  cases spec with
  | none =>
    simp only at hl
    cases hf : classNamed env f with
    | error e => rw [hf] at hl; cases hl
    | ok u =>
      rw [hf] at hl
      cases hl
      refine ⟨[.assign "componentType" (.call f [])], .seqOf c' u',
        [("componentType", .schema u)], by rw [codeAst]; rfl, hb, ?_, rfl⟩
      refine (exec_assign (by decide) ?_).trans execBody_nil
      exact (eval_class h hf).2
  | some c =>
    simp only at hl
    cases hp : endpointsOf env c with
    | error e => rw [hp] at hl; cases hl
    | ok p =>
      rw [hp] at hl
      simp only at hl
      cases hs : sizeConstraint c.ext p with
      | error e => rw [hs] at hl; cases hl
      | ok z =>
        rw [hs] at hl
        simp only at hl
        cases hf : classNamed env f with
        | error e => rw [hf] at hl; cases hl
        | ok u =>
          rw [hf] at hl
          cases hl
          refine ⟨[specAst "SequenceOfValueSize" c, .assign "componentType" (.call f [])],
            .seqOf c' u', [("componentType", .schema u), ("subtypeSpec", .listSize z)],
            by rw [codeAst]; rfl, hb, ?_, rfl⟩
          rw [runs_spec h hp (by decide) (v := .listSize z)]
          · refine (exec_assign (by decide) ?_).trans execBody_nil
            exact (eval_class (h.variable _ (by decide)) hf).2
          · intro as ha
            simp [apply, ha, hs, bind, Except.bind, pure, Except.pure]

/-- The names of nested classes. -/
def objs (l : List (String × PyObj)) : Env := l.map fun p => (p.1, .obj p.2)

theorem attr_variables {n : String} (h : n ∉ attributes) : ∀ a ∈ variables, a ≠ n := by
  rintro a ha rfl
  exact h ((by decide : ∀ a ∈ variables, a ∈ attributes) a ha)

theorem runs_parts (h : Scope g env) {subs : List (String × PyObj)} {d : Env}
    (hs : Scope (d ++ g) (subs ++ env)) (hd : ∀ a ∈ variables, d.lookup a = none) {root add : List NT}
    {groups : List (List NT)} {marker ext : Bool} {k : Bool → Fields → Fields → Groups → Ty} {t : Ty}
    (hl : (do
      let env' := subs ++ env
      return k (marker || ext) (← loadNTs env' root) (← loadNTs env' add)
        (Groups.ofList (← groups.mapM fun g : List NT => g.mapM (loadNT env'))) : Except GenErr Ty) = .ok t) :
    ∃ d', execBody g d (markerAst marker ++ partsAst root add groups) = .ok d' ∧
      ∃ r a u, attributesOf ext [] [] d' = .ok (marker || ext, r, a, u) ∧ t = k (marker || ext) (Fields.ofList r) (Fields.ofList a) (Groups.ofList u) := by
  simp only [loadNTs, bind, Except.bind, pure, Except.pure] at hl
  cases hr : root.mapM (loadNT (subs ++ env)) with
  | error e => rw [hr] at hl; cases hl
  | ok r =>
    cases ha : add.mapM (loadNT (subs ++ env)) with
    | error e => rw [hr, ha] at hl; cases hl
    | ok a =>
      cases hg : groups.mapM (fun g : List NT => g.mapM (loadNT (subs ++ env))) with
      | error e => rw [hr, ha, hg] at hl; cases hl
      | ok u =>
        rw [hr, ha, hg] at hl
        cases hl
        obtain ⟨d', h1, h2⟩ := exec_parts hs hd marker ext hr ha hg
        exact ⟨d', h1, r, a, u, h2, rfl⟩

mutual
theorem runs_code (h : Scope g env) : (c : Code) → (t : Ty) → Spec.writableCode c = true → loadCode env c = .ok t → Runs g env c t
  | .simple x k spec, t, _, hl => runs_simple h hl
  | .enumerated x marker root add, t, _, hl => runs_enumerated h hl
  | .seqOf x spec f, t, _, hl => runs_seqOf h hl
  | .sequence x subs marker root add groups, t, hw, hl => by
    simp only [Spec.writableCode, Bool.and_eq_true] at hw
    unfold loadCode at hl
    obtain ⟨T, hb, hl⟩ := bind_ok hl
    split at hl
    case h_2 => cases hl
    next ext _ =>
    simp only [Bind.bind, Except.bind] at hl
    cases hs : loadCodes env subs with
    | error e => rw [hs] at hl; cases hl
    | ok l =>
      rw [hs] at hl
      obtain ⟨h1, h2, h3⟩ := runs_codes h subs l hw.1.2 hs [] env h (fun _ _ => rfl) (fun _ _ => rfl)
      obtain ⟨d', h4, r, a, u, h5, rfl⟩ := runs_parts (k := .sequence) (marker := marker) (ext := ext) (t := t) h h2 h3 hl
      refine ⟨codesAst subs ++ (markerAst marker ++ partsAst root add groups), _, d',
        by rw [codeAst]; rfl, hb, ?_, ?_⟩
      · rw [execBody_append, h1]; exact h4
      · simp [classType, h5, bind, Except.bind, pure, Except.pure]
  | .choice x subs marker root add groups, t, hw, hl => by
    simp only [Spec.writableCode, Bool.and_eq_true] at hw
    unfold loadCode at hl
    obtain ⟨T, hb, hl⟩ := bind_ok hl
    split at hl
    case h_2 => cases hl
    next ext _ =>
    simp only [Bind.bind, Except.bind] at hl
    cases hs : loadCodes env subs with
    | error e => rw [hs] at hl; cases hl
    | ok l =>
      rw [hs] at hl
      obtain ⟨h1, h2, h3⟩ := runs_codes h subs l hw.1.2 hs [] env h (fun _ _ => rfl) (fun _ _ => rfl)
      obtain ⟨d', h4, r, a, u, h5, rfl⟩ := runs_parts (k := .choice) (marker := marker) (ext := ext) (t := t) h h2 h3 hl
      refine ⟨codesAst subs ++ (markerAst marker ++ partsAst root add groups), _, d',
        by rw [codeAst]; rfl, hb, ?_, ?_⟩
      · rw [execBody_append, h1]; exact h4
      · simp [classType, h5, bind, Except.bind, pure, Except.pure]
theorem runs_codes (h : Scope g env) : (cs : Codes) → (l : List (String × PyObj)) → Spec.writableCodes cs = true →
    loadCodes env cs = .ok l → ∀ d env', Scope (d ++ g) env' → (∀ a ∈ variables, d.lookup a = none) →
    (∀ n ∈ imported, env'.lookup n = env.lookup n) →
    execBody g d (codesAst cs) = .ok (objs l ++ d) ∧ Scope ((objs l ++ d) ++ g) (l ++ env') ∧
      ∀ a ∈ variables, (objs l ++ d).lookup a = none
  | .nil, l, _, hl => by
    unfold loadCodes at hl
    cases hl
    intro d env' hs hd he
    exact ⟨execBody_nil, hs, hd⟩
  | .cons c r, l, hw, hl => by
    intro d env' hs hd he
    simp only [Spec.writableCodes, Bool.and_eq_true] at hw
    unfold loadCodes at hl
    simp only [Bind.bind, Except.bind, pure, Except.pure] at hl
    cases hn : nestable c.name with
    | error e => rw [hn] at hl; cases hl
    | ok _ =>
      rw [hn] at hl
      simp only at hl
      cases hc : loadCode env c with
      | error e => rw [hc] at hl; cases hl
      | ok t =>
        rw [hc] at hl
        simp only at hl
        cases hr : loadCodes env r with
        | error e => rw [hr] at hl; cases hl
        | ok rest =>
          rw [hr] at hl
          cases hl
          obtain ⟨i1, i2⟩ := fresh_of hw.1.1
          obtain ⟨u1, u2⟩ := nestable_of hn
          obtain ⟨bs, tb, d', e1, e2, e3, e4⟩ := runs_code h c t hw.1.2 hc
          have hs' := hs.bind (.cls t) ⟨i1, u1⟩ (not_header u2 i2) (not_kind i2 _)
          obtain ⟨k1, k2, k3⟩ := runs_codes h r rest hw.2 hr ((c.name, .obj (.cls t)) :: d) ((c.name, .cls t) :: env') hs' (by
            intro a ha
            rw [lookup_cons_ne (attr_variables u2 a ha)]
            exact hd a ha) (by
            intro n hi
            rw [lookup_cons_ne]
            · exact he n hi
            · rintro rfl; exact i2 hi)
          have eo : objs (rest ++ [(c.name, .cls t)]) ++ d = objs rest ++ (c.name, .obj (.cls t)) :: d := by
            simp [objs]
          rw [eo]
          refine ⟨?_, by simpa using k2, k3⟩
          rw [codesAst, execBody, e1, execIn]
          have eb : baseOf (d ++ g) (Spec.base c) = .ok tb := by
            unfold baseOf
            rw [hs.sees _ _ ((he _ (base_imported c)).trans (eval_class h e2).1)]
          simp only [Bind.bind, Except.bind, pure, Except.pure, eb, hn, e3, e4]
          exact k1
end

end Verif.Python
