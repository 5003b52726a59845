import Verif.Lemmas.Compiled
import Verif.Props.Parse
/-!
# C55: the text that is generated
-/
namespace Verif.Props

open Verif Spec Parse

/-- Importing the text: what its variables are bound to is what the compiler makes of the schema, and no other variable is
bound to anything. -/
def Agrees (st : Loaded) (env : Python.Env) : Prop :=
  (∀ n o, env.lookup n = some (.obj o) ↔ st.env.lookup n = some o) ∧
    ∀ n x, n ∉ imported → env.lookup n = some x → ∃ o, x = .obj o

/-- A schema from which classes and values can be made is translated to a text that is Python; and importing this text
makes these classes and values.  `hc`: no character of the schema is the hyphen U+2013 (finding F81); `hn`: no type has the
name of something that every generated module imports (what becomes of those is not modelled). -/
theorem C55_text {text : List Char} {st : Loaded} (hc : '–' ∉ text) (h : compileText text = .ok st)
    (hn : ∀ as, parseModule (removeComments text) = .ok as → ∀ n ∈ typeNames as, pyName n ∉ imported) :
    ∃ py env, Render.pythonOf text = .ok (some py) ∧ Python.run py = .ok env ∧ Agrees st env := by
  obtain ⟨py, new, h1, h2, h3⟩ := compiled_text hc h hn
  exact ⟨py, _, h1, h3, fun n o => h2 ▸ Python.lookup_module n o, fun n x hx => Python.lookup_other hx⟩

/-- A text stands for one module only: if two lists of statements have the same text, they define the same. -/
theorem C55_one_meaning {prog prog' : List Stmt} {st st' : Loaded} {text : List Char} (hw : ∀ s ∈ prog, writable s = true)
    (hw' : ∀ s ∈ prog', writable s = true) (h : load prog = .ok st) (h' : load prog' = .ok st')
    (ht : Render.moduleText prog = some text) (ht' : Render.moduleText prog' = some text) : st.env = st'.env := by
  obtain ⟨t, new, e1, e2, e3, _⟩ := Python.run_module hw h
  obtain ⟨t', new', f1, f2, f3, _⟩ := Python.run_module hw' h'
  rw [Option.some.inj (e1.symm.trans ht)] at e3
  rw [Option.some.inj (f1.symm.trans ht')] at f3
  have he : Python.objs new = Python.objs new' := (List.append_left_inj _).1 (Except.ok.inj (e3.symm.trans f3))
  have : new = new' := by
    have hi : ∀ (a b : List (String × PyObj)), Python.objs a = Python.objs b → a = b := by
      intro a
      induction a with
      | nil => intro b h; cases b with | nil => rfl | cons _ _ => cases h
      | cons x a ih =>
        intro b h
        cases b with
        | nil => cases h
        | cons y b =>
          obtain ⟨x1, x2⟩ := x
          obtain ⟨y1, y2⟩ := y
          simp only [Python.objs, List.map_cons, List.cons.injEq, Prod.mk.injEq, Python.Obj.obj.injEq] at h
          rw [ih b h.2, h.1.1, h.1.2]
    exact hi _ _ he
  rw [e2, f2, this]

/-- The same for a schema that is written down as `C52_parsed_partial` wants it. -/
theorem written_text {name : String} {tags : Bool} {as : List Assign} {text : List Char} {st : Loaded}
    (hm : UpperName name ∧ Ends name) (ha : ∀ a ∈ as, WritableAssign a) (h : Commented name tags as text) (hn : Names as)
    (hst : compileModule as = .ok st) :
    ∃ py env, Render.pythonOf text = .ok (some py) ∧ Python.run py = .ok env ∧ Agrees st env := by
  obtain ⟨prog, py, new, hg, t1, t2, t3⟩ := module_text (fun a h => writable_assign hn h (ha a h)) hst
  refine ⟨py, _, ?_, t3, fun n o => t2 ▸ Python.lookup_module n o, fun n x hx => Python.lookup_other hx⟩
  obtain ⟨ls, ss, hl, hlen, hu, hw⟩ := h
  unfold Render.pythonOf
  rw [removed hl hlen hu, C52_parsed_partial hm ha hw]
  have : generate (moduleBody (as.map plainAssign)).1 = .ok prog := by
    rw [← hg]
    simp only [moduleBody, sortAssignments_map assign_node_plain, generate_plain]
  simp only [bind, Except.bind, this, pure, Except.pure, t1]

/-- From the text of a schema to the text of a module whose import defines what the schema declares, and nothing else.
Missing: what is missing in `C53_compiled_partial`. -/
theorem C55_schema_partial {name : String} {tags : Bool} {as : List Assign} {text : List Char} {τ : List (String × Ty)}
    {ν : List (String × Ty × Val)} (hm : UpperName name ∧ Ends name) (ha : ∀ a ∈ as, WritableAssign a)
    (h : Commented name tags as text) (hn : Names as) (hs : Solves as τ ν) (hr : ∀ a ∈ as, RegularAssign as τ ν a)
    (ho : Sortable as) (hlt : componentCount as < 100) :
    ∃ py env, Render.pythonOf text = .ok (some py) ∧ Python.run py = .ok env ∧
      (∀ n T, τ.lookup n = some T → env.lookup (pyName n) = some (.obj (.cls T))) ∧
      (∀ n T v, ν.lookup n = some (T, v) → env.lookup (pyName n) = some (.obj (.val T v))) ∧
      ∀ x o, env.lookup x = some o → x ∈ imported ∨ (∃ n ∈ typeNames as, x = pyName n) ∨ ∃ n ∈ valueNames as, x = pyName n := by
  obtain ⟨st, hst, h1, h2, h3⟩ := C53_compiled_partial hm ha h hn hs hr ho hlt
  obtain ⟨py, env, p1, p2, p3, p4⟩ := written_text hm ha h hn (((C53_text_partial hm ha h).1 st).1 hst)
  refine ⟨py, env, p1, p2, fun n T hT => (p3 _ _).2 (h1 n T hT), fun n T v hv => (p3 _ _).2 (h2 n T v hv), fun x o hx => ?_⟩
  by_cases hi : x ∈ imported
  · exact .inl hi
  · obtain ⟨o', rfl⟩ := p4 x o hi hx
    rcases h3 x o' ((p3 _ _).1 hx) with h | h
    · exact absurd ((by decide +kernel : ∀ p ∈ header, p.1 ∈ imported) _ (Python.lookup_mem h)) hi
    · exact .inr h

/-- Two parties have different texts of the same schema: another layout, other comments, another order of the assignments.
Each compiles its text and imports the module it gets.  What one encodes with a class of theirs, the other decodes with the
class that has the same name.  Missing: what is missing in `C53_exchange_partial`. -/
theorem C55_exchange_partial {name name' : String} {tags tags' : Bool} {as as' : List Assign} {text text' : List Char}
    {τ : List (String × Ty)} {ν : List (String × Ty × Val)} (hm : UpperName name ∧ Ends name) (hm' : UpperName name' ∧ Ends name')
    (ha : ∀ a ∈ as, WritableAssign a) (h : Commented name tags as text) (h' : Commented name' tags' as' text')
    (hn : Names as) (hs : Solves as τ ν) (hr : ∀ a ∈ as, RegularAssign as τ ν a) (hp : as'.Perm as) (ho : Sortable as)
    (ho' : Sortable as') (hlt : componentCount as < 100) :
    ∃ py py' env env', Render.pythonOf text = .ok (some py) ∧ Render.pythonOf text' = .ok (some py') ∧
      Python.run py = .ok env ∧ Python.run py' = .ok env' ∧ ∀ n ∈ typeNames as, ∃ T T',
      env.lookup (pyName n) = some (.obj (.cls T)) ∧ env'.lookup (pyName n) = some (.obj (.cls T')) ∧
      ∀ v bs extra, returnable v = true → safe T v = true → encode T v = .ok bs → decode T' (bs ++ extra) = .ok (received T v) := by
  obtain ⟨st, st', h1, h2, h3⟩ := C50_exchange_partial hn hs hr ho ho' hlt hp
  have ha' : ∀ a ∈ as', WritableAssign a := fun a hm => ha a (hp.mem_iff.1 hm)
  obtain ⟨py, env, p1, p2, p3, _⟩ := written_text hm ha h hn h1
  obtain ⟨py', env', q1, q2, q3, _⟩ := written_text hm' ha' h' (names_perm hp hn) h2
  refine ⟨py, py', env, env', p1, q1, p2, q2, fun n hn => ?_⟩
  obtain ⟨T, T', e1, e2, e3⟩ := h3 n hn
  exact ⟨T, T', (p3 _ _).2 e1, (q3 _ _).2 e2, e3⟩

/-! ## an example -/

example : (UpperName "Sample" ∧ Ends "Sample") ∧ (UpperName "Other" ∧ Ends "Other") ∧ (∀ a ∈ sampleModule, WritableAssign a) ∧
    Commented "Sample" true sampleModule sampleText ∧ Commented "Other" false sampleReversed sampleText' ∧
    Names sampleModule ∧ Solves sampleModule sampleTypes sampleValues ∧
    (∀ a ∈ sampleModule, RegularAssign sampleModule sampleTypes sampleValues a) ∧ Sortable sampleModule ∧
    Sortable sampleReversed ∧ componentCount sampleModule < 100 ∧ sampleReversed.Perm sampleModule ∧
    ∃ st, '–' ∉ sampleText ∧ compileText sampleText = .ok st ∧
      ∀ as, parseModule (removeComments sampleText) = .ok as → ∀ n ∈ typeNames as, pyName n ∉ imported := by
  have h1 : UpperName "Sample" ∧ Ends "Sample" := ⟨upper_of (by decide) (by decide), by unfold Ends; decide⟩
  have h2 : UpperName "Other" ∧ Ends "Other" := ⟨upper_of (by decide) (by decide), by unfold Ends; decide⟩
  obtain ⟨st, hst, _⟩ := C53_compiled_partial h1 sampleModule_writable sampleText_commented sampleModule_names sampleModule_solves
      sampleModule_regular (sample_sortable (.refl _)) (by decide)
  refine ⟨h1, h2, sampleModule_writable, sampleText_commented, sampleText'_commented, sampleModule_names, sampleModule_solves,
    sampleModule_regular, sample_sortable (.refl _), sample_sortable sample_perm, by decide, sample_perm, st, by decide +kernel, hst, ?_⟩
  intro as ha n hn
  have he : (parseModule (removeComments sampleText)).toOption.map typeNames = some ["A", "Msg-1", "B", "L"] := by decide +kernel
  rw [ha] at he
  have : typeNames as = ["A", "Msg-1", "B", "L"] := Option.some.inj he
  rw [this] at hn
  revert n
  decide +kernel

/-- A constraint of a BOOLEAN is not written. -/
example : ∃ st st' text, (∀ s ∈ [Stmt.cls (.simple "A" .boolean none)], writable s = true) ∧
    (∀ s ∈ [Stmt.cls (.simple "A" .boolean (some ⟨.num 0, .num 1, false⟩))], writable s = true) ∧
    load [.cls (.simple "A" .boolean none)] = .ok st ∧ load [.cls (.simple "A" .boolean (some ⟨.num 0, .num 1, false⟩))] = .ok st' ∧
    Render.moduleText [.cls (.simple "A" .boolean none)] = some text ∧
    Render.moduleText [.cls (.simple "A" .boolean (some ⟨.num 0, .num 1, false⟩))] = some text := by
  have e : Render.moduleText [.cls (.simple "A" .boolean (some ⟨.num 0, .num 1, false⟩))] =
    Render.moduleText [.cls (.simple "A" .boolean none)] := by decide +kernel
  obtain ⟨text, _, h, _⟩ := Python.run_module (prog := [.cls (.simple "A" .boolean none)])
    (st := ⟨[("A", .cls .boolean)] ++ header⟩) (by decide) rfl
  exact ⟨_, _, text, by decide, by decide, rfl, rfl, h, e.trans h⟩

/-- A module that is generated, imported, and asked for a name. -/
def imports (text : List Char) (x : String) : Except PErr (Except GenErr (Option PyObj)) := do
  match ← Render.pythonOf text with
  | none => return .error .unmodelled
  | some py => return do
    match (← Python.run py).lookup x with
    | some (.obj o) => return some o
    | _ => return none

end Verif.Props
