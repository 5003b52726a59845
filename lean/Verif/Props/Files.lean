import Verif.Lemmas.Files
import Verif.Props.Text
/-!
# C64: the file that a module is written to
-/
namespace Verif.Props

open Verif Spec Parse Files

/-- What `parse_asn1_schema` does, in terms of the text it makes. -/
theorem parseSchema_eq (schema : List Char) (folder : Option Path) (d : Disk) {name : String} {as : List Assign}
    {py : List Char} (h : parseNamed (removeComments schema) = .ok (name, as)) (hp : Render.pythonOf schema = .ok (some py)) :
    parseSchema schema folder d =
      match folder with
      | some (c :: p) =>
        match write (join (c :: p) (name.toList ++ ".py".toList)) py d with
        | (.error e, d) => (.error e, d)
        | (.ok (), d) => (.ok none, d)
      | _ => (.ok (some py), d) := by
  unfold Render.pythonOf at hp
  rw [parseNamed_eq, h] at hp
  simp only [Except.map, bind, Except.bind] at hp
  unfold parseSchema createTemplate
  rw [h]
  split at hp
  · next prog hg =>
    simp only [hg, pure, Except.pure, Except.ok.injEq] at hp ⊢
    rw [hp]
    cases folder with
    | none => rfl
    | some p => cases p <;> rfl
  · cases hp

/-- If a text is made or a file is written, the schema has a name, and a text. -/
theorem parseSchema_ok {schema : List Char} {folder : Option Path} {d d' : Disk} {r : Option (List Char)}
    (h : parseSchema schema folder d = (.ok r, d')) :
    ∃ name as py, parseNamed (removeComments schema) = .ok (name, as) ∧ Render.pythonOf schema = .ok (some py) := by
  unfold parseSchema at h
  split at h
  · cases h
  · next name as hn =>
    refine ⟨name, as, ?_⟩
    unfold createTemplate at h
    split at h
    · cases h
    · next prog hg =>
      split at h
      · cases h
      · next py hp =>
        refine ⟨py, hn, ?_⟩
        unfold Render.pythonOf
        rw [parseNamed_eq, hn]
        simp only [Except.map, bind, Except.bind, hg, hp, pure, Except.pure]

/-- With a folder: one file is written, directly in this folder, and nothing else is touched.  It holds the text that is
returned if no folder is given.  Its name is that of the module, which is a plain word. -/
theorem C64_written {schema : List Char} {folder : Path} {d d' : Disk} {r : Option (List Char)} (hf : folder ≠ [])
    (h : parseSchema schema (some folder) d = (.ok r, d')) :
    ∃ name as py, parseNamed (removeComments schema) = .ok (name, as) ∧ PlainName name ∧
      parseSchema schema none d = (.ok (some py), d) ∧ r = none ∧
      d'.file (moduleFile folder name) = some py ∧ SameBut (moduleFile folder name) d d' := by
  obtain ⟨name, as, py, hn, hp⟩ := parseSchema_ok h
  have hname := parseNamed_name hn
  refine ⟨name, as, py, hn, hname, parseSchema_eq schema none d hn hp, ?_⟩
  rw [parseSchema_eq schema _ d hn hp] at h
  cases folder with
  | nil => exact absurd rfl hf
  | cons c p =>
    simp only [write, place_module hname hf] at h
    split at h
    · cases h
    · next x e =>
      split at e
      · cases e; cases h
        exact ⟨rfl, by simp [Disk.put], rfl, fun q hq => by simp [Disk.put, hq]⟩
      · cases e

/-- Whatever is refused leaves the disk as it was: a schema that is not understood does not cost an earlier module. -/
theorem C64_refused {schema : List Char} {folder : Option Path} {d d' : Disk} {e : Fault}
    (h : parseSchema schema folder d = (.error e, d')) : d' = d := by
  unfold parseSchema at h
  split at h
  · cases h; rfl
  · unfold createTemplate at h
    split at h
    · cases h; rfl
    · split at h
      · cases h; rfl
      · split at h
        · cases h
        · cases h
        · split at h
          · next e =>
            unfold write at e
            simp only at e
            split at e
            · cases e
            · cases e; cases h; rfl
          · cases h

/-- Without a folder (`None`, or the empty string) the text is returned and nothing is written. -/
theorem C64_returned (schema : List Char) (folder : Option Path) (d : Disk) (hf : folder = none ∨ folder = some []) :
    (parseSchema schema folder d).2 = d ∧
      ∀ py, (parseSchema schema folder d).1 = .ok (some py) ↔ Render.pythonOf schema = .ok (some py) := by
  have key : ∀ py, Render.pythonOf schema = .ok (some py) → parseSchema schema folder d = (.ok (some py), d) := by
    intro py hp
    have hp' := hp
    unfold Render.pythonOf at hp
    rw [parseNamed_eq] at hp
    cases hn : parseNamed (removeComments schema) with
    | error e => rw [hn] at hp; cases hp
    | ok x =>
      rw [parseSchema_eq schema folder d hn hp']
      rcases hf with rfl | rfl <;> rfl
  cases hr : parseSchema schema folder d with
  | mk r d' =>
    cases r with
    | error e =>
      refine ⟨C64_refused hr, fun py => ⟨(nomatch ·), fun h => ?_⟩⟩
      rw [key py h] at hr
      cases hr
    | ok x =>
      obtain ⟨name, as, py, hn, hp⟩ := parseSchema_ok hr
      have := (key py hp).symm.trans hr
      cases this
      refine ⟨rfl, fun py' => ⟨fun h => ?_, fun h => ?_⟩⟩
      · cases h; exact hp
      · rw [hp] at h; cases h; rfl

/-- A schema for which a text is returned is written, if the folder is there and the name is not taken by a folder. -/
theorem C64_accepted {schema : List Char} {folder : Path} {d : Disk} {name : String} {as : List Assign} {py : List Char}
    (hf : folder ≠ []) (hn : parseNamed (removeComments schema) = .ok (name, as))
    (hp : Render.pythonOf schema = .ok (some py)) :
    (∃ d', parseSchema schema (some folder) d = (.ok none, d')) ↔
      d.folder (Files.place folder) = true ∧ d.folder (moduleFile folder name) = false := by
  have hname := parseNamed_name hn
  rw [parseSchema_eq schema _ d hn hp]
  have hpar : (moduleFile folder name).parent = Files.place folder := by simp [Place.parent, moduleFile]
  cases folder with
  | nil => exact absurd rfl hf
  | cons c p =>
    simp only [write, place_module hname hf, hpar]
    by_cases hc : d.folder (Files.place (c :: p)) = true ∧ d.folder (moduleFile (c :: p) name) = false
    · simp [hc.1, hc.2]
    · have : (d.folder (Files.place (c :: p)) && !d.folder (moduleFile (c :: p) name)) = false := by
        cases h1 : d.folder (Files.place (c :: p)) <;> cases h2 : d.folder (moduleFile (c :: p) name) <;> simp_all
      simp only [this, hc, iff_false]
      rintro ⟨d', h⟩
      cases h

/-- A schema that is written down as `C52_parsed_partial` wants it is written to the file that has the name it gives. -/
theorem C64_name {name : String} {tags : Bool} {as : List Assign} {text : List Char} (hn : UpperName name ∧ Ends name)
    (ha : ∀ a ∈ as, WritableAssign a) (h : Commented name tags as text) :
    parseNamed (removeComments text) = .ok (name, as.map plainAssign) := by
  obtain ⟨ls, ss, hl, hlen, hu, hw⟩ := h
  rw [removed hl hlen hu]
  exact parseNamed_written hn ha hw

/-- Modules of different names do not get in each other's way. -/
theorem C64_apart {schema schema' : List Char} {folder : Path} {d d' d'' : Disk} {r r' : Option (List Char)} {name name' : String}
    {as as' : List Assign} {py py' : List Char} (hf : folder ≠ []) (hn : parseNamed (removeComments schema) = .ok (name, as))
    (hn' : parseNamed (removeComments schema') = .ok (name', as')) (hne : name ≠ name')
    (hp : Render.pythonOf schema = .ok (some py)) (hp' : Render.pythonOf schema' = .ok (some py'))
    (h : parseSchema schema (some folder) d = (.ok r, d')) (h' : parseSchema schema' (some folder) d' = (.ok r', d'')) :
    d''.file (moduleFile folder name) = some py ∧ d''.file (moduleFile folder name') = some py' := by
  obtain ⟨n1, a1, p1, e1, -, t1, -, f1, -⟩ := C64_written hf h
  obtain ⟨n2, a2, p2, e2, -, t2, -, f2, s2⟩ := C64_written hf h'
  rw [hn] at e1; cases e1
  rw [hn'] at e2; cases e2
  rw [parseSchema_eq schema none d hn hp] at t1; cases t1
  rw [parseSchema_eq schema' none d' hn' hp'] at t2; cases t2
  refine ⟨(s2.2 _ fun e => hne ?_).trans f1, f2⟩
  have := congrArg (fun p => p.names.getLast?) e
  simp only [moduleFile, List.getLast?_concat, Option.some.injEq, List.append_cancel_right_eq] at this
  exact String.toList_inj.1 this

/-- The file can be imported, and importing it defines what the compiler makes of the schema.  Missing: modules whose
names are not names in Python (`Findings.C64_hyphen`); what is missing in `C55_text`. -/
theorem C64_import_partial {schema : List Char} {st : Loaded} {folder : Path} {d d' : Disk} {r : Option (List Char)} {name : String}
    {as : List Assign} (hf : folder ≠ []) (hc : '–' ∉ schema) (hst : compileText schema = .ok st)
    (hn : parseNamed (removeComments schema) = .ok (name, as)) (hi : ∀ n ∈ typeNames as, pyName n ∉ imported)
    (hid : Spec.identifier name = true) (hk : name ∉ keywords)
    (h : parseSchema schema (some folder) d = (.ok r, d')) : ∃ env, importModule folder name d' = .ok env ∧ Agrees st env := by
  obtain ⟨py, env, h1, h2, h3⟩ := C55_text hc hst fun as' e n hm => by
    rw [parseNamed_eq, hn] at e
    cases e
    exact hi n hm
  obtain ⟨n1, a1, p1, e1, hname, t1, -, f1, -⟩ := C64_written hf h
  rw [hn] at e1; cases e1
  rw [parseSchema_eq schema none d hn h1] at t1; cases t1
  refine ⟨env, ?_, h3⟩
  have hl : Python.lex .idle name.toList = some [.name name] := by
    have := Python.lex_name (s := name) ?_ (r := []) (by simp [Python.Boundary])
    · rw [List.append_nil] at this
      rw [this]; rfl
    · unfold Spec.identifier at hid
      split at hid
      · cases hid
      · next c r e =>
        simp only [Bool.and_eq_true, List.all_eq_true] at hid
        exact ⟨c, r, e, hid.1, hid.2⟩
  unfold importModule
  have e : name.toList ++ ['.', 'p', 'y'] = name.toList ++ ".py".toList := rfl
  rw [hl, e, place_module hname hf, f1]
  simp [Python.usable, hk, h2]

/-! ## an example -/

/-- A disk with one folder. -/
def sampleDisk : Disk := ⟨fun p => p == Files.place "gen/out/".toList, fun _ => none⟩

example : ∃ st as, '–' ∉ sampleText ∧ compileText sampleText = .ok st ∧
    parseNamed (removeComments sampleText) = .ok ("Sample", as) ∧ parseNamed (removeComments sampleText') = .ok ("Other", sampleReversed.map plainAssign) ∧
    (∀ n ∈ typeNames as, pyName n ∉ imported) ∧ Spec.identifier "Sample" = true ∧ "Sample" ∉ keywords ∧
    ∃ d' d'', parseSchema sampleText (some "gen/out/".toList) sampleDisk = (.ok none, d') ∧
      parseSchema sampleText' (some "gen/out/".toList) d' = (.ok none, d'') := by
  have h1 : UpperName "Sample" ∧ Ends "Sample" := ⟨upper_of (by decide) (by decide), by unfold Ends; decide⟩
  have h2 : UpperName "Other" ∧ Ends "Other" := ⟨upper_of (by decide) (by decide), by unfold Ends; decide⟩
  have hw : ∀ a ∈ sampleReversed, WritableAssign a := fun a h => sampleModule_writable a (sample_perm.mem_iff.1 h)
  obtain ⟨st, hst, _⟩ := C53_compiled_partial h1 sampleModule_writable sampleText_commented sampleModule_names sampleModule_solves
      sampleModule_regular (sample_sortable (.refl _)) (by decide)
  obtain ⟨py, py', _, _, hp, hp', _⟩ := C55_exchange_partial h1 h2 sampleModule_writable sampleText_commented sampleText'_commented
    sampleModule_names sampleModule_solves sampleModule_regular sample_perm (sample_sortable (.refl _)) (sample_sortable sample_perm) (by decide)
  have n1 := C64_name h1 sampleModule_writable sampleText_commented
  have n2 := C64_name h2 hw sampleText'_commented
  have hf : "gen/out/".toList ≠ [] := by decide
  obtain ⟨d', hd⟩ := (C64_accepted (d := sampleDisk) hf n1 hp).2 (by decide)
  have hs : d'.folder = sampleDisk.folder := by
    obtain ⟨_, _, _, _, _, _, _, _, h⟩ := C64_written hf hd
    exact h.1
  obtain ⟨d'', hd'⟩ := (C64_accepted (d := d') hf n2 hp').2 (by rw [hs]; decide)
  exact ⟨st, _, by decide +kernel, hst, n1, n2, by decide +kernel, by decide, by decide, d', d'', hd, hd'⟩

/-- A schema that is refused. -/
example : ∃ e d', parseSchema "A DEFINITIONS ::= BEGIN B ::= Missing END".toList (some "gen/out/".toList) sampleDisk = (.error e, d') := by
  refine ⟨_, _, rfl⟩

end Verif.Props
