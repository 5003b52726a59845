import Verif.Lemmas.Session
import Verif.Lemmas.Sound
import Verif.Props.FindingsCompiler
import Verif.Props.Parse
/-!
# C54: schemas that are compiled in the same process
-/
namespace Verif.Props

open Verif Spec Parse

/-- What was compiled before does not matter to a module that uses only its own types, whatever is in the dictionaries.
Missing: DEFAULTs that are the name of a value of a named type of another module (`Findings.C54_captured`), modules that
lack a type (`Findings.C54_foreign_type`). -/
theorem C54_alone_partial {as : List Assign} (hd : (typeNames as).Nodup) (hc : Closed as) (g : Globals)
    (hu : Unaffected g.constants as) : compileIn g as = compileModule as := compile_alone hd hc hu

/-- The first module of a process: nothing is left out. -/
theorem C54_first (as : List Assign) : compileIn .fresh as = compileModule as := by
  have : (generateIn .fresh (moduleBody as).1).bind (fun x => emitted x.2) = generate (moduleBody as).1 := by
    simp only [generateIn, generate, Globals.parsed, Globals.fresh, List.nil_append, List.filter_nil]
    cases (moduleBody as).1.foldlM (genStep ⟨(ctxOf (moduleBody as).1).types, (ctxOf (moduleBody as).1).constants⟩) ([], []) <;> rfl
  simp only [compileIn, compileModule, compile, ← this]
  cases generateIn .fresh (moduleBody as).1 <;> rfl

theorem after_constants (g : Globals) {as : List Assign} (hd : (typeNames as).Nodup) {s : String} :
    s ∈ (g.after as).constants ↔ s ∈ g.constants ∨ s ∈ (constantNames as).map pyName := by
  have hp : (moduleBody as).1.Perm as := C31_perm Assign.node (hd.sublist (component_names as))
  have h : (g.after as).constants = g.constants ++ (ctxOf (moduleBody as).1).constants := by
    unfold Globals.after
    dsimp only
    split <;> rfl
  rw [h, List.mem_append, constants_eq, (show ((constantNames (moduleBody as).1).map pyName).Perm ((constantNames as).map pyName) from (hp.filterMap _).map pyName).mem_iff]

/-- Modules compiled one after the other, in any number, are compiled as if each were the only one: no DEFAULT of one is
the name of a value of a named type of one before it. -/
theorem C54_session_partial {ms : List (List Assign)} (h : ∀ as ∈ ms, (typeNames as).Nodup ∧ Closed as)
    (hu : ms.Pairwise fun as bs => Unaffected ((constantNames as).map pyName) bs) :
    session .fresh ms = ms.map compileModule := by
  have key : ∀ (ms : List (List Assign)) (g : Globals), (∀ as ∈ ms, (typeNames as).Nodup ∧ Closed as) →
      (∀ as ∈ ms, Unaffected g.constants as) →
      (ms.Pairwise fun as bs => Unaffected ((constantNames as).map pyName) bs) → session g ms = ms.map compileModule := by
    intro ms
    induction ms with
    | nil => intro g _ _ _; rfl
    | cons as ms ih =>
      intro g h hg hu
      rw [List.pairwise_cons] at hu
      have h0 := h as (List.mem_cons_self ..)
      rw [session, List.map_cons, compile_alone h0.1 h0.2 (hg as (List.mem_cons_self ..)),
        ih (g.after as) (fun bs hb => h bs (List.mem_cons_of_mem _ hb)) ?_ hu.2]
      intro bs hb n t ht s hs hw
      rcases (after_constants g h0.1).1 hw with hw | hw
      · exact hg bs (List.mem_cons_of_mem _ hb) n t ht s hs hw
      · exact hu.1 bs hb n t ht s hs hw
  exact key ms .fresh h (fun as _ n t _ s _ hw => by cases hw) hu

mutual
theorem typesIn_plain : ∀ t : TObj, typesIn (plainType t) = typesIn t ∧ defaultsIn (plainType t) = defaultsIn t
  | .simple k c => by simp [plainType, typesIn, defaultsIn]
  | .enumerated items => by simp [plainType]
  | .seqOf c e => by simp [plainType, typesIn, defaultsIn, typesIn_plain e]
  | .sequence items => by simp [plainType, typesIn, defaultsIn, typesInItems_plain items]
  | .choice items => by simp [plainType, typesIn, defaultsIn, typesInItems_plain items]
  | .ref n => by simp [plainType]
theorem typesInItems_plain : ∀ items : Items,
    typesInItems (plainItems items) = typesInItems items ∧ defaultsInItems (plainItems items) = defaultsInItems items
  | .nil => by simp [plainItems]
  | .comp id t p r => by simp [plainItems, typesInItems, defaultsInItems, typesIn_plain t, typesInItems_plain r]
  | .marker r => by simp [plainItems, typesInItems, defaultsInItems, typesInItems_plain r]
  | .group cs r => by simp [plainItems, typesInItems, defaultsInItems, typesInComps_plain cs, typesInItems_plain r]
theorem typesInComps_plain : ∀ cs : Comps,
    typesInComps (plainComps cs) = typesInComps cs ∧ defaultsInComps (plainComps cs) = defaultsInComps cs
  | .nil => by simp [plainComps]
  | .cons id t p r => by simp [plainComps, typesInComps, defaultsInComps, typesIn_plain t, typesInComps_plain r]
end

theorem typeNames_plain (as : List Assign) : typeNames (as.map plainAssign) = typeNames as := by
  simp only [typeNames, List.filterMap_map]
  congr 1
  funext a
  cases a <;> rfl

theorem constantNames_plain (as : List Assign) : constantNames (as.map plainAssign) = constantNames as := by
  simp only [constantNames, List.filterMap_map]
  congr 1
  funext a
  cases a <;> rfl

theorem type_plain {as : List Assign} {n : String} {t : TObj} (h : .type n t ∈ as.map plainAssign) :
    ∃ t', t = plainType t' ∧ .type n t' ∈ as := by
  obtain ⟨a, ha, e⟩ := List.mem_map.1 h
  cases a <;> simp only [plainAssign, Assign.type.injEq, reduceCtorEq] at e
  obtain ⟨rfl, rfl⟩ := e
  exact ⟨_, rfl, ha⟩

/-- The text of such a module. -/
theorem C54_text_partial {name : String} {tags : Bool} {as : List Assign} {text : List Char} (hn : UpperName name ∧ Ends name)
    (ha : ∀ a ∈ as, WritableAssign a) (h : Commented name tags as text) (hd : (typeNames as).Nodup) (hc : Closed as)
    (g : Globals) (hu : Unaffected g.constants as) : compileTextIn g text = compileText text := by
  obtain ⟨ls, ss, hl, hlen, h', hw⟩ := h
  have hcl : Closed (as.map plainAssign) := by
    constructor
    · intro n t ht m hm
      obtain ⟨t', rfl, ht'⟩ := type_plain ht
      rw [(typesIn_plain t').1] at hm
      rw [typeNames_plain]
      exact hc.1 n t' ht' m hm
    · intro n m l hm
      obtain ⟨a, ha, e⟩ := List.mem_map.1 hm
      rw [typeNames_plain]
      cases a <;> simp only [plainAssign, Assign.constant.injEq, reduceCtorEq] at e
      obtain ⟨rfl, rfl, rfl⟩ := e
      exact hc.2 _ _ _ ha
  have hun : Unaffected g.constants (as.map plainAssign) := by
    intro n t ht s hs hw
    obtain ⟨t', rfl, ht'⟩ := type_plain ht
    rw [(typesIn_plain t').2] at hs
    rw [constantNames_plain]
    exact hu n t' ht' s hs hw
  simp only [compileTextIn, compileText, removed hl hlen h', C52_parsed_partial hn ha hw, bind, Except.bind]
  rw [compile_alone (by rw [typeNames_plain]; exact hd) hcl hun]
  rfl

/-! ## an example -/

/-- Another module, with a type and a value of the same names: `A ::= OCTET STRING`, `top A ::= 'AB'H`,
`S ::= SEQUENCE { a A DEFAULT top }`. -/
def otherModule : List Assign :=
  [.type "A" (.simple .octetString none), .constant "top" "A" (.hex [10, 11]),
   .type "S" (.sequence (.comp "a" (.ref "A") (.default (.word "top")) .nil))]

theorem sample_closed : Closed sampleModule := by
  constructor
  · intro n t h m hm
    have h := sampleReversed_mem h
    simp only [sampleModule, List.drop, List.take, List.mem_singleton, Assign.type.injEq, reduceCtorEq, false_or, or_false] at h
    have : m ∈ ["A", "Msg-1"] := by
      rcases h with ⟨_, rfl⟩ | ⟨_, rfl⟩ | ⟨_, rfl⟩ | ⟨_, rfl⟩ <;>
        simp only [typesIn, typesInItems, typesInComps, List.mem_cons, List.append_nil, List.nil_append, List.cons_append,
          List.not_mem_nil, or_false, or_self] at hm ⊢ <;> simp [hm]
    exact (by decide : ∀ m ∈ ["A", "Msg-1"], m ∈ typeNames sampleModule) m this
  · intro n m l h
    have h := sampleReversed_mem h
    simp only [sampleModule, List.drop, List.take, List.mem_singleton, Assign.constant.injEq, reduceCtorEq, false_or, or_false] at h
    obtain ⟨_, rfl, _⟩ := h
    decide

theorem other_closed : Closed otherModule := by
  constructor
  · intro n t h m hm
    simp only [otherModule, List.mem_cons, Assign.type.injEq, reduceCtorEq, List.not_mem_nil, false_or, or_false] at h
    rcases h with ⟨_, rfl⟩ | ⟨_, rfl⟩
    · simp [typesIn] at hm
    · simp only [typesIn, typesInItems, List.append_nil, List.mem_singleton] at hm
      subst hm
      decide
  · intro n m l h
    simp only [otherModule, List.mem_cons, Assign.constant.injEq, reduceCtorEq, List.not_mem_nil, false_or, or_false] at h
    obtain ⟨_, rfl, _⟩ := h
    decide

theorem other_unaffected : Unaffected ((constantNames otherModule).map pyName) sampleModule := by
  intro n t h s hs hw
  have h := sampleReversed_mem h
  simp only [sampleModule, List.drop, List.take, List.mem_singleton, Assign.type.injEq, reduceCtorEq, false_or, or_false] at h
  have hs : s ∈ ["five", "TRUE"] := by
    rcases h with ⟨_, rfl⟩ | ⟨_, rfl⟩ | ⟨_, rfl⟩ | ⟨_, rfl⟩ <;>
      simp [defaultsIn, defaultsInItems, defaultsInComps, presNames, litNames] at hs ⊢ <;> simp [hs]
  have : (constantNames otherModule).map pyName = ["top"] := by decide +kernel
  rw [this, List.mem_singleton] at hw
  subst hw
  simp at hs

example : (∀ as ∈ [otherModule, sampleModule], (typeNames as).Nodup ∧ Closed as) ∧
    [otherModule, sampleModule].Pairwise (fun as bs => Unaffected ((constantNames as).map pyName) bs) ∧
    session .fresh [otherModule, sampleModule] = [compileModule otherModule, compileModule sampleModule] := by
  have h1 : ∀ as ∈ [otherModule, sampleModule], (typeNames as).Nodup ∧ Closed as := by
    intro as h
    simp only [List.mem_cons, List.not_mem_nil, or_false] at h
    rcases h with rfl | rfl
    · exact ⟨by decide, other_closed⟩
    · exact ⟨by decide, sample_closed⟩
  have h2 : [otherModule, sampleModule].Pairwise (fun as bs => Unaffected ((constantNames as).map pyName) bs) := by
    simp only [List.pairwise_cons, List.mem_singleton, forall_eq, List.Pairwise.nil, and_true, List.not_mem_nil, false_imp_iff,
      implies_true]
    exact other_unaffected
  exact ⟨h1, h2, C54_session_partial h1 h2⟩

/-- In the process the value `top` of the first module is an octet string, in the second an integer. -/
example : (session .fresh [otherModule, sampleModule]).map (fun r => (r.map fun st => st.env.lookup "top")) =
    [.ok (some (.val (.octetString ⟨false, none, none⟩) (.octets [0xAB]))), .ok (some (.val (.integer .noConstraint) (.int 7)))] := by
  decide +kernel

/-! ## C51 for a process -/

/-- Whatever has been compiled before and whatever the text: if the generated module can be imported, every name of it
stands for something that makes sense, as in `C51_sound_partial`. -/
theorem C51_process_partial {g : Globals} {text : List Char} {st : Loaded} (h : compileTextIn g text = .ok st) {x : String}
    {o : PyObj} (ho : st.env.lookup x = some o) : SoundObj o := by
  unfold compileTextIn at h
  cases hp : parseModule (removeComments text) with
  | error e => rw [hp] at h; cases h
  | ok as =>
    rw [hp] at h
    have h : (match compileIn g as with
      | .ok st => return st
      | .error e => .error (PErr.raised e) : Except PErr Loaded) = .ok st := h
    cases hc : compileIn g as with
    | error e => rw [hc] at h; cases h
    | ok st' =>
      rw [hc] at h
      cases h
      unfold compileIn generateIn at hc
      obtain ⟨r, h1, hc⟩ := Accepted.bind_ok hc
      obtain ⟨prog, h2, hc⟩ := Accepted.bind_ok hc
      exact Accepted.load_ok (Accepted.emitted_ok (Accepted.steps_ok _ _ r Accepted.plansOk_nil h1) h2) hc x o ho

/-- Used in the example below: a module of one line. -/
def oneLine : List Char := "M DEFINITIONS ::= BEGIN A ::= INTEGER (0..7) END".toList

example : ((compileTextIn ((Globals.fresh.after otherModule).after sampleModule) oneLine).toOption.bind fun st => st.env.lookup "A") =
    some (.cls (.integer (.valueRange (some 0) (some 7) false))) := by decide +kernel

end Verif.Props
