import Verif.Lemmas.ParseObj
/-!
# Modules on lexical items
-/
namespace Verif.Parse
open Verif.Spec

section
variable {f n : Nat} {X : List String} {s : List Char}

/-! ## assignments -/

/-- Behind an assignment: another one, or the end. -/
def Next (X : List String) : Prop := ∃ l Y, X = l :: Y ∧ (Lower l ∨ Upper l)

theorem Next.avoids {F : First} (h : Next X) (hF : (!F.null && !F.lo && !F.up && F.cs.all fun c => !c.isLower && !c.isUpper) = true) :
    F.avoids X = true := by
  simp only [Bool.and_eq_true, Bool.not_eq_true', List.all_eq_true] at hF
  obtain ⟨⟨⟨h1, h2⟩, h3⟩, h4⟩ := hF
  obtain ⟨l, Y, rfl, ⟨c, r, e, hc⟩ | ⟨c, r, e, hc⟩⟩ := h
  · have hk := lower_kind hc
    have hm : F.cs.contains c = false := by
      rw [← Bool.not_eq_true, List.contains_iff_mem]
      intro hm; have := (h4 c hm).1; rw [hc] at this; cases this
    simp only [First.avoids, First.skips, e, First.has, h1, h2, h3, hm, hk.2, Bool.and_false]; rfl
  · have hk := upper_kind hc
    have hm : F.cs.contains c = false := by
      rw [← Bool.not_eq_true, List.contains_iff_mem]
      intro hm; have := (h4 c hm).2; rw [hc] at this; cases this
    simp only [First.avoids, First.skips, e, First.has, h1, h2, h3, hm, hk.2, Bool.and_false]; rfl

theorem assign_reads {a : Assign} (ha : WritableAssign a) (hs : s.length < n) (hX : Next X) (h : Laid (assignItems a ++ X) s) :
    ∃ R, Reads (or [typeAssignment (type (f + 2) n), valueAssignment (type (f + 2) n) (value (f + 2))]) s X [.assign (plainAssign a)] R := by
  have val : ∀ {m : String} {t : TObj} {l : Lit} {a : Assign}, ValueName m → Writable t → WritableLit l →
      Laid (m :: (typeItems t ++ "::=" :: (litItems l ++ X))) s →
      parseValueAssignment [.str m, .group [.type (plainType t)], .str "::=", .str (litText l)] = .ok [.assign a] →
      ∃ R, Reads (or [typeAssignment (type (f + 2) n), valueAssignment (type (f + 2) n) (value (f + 2))]) s X [.assign a] R := by
    intro m t l a hm ht hl h hp
    have hlo : Lower m := hm.1.2
    have h1 : Reads valuereference s _ _ _ := ident_reads h hm
    have l1 := h1.less
    obtain ⟨R1, h2⟩ := type_ok t ht f n ("::=" :: (litItems l ++ X)) _ (by omega) rfl h1.laid
    have h3 := lit_reads h2.laid
    obtain ⟨R, h4⟩ := lit_value (n := f + 1) h3.laid hl (hX.avoids (by decide))
    have h5 : Reads (valueAssignment (type (f + 2) n) (value (f + 2))) s X [.assign a] R :=
      (h1.seqs (h2.seqs (h3.seqs (ps := []) h4))).act hp
    refine ⟨R, h5.laid, h5.less, or_yields ?_⟩
    have := h5.yields
    pick this at h
  cases a with
  | type m t =>
    obtain ⟨hm, ht⟩ := ha
    have h : Laid (m :: "::=" :: (typeItems t ++ X)) s := h
    have hup : Upper m := hm.1.2
    have h1 := typeref_reads h hm.1 hm.2.1
    have h2 := lit_reads h1.laid
    have l1 := h1.less
    have l2 := h2.less
    obtain ⟨R, h3⟩ := type_ok t ht f n X _ (by omega) (hX.avoids (by decide)) h2.laid
    have h4 : Reads (typeAssignment (type (f + 2) n)) s X [.assign (.type m (plainType t))] R :=
      (h1.seqs (h2.seqs (ps := []) h3)).act (by simp [parseTypeAssignment, typeIn, bind, Except.bind, pure, Except.pure])
    refine ⟨R, h4.laid, h4.less, or_yields ?_⟩
    have := h4.yields
    pick this at h
  | value m k l =>
    have h : Laid (m :: (typeItems (.simple k none) ++ "::=" :: (litItems l ++ X))) s := by
      have := h; simp only [assignItems] at this; simpa [typeItems] using this
    refine val (t := .simple k none) ha.1 trivial ha.2 h ?_
    simp [parseValueAssignment, typeIn, plainType, litOf_text ha.2, plainAssign, bind, Except.bind, pure, Except.pure]
  | constant m t l =>
    have h : Laid (m :: (typeItems (.ref t) ++ "::=" :: (litItems l ++ X))) s := by
      have := h; simp only [assignItems] at this; simpa [typeItems] using this
    refine val (t := .ref t) ha.1 (by unfold Writable; exact ha.2.1) ha.2.2 h ?_
    simp [parseValueAssignment, typeIn, plainType, litOf_text ha.2.2, plainAssign, bind, Except.bind, pure, Except.pure]

theorem assign_head {a : Assign} (ha : WritableAssign a) : ∃ l Y, assignItems a = l :: Y ∧ (Lower l ∨ Upper l) := by
  cases a with
  | type m t => exact ⟨_, _, rfl, .inr ha.1.1.2⟩
  | value m k l => exact ⟨_, _, rfl, .inl ha.1.1.2⟩
  | constant m t l => exact ⟨_, _, rfl, .inl ha.1.1.2⟩

theorem next_assigns : ∀ {as : List Assign}, (∀ a ∈ as, WritableAssign a) → Next (as.flatMap assignItems ++ ["END"])
  | [], _ => ⟨_, _, rfl, .inr ⟨'E', _, rfl, by decide⟩⟩
  | a :: as, h => by
    obtain ⟨l, Y, e, hl⟩ := assign_head (h a (by simp))
    exact ⟨l, _, by rw [List.flatMap_cons, e]; rfl, hl⟩

theorem assigns_reps : ∀ {as : List Assign} {s : List Char}, (∀ a ∈ as, WritableAssign a) → s.length < n →
    Laid (as.flatMap assignItems ++ ["END"]) s →
    ∃ R, Laid ["END"] R ∧ R.length ≤ s.length ∧ (as = [] → R = s) ∧ (as ≠ [] → R.length < s.length) ∧
      Reps (or [typeAssignment (type (f + 2) n), valueAssignment (type (f + 2) n) (value (f + 2))]) s
      (as.map fun a => .assign (plainAssign a)) R
  | [], s, _, _, h => by
    have h : Laid ["END"] s := h
    have h1 : Reads typereference s _ _ _ := typeref_reads h ⟨by unfold Word; decide, 'E', _, rfl, by decide⟩ (by unfold Ends; decide)
    have h2 : Rejects (lit "::=") (after "END" s) := rejects_avoid h1.laid (by decide)
    have h3 : Rejects (typeAssignment (type (f + 2) n)) s := act_rejects (seq_rejects' h1.yields (seq_rejects h2))
    have h4 : Rejects (valueAssignment (type (f + 2) n) (value (f + 2))) s := rejects_at h
    refine ⟨s, h, Nat.le_refl _, fun _ => rfl, fun h => absurd rfl h, reps_nil (or_rejects ?_)⟩
    simp only [List.mem_cons, List.not_mem_nil, or_false, forall_eq_or_imp, forall_eq]
    exact ⟨h3, h4⟩
  | a :: as, s, ha, hs, h => by
    rw [List.flatMap_cons, List.append_assoc] at h
    have has : ∀ b ∈ as, WritableAssign b := fun b hb => ha b (by simp [hb])
    obtain ⟨R1, h1⟩ := assign_reads (f := f) (ha a (by simp)) hs (next_assigns has) h
    have l1 := h1.less
    obtain ⟨R, h2, h3, -, -, h4⟩ := assigns_reps has (by omega) h1.laid
    refine ⟨R, h2, by omega, (nomatch ·), fun _ => by omega, ?_⟩
    exact reps_cons h1.yields l1 h4

/-! ## modules -/

theorem body_yields {as : List Assign} (ha : ∀ a ∈ as, WritableAssign a) (hs : s.length < n)
    (h : Laid (as.flatMap assignItems ++ ["END"]) s) :
    ∃ R, Laid ["END"] R ∧ R.length ≤ s.length ∧
      Yields (moduleBodyDef (type (f + 2) n) (value (f + 2))) s (as.map fun a => .assign (plainAssign a)) R := by
  obtain ⟨R, h1, h2, h3, h4, h5⟩ := assigns_reps (f := f) ha hs h
  have e := or_empty_yields (laid_skip h)
  have y1 := many_yields (laid_skip h) h5
  have y : Yields (seqs [or [empty], or [empty], assignmentList (type (f + 2) n) (value (f + 2))]) s _ R :=
    seqs_yields e (seqs_yields (ps := []) e y1)
  have e0 := empty_yields s
  rw [laid_skip h] at e0
  refine ⟨R, h1, h2, or_yields ?_⟩
  by_cases hn : as = []
  · have := h3 hn
    subst hn; subst this
    exact .here y (rest_cons (.inr e0) rest_nil)
  · exact .here y (rest_cons (.inl (e0.loses (h4 hn)).ties) rest_nil)

theorem tags_yields {tags : Bool} (h : Laid ((if tags then ["AUTOMATIC TAGS"] else []) ++ "::=" :: X) s) :
    ∃ toks R, Laid ("::=" :: X) R ∧ R.length ≤ s.length ∧ bodyOf toks = [] ∧ Yields (or [lit "AUTOMATIC TAGS", empty]) s toks R := by
  have e0 := empty_yields s
  rw [laid_skip h] at e0
  cases tags with
  | true =>
    have h : Laid ("AUTOMATIC TAGS" :: "::=" :: X) s := h
    have h1 := lit_reads h
    exact ⟨_, _, h1.laid, Nat.le_of_lt h1.less, rfl, or_yields (.here h1.yields (rest_cons (.inl (e0.loses h1.less).ties) rest_nil))⟩
  | false =>
    have h : Laid ("::=" :: X) s := h
    have h1 : Rejects (lit "AUTOMATIC TAGS") s := rejects_at h
    exact ⟨_, s, h, Nat.le_refl _, rfl, or_yields (.there h1.loses (.here e0 rest_nil))⟩

theorem assigns_map : ∀ as : List Assign, assigns (as.map fun a => Tok.assign (plainAssign a)) = as.map plainAssign
  | [] => rfl
  | a :: as => by simp [assigns, assigns_map as]

theorem bodyOf_append (a b : List Tok) : bodyOf (a ++ b) = bodyOf a ++ bodyOf b := by simp [bodyOf]

theorem module_yields {name : String} {tags : Bool} {as : List Assign} (hn : UpperName name ∧ Ends name)
    (ha : ∀ a ∈ as, WritableAssign a) (hs : s.length < n) (h : Laid (moduleItems name tags as) s) :
    ∃ toks R, Yields (moduleDefinition (type (f + 2) n) (value (f + 2))) s toks R ∧ bodyOf toks = as.map plainAssign := by
  have h1 : Reads (seqs [modulereference]) s _ _ _ := typeref_reads h hn.1 hn.2
  have h2 := lit_reads h1.laid
  have e2 := or_empty_yields (laid_skip h2.laid)
  obtain ⟨toks, R3, h3, l3, b3, y3⟩ := tags_yields h2.laid
  have e3 := or_empty_yields (laid_skip h3)
  have h4 := lit_reads h3
  have h5 := lit_reads h4.laid
  have l1 := h1.less
  have l2 := h2.less
  have l4 := h4.less
  have l5 := h5.less
  obtain ⟨R, h6, l6, y6⟩ := body_yields (f := f) (n := n) ha (by omega) h5.laid
  have h7 := lit_reads h6
  refine ⟨_, _, seqs_yields h1.yields (seqs_yields h2.yields (seqs_yields e2 (seqs_yields y3 (seqs_yields e3 (seqs_yields h4.yields
    (seqs_yields h5.yields (seqs_yields (ps := []) (group_yields y6) h7.yields))))))), ?_⟩
  rw [bodyOf_append, bodyOf_append, bodyOf_append, bodyOf_append, b3]
  simp [bodyOf, assigns_map]

end
end Verif.Parse
