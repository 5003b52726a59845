import Verif.Lemmas.Chain
import Verif.Lemmas.Comments
/-!
# Order of the generated classes (C31-C33), comments (C34)
-/
namespace Verif.Props
open Spec

variable {α : Type} (view : α → Node)

/-- The component types of a list of assignments. -/
def componentTypes (l : List α) : List α := l.filter fun a => (view a).cls == .component

/-! ## C31 nothing lost, nothing twice -/

theorem split_perm : ∀ (l : List α),
    ((l.filter fun a => (view a).cls == .simple && (view a).valuereference != "") ++
      (l.filter fun a => (view a).cls == .simple && (view a).valuereference == "") ++
      (l.filter fun a => (view a).cls == .defined && (view a).valuereference == "") ++
      (l.filter fun a => (view a).cls == .defined && (view a).valuereference != "") ++ componentTypes view l).Perm l
  | [] => List.Perm.refl _
  | a :: l => by
    have ih := split_perm l
    unfold componentTypes at ih ⊢
    simp only [List.filter_cons]
    cases hc : (view a).cls <;> cases hv : (view a).valuereference == "" <;>
      simp [bne, hv, List.append_assoc] at ih ⊢
    all_goals first
      | exact ih
      | exact (List.perm_middle).trans (ih.cons a)
      | (rw [← List.append_assoc]
         refine List.perm_middle.trans (List.Perm.cons a ?_)
         simpa [List.append_assoc] using ih)
      | (rw [← List.append_assoc, ← List.append_assoc]
         refine List.perm_middle.trans (List.Perm.cons a ?_)
         simpa [List.append_assoc] using ih)
      | (rw [← List.append_assoc, ← List.append_assoc, ← List.append_assoc]
         refine List.perm_middle.trans (List.Perm.cons a ?_)
         simpa [List.append_assoc] using ih)

/-- The module body has every assignment exactly once, whatever refers to what. -/
theorem C31_perm {l : List α} (h : ((componentTypes view l).map fun a => (view a).typereference).Nodup) :
    (sortAssignments view l).1.Perm l := by
  refine List.Perm.trans ?_ (split_perm view l)
  simp only [sortAssignments]
  have h1 := additionalSort_perm (fun a => (view a).typereference) (l.filter fun a => (view a).cls == .defined && (view a).valuereference == "")
    (sortComponents view (componentTypes view l)).1
  have h2 : (sortComponents view (componentTypes view l)).1.Perm (componentTypes view l) := sortLoop_perm 100 false h
  have h3 := h1.trans (List.Perm.append_left _ h2)
  unfold componentTypes at h3
  unfold componentTypes
  generalize additionalSort _ _ _ = s at h3
  obtain ⟨s1, s2⟩ := s
  simp only [List.append_assoc] at h3 ⊢
  refine List.Perm.append_left _ (List.Perm.append_left _ ?_)
  calc s1 ++ (_ ++ s2)
      _ = (s1 ++ _) ++ s2 := by rw [List.append_assoc]
      _ |>.Perm _ := (List.perm_append_comm.append_right _)
      _ = _ ++ (s1 ++ s2) := by rw [List.append_assoc]
      _ |>.Perm _ := h3.append_left _
      _ = (_ ++ _) ++ _ := by rw [List.append_assoc]
      _ |>.Perm _ := (List.perm_append_comm.append_right _)
      _ = _ := by rw [List.append_assoc]

/-- A SEQUENCE with components of the given types. -/
def sequenceNode (name : String) (subs : List Node) : Node := .type .component name "" "" subs
/-- A component of a type given by name, or `name ::= type`. -/
def definedNode (name type : String) : Node := .type .defined type name "" []

/-- B refers to A through a SEQUENCE inside it and A to B; `Foo ::= A`; `INTEGER` type and value. -/
def sampleBody : List Node :=
  [sequenceNode "B" [.type .simple "IntegerType" "i" "" [], .text "...",
     .type .component "SequenceType" "s" "" [definedNode "a" "A"]],
   .type .simple "Num" "" "" [], definedNode "Foo" "A", sequenceNode "A" [definedNode "b" "B"],
   .type .simple "IntegerType" "" "five" [], .type .defined "Num" "" "six" []]

example : ((componentTypes id sampleBody).map Node.typereference).Nodup := by decide

/-! ## C32 referenced types first -/

theorem refs_nil_text (s : String) : (Node.text s).refs = [] := rfl

mutual
theorem mentions_of_refs : ∀ (n : Node) (s : String), s ∈ n.refs → Mentions n s
  | .text _, s, h => by simp [Node.refs, getSubcomponents] at h
  | .type .defined t i v subs, s, h => by
    simp only [Node.refs, getSubcomponents, List.map_cons, List.map_nil, List.mem_singleton] at h
    rw [h]; exact .alias
  | .type .simple t i v subs, s, h => by
    simp only [Node.refs, getSubcomponents] at h
    exact mentions_of_list .simple t i v (by simp) subs subs (fun _ h => h) s h
  | .type .component t i v subs, s, h => by
    simp only [Node.refs, getSubcomponents] at h
    exact mentions_of_list .component t i v (by simp) subs subs (fun _ h => h) s h
theorem mentions_of_list (c : Cls) (t i v : String) (hc : c ≠ .defined) (all : List Node) : ∀ (subs : List Node),
    (∀ n ∈ subs, n ∈ all) → ∀ s, s ∈ (getSubcomponentsOf subs).map Node.typereference → Mentions (.type c t i v all) s
  | [], _, s, h => by simp [getSubcomponentsOf] at h
  | .text x :: r, ha, s, h => by
    simp only [getSubcomponentsOf] at h
    exact mentions_of_list c t i v hc all r (fun n hn => ha n (List.mem_cons_of_mem _ hn)) s h
  | .type c' t' i' v' subs' :: r, ha, s, h => by
    have ih := mentions_of_list c t i v hc all r (fun n hn => ha n (List.mem_cons_of_mem _ hn)) s
    have hm := ha _ (List.mem_cons_self ..)
    rw [getSubcomponentsOf] at h
    split at h
    · exact ih h
    · rename_i h1
      split at h
      · rename_i h2
        rw [List.map_append, List.mem_append] at h
        rcases h with h | h
        · exact .inside hc hm (by simpa using h2) (mentions_of_refs _ s h)
        · exact ih h
      · rename_i h2
        rw [List.map_cons, List.mem_cons] at h
        rcases h with h | h
        · rw [h]
          exact .component hc hm (by simpa using h1 : t' ∉ simpleNames) (by simpa using h2 : t' ∉ constructedNames)
        · exact ih h
end

theorem refs_type {c : Cls} {t i v : String} {subs : List Node} (hc : c ≠ .defined) :
    (Node.type c t i v subs).refs = (getSubcomponentsOf subs).map Node.typereference := by
  cases c
  · rw [Node.refs, getSubcomponents]; simp
  · simp at hc
  · rw [Node.refs, getSubcomponents]; simp

theorem refs_component {c' : Cls} {t' i' v' : String} {subs' : List Node} (h1 : t' ∉ simpleNames)
    (h2 : t' ∉ constructedNames) : ∀ {subs : List Node}, .type c' t' i' v' subs' ∈ subs →
    t' ∈ (getSubcomponentsOf subs).map Node.typereference
  | .text x :: r, h => by
    rw [getSubcomponentsOf]
    exact refs_component h1 h2 (by simpa using h)
  | .type c t i v subs :: r, h => by
    rw [getSubcomponentsOf]
    rcases List.mem_cons.1 h with h | h
    · cases h
      rw [if_neg (by simpa using h1), if_neg (by simpa using h2)]
      simp [Node.typereference]
    · have := refs_component h1 h2 h
      split
      · exact this
      · split
        · rw [List.map_append]; exact List.mem_append_right _ this
        · rw [List.map_cons]; exact List.mem_cons_of_mem _ this

theorem constructed_not_simple : ∀ {t : String}, t ∈ constructedNames → t ∉ simpleNames := by decide

theorem refs_inside {n : Node} {s : String} (hs : s ∈ n.refs) (h2 : n.typereference ∈ constructedNames) :
    ∀ {subs : List Node}, n ∈ subs → s ∈ (getSubcomponentsOf subs).map Node.typereference
  | .text x :: r, h => by
    rw [getSubcomponentsOf]
    rcases List.mem_cons.1 h with rfl | h
    · rw [refs_nil_text] at hs; simp at hs
    · exact refs_inside hs h2 h
  | .type c t i v subs :: r, h => by
    rw [getSubcomponentsOf]
    rcases List.mem_cons.1 h with rfl | h
    · have h1 := constructed_not_simple h2
      simp only [Node.typereference] at h1 h2
      rw [if_neg (by simpa using h1), if_pos (by simpa using h2), List.map_append]
      exact List.mem_append_left _ hs
    · have := refs_inside hs h2 h
      split
      · exact this
      · split
        · rw [List.map_append]; exact List.mem_append_right _ this
        · rw [List.map_cons]; exact List.mem_cons_of_mem _ this

/-- The references `sort_components` looks at are the names that a type mentions. -/
theorem C32_references (n : Node) (s : String) : s ∈ n.refs ↔ Mentions n s := by
  refine ⟨mentions_of_refs n s, fun h => ?_⟩
  induction h with
  | alias => simp [Node.refs, getSubcomponents, Node.typereference]
  | component hc hm h1 h2 => rw [refs_type hc]; exact refs_component h1 h2 hm
  | inside hc hm h2 _ ih => rw [refs_type hc]; exact refs_inside ih h2 hm

example : ∃ n ∈ sampleBody, "A" ∈ n.refs := ⟨_, List.mem_cons_self .., by decide⟩

/-- The component types of the module body are in the order `sort_components` gave them. -/
theorem componentTypes_sorted {l : List α} (h : ((componentTypes view l).map fun a => (view a).typereference).Nodup) :
    componentTypes view (sortAssignments view l).1 = (sortComponents view (componentTypes view l)).1 := by
  have hp : (sortComponents view (componentTypes view l)).1.Perm (componentTypes view l) := sortLoop_perm 100 false h
  have hd : ∀ t ∈ l.filter (fun a => (view a).cls == .defined && (view a).valuereference == ""), ((view t).cls == .component) = false := by
    intro t ht; simp only [List.mem_filter, Bool.and_eq_true, beq_iff_eq] at ht; rw [ht.2.1]; rfl
  have h1 := additionalSort_filter (fun a => (view a).typereference) (fun a => (view a).cls == .component) (l.filter fun a => (view a).cls == .defined && (view a).valuereference == "")
    (sortComponents view (componentTypes view l)).1 hd
  have h2 := additionalSort_defined (fun a => (view a).typereference) (fun a => (view a).cls == .component) (l.filter fun a => (view a).cls == .defined && (view a).valuereference == "")
    (sortComponents view (componentTypes view l)).1 hd
  have none : ∀ {m : List α}, (∀ a ∈ m, (view a).cls ≠ .component) → componentTypes view m = [] := by
    intro m hm
    exact List.filter_eq_nil_iff.2 fun a ha => by simpa using hm a ha
  have all : ∀ {m : List α}, (∀ a ∈ m, (view a).cls = .component) → componentTypes view m = m := by
    intro m hm
    exact List.filter_eq_self.2 fun a ha => by simpa using hm a ha
  have e : ∀ a b : List α, componentTypes view (a ++ b) = componentTypes view a ++ componentTypes view b := by
    intro a b; exact List.filter_append ..
  simp only [sortAssignments, e]
  rw [none (by intro a ha; simp only [List.mem_filter, Bool.and_eq_true, beq_iff_eq] at ha; simp [ha.2.1]),
    none (by intro a ha; simp only [List.mem_filter, Bool.and_eq_true, beq_iff_eq] at ha; simp [ha.2.1]),
    none (by intro a ha; simpa using h2 a ha),
    none (by intro a ha; simp only [List.mem_filter, Bool.and_eq_true, beq_iff_eq] at ha; simp [ha.2.1])]
  simp only [List.nil_append]
  refine Eq.trans h1 (all fun a ha => ?_)
  simpa [componentTypes] using (List.mem_filter.1 (hp.mem_iff.1 ha)).2

/-- Without a warning no component type comes before one that it mentions. -/
theorem C32_order {l : List α} (h : ((componentTypes view l).map fun a => (view a).typereference).Nodup)
    (hw : (sortAssignments view l).2 = false) :
    (componentTypes view (sortAssignments view l).1).Pairwise fun a b => ¬ Mentions (view a) (view b).typereference := by
  rw [componentTypes_sorted view h]
  have := sortLoop_sorted (ref := (fun a => (view a).typereference)) (refs := (fun a => (view a).refs)) 100 false h (by simp) hw
  exact this.imp fun hab hm => hab ((C32_references _ _).2 hm)

/-- Needed: `A` mentions `B`, `B` mentions `C` and `A` is defined before `B` and `C`. -/
def sampleOrder : List Node :=
  [sequenceNode "A" [definedNode "b" "B"], sequenceNode "B" [definedNode "c" "C"], definedNode "Foo" "B",
   sequenceNode "C" [.type .simple "IntegerType" "i" "" []]]

example : ((componentTypes id sampleOrder).map Node.typereference).Nodup ∧ (sortAssignments id sampleOrder).2 = false ∧
    (sortAssignments id sampleOrder).1.map Node.typereference = ["C", "B", "B", "A"] := by
  refine ⟨by decide, ?_, ?_⟩ <;> decide +kernel

/-- No warning if chains of references have at most 99 types.  The full claim "a warning is logged only if the order
could not be established" would allow 100, see `Findings.C32_warning`. -/
theorem C32_quiet_partial {l : List α} (h : ((componentTypes view l).map fun a => (view a).typereference).Nodup)
    (hc : ChainsBelow (fun a => (view a).typereference) (fun a => (view a).refs) 99 (componentTypes view l)) :
    (sortAssignments view l).2 = false := by
  obtain ⟨floor, hf, hr⟩ := hc
  exact sortLoop_quiet (ref := (fun a => (view a).typereference)) (refs := (fun a => (view a).refs)) (m := 99) 100 0 _ (by omega) h hf hr
    (List.pairwise_iff_forall_sublist.2 fun _ _ => Nat.zero_le _) (by omega)

/-- In particular fewer than 100 component types are put in order if that is possible at all. -/
theorem C32_acyclic_partial {l : List α} (h : ((componentTypes view l).map fun a => (view a).typereference).Nodup)
    (hc : Acyclic (fun a => (view a).typereference) (fun a => (view a).refs) (componentTypes view l)) (hn : (componentTypes view l).length < 100) :
    (sortAssignments view l).2 = false ∧
      (componentTypes view (sortAssignments view l).1).Pairwise fun a b => ¬ Mentions (view a) (view b).typereference := by
  have hq : (sortAssignments view l).2 = false := by
    refine C32_quiet_partial view h ?_
    obtain ⟨floor, hf, hr⟩ := acyclic_chains hc
    exact ⟨floor, fun s hs => Nat.lt_of_lt_of_le (hf s hs) (by omega), hr⟩
  exact ⟨hq, C32_order view h hq⟩

example : Acyclic Node.typereference Node.refs (componentTypes id sampleOrder) := by
  have edge : ∀ a b, RefersTo Node.typereference Node.refs (componentTypes id sampleOrder) a b → a < b := by
    rintro a b ⟨_, _, c, hc, rfl, hb⟩
    simp only [componentTypes, sampleOrder, List.filter_cons, List.filter_nil] at hc
    simp [Node.cls, sequenceNode, definedNode] at hc
    rcases hc with rfl | rfl | rfl <;>
      simp [Node.refs, getSubcomponents, getSubcomponentsOf, simpleNames, constructedNames, Node.typereference] at hb ⊢ <;>
      rw [hb] <;> decide
  have path : ∀ a b, Reaches Node.typereference Node.refs (componentTypes id sampleOrder) a b → a < b := by
    intro a b h
    induction h with
    | direct h => exact edge _ _ h
    | step _ h ih => exact String.lt_trans ih (edge _ _ h)
  exact fun a ha => String.lt_irrefl a (path a a ha)

/-! ## C33 aliases -/

/-- `Foo ::= Bar` comes after the component type `Bar`. -/
theorem C33_after {l : List α} {alias bar : α} (h : ((componentTypes view l).map fun a => (view a).typereference).Nodup)
    (ha : alias ∈ l) (hc : (view alias).cls = .defined) (hv : (view alias).valuereference = "") (hb : bar ∈ componentTypes view l)
    (hn : (view bar).typereference = (view alias).typereference) : [bar, alias].Sublist (sortAssignments view l).1 := by
  have hp : (sortComponents view (componentTypes view l)).1.Perm (componentTypes view l) := sortLoop_perm 100 false h
  have := additionalSort_after (fun a => (view a).typereference) (l.filter fun a => (view a).cls == .defined && (view a).valuereference == "")
    (sortComponents view (componentTypes view l)).1 (t := alias) (b := bar) ((hp.map _).nodup_iff.2 h)
    (by simp [List.mem_filter, ha, hc, hv]) (hp.mem_iff.2 hb) hn
  exact List.Sublist.trans this (List.sublist_append_right ..)

/-- Inserting the aliases does not change the order of the component types that `sort_components` has found. -/
theorem C33_order {l : List α} (h : ((componentTypes view l).map fun a => (view a).typereference).Nodup) :
    componentTypes view (sortAssignments view l).1 = (sortComponents view (componentTypes view l)).1 := componentTypes_sorted view h

example : definedNode "Foo" "A" ∈ sampleBody ∧ sequenceNode "A" [definedNode "b" "B"] ∈ componentTypes id sampleBody := by
  constructor
  · simp [sampleBody]
  · simp [componentTypes, sampleBody, Node.cls, sequenceNode, definedNode]

/-! ## C34 comments -/

/-- Every line loses what follows its first `--`, and ends with a line feed. -/
theorem C34_lines (text : List Char) : ∃ ls ss, Lines text ls ∧ ss.length = ls.length ∧
    (∀ p ∈ ls.zip ss, Uncommented p.1 p.2) ∧ removeComments text = (ss.map (· ++ ['\n'])).flatten := by
  refine ⟨splitLines [] text, (splitLines [] text).map stripComment, lines_exist text, by simp, ?_,
    removeComments_eq text⟩
  generalize splitLines [] text = ls
  induction ls with
  | nil => simp
  | cons l ls ih =>
    intro p hp
    rw [List.map_cons, List.zip_cons_cons, List.mem_cons] at hp
    rcases hp with rfl | hp
    · exact stripComment_spec l
    · exact ih p hp

/-- The two things `C34_lines` speaks of are determined by the text. -/
theorem C34_determined {text : List Char} {ls ls' : List (List Char)} (h : Lines text ls) (h' : Lines text ls') :
    ls = ls' ∧ ∀ {l s t : List Char}, Uncommented l s → Uncommented l t → s = t :=
  ⟨(lines_eq h).symm.trans (lines_eq h'), uncommented_unique⟩

/-- The number of lines stays the same. -/
theorem C34_count {text : List Char} {ls ls' : List (List Char)} (h : Lines text ls)
    (h' : Lines (removeComments text) ls') : ls'.length = ls.length := by
  rw [← lines_eq h', lines_eq (removeComments_lines h), List.length_map]

/-- No `--` is left, not even one that the removal has brought together. -/
theorem C34_clean (text : List Char) : ¬ HasComment (removeComments text) := by
  rw [removeComments_eq]
  apply clean_lines
  intro l hl
  obtain ⟨m, _, rfl⟩ := List.mem_map.1 hl
  exact uncommented_clean (stripComment_spec m)

/-- Removing comments again changes nothing. -/
theorem C34_idempotent (text : List Char) : removeComments (removeComments text) = removeComments text := by
  have h := removeComments_lines (lines_exist text)
  have e : ((splitLines [] text).map stripComment).map stripComment = (splitLines [] text).map stripComment := by
    rw [List.map_map]
    exact List.map_congr_left fun l _ =>
      uncommented_unique (stripComment_spec _) (Or.inl ⟨uncommented_clean (stripComment_spec l), rfl⟩)
  rw [removeComments_eq (removeComments text), lines_eq h, e, ← removeComments_eq]

/-- A text without comments whose lines all end with a line feed is not changed.  "Keeps every other character" is
not true of other line ends, see `Findings.C34_line_ends`. -/
theorem C34_kept_partial {ls : List (List Char)} (hl : ∀ l ∈ ls, ∀ c ∈ l, isBreak c = false)
    (hc : ∀ l ∈ ls, ¬ HasComment l) :
    removeComments (ls.map (· ++ ['\n'])).flatten = (ls.map (· ++ ['\n'])).flatten := by
  rw [removeComments_eq, lines_eq (lines_of_list ls hl)]
  congr 2
  have : ls.map stripComment = ls.map id :=
    List.map_congr_left fun l h => uncommented_unique (stripComment_spec l) (Or.inl ⟨hc l h, rfl⟩)
  rw [this, List.map_id]

example : removeComments "a - -- b\r\n\nc---d -- e\n--\nf".toList = "a - \n\nc\n\nf\n".toList := by decide +kernel
example : ¬ HasComment "a -b".toList ∧ ∀ c ∈ "a -b".toList, isBreak c = false := by
  constructor
  · rw [show "a -b".toList = ['a', ' ', '-', 'b'] from rfl]
    simp [hasComment_cons, hasComment_nil]
  · decide

end Verif.Props
