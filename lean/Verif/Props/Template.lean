import Verif.SpecTemplate
import Verif.SpecDict
import Verif.Props.Leaf
/-!
# Generated classes (C35-C37)
-/
namespace Verif.Props
open Spec

/-! ## C35 numbering of ENUMERATED items -/

theorem enumStep_cases (st : EnumState) (item : EnumItem) :
    enumStep st item = { st with marker := true } ∨
    (st.marker = false ∧ enumStep st item =
      { st with root := st.root ++ [(pyStrip item.str, (st.index : Int))], index := st.index + 1 }) ∨
    (st.marker = true ∧ enumStep st item =
      { st with addition := st.addition ++ [(pyStrip item.str, (st.index : Int))], index := st.index + 1 }) := by
  unfold enumStep
  split
  · exact Or.inl rfl
  · cases hm : st.marker
    · exact Or.inr (Or.inl ⟨rfl, by simp⟩)
    · exact Or.inr (Or.inr ⟨rfl, by simp⟩)

theorem numbered_snoc {l : List (String × Int)} {n : Nat} {s : String} (hn : l.length = n)
    (h : ∀ (i : Nat) (p : String × Int), l[i]? = some p → p.2 = (i : Int)) :
    ∀ (i : Nat) (p : String × Int), (l ++ [(s, (n : Int))])[i]? = some p → p.2 = (i : Int) := by
  intro i p hp
  rcases Nat.lt_or_ge i l.length with hi | hi
  · rw [List.getElem?_append_left hi] at hp
    exact h i p hp
  · rw [List.getElem?_append_right hi] at hp
    rcases Nat.eq_or_lt_of_le hi with rfl | hi
    · simp at hp; rw [← hp, hn]
    · rw [List.getElem?_eq_none (by simp; omega)] at hp; simp at hp

theorem enumFold_numbered : ∀ (items : List EnumItem) (st : EnumState), Numbered st.root st.addition →
    st.index = (st.root ++ st.addition).length → (st.marker = false → st.addition = []) →
    Numbered (items.foldl enumStep st).root (items.foldl enumStep st).addition
  | [], _, h, _, _ => h
  | item :: items, st, h, hi, hm => by
    rw [List.foldl_cons]
    rcases enumStep_cases st item with e | ⟨hf, e⟩ | ⟨ht, e⟩ <;> rw [e]
    · exact enumFold_numbered items _ h hi (by simp)
    · have ha := hm hf
      refine enumFold_numbered items _ ?_ (by simp [ha, hi]) (fun _ => ha)
      simp only [Numbered, ha, List.append_nil] at h ⊢
      exact numbered_snoc (by simp [hi, ha]) h
    · refine enumFold_numbered items _ ?_ (by simp [hi]; omega) (by simp [ht])
      simp only [Numbered] at h ⊢
      rw [← List.append_assoc]
      exact numbered_snoc hi.symm h

/-- Whatever the items are, they are numbered 0, 1, 2, ... in the order of the list, root items first. -/
theorem C35_numbered (items : List EnumItem) : Numbered (enumItems items).root (enumItems items).addition :=
  enumFold_numbered items _ (by simp [Numbered]) rfl (fun _ => rfl)

theorem pyStrip_identifier {s : String} (h : Identifier s) : pyStrip s = s := by
  have key : ∀ l : List Char, (∀ c ∈ l, c ≠ ' ' ∧ c ≠ '\t' ∧ c ≠ '\n' ∧ c ≠ '\r') →
      l.dropWhile (fun c => c == ' ' || c == '\t' || c == '\n' || c == '\r') = l := by
    intro l hl
    cases l with
    | nil => rfl
    | cons c l =>
      obtain ⟨h1, h2, h3, h4⟩ := hl c (by simp)
      rw [List.dropWhile_cons_of_neg (by simp [h1, h2, h3, h4])]
  simp only [pyStrip]
  rw [key _ h.2, key _ (fun c hc => h.2 c (List.mem_reverse.1 hc)), List.reverse_reverse, String.ofList_toList]

theorem enumFold_names : ∀ (names : List String) (st : EnumState), (∀ s ∈ names, Identifier s) →
    ((names.map EnumItem.id).foldl enumStep st).marker = st.marker ∧
    ((names.map EnumItem.id).foldl enumStep st).root.map Prod.fst =
      st.root.map Prod.fst ++ (if st.marker then [] else names) ∧
    ((names.map EnumItem.id).foldl enumStep st).addition.map Prod.fst =
      st.addition.map Prod.fst ++ (if st.marker then names else [])
  | [], st, _ => by simp
  | n :: names, st, h => by
    have hn := h n (by simp)
    have ih := fun st => enumFold_names names st fun s hs => h s (List.mem_cons_of_mem _ hs)
    have he : EnumItem.id n ≠ .id "..." := by simpa using hn.1
    rw [List.map_cons, List.foldl_cons, enumStep, if_neg he]
    obtain ⟨i1, i2, i3⟩ := ih (if !st.marker then
      { st with root := st.root ++ [(pyStrip (EnumItem.id n).str, (st.index : Int))], index := st.index + 1 }
      else { st with addition := st.addition ++ [(pyStrip (EnumItem.id n).str, (st.index : Int))], index := st.index + 1 })
    rw [i1, i2, i3]
    cases hm : st.marker <;> simp [hm, EnumItem.str, pyStrip_identifier hn]

/-- The items of the schema are the items of the generated class: root items before the marker, additions after
it, each once and in order; the class is extensible exactly if the schema has a marker. -/
theorem C35_names {root : List String} {ext : Option (List String)} (hr : ∀ s ∈ root, Identifier s)
    (ha : ∀ adds, ext = some adds → ∀ s ∈ adds, Identifier s) :
    (enumItems (enumTokens root ext)).root.map Prod.fst = root ∧
    (enumItems (enumTokens root ext)).addition.map Prod.fst = ext.getD [] ∧
    (enumItems (enumTokens root ext)).marker = ext.isSome := by
  obtain ⟨h1, h2, h3⟩ := enumFold_names root ⟨[], [], false, 0⟩ hr
  cases ext with
  | none => exact ⟨by simpa [enumItems, enumTokens] using h2, by simpa [enumItems, enumTokens] using h3, by
      simpa [enumItems, enumTokens] using h1⟩
  | some adds =>
    simp only [enumItems, enumTokens, List.foldl_append, List.foldl_cons]
    generalize (root.map EnumItem.id).foldl enumStep ⟨[], [], false, 0⟩ = st at h1 h2 h3
    have e : enumStep st (.id "...") = { st with marker := true } := by rw [enumStep, if_pos rfl]
    rw [e]
    obtain ⟨i1, i2, i3⟩ := enumFold_names adds { st with marker := true } (ha adds rfl)
    rw [i1, i2, i3]
    simp [h2, h3]

/-- That is the numbering `encode` and `decode` rely on: every item of a generated class arrives as itself (at most
65536 root items, see C02). -/
theorem C35_carried {items : List EnumItem} {i : Nat}
    (hi : i < ((enumItems items).root ++ (enumItems items).addition).length)
    (hroot : ((enumItems items).root ++ (enumItems items).addition).length ≤ 65536)
    (hadd : Spec.unsignedFits 16383 ((i - (enumItems items).root.length : Nat) : Int) = true) :
    Spec.Carries (enumClass items) (.enum i) (.enum i) ∧ Spec.RoundTrips (enumClass items) (.enum i) (.enum i) := by
  refine C02_enumerated_partial (C35_numbered items) hi ?_ hadd
  simp only [List.length_append] at hroot ⊢
  split <;> omega

example : (∀ s ∈ ["red", "green"], Identifier s) ∧ enumTokens ["red", "green"] (some ["blue"]) =
    [.id "red", .id "green", .id "...", .id "blue"] := by
  constructor
  · simp only [Identifier]; decide
  · rfl
example : (enumItems [.id "red", .id "green", .id "...", .id "blue"]).root = [("red", 0), ("green", 1)] ∧
    (enumItems [.id "red", .id "green", .id "...", .id "blue"]).addition = [("blue", 2)] := by decide +kernel

/-! ## C36 partition of the components -/

section
variable {α : Type}

theorem parts_group : ∀ (xs : List α) (rest : List (Tok α)) (st : PartState α), st.inGroup = true →
    (xs.map Tok.comp ++ rest).foldlM partStep st =
      rest.foldlM partStep { st with single := st.single ++ xs }
  | [], rest, st, _ => by simp
  | x :: xs, rest, st, h => by
    rw [List.map_cons, List.cons_append, List.foldlM_cons]
    have e : partStep st (.comp x) = .ok { st with single := st.single ++ [x] } := by simp [partStep, h]
    rw [e]
    show (xs.map Tok.comp ++ rest).foldlM partStep _ = _
    rw [parts_group xs rest { st with single := st.single ++ [x] } h]
    simp

theorem parts_written : ∀ (items : List (Item α)) (st : PartState α), st.inGroup = false → st.single = [] →
    (written items).foldlM partStep st = .ok
      { root := st.root ++ (if st.marker then [] else rootOf items)
        addition := st.addition ++ (if st.marker then singlesOf items else additionsOf items)
        groups := st.groups ++ groupsOf items
        single := []
        inGroup := false
        marker := st.marker || hasMarker items }
  | [], st, h1, h2 => by
    simp only [written, List.foldlM_nil, rootOf, singlesOf, additionsOf, groupsOf, hasMarker]
    cases st
    simp_all [pure, Except.pure]
  | .comp x :: r, st, h1, h2 => by
    rw [written, List.foldlM_cons]
    cases hm : st.marker with
    | false =>
      have e : partStep st (.comp x) = .ok { st with root := st.root ++ [x] } := by simp [partStep, h1, hm]
      rw [e]
      show (written r).foldlM partStep _ = _
      rw [parts_written r { st with root := st.root ++ [x] } h1 h2]
      simp [hm, rootOf, additionsOf, groupsOf, hasMarker]
    | true =>
      have e : partStep st (.comp x) = .ok { st with addition := st.addition ++ [x] } := by simp [partStep, h1, hm]
      rw [e]
      show (written r).foldlM partStep _ = _
      rw [parts_written r { st with addition := st.addition ++ [x] } h1 h2]
      simp [hm, singlesOf, groupsOf]
  | .marker :: r, st, h1, h2 => by
    rw [written, List.foldlM_cons]
    have e : partStep st (.marker : Tok α) = .ok { st with marker := true } := by simp [partStep, h1]
    rw [e]
    show (written r).foldlM partStep _ = _
    rw [parts_written r { st with marker := true } h1 h2]
    cases hm : st.marker <;> simp [rootOf, additionsOf, singlesOf, groupsOf, hasMarker]
  | .group xs :: r, st, h1, h2 => by
    rw [written, List.foldlM_cons]
    show (xs.map Tok.comp ++ .right :: written r).foldlM partStep { st with inGroup := true } = _
    rw [parts_group xs _ _ rfl, List.foldlM_cons]
    show (written r).foldlM partStep { st with inGroup := false, groups := st.groups ++ [st.single ++ xs], single := [] } = _
    rw [parts_written r _ rfl rfl]
    simp [h2, rootOf, additionsOf, singlesOf, groupsOf, hasMarker]

/-- Components before the marker are root components, later ones outside brackets are additions, those inside
brackets form one group per pair of brackets. -/
theorem C36_parts (items : List (Item α)) : parts (written items) = .ok
    { root := rootOf items, addition := additionsOf items, groups := groupsOf items, single := [], inGroup := false,
      marker := hasMarker items } := by
  have := parts_written items ⟨[], [], [], [], false, false⟩ rfl rfl
  simpa [parts] using this

theorem singles_perm : ∀ (items : List (Item α)),
    (singlesOf items ++ (groupsOf items).flatten).Perm (declared items)
  | [] => List.Perm.refl _
  | .comp x :: r => by simpa [singlesOf, groupsOf, declared] using singles_perm r
  | .marker :: r => by simpa [singlesOf, groupsOf, declared] using singles_perm r
  | .group xs :: r => by
    simp only [singlesOf, groupsOf, declared, List.flatten_cons]
    rw [← List.append_assoc]
    refine (List.perm_append_comm.append_right _).trans ?_
    rw [List.append_assoc]
    exact (singles_perm r).append_left _

/-- Nothing is lost, nothing comes twice. -/
theorem C36_perm : ∀ (items : List (Item α)),
    (rootOf items ++ additionsOf items ++ (groupsOf items).flatten).Perm (declared items)
  | [] => List.Perm.refl _
  | .comp x :: r => by simpa [rootOf, additionsOf, groupsOf, declared] using C36_perm r
  | .marker :: r => by simpa [rootOf, additionsOf, groupsOf, declared] using singles_perm r
  | .group xs :: r => by
    simp only [rootOf, additionsOf, groupsOf, declared, List.flatten_cons]
    rw [← List.append_assoc]
    refine (List.perm_append_comm.append_right _).trans ?_
    rw [List.append_assoc]
    exact (C36_perm r).append_left _

theorem singles_sublist : ∀ (items : List (Item α)), (singlesOf items).Sublist (declared items)
  | [] => List.Sublist.refl _
  | .comp x :: r => (singles_sublist r).cons_cons x
  | .marker :: r => singles_sublist r
  | .group xs :: r => (singles_sublist r).trans (List.sublist_append_right ..)

/-- Root components and additions together, and the groups, are in the order in which they are written. -/
theorem C36_order : ∀ (items : List (Item α)),
    (rootOf items ++ additionsOf items).Sublist (declared items) ∧
      (groupsOf items).flatten.Sublist (declared items)
  | [] => ⟨List.Sublist.refl _, List.Sublist.refl _⟩
  | .comp x :: r => ⟨(C36_order r).1.cons_cons x, (C36_order r).2.cons x⟩
  | .marker :: r => ⟨singles_sublist r, (C36_order r).2⟩
  | .group xs :: r => ⟨(C36_order r).1.trans (List.sublist_append_right ..), by
      simp only [groupsOf, declared, List.flatten_cons]
      exact (C36_order r).2.append_left xs⟩

/-- If no single addition follows a group, all components of the generated class are in the order in which they are
written.  Otherwise the single additions are moved before the groups, see `Findings.C36_mixed`. -/
theorem C36_unmixed_partial (root adds : List α) (groups : List (List α)) :
    declared (root.map .comp ++ .marker :: (adds.map .comp ++ groups.map .group)) =
      rootOf (root.map .comp ++ .marker :: (adds.map .comp ++ groups.map .group)) ++
      additionsOf (root.map .comp ++ .marker :: (adds.map .comp ++ groups.map .group)) ++
      (groupsOf (root.map .comp ++ .marker :: (adds.map .comp ++ groups.map .group))).flatten := by
  have hg : ∀ groups : List (List α), declared (groups.map .group) = (groupsOf (groups.map .group)).flatten ∧
      singlesOf (groups.map .group) = [] := by
    intro groups
    induction groups with
    | nil => exact ⟨rfl, rfl⟩
    | cons g groups ih => simp [declared, groupsOf, singlesOf, ih.1, ih.2]
  have ha : ∀ adds : List α, declared (adds.map .comp ++ groups.map .group) =
      singlesOf (adds.map .comp ++ groups.map .group) ++
        (groupsOf (adds.map .comp ++ groups.map .group)).flatten := by
    intro adds
    induction adds with
    | nil => simp [(hg groups).1, (hg groups).2]
    | cons x adds ih => simp [declared, groupsOf, singlesOf, ih]
  induction root with
  | nil => simp [declared, rootOf, additionsOf, groupsOf, ha]
  | cons x root ih => simpa [declared, rootOf, additionsOf, groupsOf] using ih

theorem singles_split : ∀ items : List (Item α), rootOf items ++ additionsOf items = singlesOf items
  | [] => rfl
  | .comp x :: r => by simp [rootOf, additionsOf, singlesOf, singles_split r]
  | .marker :: r => by simp [rootOf, additionsOf, singlesOf]
  | .group xs :: r => by simp [rootOf, additionsOf, singlesOf, singles_split r]

theorem singles_none : ∀ {items : List (Item α)}, singlesOf items = [] →
    declared items = (groupsOf items).flatten ∧ unmixed items = true
  | [], _ => ⟨rfl, rfl⟩
  | .comp x :: r, h => by simp [singlesOf] at h
  | .marker :: r, h => singles_none (items := r) h
  | .group xs :: r, h => by
    have ih := singles_none (items := r) h
    have h : singlesOf r = [] := h
    exact ⟨by simp [declared, groupsOf, ih.1], by simp [unmixed, ih.2, h]⟩

/-- All components of the generated class are in the order in which they are written exactly if no component outside
version brackets follows one inside. -/
theorem C36_exact : ∀ {items : List (Item α)}, (declared items).Nodup →
    (rootOf items ++ additionsOf items ++ (groupsOf items).flatten = declared items ↔ unmixed items = true) := by
  intro items hd
  rw [singles_split]
  induction items with
  | nil => exact ⟨fun _ => rfl, fun _ => rfl⟩
  | cons i r ih =>
    cases i with
    | comp x =>
      rw [show declared (.comp x :: r) = x :: declared r from rfl, List.nodup_cons] at hd
      rw [show unmixed (.comp x :: r) = unmixed r from rfl, ← ih hd.2]
      simp [singlesOf, groupsOf, declared]
    | marker => exact ih hd
    | group xs =>
      have hd' : (xs ++ declared r).Nodup := hd
      have hr := (List.nodup_append.1 hd').2.1
      show singlesOf r ++ (xs ++ (groupsOf r).flatten) = xs ++ declared r ↔ _
      cases xs with
      | nil => simpa [unmixed] using ih hr
      | cons x xs =>
        cases hs : singlesOf r with
        | nil =>
          have := singles_none hs
          simp [unmixed, this, hs]
        | cons y ys =>
          have hne : ¬ unmixed (.group (x :: xs) :: r) = true := by simp [unmixed, hs]
          refine ⟨fun h => ?_, fun h => absurd h hne⟩
          simp only [List.cons_append, List.cons.injEq] at h
          have hm : y ∈ declared r := (singles_sublist r).subset (by rw [hs]; exact List.mem_cons_self ..)
          exact absurd h.1.symm ((List.nodup_append.1 hd').2.2 x (List.mem_cons_self ..) y hm)

example : unmixed [.comp 1, .comp 2, .marker, .comp 3, .group [4, 5], .group [6]] = true ∧
    unmixed [.comp 1, .marker, .group [2], .comp 3] = false := by decide

example : parts (written [.comp 1, .comp 2, .marker, .comp 3, .group [4, 5], .group [6]]) = .ok
    ⟨[1, 2], [3], [[4, 5], [6]], [], false, true⟩ := by rw [C36_parts]; rfl

/-! ## C37 concatenation -/

theorem foldl_flatten (ls : List (List α)) (all : List α) : ls.foldl (fun all l => all ++ l) all = all ++ ls.flatten := by
  induction ls generalizing all with
  | nil => simp
  | cons l ls ih => simp [ih]

/-- `+` is concatenation, for both kinds of operands. -/
theorem C37_add (l : List α) : (∀ m, additiveAdd l (.types m) = l ++ m) ∧
    ∀ ms, additiveAdd l (.list ms) = l ++ ms.flatten :=
  ⟨fun _ => rfl, fun ms => by rw [additiveAdd, foldl_flatten, List.nil_append]⟩

/-- `rootComponent + extensionAddition + extensionAdditionGroups` in all four forms of the template. -/
theorem C37_component_type (st : PartState α) :
    componentType st = st.root ++ st.addition ++ st.groups.flatten := by
  unfold componentType
  cases ha : st.addition.isEmpty <;> cases hg : st.groups.isEmpty <;>
    simp_all [(C37_add _).1, (C37_add _).2, List.isEmpty_iff]

/-- Neither the order in which the sums are taken nor how the components are grouped matters. -/
theorem C37_grouping (l m n : List α) (gs hs : List (List α)) (h : gs.flatten = hs.flatten) :
    additiveAdd (additiveAdd l (.types m)) (.types n) = additiveAdd l (.types (additiveAdd m (.types n))) ∧
    additiveAdd l (.list gs) = additiveAdd l (.list hs) ∧
    additiveAdd (additiveAdd l (.list gs)) (.list hs) = additiveAdd l (.list (gs ++ hs)) ∧
    additiveAdd l (.types m) = additiveAdd l (.list [m]) := by
  simp [(C37_add _).1, (C37_add _).2, h]

end

example : componentType ⟨[1, 2], [3], [[4, 5], [6]], [], false, true⟩ = [1, 2, 3, 4, 5, 6] := by
  rw [C37_component_type]; rfl

end Verif.Props
