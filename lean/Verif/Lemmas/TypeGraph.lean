import Verif.Compiler
import Verif.Lemmas.InUse
import Verif.Props.Module
/-!
# The references that are sorted by, and the names that types use
-/
namespace Verif
open Spec

/-! ## references -/

theorem map_subs_append (a b : List Node) :
    (getSubcomponentsOf (a ++ b)).map Node.typereference =
      (getSubcomponentsOf a).map Node.typereference ++ (getSubcomponentsOf b).map Node.typereference := by
  induction a with
  | nil => simp [getSubcomponentsOf]
  | cons x a ih =>
    rw [List.cons_append]
    cases x with
    | text s => simp only [getSubcomponentsOf]; exact ih
    | type c t i v subs =>
      simp only [getSubcomponentsOf]
      split
      · exact ih
      · split
        · simp only [List.map_append, List.append_assoc, ih]
        · simp only [List.map_cons, List.cons_append, ih]

/-- The references of one component. -/
def nodeRefs (n : Node) : List String := (getSubcomponentsOf [n]).map Node.typereference

theorem subs_cons (n : Node) (r : List Node) :
    (getSubcomponentsOf (n :: r)).map Node.typereference = nodeRefs n ++ (getSubcomponentsOf r).map Node.typereference :=
  map_subs_append [n] r

theorem nodeRefs_constructed {t : String} (h : t ∈ constructedNames) (c : Cls) (i v : String) (subs : List Node) :
    nodeRefs (.type c t i v subs) = (Node.type c t i v subs).refs := by
  rw [nodeRefs, getSubcomponentsOf, if_neg (by simpa using Props.constructed_not_simple h), if_pos (by simpa using h),
    getSubcomponentsOf, List.append_nil]
  rfl

mutual
theorem mem_nodeRefs {m : String} : ∀ (t : TObj) (id : String), m ∈ nodeRefs (t.node id) → m ∈ typesIn t
  | .simple k c, id, h => by
    cases k <;> simp [TObj.node, nodeRefs, getSubcomponentsOf, simpleNames, Simple.cls] at h
  | .enumerated items, id, h => by simp [TObj.node, nodeRefs, getSubcomponentsOf, simpleNames] at h
  | .seqOf c e, id, h => by
    rw [TObj.node, nodeRefs_constructed (by decide), Props.refs_type (by simp)] at h
    rw [typesIn]
    exact mem_nodeRefs e "" h
  | .sequence items, id, h => by
    rw [TObj.node, nodeRefs_constructed (by decide), Props.refs_type (by simp)] at h
    rw [typesIn]
    exact mem_itemRefs items h
  | .choice items, id, h => by
    rw [TObj.node, nodeRefs_constructed (by decide), Props.refs_type (by simp)] at h
    rw [typesIn]
    exact mem_itemRefs items h
  | .ref n, id, h => by
    rw [TObj.node, nodeRefs, getSubcomponentsOf] at h
    rw [typesIn]
    split at h
    · simp [getSubcomponentsOf] at h
    · split at h
      · simpa [getSubcomponents, getSubcomponentsOf, Node.typereference] using h
      · simpa [getSubcomponentsOf, Node.typereference] using h
theorem mem_itemRefs {m : String} : ∀ (items : Items), m ∈ (getSubcomponentsOf items.nodes).map Node.typereference →
    m ∈ typesInItems items
  | .nil, h => by simp [Items.nodes, getSubcomponentsOf] at h
  | .comp id t p r, h => by
    rw [Items.nodes, subs_cons, List.mem_append] at h
    rw [typesInItems, List.mem_append]
    exact h.imp (mem_nodeRefs t id) (mem_itemRefs r)
  | .marker r, h => by
    rw [Items.nodes, getSubcomponentsOf] at h
    rw [typesInItems]
    exact mem_itemRefs r h
  | .group cs r, h => by
    rw [Items.nodes, getSubcomponentsOf, map_subs_append, List.mem_append, getSubcomponentsOf] at h
    rw [typesInItems, List.mem_append]
    exact h.imp (mem_compRefs cs) (mem_itemRefs r)
theorem mem_compRefs {m : String} : ∀ (cs : Comps), m ∈ (getSubcomponentsOf cs.nodes).map Node.typereference →
    m ∈ typesInComps cs
  | .nil, h => by simp [Comps.nodes, getSubcomponentsOf] at h
  | .cons id t p r, h => by
    rw [Comps.nodes, subs_cons, List.mem_append] at h
    rw [typesInComps, List.mem_append]
    exact h.imp (mem_nodeRefs t id) (mem_compRefs r)
end

section
variable {m : String} (h1 : m ∉ simpleNames) (h2 : m ∉ constructedNames)
include h1 h2

mutual
theorem nodeRefs_mem : ∀ (t : TObj) (id : String), m ∈ typesIn t → m ∈ nodeRefs (t.node id)
  | .simple k c, id, h => by simp [typesIn] at h
  | .enumerated items, id, h => by simp [typesIn] at h
  | .seqOf c e, id, h => by
    rw [TObj.node, nodeRefs_constructed (by decide), Props.refs_type (by simp)]
    rw [typesIn] at h
    exact nodeRefs_mem e "" h
  | .sequence items, id, h => by
    rw [TObj.node, nodeRefs_constructed (by decide), Props.refs_type (by simp)]
    rw [typesIn] at h
    exact itemRefs_mem items h
  | .choice items, id, h => by
    rw [TObj.node, nodeRefs_constructed (by decide), Props.refs_type (by simp)]
    rw [typesIn] at h
    exact itemRefs_mem items h
  | .ref n, id, h => by
    rw [typesIn, List.mem_singleton] at h
    subst h
    rw [TObj.node, nodeRefs, getSubcomponentsOf, if_neg (by simpa using h1), if_neg (by simpa using h2)]
    simp [getSubcomponentsOf, Node.typereference]
theorem itemRefs_mem : ∀ (items : Items), m ∈ typesInItems items →
    m ∈ (getSubcomponentsOf items.nodes).map Node.typereference
  | .nil, h => by simp [typesInItems] at h
  | .comp id t p r, h => by
    rw [Items.nodes, subs_cons, List.mem_append]
    rw [typesInItems, List.mem_append] at h
    exact h.imp (nodeRefs_mem t id) (itemRefs_mem r)
  | .marker r, h => by
    rw [Items.nodes, getSubcomponentsOf]
    rw [typesInItems] at h
    exact itemRefs_mem r h
  | .group cs r, h => by
    rw [Items.nodes, getSubcomponentsOf, map_subs_append, List.mem_append, getSubcomponentsOf]
    rw [typesInItems, List.mem_append] at h
    exact h.imp (compRefs_mem cs) (itemRefs_mem r)
theorem compRefs_mem : ∀ (cs : Comps), m ∈ typesInComps cs →
    m ∈ (getSubcomponentsOf cs.nodes).map Node.typereference
  | .nil, h => by simp [typesInComps] at h
  | .cons id t p r, h => by
    rw [Comps.nodes, subs_cons, List.mem_append]
    rw [typesInComps, List.mem_append] at h
    exact h.imp (nodeRefs_mem t id) (compRefs_mem r)
end
end

/-! ## types are larger than what they are made of -/

section
variable {as : List Assign} {τ : List (String × Ty)} {ν : List (String × Ty × Val)}

theorem regularComps_each : ∀ {cs : Comps} {ids : List String}, RegularComps ν as ids cs → ∀ c ∈ compList cs, Regular ν as c.2.1
  | .cons id t p r, ids, h, c, hc => by
    rw [RegularComps] at h
    rw [compList, List.mem_cons] at hc
    rcases hc with rfl | hc
    · exact h.1.1
    · exact regularComps_each h.2 c hc

theorem regularItems_each : ∀ {items : Items} {ids : List String}, RegularItems ν as ids items →
    ∀ c ∈ declared (itemList items), Regular ν as c.2.1
  | .comp id t p r, ids, h, c, hc => by
    rw [RegularItems] at h
    rw [itemList, declared, List.mem_cons] at hc
    rcases hc with rfl | hc
    · exact h.1.1
    · exact regularItems_each h.2 c hc
  | .marker r, ids, h, c, hc => by
    rw [RegularItems] at h
    rw [itemList, declared] at hc
    exact regularItems_each h c hc
  | .group cs r, ids, h, c, hc => by
    rw [RegularItems] at h
    rw [itemList, declared, List.mem_append] at hc
    rcases hc with hc | hc
    · exact regularComps_each h.1 c hc
    · exact regularItems_each h.2 c hc

mutual
theorem means_size : ∀ {t : TObj} {T : Ty}, Means τ ν t T → Regular ν as t → ∀ m ∈ typesIn t,
    ∃ U, τ.lookup m = some U ∧ sizeOf U ≤ sizeOf T ∧ ((∀ n, t ≠ .ref n) → sizeOf U < sizeOf T)
  | _, _, .boolean, _, m, h => by simp [typesIn] at h
  | _, _, .integer, _, m, h => by simp [typesIn] at h
  | _, _, .range _, _, m, h => by simp [typesIn] at h
  | _, _, .octetString, _, m, h => by simp [typesIn] at h
  | _, _, .octetStringSize _, _, m, h => by simp [typesIn] at h
  | _, _, .bitString, _, m, h => by simp [typesIn] at h
  | _, _, .bitStringSize _, _, m, h => by simp [typesIn] at h
  | _, _, .enumerated _ _, _, m, h => by simp [typesIn] at h
  | _, _, .sequenceOf he, hr, m, h => by
    rw [Regular] at hr
    rw [typesIn] at h
    obtain ⟨U, h1, h2, _⟩ := means_size he (by
      rcases hr.2 with ⟨k, rfl⟩ | ⟨n, rfl⟩
      · cases k <;> exact trivial
      · exact trivial) m h
    exact ⟨U, h1, by simp; omega, fun _ => by simp; omega⟩
  | _, _, .sequenceOfSize he _, hr, m, h => by
    rw [Regular] at hr
    rw [typesIn] at h
    obtain ⟨U, h1, h2, _⟩ := means_size he (by
      rcases hr.2 with ⟨k, rfl⟩ | ⟨n, rfl⟩
      · cases k <;> exact trivial
      · exact trivial) m h
    exact ⟨U, h1, by simp; omega, fun _ => by simp; omega⟩
  | _, _, .sequence h1 h2 h3, hr, m, h => by
    rw [Regular] at hr
    rw [typesIn] at h
    obtain ⟨c, hc, hm⟩ := typesInItems_inv h
    have he := regularItems_each hr.1
    rcases (declared_parts hr.2.1 c).1 hc with hp | hp | ⟨g, hg, hp⟩
    · obtain ⟨U, e1, e2⟩ := meansAll_size h1 (fun c hc => he c (root_declared c hc)) c hp m hm
      exact ⟨U, e1, by simp; omega, fun _ => by simp; omega⟩
    · obtain ⟨U, e1, e2⟩ := meansAll_size h2 (fun c hc => he c (additions_declared c hc)) c hp m hm
      exact ⟨U, e1, by simp; omega, fun _ => by simp; omega⟩
    · obtain ⟨U, e1, e2⟩ := meansGroups_size h3 (fun g hg c hc => he c (group_declared g hg c hc)) g hg c hp m hm
      exact ⟨U, e1, by simp; omega, fun _ => by simp; omega⟩
  | _, _, .choice _ h1 h2 h3, hr, m, h => by
    rw [Regular] at hr
    rw [typesIn] at h
    obtain ⟨c, hc, hm⟩ := typesInItems_inv h
    have he := regularItems_each hr.1
    have hl := hr.2.1.2.2.1
    rcases (declared_parts hr.2.1 c).1 hc with hp | hp | ⟨g, hg, hp⟩
    · rw [hl, List.append_nil] at hp
      obtain ⟨U, e1, e2⟩ := meansAll_size h1 (fun c hc => he c (root_declared c (List.mem_append_left _ hc))) c hp m hm
      exact ⟨U, e1, by simp; omega, fun _ => by simp; omega⟩
    · obtain ⟨U, e1, e2⟩ := meansAll_size h2 (fun c hc => he c (additions_declared c hc)) c hp m hm
      exact ⟨U, e1, by simp; omega, fun _ => by simp; omega⟩
    · obtain ⟨U, e1, e2⟩ := meansGroups_size h3 (fun g hg c hc => he c (group_declared g hg c hc)) g hg c hp m hm
      exact ⟨U, e1, by simp; omega, fun _ => by simp; omega⟩
  | _, T, .ref hl, _, m, h => by
    rw [typesIn, List.mem_singleton] at h
    subst h
    exact ⟨T, hl, Nat.le_refl _, fun hne => absurd rfl (hne _)⟩
theorem meansAll_size : ∀ {l : List (String × TObj × Pres)} {f : Fields}, MeansAll τ ν l f →
    (∀ c ∈ l, Regular ν as c.2.1) → ∀ c ∈ l, ∀ m ∈ typesIn c.2.1, ∃ U, τ.lookup m = some U ∧ sizeOf U < sizeOf f
  | _, _, .nil, _, c, hc, _, _ => by simp at hc
  | _, _, .mandatory h hf, hr, c, hc, m, hm => by
    rcases List.mem_cons.1 hc with rfl | hc
    · obtain ⟨U, h1, h2, _⟩ := means_size h (hr _ (List.mem_cons_self ..)) m hm
      exact ⟨U, h1, by simp; omega⟩
    · obtain ⟨U, h1, h2⟩ := meansAll_size hf (fun c hc => hr c (List.mem_cons_of_mem _ hc)) c hc m hm
      exact ⟨U, h1, by simp; omega⟩
  | _, _, .optional h hf, hr, c, hc, m, hm => by
    rcases List.mem_cons.1 hc with rfl | hc
    · obtain ⟨U, h1, h2, _⟩ := means_size h (hr _ (List.mem_cons_self ..)) m hm
      exact ⟨U, h1, by simp; omega⟩
    · obtain ⟨U, h1, h2⟩ := meansAll_size hf (fun c hc => hr c (List.mem_cons_of_mem _ hc)) c hc m hm
      exact ⟨U, h1, by simp; omega⟩
  | _, _, .default h _ hf, hr, c, hc, m, hm => by
    rcases List.mem_cons.1 hc with rfl | hc
    · obtain ⟨U, h1, h2, _⟩ := means_size h (hr _ (List.mem_cons_self ..)) m hm
      exact ⟨U, h1, by simp; omega⟩
    · obtain ⟨U, h1, h2⟩ := meansAll_size hf (fun c hc => hr c (List.mem_cons_of_mem _ hc)) c hc m hm
      exact ⟨U, h1, by simp; omega⟩
theorem meansGroups_size : ∀ {ls : List (List (String × TObj × Pres))} {g : Groups}, MeansGroups τ ν ls g →
    (∀ l ∈ ls, ∀ c ∈ l, Regular ν as c.2.1) → ∀ l ∈ ls, ∀ c ∈ l, ∀ m ∈ typesIn c.2.1,
    ∃ U, τ.lookup m = some U ∧ sizeOf U < sizeOf g
  | _, _, .nil, _, l, hl, _, _, _, _ => by simp at hl
  | _, _, .cons h hs, hr, l, hl, c, hc, m, hm => by
    rcases List.mem_cons.1 hl with rfl | hl
    · obtain ⟨U, h1, h2⟩ := meansAll_size h (hr _ (List.mem_cons_self ..)) c hc m hm
      exact ⟨U, h1, by simp; omega⟩
    · obtain ⟨U, h1, h2⟩ := meansGroups_size hs (fun l hl => hr l (List.mem_cons_of_mem _ hl)) l hl c hc m hm
      exact ⟨U, h1, by simp; omega⟩
end

end

end Verif
