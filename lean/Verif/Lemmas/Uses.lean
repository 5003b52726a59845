import Verif.SpecCompiler
import Verif.Lemmas.GenModule
/-!
# What a notation means depends on the names it uses only
-/
namespace Verif
open Spec

section
variable {α : Type}

theorem singles_declared : ∀ {l : List (Item α)} {c : α}, c ∈ singlesOf l → c ∈ declared l
  | .comp x :: r, c, h => by
    rw [singlesOf, List.mem_cons] at h
    rw [declared, List.mem_cons]
    exact h.imp id singles_declared
  | .marker :: r, c, h => by rw [singlesOf] at h; rw [declared]; exact singles_declared h
  | .group xs :: r, c, h => by
    rw [singlesOf] at h; rw [declared]; exact List.mem_append_right _ (singles_declared h)

theorem groups_declared : ∀ {l : List (Item α)} {g : List α} {c : α}, g ∈ groupsOf l → c ∈ g → c ∈ declared l
  | .comp x :: r, g, c, h, hc => by
    rw [groupsOf] at h; rw [declared]; exact List.mem_cons_of_mem _ (groups_declared h hc)
  | .marker :: r, g, c, h, hc => by rw [groupsOf] at h; rw [declared]; exact groups_declared h hc
  | .group xs :: r, g, c, h, hc => by
    rw [groupsOf, List.mem_cons] at h
    rw [declared]
    rcases h with rfl | h
    · exact List.mem_append_left _ hc
    · exact List.mem_append_right _ (groups_declared h hc)

theorem upTo_declared : ∀ {l : List (Item α)} {c : α}, c ∈ declared (upTo l) → c ∈ declared l
  | [], c, h => by simp [upTo, declared] at h
  | .marker :: r, c, h => by simp [upTo, declared] at h
  | .comp x :: r, c, h => by
    rw [upTo, declared, List.mem_cons] at h
    rw [declared, List.mem_cons]
    exact h.imp id upTo_declared
  | .group xs :: r, c, h => by
    rw [upTo, declared, List.mem_append] at h
    rw [declared, List.mem_append]
    exact h.imp id upTo_declared

theorem past_declared : ∀ {l : List (Item α)} {c : α}, c ∈ declared (past l) → c ∈ declared l
  | [], c, h => by simp [past, declared] at h
  | .marker :: r, c, h => by rw [past] at h; rw [declared]; exact h
  | .comp x :: r, c, h => by
    rw [past] at h; rw [declared]; exact List.mem_cons_of_mem _ (past_declared h)
  | .group xs :: r, c, h => by
    rw [past] at h; rw [declared]; exact List.mem_append_right _ (past_declared h)

end

/-! ## names of a component are names of the whole -/

theorem typesIn_comps : ∀ {cs : Comps} {c : String × TObj × Pres} {m : String}, c ∈ compList cs → m ∈ typesIn c.2.1 →
    m ∈ typesInComps cs
  | .cons id t p r, c, m, h, hm => by
    rw [compList, List.mem_cons] at h
    rw [typesInComps, List.mem_append]
    rcases h with rfl | h
    · exact .inl hm
    · exact .inr (typesIn_comps h hm)

theorem typesIn_items : ∀ {items : Items} {c : String × TObj × Pres} {m : String}, c ∈ declared (itemList items) →
    m ∈ typesIn c.2.1 → m ∈ typesInItems items
  | .comp id t p r, c, m, h, hm => by
    rw [itemList, declared, List.mem_cons] at h
    rw [typesInItems, List.mem_append]
    rcases h with rfl | h
    · exact .inl hm
    · exact .inr (typesIn_items h hm)
  | .marker r, c, m, h, hm => by
    rw [itemList, declared] at h
    rw [typesInItems]
    exact typesIn_items h hm
  | .group cs r, c, m, h, hm => by
    rw [itemList, declared, List.mem_append] at h
    rw [typesInItems, List.mem_append]
    exact h.imp (typesIn_comps · hm) (typesIn_items · hm)

theorem typesInComps_inv : ∀ {cs : Comps} {m : String}, m ∈ typesInComps cs → ∃ c ∈ compList cs, m ∈ typesIn c.2.1
  | .cons id t p r, m, h => by
    rw [typesInComps, List.mem_append] at h
    rcases h with h | h
    · exact ⟨_, List.mem_cons_self .., h⟩
    · obtain ⟨c, hc, hm⟩ := typesInComps_inv h
      exact ⟨c, List.mem_cons_of_mem _ hc, hm⟩

theorem typesInItems_inv : ∀ {items : Items} {m : String}, m ∈ typesInItems items →
    ∃ c ∈ declared (itemList items), m ∈ typesIn c.2.1
  | .comp id t p r, m, h => by
    rw [typesInItems, List.mem_append] at h
    rcases h with h | h
    · exact ⟨_, List.mem_cons_self .., h⟩
    · obtain ⟨c, hc, hm⟩ := typesInItems_inv h
      exact ⟨c, List.mem_cons_of_mem _ hc, hm⟩
  | .marker r, m, h => typesInItems_inv (items := r) h
  | .group cs r, m, h => by
    rw [typesInItems, List.mem_append] at h
    rcases h with h | h
    · obtain ⟨c, hc, hm⟩ := typesInComps_inv h
      exact ⟨c, List.mem_append_left _ hc, hm⟩
    · obtain ⟨c, hc, hm⟩ := typesInItems_inv h
      exact ⟨c, List.mem_append_right _ hc, hm⟩

theorem valuesIn_comps : ∀ {cs : Comps} {c : String × TObj × Pres} {m : String}, c ∈ compList cs →
    m ∈ valuesIn c.2.1 ∨ m ∈ presNames c.2.2 → m ∈ valuesInComps cs
  | .cons id t p r, c, m, h, hm => by
    rw [compList, List.mem_cons] at h
    rw [valuesInComps, List.mem_append, List.mem_append]
    rcases h with rfl | h
    · exact hm.imp (fun h => h) .inl
    · exact .inr (.inr (valuesIn_comps h hm))

theorem valuesIn_items : ∀ {items : Items} {c : String × TObj × Pres} {m : String}, c ∈ declared (itemList items) →
    m ∈ valuesIn c.2.1 ∨ m ∈ presNames c.2.2 → m ∈ valuesInItems items
  | .comp id t p r, c, m, h, hm => by
    rw [itemList, declared, List.mem_cons] at h
    rw [valuesInItems, List.mem_append, List.mem_append]
    rcases h with rfl | h
    · exact hm.imp (fun h => h) .inl
    · exact .inr (.inr (valuesIn_items h hm))
  | .marker r, c, m, h, hm => by
    rw [itemList, declared] at h
    rw [valuesInItems]
    exact valuesIn_items h hm
  | .group cs r, c, m, h, hm => by
    rw [itemList, declared, List.mem_append] at h
    rw [valuesInItems, List.mem_append]
    exact h.imp (valuesIn_comps · hm) (valuesIn_items · hm)

/-! ## agreement -/

section
variable {τ τ' : List (String × Ty)} {ν ν' : List (String × Ty × Val)}

/-- Both know the same about the names. -/
def SameOn {α : Type} (l l' : List (String × α)) (names : List String) : Prop := ∀ s ∈ names, l'.lookup s = l.lookup s

theorem SameOn.symm {α : Type} {l l' : List (String × α)} {names : List String} (h : SameOn l l' names) : SameOn l' l names :=
  fun s hs => (h s hs).symm

theorem SameOn.mono {α : Type} {l l' : List (String × α)} {names names' : List String} (h : SameOn l l' names)
    (hs : ∀ s ∈ names', s ∈ names) : SameOn l l' names' := fun s hm => h s (hs s hm)

theorem endIs_congr {e : End} {z : Int} (h : SameOn ν ν' (endNames e)) (he : EndIs ν e z) : EndIs ν' e z := by
  cases he with
  | num => exact .num
  | ref hl => exact .ref (by rw [h _ (by simp [endNames])]; exact hl)

theorem above_same {e : End} {x : Bool} {z : Int} (h : SameOn ν ν' (endNames e)) (he : Above ν e x z) : Above ν' e x z :=
  he.imp id fun ⟨a, ha, hz⟩ => ⟨a, endIs_congr h ha, hz⟩

theorem below_same {e : End} {x : Bool} {z : Int} (h : SameOn ν ν' (endNames e)) (he : Below ν e x z) : Below ν' e x z :=
  he.imp id fun ⟨a, ha, hz⟩ => ⟨a, endIs_congr h ha, hz⟩

theorem inElem_same {e : Elem} {z : Int} (h : SameOn ν ν' (elemNames e)) (he : InElem ν e z) : InElem ν' e z := by
  cases e with
  | value e => exact endIs_congr h he
  | range lo lo' hi hi' =>
    exact ⟨above_same (h.mono fun s hs => List.mem_append_left _ hs) he.1,
      below_same (h.mono fun s hs => List.mem_append_right _ hs) he.2⟩

theorem notation_elem {n : Notation} {i : List Elem} {e : Elem} (hi : i ∈ n.root) (he : e ∈ i) :
    ∀ s ∈ elemNames e, s ∈ notationNames n := fun _ hs =>
  List.mem_flatMap.2 ⟨i, List.mem_append_left _ hi, List.mem_flatMap.2 ⟨e, he, hs⟩⟩

theorem inSet_same {n : Notation} {z : Int} (h : SameOn ν ν' (notationNames n)) (hs : InSet ν n.root z) :
    InSet ν' n.root z := by
  obtain ⟨i, hi, hne, he⟩ := hs
  exact ⟨i, hi, hne, fun e hm => inElem_same (h.mono (notation_elem hi hm)) (he e hm)⟩

theorem inSet_iff {n : Notation} (h : SameOn ν ν' (notationNames n)) : InSet ν' n.root = InSet ν n.root :=
  funext fun _ => propext ⟨inSet_same h.symm, inSet_same h⟩

theorem rangeOf_same {n : Notation} {lo hi : Option Int} {ext : Bool} (h : SameOn ν ν' (notationNames n))
    (hr : RangeOf ν n lo hi ext) : RangeOf ν' n lo hi ext := by
  rw [RangeOf, inSet_iff h]; exact hr

theorem sizeOf_same {c : Con} {s : SizeC} (h : SameOn ν ν' (conNames (some c))) (hr : SizeOf ν c s) : SizeOf ν' c s := by
  obtain ⟨n, outer, rfl, h1, h2⟩ := hr
  exact ⟨n, outer, rfl, h1, by rw [inSet_iff h]; exact h2⟩

theorem litIs_same {T : Ty} {l : Lit} {v : Val} (h : SameOn ν ν' (litNames l)) (hl : LitIs ν T l v) : LitIs ν' T l v := by
  cases hl with
  | int hp => exact .int hp
  | tt => exact .tt
  | ff => exact .ff
  | item hm => exact .item hm
  | bits hp => exact .bits hp
  | hexBits hp => exact .hexBits hp
  | octets hp hn => exact .octets hp hn
  | hexOctets hp => exact .hexOctets hp
  | intRef hl hp => exact .intRef (by rw [h _ (by simp [litNames])]; exact hl) hp
  | boolRef hl => exact .boolRef (by rw [h _ (by simp [litNames])]; exact hl)
  | bitsRef hl hp => exact .bitsRef (by rw [h _ (by simp [litNames])]; exact hl) hp
  | octetsRef hl hp => exact .octetsRef (by rw [h _ (by simp [litNames])]; exact hl) hp

/-- The names of components. -/
def SameComps (τ τ' : List (String × Ty)) (ν ν' : List (String × Ty × Val)) (l : List (String × TObj × Pres)) : Prop :=
  ∀ c ∈ l, SameOn τ τ' (typesIn c.2.1) ∧ SameOn ν ν' (valuesIn c.2.1) ∧ SameOn ν ν' (presNames c.2.2)

theorem sameComps_items {items : Items} (h : SameOn τ τ' (typesInItems items)) (h' : SameOn ν ν' (valuesInItems items))
    {l : List (String × TObj × Pres)} (hl : ∀ c ∈ l, c ∈ declared (itemList items)) : SameComps τ τ' ν ν' l :=
  fun c hc => ⟨h.mono fun _ hm => typesIn_items (hl c hc) hm, h'.mono fun _ hm => valuesIn_items (hl c hc) (.inl hm),
    h'.mono fun _ hm => valuesIn_items (hl c hc) (.inr hm)⟩

theorem root_declared {items : Items} : ∀ c ∈ singlesOf (upTo (itemList items)) ++ singlesOf (past (past (itemList items))),
    c ∈ declared (itemList items) := fun c hc => by
  rcases List.mem_append.1 hc with h | h
  · exact upTo_declared (singles_declared h)
  · exact past_declared (past_declared (singles_declared h))

theorem additions_declared {items : Items} : ∀ c ∈ singlesOf (upTo (past (itemList items))), c ∈ declared (itemList items) :=
  fun _ hc => past_declared (upTo_declared (singles_declared hc))

theorem group_declared {items : Items} : ∀ g ∈ groupsOf (upTo (past (itemList items))), ∀ c ∈ g,
    c ∈ declared (itemList items) := fun _ hg _ hc => past_declared (upTo_declared (groups_declared hg hc))

mutual
theorem means_same : ∀ {t : TObj} {T : Ty}, Means τ ν t T → SameOn τ τ' (typesIn t) → SameOn ν ν' (valuesIn t) →
    Means τ' ν' t T
  | _, _, .boolean, _, _ => .boolean
  | _, _, .integer, _, _ => .integer
  | _, _, .range h, _, hv => .range (rangeOf_same (by rw [valuesIn] at hv; exact hv) h)
  | _, _, .octetString, _, _ => .octetString
  | _, _, .octetStringSize h, _, hv => .octetStringSize (sizeOf_same (by rw [valuesIn] at hv; exact hv) h)
  | _, _, .bitString, _, _ => .bitString
  | _, _, .bitStringSize h, _, hv => .bitStringSize (sizeOf_same (by rw [valuesIn] at hv; exact hv) h)
  | _, _, .enumerated h1 h2, _, _ => .enumerated h1 h2
  | _, _, .sequenceOf h, ht, hv => .sequenceOf (means_same h (by rw [typesIn] at ht; exact ht)
      (by rw [valuesIn] at hv; exact hv.mono fun _ hs => List.mem_append_right _ hs))
  | _, _, .sequenceOfSize h hs, ht, hv => .sequenceOfSize (means_same h (by rw [typesIn] at ht; exact ht)
      (by rw [valuesIn] at hv; exact hv.mono fun _ hs => List.mem_append_right _ hs))
      (sizeOf_same (by rw [valuesIn] at hv; exact hv.mono fun _ hs => List.mem_append_left _ hs) hs)
  | _, _, .sequence h1 h2 h3, ht, hv => by
    rw [typesIn] at ht
    rw [valuesIn] at hv
    exact .sequence (meansAll_same h1 (sameComps_items ht hv root_declared))
      (meansAll_same h2 (sameComps_items ht hv additions_declared))
      (meansGroups_same h3 fun g hg => sameComps_items ht hv (group_declared g hg))
  | _, _, .choice hp h1 h2 h3, ht, hv => by
    rw [typesIn] at ht
    rw [valuesIn] at hv
    exact .choice hp (meansAll_same h1 (sameComps_items ht hv fun c hc => root_declared c (List.mem_append_left _ hc)))
      (meansAll_same h2 (sameComps_items ht hv additions_declared))
      (meansGroups_same h3 fun g hg => sameComps_items ht hv (group_declared g hg))
  | _, _, .ref h, ht, _ => .ref (by rw [ht _ (by simp [typesIn])]; exact h)
theorem meansAll_same : ∀ {l : List (String × TObj × Pres)} {f : Fields}, MeansAll τ ν l f → SameComps τ τ' ν ν' l →
    MeansAll τ' ν' l f
  | _, _, .nil, _ => .nil
  | _, _, .mandatory h hf, hc => .mandatory (means_same h (hc _ (List.mem_cons_self ..)).1 (hc _ (List.mem_cons_self ..)).2.1)
      (meansAll_same hf fun c hm => hc c (List.mem_cons_of_mem _ hm))
  | _, _, .optional h hf, hc => .optional (means_same h (hc _ (List.mem_cons_self ..)).1 (hc _ (List.mem_cons_self ..)).2.1)
      (meansAll_same hf fun c hm => hc c (List.mem_cons_of_mem _ hm))
  | _, _, .default h hl hf, hc => .default (means_same h (hc _ (List.mem_cons_self ..)).1 (hc _ (List.mem_cons_self ..)).2.1)
      (litIs_same (hc _ (List.mem_cons_self ..)).2.2 hl)
      (meansAll_same hf fun c hm => hc c (List.mem_cons_of_mem _ hm))
theorem meansGroups_same : ∀ {ls : List (List (String × TObj × Pres))} {g : Groups}, MeansGroups τ ν ls g →
    (∀ l ∈ ls, SameComps τ τ' ν ν' l) → MeansGroups τ' ν' ls g
  | _, _, .nil, _ => .nil
  | _, _, .cons h hs, hc => .cons (meansAll_same h (hc _ (List.mem_cons_self ..)))
      (meansGroups_same hs fun l hl => hc l (List.mem_cons_of_mem _ hl))
end

/-! ## regular types -/

theorem ascending_same {n : Notation} (h : SameOn ν ν' (notationNames n)) (ha : Ascending ν n) : Ascending ν' n := by
  obtain ⟨⟨es, he, h1, first, last, hf, hl, h2, h3⟩, hadd⟩ := ha
  have mem : ∀ e ∈ es, SameOn ν ν' (elemNames e) := fun e hm =>
    h.mono (notation_elem (i := [e]) (by rw [he]; exact List.mem_map_of_mem hm) (by simp))
  have lo : ∀ e : Elem, ∀ s ∈ endNames (Elem.lower e), s ∈ elemNames e := by
    intro e s hs
    cases e with
    | value e => exact hs
    | range => exact List.mem_append_left _ hs
  have up : ∀ e : Elem, ∀ s ∈ endNames (Elem.upper e), s ∈ elemNames e := by
    intro e s hs
    cases e with
    | value e => exact hs
    | range => exact List.mem_append_right _ hs
  refine ⟨⟨es, he, fun e hm => ⟨(h1 e hm).1, (h1 e hm).2.imp fun z hz => inElem_same (mem e hm) hz⟩, first, last, hf, hl,
    fun z hz => ?_, h3⟩, hadd⟩
  have := h2 z (inSet_same h.symm hz)
  exact ⟨above_same ((mem _ (List.mem_of_mem_head? hf)).mono (lo first)) this.1,
    below_same ((mem _ (List.mem_of_getLast? hl)).mono (up last)) this.2⟩

theorem ascendingSize_same {c : Con} (h : SameOn ν ν' (conNames (some c))) (ha : AscendingSize ν c) : AscendingSize ν' c := by
  cases c with
  | value n => exact ha
  | size n outer =>
    refine ⟨ascending_same h ha.1, ha.2.1, fun i e hi he => ?_⟩
    obtain ⟨a, h0, hE⟩ := ha.2.2 i e hi he
    refine ⟨a, h0, endIs_congr (h.mono fun s hs => notation_elem (List.mem_of_mem_head? hi) he s ?_) hE⟩
    cases e with
    | value e => exact hs
    | range => exact List.mem_append_left _ hs

variable {as as' : List Assign}

/-- The same assignments, in another order. -/
def SameMembers (as as' : List Assign) : Prop := ∀ a, a ∈ as ↔ a ∈ as'

theorem literalFor_same {ids : List String} {t : TObj} {l : Lit} (hs : SameMembers as as') (h : LiteralFor as ids t l) :
    LiteralFor as' ids t l := by
  cases h with
  | num => exact .num
  | name h1 h2 h3 => exact .name (fun m l hm => h1 m l ((hs _).2 hm)) h2 h3
  | tt => exact .tt
  | ff => exact .ff
  | octets => exact .octets
  | hexOctets => exact .hexOctets
  | bits => exact .bits
  | hexBits => exact .hexBits
  | item h1 => exact .item (fun m l hm => h1 m l ((hs _).2 hm))

theorem defaultFor_same {ids : List String} {t : TObj} {l : Lit} (hs : SameMembers as as') (h : DefaultFor as ids t l) :
    DefaultFor as' ids t l := by
  cases h with
  | direct h => exact .direct (literalFor_same hs h)
  | behind h1 h2 => exact .behind ((hs _).1 h1) (literalFor_same hs h2)
  | constant h1 h2 h3 => exact .constant ((hs _).1 h1) h2 h3

mutual
theorem regular_same (hs : SameMembers as as') : ∀ (t : TObj), SameOn ν ν' (valuesIn t) → Regular ν as t → Regular ν' as' t
  | .simple k none, _, _ => by cases k <;> simp [Regular]
  | .simple .integer (some (.value n)), h, hr => by
    rw [Regular] at hr ⊢; rw [valuesIn] at h; exact ascending_same h hr
  | .simple .integer (some (.size n o)), _, hr => (show False from hr).elim
  | .simple .octetString (some c), h, hr => by
    rw [Regular] at hr ⊢; rw [valuesIn] at h; exact ascendingSize_same h hr
  | .simple .bitString (some c), h, hr => by
    rw [Regular] at hr ⊢; rw [valuesIn] at h; exact ascendingSize_same h hr
  | .simple .boolean (some (.value _)), _, hr => (show False from hr).elim
  | .simple .boolean (some (.size _ _)), _, hr => (show False from hr).elim
  | .enumerated items, _, _ => by rw [Regular]; trivial
  | .seqOf c e, h, hr => by
    rw [Regular] at hr ⊢
    rw [valuesIn] at h
    refine ⟨fun c' hc => ascendingSize_same (h.mono fun s hs => List.mem_append_left _ ?_) (hr.1 c' hc), hr.2⟩
    rw [hc]; exact hs
  | .sequence items, h, hr => by
    rw [Regular] at hr ⊢
    rw [valuesIn] at h
    exact ⟨regularItems_same hs items _ h hr.1, hr.2⟩
  | .choice items, h, hr => by
    rw [Regular] at hr ⊢
    rw [valuesIn] at h
    exact ⟨regularItems_same hs items _ h hr.1, hr.2⟩
  | .ref n, _, _ => by rw [Regular]; trivial
theorem regularItems_same (hs : SameMembers as as') : ∀ (items : Items) (ids : List String),
    SameOn ν ν' (valuesInItems items) → RegularItems ν as ids items → RegularItems ν' as' ids items
  | .nil, _, _, _ => by rw [RegularItems]; trivial
  | .comp id t p r, ids, h, hr => by
    rw [RegularItems] at hr ⊢
    rw [valuesInItems] at h
    exact ⟨⟨regular_same hs t (h.mono fun s hm => List.mem_append_left _ hm) hr.1.1,
      fun l hl => defaultFor_same hs (hr.1.2 l hl)⟩,
      regularItems_same hs r ids (h.mono fun s hm => List.mem_append_right _ (List.mem_append_right _ hm)) hr.2⟩
  | .marker r, ids, h, hr => by
    rw [RegularItems] at hr ⊢
    rw [valuesInItems] at h
    exact regularItems_same hs r ids h hr
  | .group cs r, ids, h, hr => by
    rw [RegularItems] at hr ⊢
    rw [valuesInItems] at h
    exact ⟨regularComps_same hs cs ids (h.mono fun s hm => List.mem_append_left _ hm) hr.1,
      regularItems_same hs r ids (h.mono fun s hm => List.mem_append_right _ hm) hr.2⟩
theorem regularComps_same (hs : SameMembers as as') : ∀ (cs : Comps) (ids : List String),
    SameOn ν ν' (valuesInComps cs) → RegularComps ν as ids cs → RegularComps ν' as' ids cs
  | .nil, _, _, _ => by rw [RegularComps]; trivial
  | .cons id t p r, ids, h, hr => by
    rw [RegularComps] at hr ⊢
    rw [valuesInComps] at h
    exact ⟨⟨regular_same hs t (h.mono fun s hm => List.mem_append_left _ hm) hr.1.1,
      fun l hl => defaultFor_same hs (hr.1.2 l hl)⟩,
      regularComps_same hs r ids (h.mono fun s hm => List.mem_append_right _ (List.mem_append_right _ hm)) hr.2⟩
end

end

end Verif
