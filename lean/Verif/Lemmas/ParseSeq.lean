import Verif.Lemmas.ParseMember
/-!
# SEQUENCE, CHOICE and SEQUENCE OF on lexical items; all types
-/
namespace Verif.Parse
open Verif.Spec

/-! ## the parts of a component list -/

def ofComps : List Comp → Items → Items
  | [], r => r
  | (id, t, p) :: cs, r => .comp id t p (ofComps cs r)

def groupOfList : List Comp → Comps
  | [] => .nil
  | (id, t, p) :: cs => .cons id t p (groupOfList cs)

def ofMems : List Mem → Items → Items
  | [], r => r
  | .comp (id, t, p) :: ms, r => .comp id t p (ofMems ms r)
  | .group c cs :: ms, r => .group (groupOfList (c :: cs)) (ofMems ms r)

def plainComp (c : Comp) : Comp := (c.1, plainType c.2.1, c.2.2)
def plainMem : Mem → Mem
  | .comp c => .comp (plainComp c)
  | .group c cs => .group (plainComp c) (cs.map plainComp)

theorem restItems_ofComps : ∀ (cs : List Comp) (r : Items),
    restItems (ofComps cs r) = cs.flatMap (fun c => "," :: compItems c) ++ restItems r
  | [], _ => rfl
  | (id, t, p) :: cs, r => by simp [ofComps, restItems, restItems_ofComps cs r, compItems]

theorem groupItems_eq : ∀ cs : List Comp, groupItems (groupOfList cs) = cs.flatMap (fun c => "," :: compItems c)
  | [] => by simp [groupOfList, groupItems]
  | (id, t, p) :: cs => by simp [groupOfList, groupItems, groupItems_eq cs, compItems]

theorem restItems_ofMems : ∀ (ms : List Mem) (r : Items),
    restItems (ofMems ms r) = ms.flatMap (fun m => "," :: memItems m) ++ restItems r
  | [], _ => rfl
  | .comp (id, t, p) :: ms, r => by simp [ofMems, restItems, restItems_ofMems ms r, memItems, compItems]
  | .group c cs :: ms, r => by
    simp [ofMems, restItems, restItems_ofMems ms r, memItems, groupItems_eq]

theorem plainItems_ofComps : ∀ (cs : List Comp) (r : Items), plainItems (ofComps cs r) = ofComps (cs.map plainComp) (plainItems r)
  | [], _ => rfl
  | (id, t, p) :: cs, r => by simp [ofComps, plainItems, plainItems_ofComps cs r, plainComp]

theorem plainComps_eq : ∀ cs : List Comp, plainComps (groupOfList cs) = groupOfList (cs.map plainComp)
  | [] => by simp [groupOfList, plainComps]
  | (id, t, p) :: cs => by simp [groupOfList, plainComps, plainComps_eq cs, plainComp]

theorem plainItems_ofMems : ∀ (ms : List Mem) (r : Items), plainItems (ofMems ms r) = ofMems (ms.map plainMem) (plainItems r)
  | [], _ => rfl
  | .comp (id, t, p) :: ms, r => by simp [ofMems, plainItems, plainItems_ofMems ms r, plainMem, plainComp]
  | .group c cs :: ms, r => by simp [ofMems, plainItems, plainItems_ofMems ms r, plainMem, plainComps_eq]

theorem itemsOf_comps : ∀ (cs : List Comp) {toks : List Tok} {r : Items}, itemsOf toks = .ok r →
    itemsOf (cs.flatMap compToks ++ toks) = .ok (ofComps (cs.map plainComp) r)
  | [], _, _, h => h
  | (id, t, p) :: cs, toks, r, h => by
    have := itemsOf_comps cs h
    simp [compToks, itemsOf, this, ofComps, plainComp, bind, Except.bind, pure, Except.pure]

theorem groupOf_comps : ∀ (cs : List Comp) {toks : List Tok} {r : Items}, itemsOf toks = .ok r →
    groupOf (cs.flatMap compToks ++ .str "]]" :: toks) = .ok (groupOfList (cs.map plainComp), r)
  | [], toks, r, h => by simp [groupOf, h, groupOfList, bind, Except.bind, pure, Except.pure]
  | (id, t, p) :: cs, toks, r, h => by
    have := groupOf_comps cs h
    simp [compToks, groupOf, this, groupOfList, plainComp, bind, Except.bind, pure, Except.pure]

theorem itemsOf_mems : ∀ (ms : List Mem) {toks : List Tok} {r : Items}, itemsOf toks = .ok r →
    itemsOf (ms.flatMap memToks ++ toks) = .ok (ofMems (ms.map plainMem) r)
  | [], _, _, h => h
  | .comp (id, t, p) :: ms, toks, r, h => by
    have := itemsOf_mems ms h
    simp [memToks, compToks, itemsOf, this, ofMems, plainMem, plainComp, bind, Except.bind, pure, Except.pure]
  | .group c cs :: ms, toks, r, h => by
    have := groupOf_comps (c :: cs) (itemsOf_mems ms h)
    simp only [List.flatMap_cons, memToks, List.cons_append, List.append_assoc, List.nil_append] at this ⊢
    simp [itemsOf, this, ofMems, plainMem, bind, Except.bind, pure, Except.pure]

theorem itemsOf_marker {toks : List Tok} {r : Items} (h : itemsOf toks = .ok r) :
    itemsOf (.str "..." :: toks) = .ok (.marker r) := by
  simp [itemsOf, h, bind, Except.bind, pure, Except.pure]

/-- All members are read correctly. -/
def CompsOk (choice : Bool) : Comps → Prop
  | .nil => True
  | .cons id t p r => CompOk choice (id, t, p) ∧ CompsOk choice r

def ItemsOk (choice : Bool) : Items → Prop
  | .nil => True
  | .comp id t p r => CompOk choice (id, t, p) ∧ ItemsOk choice r
  | .marker r => ItemsOk choice r
  | .group cs r => CompsOk choice cs ∧ ItemsOk choice r

theorem comps_list {ch : Bool} : ∀ {cs : Comps}, CompsOk ch cs → ∃ l, cs = groupOfList l ∧ ∀ c ∈ l, CompOk ch c
  | .nil, _ => ⟨[], rfl, fun _ h => nomatch h⟩
  | .cons id t p r, ⟨h1, h2⟩ => by
    obtain ⟨l, rfl, hl⟩ := comps_list h2
    exact ⟨(id, t, p) :: l, rfl, fun c hc => by rcases List.mem_cons.1 hc with rfl | hc; exact h1; exact hl c hc⟩

theorem shape_end {ch : Bool} : ∀ {r : Items}, Shape ch .end r → ItemsOk ch r →
    ∃ e, r = ofComps e .nil ∧ (∀ c ∈ e, CompOk ch c) ∧ (ch = true → e = [])
  | .nil, _, _ => ⟨[], rfl, (fun _ h => nomatch h), fun _ => rfl⟩
  | .comp id t p r, ⟨h1, h2⟩, ⟨h3, h4⟩ => by
    obtain ⟨l, rfl, hl, -⟩ := shape_end h2 h4
    exact ⟨(id, t, p) :: l, rfl, fun c hc => by rcases List.mem_cons.1 hc with rfl | hc; exact h3; exact hl c hc,
      fun h => by rw [h1] at h; cases h⟩
  | .marker _, h, _ => False.elim h
  | .group _ _, h, _ => False.elim h

theorem shape_additions {ch : Bool} : ∀ {r : Items}, Shape ch .additions r → ItemsOk ch r →
    ∃ adds, (∀ m ∈ adds, MemOk ch m) ∧ (r = ofMems adds .nil ∨ ∃ e, r = ofMems adds (.marker (ofComps e .nil)) ∧
      (∀ c ∈ e, CompOk ch c) ∧ (ch = true → e = []))
  | .nil, _, _ => ⟨[], (fun _ h => nomatch h), .inl rfl⟩
  | .comp id t p r, h2, ⟨h3, h4⟩ => by
    obtain ⟨l, hl, h⟩ := shape_additions (r := r) h2 h4
    refine ⟨.comp (id, t, p) :: l, fun c hc => by rcases List.mem_cons.1 hc with rfl | hc; exact h3; exact hl c hc, ?_⟩
    rcases h with rfl | ⟨e, rfl, he⟩
    · exact .inl rfl
    · exact .inr ⟨e, rfl, he⟩
  | .marker r, h, h' => by
    obtain ⟨e, rfl, he⟩ := shape_end h h'
    exact ⟨[], (fun _ h => nomatch h), .inr ⟨e, rfl, he⟩⟩
  | .group cs r, ⟨h1, h2⟩, ⟨h3, h4⟩ => by
    obtain ⟨l, hl, h⟩ := shape_additions (r := r) h2 h4
    obtain ⟨gs, rfl, hg⟩ := comps_list h3
    cases gs with
    | nil => exact absurd rfl h1
    | cons g gs =>
      refine ⟨.group g gs :: l, fun c hc => by rcases List.mem_cons.1 hc with rfl | hc; exact hg; exact hl c hc, ?_⟩
      rcases h with rfl | ⟨e, rfl, he⟩
      · exact .inl rfl
      · exact .inr ⟨e, rfl, he⟩

theorem shape_root {ch : Bool} : ∀ {r : Items}, Shape ch .root r → ItemsOk ch r →
    ∃ root, (∀ c ∈ root, CompOk ch c) ∧ (r = ofComps root .nil ∨ ∃ q, r = ofComps root (.marker q) ∧ Shape ch .additions q ∧ ItemsOk ch q)
  | .nil, _, _ => ⟨[], (fun _ h => nomatch h), .inl rfl⟩
  | .comp id t p r, h2, ⟨h3, h4⟩ => by
    obtain ⟨l, hl, h⟩ := shape_root (r := r) h2 h4
    refine ⟨(id, t, p) :: l, fun c hc => by rcases List.mem_cons.1 hc with rfl | hc; exact h3; exact hl c hc, ?_⟩
    rcases h with rfl | ⟨e, rfl, he⟩
    · exact .inl rfl
    · exact .inr ⟨e, rfl, he⟩
  | .marker r, h, h' => ⟨[], (fun _ h => nomatch h), .inr ⟨r, rfl, h, h'⟩⟩
  | .group _ _, h, _ => False.elim h

/-! ## SEQUENCE -/

section
variable {f n : Nat} {X : List String} {s : List Char}

local notation "T'" => type (f + 2) n
local notation "V'" => value (f + 2)

def tail2 (T V : P) : P := seqs [extensionAndException T V, extensionAdditions T V, optionalExtensionMarker]
def tail3 (T V : P) : P :=
  seqs [extensionAndException T V, extensionAdditions T V, comma, lit "...", comma, componentTypeList T V]

instance {T V : P} [Tidy T] [Tidy V] : Tidy (tail2 T V) := by unfold tail2; infer_instance
instance {T V : P} [Tidy T] [Tidy V] : Tidy (tail3 T V) := by unfold tail3; infer_instance

/-- From the marker on. -/
theorem tails_reads {q : Items} (hq : Shape false .additions q) (hok : ItemsOk false q) (hs : s.length < n)
    (h : Laid ("..." :: (restItems q ++ "}" :: X)) s) :
    ∃ toks R, Laid ("}" :: X) R ∧ R.length < s.length ∧ itemsOf toks = .ok (.marker (plainItems q)) ∧
      ((Yields (tail2 T' V') s toks R ∧ Rejects (tail3 T' V') s) ∨
       (Yields (tail3 T' V') s toks R ∧ Loses (tail2 T' V') s R)) := by
  obtain ⟨adds, hadds, he⟩ := shape_additions hq hok
  have hmem : ∀ m ∈ adds, Member (extensionAddition T' V') memItems memToks n m := fun m hm => addition_reads (hadds m hm)
  have hc : Close (restItems q ++ "}" :: X) := by
    have aux : ∀ r, Close (adds.flatMap (fun m => "," :: memItems m) ++ r) ∨ adds = [] := by
      intro r
      cases adds with
      | nil => exact .inr rfl
      | cons a as => exact .inl Close.comma
    rcases he with rfl | ⟨e, rfl, he, -⟩
    · rw [restItems_ofMems, List.append_assoc]
      rcases aux (restItems .nil ++ "}" :: X) with h | h
      · exact h
      · subst h; exact Close.curly
    · rw [restItems_ofMems, List.append_assoc]
      rcases aux (restItems (.marker (ofComps e .nil)) ++ "}" :: X) with h | h
      · exact h
      · subst h; exact Close.comma
  have h1 : Reads (extensionAndException T' V') _ _ _ _ := extension_reads h hc
  have l1 := h1.less
  rcases he with rfl | ⟨e, rfl, he, -⟩
  · have h1' := h1.laid
    rw [restItems_ofMems, List.append_assoc] at h1'
    obtain ⟨R, h2, h3, h4⟩ := additions_reads (X := "}" :: X) hmem (by decide) (by omega) ⟨X, .inl rfl⟩ h1'
    have h4 : Yields (extensionAdditions T' V') _ _ _ := h4
    have h5 := marker_empty h2
    have r : Rejects comma R := rejects_at h2
    refine ⟨_, R, h2, by omega, ?_, .inl ⟨seqs_yields h1.yields (seqs_yields (ps := []) h4 h5), ?_⟩⟩
    · rw [plainItems_ofMems, List.singleton_append]
      exact itemsOf_marker (itemsOf_mems adds rfl)
    · exact seq_rejects' h1.yields (seq_rejects' h4 (seq_rejects r))
  · have h1' := h1.laid
    rw [restItems_ofMems, List.append_assoc] at h1'
    have h1' : Laid (adds.flatMap (fun m => "," :: memItems m) ++ ("," :: "..." :: (restItems (ofComps e .nil) ++ "}" :: X))) _ := h1'
    obtain ⟨R, h2, h3, h4⟩ := additions_reads hmem (by decide) (by omega) ⟨_, .inr rfl⟩ h1'
    have h4 : Yields (extensionAdditions T' V') _ _ _ := h4
    have h5 := marker_reads h2
    have c1 := comma_reads h2
    have c2 := lit_reads c1.laid
    have l2 := c1.less
    have l3 := c2.less
    have h6 := h5.laid
    rw [restItems_ofComps] at h6
    have y2 := seqs_yields h1.yields (seqs_yields (ps := []) h4 h5.yields)
    cases e with
    | nil =>
      have h6 : Laid ("}" :: X) (after "..." (after "," R)) := h6
      have r : Rejects comma (after "..." (after "," R)) := rejects_at h6
      refine ⟨_, _, h6, by omega, ?_, .inl ⟨y2, ?_⟩⟩
      · rw [plainItems_ofMems, List.singleton_append]
        exact itemsOf_marker (itemsOf_mems adds rfl)
      · exact seq_rejects' h1.yields (seq_rejects' h4 (seq_rejects' c1.yields (seq_rejects' c2.yields (seq_rejects r))))
    | cons c cs =>
      have h6 : Laid ("," :: (compItems c ++ (cs.flatMap (fun c => "," :: compItems c) ++ "}" :: X)))
          (after "..." (after "," R)) := by
        simpa [restItems] using h6
      have c3 := comma_reads h6
      have l4 := c3.less
      obtain ⟨R', c4⟩ := components_reads (f := f) (n := n) he Close.curly (ended_of rfl) (by omega) c3.laid
      have l5 := c4.less
      have y3 := seqs_yields h1.yields (seqs_yields h4 (seqs_yields c1.yields (seqs_yields c2.yields (seqs_yields (ps := [])
        c3.yields c4.yields))))
      refine ⟨_, _, c4.laid, by omega, ?_, .inr ⟨y3, y2.loses (by omega)⟩⟩
      rw [plainItems_ofMems, List.singleton_append]
      refine itemsOf_marker (itemsOf_mems adds (itemsOf_marker ?_))
      rw [plainItems_ofComps]
      have := itemsOf_comps (c :: cs) (toks := []) (r := .nil) rfl
      rw [List.append_nil] at this
      exact this

theorem lists_reads {items : Items} (hi : Shape false .root items) (hok : ItemsOk false items) (hne : items ≠ .nil) (hs : s.length < n)
    (h : Laid ((restItems items).drop 1 ++ "}" :: X) s) :
    ∃ toks R, Reads (componentTypeLists T' V') s ("}" :: X) toks R ∧ itemsOf toks = .ok (plainItems items) := by
  obtain ⟨root, hroot, hq⟩ := shape_root hi hok
  cases root with
  | nil =>
    rcases hq with rfl | ⟨q, rfl, hq, hok'⟩
    · exact absurd rfl hne
    · have h : Laid ("..." :: (restItems q ++ "}" :: X)) s := h
      obtain ⟨toks, R, h1, h2, h3, h4⟩ := tails_reads (f := f) hq hok' hs h
      have r : Rejects (componentTypeList T' V') s := rejects_at h
      have r2 : Rejects (seqs [componentTypeList T' V', comma, extensionAndException T' V', extensionAdditions T' V',
        optionalExtensionMarker]) s := seq_rejects r
      have r3 : Rejects (seqs [componentTypeList T' V', comma, extensionAndException T' V', extensionAdditions T' V', comma, lit "...", comma,
        componentTypeList T' V']) s := seq_rejects r
      refine ⟨toks, R, ⟨h1, h2, or_yields (.there r.loses (.there r2.loses (.there r3.loses ?_)))⟩, h3⟩
      rcases h4 with ⟨a, b⟩ | ⟨a, b⟩
      · exact .there b.loses (.here a rest_nil)
      · exact .here a (rest_cons (.inl b.ties) rest_nil)
  | cons c cs =>
    have hlo : Lower c.1 := (hroot c (by simp)).1.1.2
    have e4 : ∀ {X}, Laid (compItems c ++ X) s → Rejects (tail3 T' V') s := fun h => by
      have h : Laid (c.1 :: _) s := h
      have : Rejects (extensionAndException T' V') s := by rej h
      exact seq_rejects this
    have e5 : ∀ {X}, Laid (compItems c ++ X) s → Rejects (tail2 T' V') s := fun h => by
      have h : Laid (c.1 :: _) s := h
      have : Rejects (extensionAndException T' V') s := by rej h
      exact seq_rejects this
    rcases hq with rfl | ⟨q, rfl, hq, hok'⟩
    · have h : Laid (compItems c ++ (cs.flatMap (fun c => "," :: compItems c) ++ "}" :: X)) s := by
        rw [restItems_ofComps] at h
        simpa [restItems] using h
      obtain ⟨R, h1⟩ := components_reads (f := f) (n := n) hroot Close.curly (ended_of rfl) hs h
      have r : Rejects comma R := rejects_at h1.laid
      refine ⟨_, R, ⟨h1.laid, h1.less, or_yields (.here h1.yields (rest_cons (.inl (seq_rejects' h1.yields (seq_rejects r)).loses.ties)
        (rest_cons (.inl (seq_rejects' h1.yields (seq_rejects r)).loses.ties) (rest_cons (.inl (e4 h).loses.ties) (rest_cons (.inl (e5 h).loses.ties) rest_nil)))))⟩, ?_⟩
      rw [plainItems_ofComps]
      have := itemsOf_comps (c :: cs) (toks := []) (r := .nil) rfl
      rw [List.append_nil] at this
      exact this
    · have h : Laid (compItems c ++ (cs.flatMap (fun c => "," :: compItems c) ++ "," :: "..." :: (restItems q ++ "}" :: X))) s := by
        rw [restItems_ofComps] at h
        simpa [restItems] using h
      obtain ⟨R1, h1⟩ := components_reads (f := f) (n := n) hroot Close.comma (ended_comma rfl) hs h
      have h2 := comma_reads h1.laid
      have l1 := h1.less
      have l2 := h2.less
      obtain ⟨toks, R, a1, a2, a3, a4⟩ := tails_reads (f := f) (n := n) hq hok' (by omega) h2.laid
      refine ⟨(c :: cs).flatMap compToks ++ ([] ++ toks), R, ⟨a1, by omega, or_yields (.there (h1.yields.loses (by omega)) ?_)⟩, ?_⟩
      · have o : ∀ q ∈ [tail3 T' V', tail2 T' V'], Ties q s R ∨ Yields q s ((c :: cs).flatMap compToks ++ ([] ++ toks)) R :=
          rest_cons (.inl (e4 h).loses.ties) (rest_cons (.inl (e5 h).loses.ties) rest_nil)
        rcases a4 with ⟨a, b⟩ | ⟨a, b⟩
        · have y : Yields (seqs [componentTypeList T' V', comma, extensionAndException T' V', extensionAdditions T' V',
            optionalExtensionMarker]) s _ R := seq_yields h1.yields (seq_yields h2.yields a)
          have r : Rejects (seqs [componentTypeList T' V', comma, extensionAndException T' V', extensionAdditions T' V', comma, lit "...", comma,
            componentTypeList T' V']) s := seq_rejects' h1.yields (seq_rejects' h2.yields b)
          exact .here y (rest_cons (.inl r.loses.ties) o)
        · have y : Yields (seqs [componentTypeList T' V', comma, extensionAndException T' V', extensionAdditions T' V', comma, lit "...", comma,
            componentTypeList T' V']) s _ R := seq_yields h1.yields (seq_yields h2.yields a)
          have r : Loses (seqs [componentTypeList T' V', comma, extensionAndException T' V', extensionAdditions T' V',
            optionalExtensionMarker]) s R := seq_loses h1.yields (seq_loses h2.yields b)
          exact .there r (.here y o)
      · rw [plainItems_ofComps]
        exact itemsOf_comps (c :: cs) a3

end
end Verif.Parse
