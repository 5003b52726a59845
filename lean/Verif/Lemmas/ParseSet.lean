import Verif.Lemmas.ParseCon
/-!
# Sets of elements, and what is in the parentheses of a constraint
-/
namespace Verif.Parse
open Verif.Spec

section
variable {s : List Char} {X : List String} {n : Nat} {C E : P} [Tidy C] [Tidy E]

theorem strs_append (a b : List CTok) : strs (a ++ b) = strs a ++ strs b := by simp [strs]

/-- What can be behind an intersection, or behind a union. -/
def Stop2 (X : List String) : Prop := ∃ l Y, X = l :: Y ∧ (l = "|" ∨ l = "," ∨ l = ")")
def Stop3 (X : List String) : Prop := ∃ l Y, X = l :: Y ∧ (l = "," ∨ l = ")")

theorem Stop2.stop (h : Stop2 X) : Stop X := by
  obtain ⟨l, Y, rfl, rfl | rfl | rfl⟩ := h <;> exact ⟨_, _, rfl, by simp⟩
theorem Stop3.stop2 (h : Stop3 X) : Stop2 X := by
  obtain ⟨l, Y, rfl, rfl | rfl⟩ := h <;> exact ⟨_, _, rfl, by simp⟩

theorem intersectionMark_reads (h : Laid ("^" :: X) s) : Reads intersectionMark s X [.str "^"] (after "^" s) := by
  have h0 := lit_reads h
  refine ⟨h0.laid, h0.less, or_yields ?_⟩
  pick h0.yields at h

theorem unionMark_reads (h : Laid ("|" :: X) s) : Reads unionMark s X [.str "|"] (after "|" s) := by
  have h0 := lit_reads h
  refine ⟨h0.laid, h0.less, or_yields ?_⟩
  pick h0.yields at h

theorem intersections_reads {i : List Elem} (hne : i ≠ []) (h2 : i.length ≤ 2) (hi : ∀ e ∈ i, WritableElem e)
    (h : Laid (between "^" elemItems i ++ X) s) (hX : Stop2 X) :
    ∃ R, Reads (intersections (value (n + 1)) C E) s X (strs (interToks i)) R := by
  have key : ∃ R, Reads (seq (intersectionElements (value (n + 1)) C E)
      (opt (seq intersectionMark (intersectionElements (value (n + 1)) C E)))) s X (strs (interToks i)) R := by
    match i, hne, h2 with
    | [e], _, _ =>
      obtain ⟨R, hR⟩ := intersectionElements_reads (n := n) (C := C) (E := E) (hi e (by simp)) h hX.stop
      refine ⟨R, hR.seq_none ?_⟩
      have hl := hR.laid
      obtain ⟨l, Y, rfl, rfl | rfl | rfl⟩ := hX <;> rej hl
    | [a, b], _, _ =>
      have h' : Laid (elemItems a ++ "^" :: (elemItems b ++ X)) s := by simpa [between] using h
      obtain ⟨R1, h1⟩ := intersectionElements_reads (n := n) (C := C) (E := E) (hi a (by simp)) h' ⟨_, _, rfl, by simp⟩
      have hm := intersectionMark_reads h1.laid
      obtain ⟨R, hR⟩ := intersectionElements_reads (n := n) (C := C) (E := E) (hi b (by simp)) hm.laid hX.stop
      refine ⟨R, hR.laid, ?_, ?_⟩
      · have := h1.less; have := hm.less; have := hR.less; omega
      · have := seq_yields h1.yields (opt_yields (seq_yields hm.yields hR.yields))
        simpa [interToks, strs, ctokText] using this
  obtain ⟨R, hR⟩ := key
  refine ⟨R, hR.laid, hR.less, or_one ?_⟩
  have := many1_yields hR.yields (reps_nil (hX.stop.rejects hR.laid))
  rwa [List.append_nil] at this

/-- The unions of a set as repetitions. -/
theorem unions_reps : ∀ {u : List (List Elem)} {s : List Char}, WritableSet u → Laid (setItems u ++ X) s → Stop3 X →
    ∃ t1 R1 t2 R, Yields (seq (intersections (value (n + 1)) C E) (opt unionMark)) s t1 R1 ∧ R1.length < s.length ∧
      Reps (seq (intersections (value (n + 1)) C E) (opt unionMark)) R1 t2 R ∧ t1 ++ t2 = strs (unionToks u) ∧
      Laid X R ∧ R.length < s.length
  | [], _, hu, _, _ => absurd rfl hu.1
  | [i], s, hu, h, hX => by
    obtain ⟨a, b, c⟩ := hu.2 i (by simp)
    obtain ⟨R, hR⟩ := intersections_reads (n := n) (C := C) (E := E) a b c h hX.stop2
    have h1 := hR.seq_none (q := unionMark) (by
      have hl := hR.laid
      obtain ⟨l, Y, rfl, rfl | rfl⟩ := hX <;> rej hl)
    refine ⟨_, R, [], R, h1.yields, h1.less, reps_nil (hX.stop2.stop.rejects h1.laid), ?_, h1.laid, h1.less⟩
    simp [unionToks]
  | i :: j :: is, s, hu, h, hX => by
    obtain ⟨a, b, c⟩ := hu.2 i (by simp)
    have h' : Laid (between "^" elemItems i ++ "|" :: (setItems (j :: is) ++ X)) s := by
      simpa [setItems, between] using h
    obtain ⟨R1, h1⟩ := intersections_reads (n := n) (C := C) (E := E) a b c h' ⟨_, _, rfl, by simp⟩
    have hm := unionMark_reads h1.laid
    obtain ⟨t1, R2, t2, R, y1, l1, y2, e, hl, hlt⟩ := unions_reps (u := j :: is)
      ⟨by simp, fun k hk => hu.2 k (List.mem_cons_of_mem _ hk)⟩ hm.laid hX
    have a1 := h1.less
    have a2 := hm.less
    refine ⟨_, _, _, R, seq_yields h1.yields (opt_yields hm.yields), by omega, reps_cons y1 l1 y2, ?_, hl, by omega⟩
    rw [e]
    simp [unionToks, strs, ctokText]

theorem unions_reads {u : List (List Elem)} (hu : WritableSet u) (h : Laid (setItems u ++ X) s) (hX : Stop3 X) :
    ∃ R, Reads (unions (value (n + 1)) C E) s X (strs (unionToks u)) R := by
  obtain ⟨t1, R1, t2, R, y1, l1, y2, e, hl, hlt⟩ := unions_reps (n := n) (C := C) (E := E) hu h hX
  exact ⟨R, hl, hlt, or_one (e ▸ many1_yields y1 y2)⟩

theorem set_head {u : List (List Elem)} (hu : WritableSet u) : ∃ l Y, setItems u = l :: Y ∧ Head l := by
  cases u with
  | nil => exact absurd rfl hu.1
  | cons i is =>
    obtain ⟨hne, -, hi⟩ := hu.2 i (by simp)
    cases i with
    | nil => exact absurd rfl hne
    | cons e es =>
      obtain ⟨l, Y, e', hl⟩ := elem_head (hi e (by simp))
      have h1 : ∃ Z, between "^" elemItems (e :: es) = l :: Z := by
        cases es with
        | nil => exact ⟨Y, e'⟩
        | cons f es => exact ⟨_, by rw [between, e']; rfl; simp⟩
      obtain ⟨Z, h1⟩ := h1
      cases is with
      | nil => exact ⟨l, Z, h1, hl⟩
      | cons j is => exact ⟨l, _, by rw [setItems, between, h1]; rfl; simp, hl⟩

theorem set_reads {u : List (List Elem)} {m : Nat} (hu : WritableSet u) (h : Laid (setItems u ++ X) s) (hX : Stop3 X) :
    ∃ R, Reads (elementSetSpec (value (n + 1)) (m + 1)) s X (strs (unionToks u)) R := by
  obtain ⟨R, hR⟩ := unions_reads (n := n) (C := constraintBody (elementSetSpec (value (n + 1)) m))
    (E := elementSetSpec (value (n + 1)) m) hu h hX
  refine ⟨R, hR.laid, hR.less, ?_⟩
  rw [elementSetSpec]
  refine or_yields ?_
  obtain ⟨l, Y, e, hl⟩ := set_head hu
  rw [e] at h
  have : Rejects (seq (lit "ALL") (exclusions (value (n + 1)) (constraintBody (elementSetSpec (value (n + 1)) m))
      (elementSetSpec (value (n + 1)) m))) s := head_rejects h hl
  exact .here hR.yields (rest_cons (.inl this.loses.ties) rest_nil)

theorem comma_reads (h : Laid ("," :: X) s) : Reads comma s X [] (after "," s) := (lit_reads h).drop

theorem specs_reads {N : Notation} {m : Nat} (hN : WritableNotation N) (h : Laid (notationItems N ++ ")" :: X) s) :
    ∃ R, Reads (constraintSpec (elementSetSpec (value (n + 1)) (m + 1))) s (")" :: X) (strs N.toks) R := by
  have hr : WritableSet N.root := hN.1
  cases hm : N.marker with
  | false =>
    have h' : Laid (setItems N.root ++ ")" :: X) s := by simpa [notationItems, hm] using h
    obtain ⟨R, hR⟩ := set_reads (n := n) (m := m) hr h' ⟨_, _, rfl, by simp⟩
    have ht : N.toks = unionToks N.root := by simp [Notation.toks, hm]
    have hc : Rejects comma R := rejects_at hR.laid
    rw [ht]
    refine ⟨R, hR.laid, hR.less, or_one (or_yields (.here hR.yields ?_))⟩
    refine rest_cons (.inl (Rejects.loses ?_).ties) (rest_cons (.inl (Rejects.loses ?_).ties) rest_nil)
    · exact seq_rejects' hR.yields (seq_rejects hc)
    · exact seq_rejects' hR.yields (seq_rejects hc)
  | true =>
    by_cases ha : N.additional = []
    · have h' : Laid (setItems N.root ++ "," :: "..." :: ")" :: X) s := by simpa [notationItems, hm, ha] using h
      obtain ⟨R, hR⟩ := set_reads (n := n) (m := m) hr h' ⟨_, _, rfl, by simp⟩
      have h1 := comma_reads hR.laid
      have h2 := lit_reads h1.laid
      have ht : strs N.toks = strs (unionToks N.root) ++ ([] ++ [.str "..."]) := by
        simp [Notation.toks, hm, ha, strs, ctokText, unionToks]
      have hall : Reads (seqs [elementSetSpec (value (n + 1)) (m + 1), comma, lit "..."]) s (")" :: X) (strs N.toks)
          (after "..." (after "," R)) := by
        rw [ht]; exact hR.seqs (h1.seqs (ps := []) h2)
      refine ⟨_, hall.laid, hall.less, or_one (or_yields (.there ?_ (.here hall.yields (rest_cons (.inl ?_) rest_nil))))⟩
      · exact hR.yields.loses (by have := h1.less; have := h2.less; omega)
      · refine (Rejects.loses ?_).ties
        have hc : Rejects comma (after "..." (after "," R)) := rejects_at h2.laid
        exact seq_rejects' hR.yields (seq_rejects' h1.yields (seq_rejects' h2.yields (seq_rejects hc)))
    · have h' : Laid (setItems N.root ++ "," :: "..." :: "," :: (setItems N.additional ++ ")" :: X)) s := by
        simpa [notationItems, hm, ha] using h
      obtain ⟨R, hR⟩ := set_reads (n := n) (m := m) hr h' ⟨_, _, rfl, by simp⟩
      have h1 := comma_reads hR.laid
      have h2 := lit_reads h1.laid
      have h3 := comma_reads h2.laid
      obtain ⟨R2, hR2⟩ := set_reads (n := n) (m := m) (hN.2 ha).2 h3.laid ⟨_, _, rfl, by simp⟩
      have ht : strs N.toks = strs (unionToks N.root) ++ ([] ++ ([.str "..."] ++ ([] ++ strs (unionToks N.additional)))) := by
        simp [Notation.toks, hm, strs, ctokText]
      have hall : Reads (seqs [elementSetSpec (value (n + 1)) (m + 1), comma, lit "...", comma,
          elementSetSpec (value (n + 1)) (m + 1)]) s (")" :: X) (strs N.toks) R2 := by
        rw [ht]; exact hR.seqs (h1.seqs (h2.seqs (h3.seqs (ps := []) hR2)))
      have l1 := h1.less; have l2 := h2.less; have l3 := h3.less; have l4 := hR2.less
      refine ⟨_, hall.laid, hall.less, or_one (or_yields (.there ?_ (.there ?_ (.here hall.yields rest_nil))))⟩
      · exact hR.yields.loses (by omega)
      · have : Yields (seqs [elementSetSpec (value (n + 1)) (m + 1), comma, lit "..."]) s _ (after "..." (after "," R)) :=
          seqs_yields hR.yields (seqs_yields (ps := []) h1.yields h2.yields)
        exact this.loses (by omega)

theorem or_empty_yields (hs : skipWs s = s) : Yields (or [empty]) s [] s := by
  have := or_one (empty_yields s)
  rwa [hs] at this

theorem notation_reads {N : Notation} {m : Nat} (hN : WritableNotation N)
    (h : Laid ("(" :: (notationItems N ++ ")" :: X)) s) :
    ∃ R, Reads (constraintDef (value (n + 1)) (m + 1)) s X (strs N.toks) R := by
  have h0 : Reads leftParen s _ [] _ := (lit_reads h).drop
  obtain ⟨R, hR⟩ := specs_reads (n := n) (m := m) hN h0.laid
  have h1 : Reads rightParen R X [] _ := (lit_reads hR.laid).drop
  have := h0.seqs (ps := [or [empty], rightParen]) (q := constraintSpec (elementSetSpec (value (n + 1)) (m + 1)))
    ⟨h1.laid, by have := hR.less; have := h1.less; omega,
      seqs_yields hR.yields (seqs_yields (ps := []) (or_empty_yields (laid_skip hR.laid)) h1.yields)⟩
  exact ⟨_, by rw [List.nil_append, List.append_nil, List.append_nil] at this; exact this⟩

/-! ## the first and the last token -/

theorem endText_ne {e : End} (h : ∀ v, e = .ref v → ValueName v) : endText e ≠ "..." := by
  intro he
  have := endOf_text h
  rw [he] at this
  have hd : endOf "..." = .error (.raised .unmodelled) := by decide +kernel
  rw [hd] at this; cases this

/-- References in a token. -/
def GoodTok : CTok → Prop
  | .value e => ∀ v, e = .ref v → ValueName v
  | _ => True

theorem ctok_ellipsis {t : CTok} (h : GoodTok t) : ctokText t = "..." ↔ t = .ellipsis := by
  cases t with
  | value e => simp [ctokText, endText_ne (show ∀ v, e = .ref v → ValueName v from h)]
  | ellipsis => simp [ctokText]
  | _ => simp [ctokText]

theorem removeFirst_strs : ∀ {l : List CTok}, (∀ t ∈ l, GoodTok t) → removeFirst "..." (strs l) = strs (l.erase .ellipsis)
  | [], _ => rfl
  | t :: l, h => by
    have ht := ctok_ellipsis (h t (by simp))
    have ih := removeFirst_strs (l := l) fun t ht => h t (by simp [ht])
    by_cases he : t = .ellipsis
    · subst he; simp [strs, removeFirst, Tok.is, ctokText]
    · have hb : ctokText t ≠ "..." := fun h => he (ht.1 h)
      rw [List.erase_cons_tail (by simpa using he)]
      simp only [strs, List.map_cons] at ih ⊢
      simp [removeFirst, Tok.is, hb, ih]

theorem any_strs : ∀ {l : List CTok}, (∀ t ∈ l, GoodTok t) → (strs l).any (Tok.is "...") = l.contains .ellipsis
  | [], _ => rfl
  | t :: l, h => by
    have ht := ctok_ellipsis (h t (by simp))
    have ih := any_strs (l := l) fun t ht => h t (by simp [ht])
    by_cases he : t = .ellipsis
    · subst he; simp [strs, Tok.is, ctokText]
    · have hb : ctokText t ≠ "..." := fun h => he (ht.1 h)
      simp only [strs, List.map_cons, List.any_cons] at ih ⊢
      rw [ih]
      simp only [Tok.is, List.contains_cons]
      have h1 : (ctokText t == "...") = false := by simpa using hb
      have h2 : (CTok.ellipsis == t) = false := by simpa using fun h => he h.symm
      rw [h1, h2]

theorem value_good {e : End} (h : WritableValue e) : ∀ v, e = .ref v → ValueName v := by
  rintro v rfl; exact h

theorem elem_good {e : Elem} (h : WritableElem e) : ∀ t ∈ e.toks, GoodTok t := by
  intro t ht
  cases e with
  | value e =>
    simp only [Elem.toks, List.mem_singleton] at ht
    subst ht; exact value_good h
  | range lo lo' hi hi' =>
    have hlo : ∀ v, lo = .ref v → ValueName v := by
      rcases h.1 with h | rfl
      · exact value_good h
      · intro v h; cases h
    have hhi : ∀ v, hi = .ref v → ValueName v := by
      rcases h.2 with h | rfl
      · exact value_good h
      · intro v h; cases h
    cases lo' <;> cases hi' <;> simp [Elem.toks] at ht <;> rcases ht with rfl | ht <;> try exact hlo
    all_goals
      repeat' first | (rcases ht with rfl | ht) | subst ht
    all_goals first | exact hlo | exact hhi | trivial

theorem inter_good : ∀ {i : List Elem}, (∀ e ∈ i, WritableElem e) → ∀ t ∈ interToks i, GoodTok t
  | [], _, t, ht => by simp [interToks] at ht
  | [e], h, t, ht => elem_good (h e (by simp)) t (by simpa [interToks] using ht)
  | e :: f :: es, h, t, ht => by
    simp only [interToks, List.mem_append, List.mem_cons] at ht
    rcases ht with ht | rfl | ht
    · exact elem_good (h e (by simp)) t ht
    · trivial
    · exact inter_good (i := f :: es) (fun e he => h e (List.mem_cons_of_mem _ he)) t ht

theorem union_good : ∀ {u : List (List Elem)}, (∀ i ∈ u, ∀ e ∈ i, WritableElem e) → ∀ t ∈ unionToks u, GoodTok t
  | [], _, t, ht => by simp [unionToks] at ht
  | [i], h, t, ht => inter_good (h i (by simp)) t (by simpa [unionToks] using ht)
  | i :: j :: is, h, t, ht => by
    simp only [unionToks, List.mem_append, List.mem_cons] at ht
    rcases ht with ht | rfl | ht
    · exact inter_good (h i (by simp)) t ht
    · trivial
    · exact union_good (u := j :: is) (fun e he => h e (List.mem_cons_of_mem _ he)) t ht

theorem notation_good {N : Notation} (hN : WritableNotation N) : ∀ t ∈ N.toks, GoodTok t := by
  intro t ht
  simp only [Notation.toks, List.mem_append] at ht
  rcases ht with ht | ht
  · exact union_good (fun i hi => (hN.1.2 i hi).2.2) t ht
  · split at ht
    · rcases List.mem_cons.1 ht with rfl | ht
      · trivial
      · by_cases ha : N.additional = []
        · simp [ha, unionToks] at ht
        · exact union_good (fun i hi => ((hN.2 ha).2.2 i hi).2.2) t ht
    · cases ht

theorem elem_ends (e : Elem) : ∃ a b, e.toks.head? = some (.value a) ∧ e.toks.getLast? = some (.value b) ∧ .ellipsis ∉ e.toks := by
  cases e with
  | value e => exact ⟨e, e, rfl, rfl, by simp [Elem.toks]⟩
  | range lo lo' hi hi' => cases lo' <;> cases hi' <;> exact ⟨lo, hi, rfl, rfl, by simp [Elem.toks]⟩

theorem ends_append {a b : List CTok} {x y : CTok} (ha : a.head? = some x) (hb : b.getLast? = some y) (m : List CTok) :
    (a ++ (m ++ b)).head? = some x ∧ (a ++ (m ++ b)).getLast? = some y := by
  constructor
  · cases a with
    | nil => cases ha
    | cons c a => simpa using ha
  · rw [List.getLast?_append, List.getLast?_append, hb]; rfl

theorem inter_ends : ∀ {i : List Elem}, i ≠ [] →
    ∃ a b, (interToks i).head? = some (.value a) ∧ (interToks i).getLast? = some (.value b) ∧ .ellipsis ∉ interToks i
  | [], h => absurd rfl h
  | [e], _ => elem_ends e
  | e :: f :: es, _ => by
    obtain ⟨a, b, h1, h2, h3⟩ := elem_ends e
    obtain ⟨a', b', h1', h2', h3'⟩ := inter_ends (i := f :: es) (by simp)
    obtain ⟨g1, g2⟩ := ends_append h1 h2' [.caret]
    exact ⟨a, b', by simpa [interToks] using g1, by simpa [interToks] using g2, by simp [interToks, h3]; simpa [interToks] using h3'⟩

theorem union_ends : ∀ {u : List (List Elem)}, u ≠ [] → (∀ i ∈ u, i ≠ []) →
    ∃ a b, (unionToks u).head? = some (.value a) ∧ (unionToks u).getLast? = some (.value b) ∧ .ellipsis ∉ unionToks u
  | [], h, _ => absurd rfl h
  | [i], _, hi => inter_ends (hi i (by simp))
  | i :: j :: is, _, hi => by
    obtain ⟨a, b, h1, h2, h3⟩ := inter_ends (hi i (by simp))
    obtain ⟨a', b', h1', h2', h3'⟩ := union_ends (u := j :: is) (by simp) fun k hk => hi k (List.mem_cons_of_mem _ hk)
    obtain ⟨g1, g2⟩ := ends_append h1 h2' [.bar]
    exact ⟨a, b', by simpa [unionToks] using g1, by simpa [unionToks] using g2, by simp [unionToks, h3]; simpa [unionToks] using h3'⟩

theorem notation_ends {N : Notation} (hN : WritableNotation N) :
    ∃ a b, (N.toks.erase .ellipsis).head? = some (.value a) ∧ (N.toks.erase .ellipsis).getLast? = some (.value b) := by
  obtain ⟨a, b, h1, h2, h3⟩ := union_ends hN.1.1 fun i hi => (hN.1.2 i hi).1
  cases hm : N.marker with
  | false =>
    have : N.toks = unionToks N.root := by simp [Notation.toks, hm]
    rw [this, List.erase_of_not_mem h3]
    exact ⟨a, b, h1, h2⟩
  | true =>
    have : N.toks.erase .ellipsis = unionToks N.root ++ unionToks N.additional := by
      simp only [Notation.toks, hm, if_true]
      rw [List.erase_append_right _ h3, List.erase_cons_head]
    rw [this]
    by_cases ha : N.additional = []
    · simp only [ha, unionToks, List.append_nil]; exact ⟨a, b, h1, h2⟩
    · obtain ⟨a', b', h1', h2', -⟩ := union_ends ha fun i hi => ((hN.2 ha).2.2 i hi).1
      obtain ⟨g1, g2⟩ := ends_append h1 h2' []
      exact ⟨a, b', by simpa using g1, by simpa using g2⟩

/-- The tuple of a constraint that can be written. -/
theorem tuple_ok {N : Notation} (hN : WritableNotation N) :
    ∃ a b, (removeFirst "..." (strs N.toks)).head? = some (.str (endText a)) ∧
      (removeFirst "..." (strs N.toks)).getLast? = some (.str (endText b)) ∧ endOf (endText a) = .ok a ∧
      endOf (endText b) = .ok b ∧ parseConstraint N.toks = .ok ⟨a, b, (strs N.toks).any (Tok.is "...")⟩ := by
  obtain ⟨a, b, h1, h2⟩ := notation_ends hN
  have hg := notation_good hN
  have ha : GoodTok (.value a) := hg _ (List.mem_of_mem_erase (List.mem_of_mem_head? h1))
  have hb : GoodTok (.value b) := hg _ (List.mem_of_mem_erase (List.mem_of_getLast? h2))
  refine ⟨a, b, ?_, ?_, endOf_text ha, endOf_text hb, ?_⟩
  · rw [removeFirst_strs hg, strs, List.head?_map, h1]; rfl
  · rw [removeFirst_strs hg, strs, List.getLast?_map, h2]; rfl
  · simp only [parseConstraint, h1, h2, any_strs hg]

end
end Verif.Parse
