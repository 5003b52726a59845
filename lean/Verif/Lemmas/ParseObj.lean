import Verif.Lemmas.ParseSeq
/-!
# All types on lexical items
-/
namespace Verif.Parse
open Verif.Spec

section
variable {f n : Nat} {X : List String} {s : List Char}

/-! ## SEQUENCE -/

theorem seqOf_rejects {l : String} {c : Char} {u : List Char} (h : Laid ("SEQUENCE" :: l :: X) s) (hl : l.toList = c :: u)
    (hc : c ≠ 'O') : Rejects (lit "SEQUENCE OF") s := by
  obtain ⟨w, e, hw, -, h1⟩ := laid_split h
  obtain ⟨r, e1⟩ := laid_head h1 hl
  refine lit_rejects ?_
  rw [laid_skip h, e, e1]
  have hc' : ('O' = c) = False := by simp [Ne.symm hc]
  match w with
  | [] =>
    rw [List.nil_append]
    have : ¬ (' ' = c ∧ 'O' = c) := fun h => hc h.2.symm
    simp only [show "SEQUENCE OF".toList = 'S' :: 'E' :: 'Q' :: 'U' :: 'E' :: 'N' :: 'C' :: 'E' :: ' ' :: 'O' :: 'F' :: [] from rfl,
      show "SEQUENCE".toList = 'S' :: 'E' :: 'Q' :: 'U' :: 'E' :: 'N' :: 'C' :: 'E' :: [] from rfl, List.cons_append,
      List.nil_append, strip, if_true]
    have hb : isWs c = false := by
      have := h.2
      have h2 := laid_skip h1
      rw [e1] at h2
      cases hb : isWs c with
      | false => rfl
      | true =>
        rw [skipWs, List.dropWhile_cons, hb, if_pos rfl] at h2
        have := (List.dropWhile_suffix isWs (l := r)).length_le
        rw [h2, List.length_cons] at this; omega
    have : ' ' ≠ c := by rintro rfl; cases hb
    simp [this]
  | a :: w =>
    simp only [show "SEQUENCE OF".toList = 'S' :: 'E' :: 'Q' :: 'U' :: 'E' :: 'N' :: 'C' :: 'E' :: ' ' :: 'O' :: 'F' :: [] from rfl,
      show "SEQUENCE".toList = 'S' :: 'E' :: 'Q' :: 'U' :: 'E' :: 'N' :: 'C' :: 'E' :: [] from rfl, List.cons_append,
      List.nil_append, strip, if_true]
    split
    · match w with
      | [] => simp [strip, Ne.symm hc]
      | b :: w =>
        have hb := hw b (by simp)
        have : 'O' ≠ b := by rintro rfl; cases hb
        simp [strip, this]
    · rfl

theorem sequence_word : UpperName "SEQUENCE" ∧ Ends "SEQUENCE" :=
  ⟨⟨by unfold Word; decide, 'S', _, rfl, by decide⟩, by unfold Ends; decide⟩

theorem sequence_with {T C : P} [Tidy T] [Tidy C] [Starts C { cs := ['('] }] (h : Laid ("SEQUENCE" :: "{" :: X) s) :
    Rejects (typeWithConstraint T C) s := by
  have r1 : Rejects (lit "SET") s := lit_clash h ⟨_, rfl, by decide⟩ (by decide)
  have h1 := lit_reads h
  have r2 : Rejects C (after "SEQUENCE" s) := rejects_at h1.laid
  refine act_rejects (or_rejects ?_)
  simp only [List.mem_cons, List.not_mem_nil, or_false, forall_eq_or_imp, forall_eq]
  exact ⟨seq_rejects r1, seq_rejects' h1.yields (seq_rejects r2), seq_rejects r1, seq_rejects' h1.yields (seq_rejects r2)⟩

theorem sequence_builtin {T V : P} [Tidy T] [Tidy V] {t : TObj} {R : List Char} (h : Laid ("SEQUENCE" :: "{" :: X) s)
    (hy : Yields (sequenceType T V) s [.type t] R) : Yields (builtinType T V) s [.type t] R := by
  have r : Rejects (sequenceOfType T) s := by
    have := seqOf_rejects h (c := '{') rfl (by decide)
    refine act_rejects (or_rejects ?_)
    simp only [List.mem_cons, List.not_mem_nil, or_false, forall_eq_or_imp, forall_eq]
    exact ⟨seq_rejects this, seq_rejects this⟩
  refine or_yields ?_
  pick hy at h

theorem sequence_reads {items : Items} (hi : Shape false .root items) (hok : ItemsOk false items) (hs : s.length < n + 1)
    (hX : Follow X) (h : Laid (typeItems (.sequence items) ++ X) s) :
    ∃ R, Reads (type (f + 2) (n + 1)) s X [.group [.type (plainType (.sequence items))]] R := by
  have h : Laid ("SEQUENCE" :: "{" :: ((restItems items).drop 1 ++ "}" :: X)) s := by
    have := h; simp only [typeItems] at this; simpa using this
  have h1 := lit_reads h
  have h2 : Reads leftCurly _ _ _ _ := (lit_reads h1.laid).drop
  have l1 := h1.less
  have l2 := h2.less
  have key : ∃ toks R, Laid X R ∧ R.length < (after "SEQUENCE" s).length ∧ itemsOf toks = .ok (plainItems items) ∧
      Yields (or [seqs [lit "SEQUENCE", leftCurly, rightCurly],
        seqs [lit "SEQUENCE", leftCurly, componentTypeLists (type (f + 2) n) (value (f + 2)), rightCurly]]) s (.str "SEQUENCE" :: toks) R := by
    by_cases hne : items = .nil
    · subst hne
      have h2' : Laid ("}" :: X) (after "{" (after "SEQUENCE" s)) := h2.laid
      have h3 : Reads rightCurly _ _ _ _ := (lit_reads h2').drop
      have l3 := h3.less
      have r : Rejects (componentTypeLists (type (f + 2) n) (value (f + 2))) (after "{" (after "SEQUENCE" s)) := rejects_at h2'
      refine ⟨[], _, h3.laid, by omega, rfl, or_yields (.here (seqs_yields h1.yields (seqs_yields (ps := []) h2.yields h3.yields))
        (rest_cons (.inl (seq_rejects' h1.yields (seq_rejects' h2.yields (seq_rejects r))).loses.ties) rest_nil))⟩
    · obtain ⟨toks, R, h3, h4⟩ := lists_reads (f := f) (n := n) hi hok hne (by omega) h2.laid
      have h5 : Reads rightCurly _ _ _ _ := (lit_reads h3.laid).drop
      have l3 := h3.less
      have l5 := h5.less
      have r : Rejects rightCurly (after "{" (after "SEQUENCE" s)) := by
        have h2' := h2.laid
        match items, hi, hok, hne, h2' with
        | .comp id t p r, _, hok, _, h2' =>
          have h2' : Laid (id :: _) _ := h2'
          exact rejects_at h2' (skips_lower hok.1.1.1.2)
        | .marker r, _, _, _, h2' =>
          have h2' : Laid ("..." :: _) _ := h2'
          exact rejects_at h2'
      have y := seqs_yields h1.yields (seqs_yields h2.yields (seqs_yields (ps := []) h3.yields h5.yields))
      refine ⟨toks, _, h5.laid, by omega, h4, or_yields (.there (seq_rejects' h1.yields (seq_rejects' h2.yields r)).loses
        (.here ?_ rest_nil))⟩
      rw [List.append_nil] at y; exact y
  obtain ⟨toks, R, a1, a2, a3, a4⟩ := key
  have y : Yields (sequenceType (type (f + 2) n) (value (f + 2))) s [.type (.sequence (plainItems items))] R :=
    act_yields a4 (by simp [parseSequenceType, a3, bind, Except.bind, pure, Except.pure])
  rw [plainType]
  exact ⟨R, type_of_builtin ⟨a1, by omega, sequence_builtin h y⟩ (word_loses sequence_word h rfl (by omega)) (sequence_with h) hX⟩

/-! ## CHOICE -/

theorem alternative_reads {c : Comp} (hc : CompOk true c) : Member (namedType (type (f + 2) n)) compItems namedToks n c := by
  intro s X hs hX h
  obtain ⟨id, t, p⟩ := c
  obtain ⟨hid, ht, hp⟩ := hc
  have hp : p = .mandatory := by
    cases p with
    | mandatory => rfl
    | optional => cases hp
    | default l => cases hp.1
  subst hp
  have h : Laid (id :: (typeItems t ++ X)) s := by simpa [compItems, presItems] using h
  exact named_reads hid ht hs hX.follow h

theorem comp_mandatory {c : Comp} (hc : CompOk true c) : c.2.2 = .mandatory := by
  obtain ⟨id, t, p⟩ := c
  have hp := hc.2.2
  cases p with
  | mandatory => rfl
  | optional => cases hp
  | default l => cases hp.1

theorem pairs_named : ∀ {cs : List Comp}, (∀ c ∈ cs, CompOk true c) → pairs (cs.flatMap namedToks) = .ok (cs.flatMap compToks)
  | [], _ => rfl
  | c :: cs, h => by
    have hm := comp_mandatory (h c (by simp))
    have ih := pairs_named (cs := cs) fun d hd => h d (by simp [hd])
    simp [namedToks, pairs, typeIn, ih, compToks, hm, bind, Except.bind, pure, Except.pure]

theorem lower_not_is {id k : String} (h : Lower id) (hk : ∃ c u, k.toList = c :: u ∧ c.isLower = false) : Tok.is k (.str id) = false := by
  obtain ⟨c, r, e, hc⟩ := h
  obtain ⟨d, u, e', hd⟩ := hk
  simp only [Tok.is, beq_eq_false_iff_ne]
  rintro rfl
  rw [e] at e'
  cases e'
  rw [hc] at hd; cases hd

theorem any_named {k : String} (hk : ∃ c u, k.toList = c :: u ∧ c.isLower = false) :
    ∀ {cs : List Comp}, (∀ c ∈ cs, CompOk true c) → (cs.flatMap namedToks).any (Tok.is k) = false
  | [], _ => rfl
  | c :: cs, h => by
    have ih := any_named hk (cs := cs) fun d hd => h d (by simp [hd])
    have h1 := lower_not_is (h c (by simp)).1.1.2 hk
    rw [List.flatMap_cons, List.any_append, ih]
    rw [Bool.or_false, namedToks, List.any_cons, h1]; rfl

theorem removeFirst_of {k : String} : ∀ {l : List Tok}, l.any (Tok.is k) = false → ∀ r, removeFirst k (l ++ .str k :: r) = l ++ r
  | [], _, r => by simp [removeFirst, Tok.is]
  | t :: l, h, r => by
    simp only [List.any_cons, Bool.or_eq_false_iff] at h
    simp [removeFirst, h.1, removeFirst_of h.2 r]

theorem alternatives_list {c : Comp} {cs : List Comp} (hc : ∀ d ∈ c :: cs, CompOk true d) (hX : Close X)
    (hE : Ended (namedType (type (f + 2) n)) X) (hs : s.length < n)
    (h : Laid (compItems c ++ (cs.flatMap (fun y => "," :: compItems y) ++ X)) s) :
    ∃ R, Reads (or [seq (namedType (type (f + 2) n)) (many (seq comma (namedType (type (f + 2) n))))]) s X ((c :: cs).flatMap namedToks) R :=
  list_reads (fun d hd => alternative_reads (hc d hd)) hX hE hs h

theorem alternatives_reads {c : Comp} {cs : List Comp} (hc : ∀ d ∈ c :: cs, CompOk true d) (hX : Close X)
    (hE : Ended (namedType (type (f + 2) n)) X) (hs : s.length < n)
    (h : Laid (compItems c ++ (cs.flatMap (fun y => "," :: compItems y) ++ X)) s) :
    ∃ R, Reads (alternativeTypeList (type (f + 2) n)) s X ((c :: cs).flatMap compToks) R := by
  obtain ⟨R, h1⟩ := alternatives_list hc hX hE hs h
  exact ⟨R, h1.act (pairs_named hc)⟩

theorem additionAlternative_reads {m : Mem} (hm : MemOk true m) :
    Member (additionAlternative (type (f + 2) n)) memItems memToks n m := by
  intro s X hs hX h
  cases m with
  | comp c =>
    obtain ⟨R, h1⟩ := alternative_reads (f := f) (n := n) hm s X hs hX h
    have hlo : Lower c.1 := hm.1.1.2
    have h : Laid (c.1 :: ((typeItems c.2.1 ++ presItems c.2.2) ++ X)) s := h
    refine ⟨R, h1.laid, h1.less, act_yields (t := namedToks c) (or_yields ?_) ?_⟩
    · have := h1.yields
      pick this at h
    · have hall : ∀ d ∈ [c], CompOk true d := by
        intro d hd; rw [List.mem_singleton.1 hd]; exact hm
      have a1 := any_named (k := "[[") ⟨'[', _, rfl, by decide⟩ hall
      have a2 := pairs_named hall
      simp only [List.flatMap_cons, List.flatMap_nil, List.append_nil] at a1 a2
      simp only [parseAdditions, a1, a2, memToks]; rfl
  | group c cs =>
    have h : Laid ("[[" :: ((compItems c ++ (cs.flatMap (fun y => "," :: compItems y) ++ ["]]"])) ++ X)) s := h
    simp only [List.append_assoc, List.singleton_append] at h
    have hlo : Lower c.1 := (hm c (by simp)).1.1.2
    have h1 := lit_reads h
    have l1 := h1.less
    have h2 := version_empty hlo h1.laid
    obtain ⟨R, h3⟩ := alternatives_list (f := f) hm Close.square (ended_of rfl) (n := n) (by omega) h1.laid
    have l3 := h3.less
    have h4 := lit_reads h3.laid
    have l4 := h4.less
    have y := seqs_yields h1.yields (seqs_yields h2 (seqs_yields (ps := []) h3.yields h4.yields))
    have y : Yields (additionAlternativesGroup (type (f + 2) n)) s (.str "[[" :: ((c :: cs).flatMap namedToks ++ [.str "]]"])) (after "]]" R) := y
    refine ⟨_, h4.laid, by omega, act_yields (t := .str "[[" :: ((c :: cs).flatMap namedToks ++ [.str "]]"])) (or_yields ?_) ?_⟩
    · pick y at h
    · have a1 : removeFirst "[[" (.str "[[" :: ((c :: cs).flatMap namedToks ++ [.str "]]"])) = (c :: cs).flatMap namedToks ++ [.str "]]"] := by
        simp [removeFirst, Tok.is]
      have a2 := removeFirst_of (any_named (k := "]]") ⟨']', _, rfl, by decide⟩ hm) []
      have a0 : (Tok.str "[[" :: ((c :: cs).flatMap namedToks ++ [.str "]]"])).any (Tok.is "[[") = true := by simp [Tok.is]
      simp only [parseAdditions, a0, a1, a2, List.append_nil, pairs_named hm, if_true, memToks, bind, Except.bind, pure, Except.pure]

theorem choices_reads {items : Items} (hne : ∃ id t p r, items = .comp id t p r) (hi : Shape true .root items)
    (hok : ItemsOk true items) (hs : s.length < n) (h : Laid ((restItems items).drop 1 ++ "}" :: X) s) :
    ∃ toks R, Reads (alternativeTypeLists (type (f + 2) n) (value (f + 2))) s ("}" :: X) toks R ∧
      itemsOf toks = .ok (plainItems items) := by
  obtain ⟨root, hroot, hq⟩ := shape_root hi hok
  cases root with
  | nil =>
    obtain ⟨id, t, p, r, rfl⟩ := hne
    rcases hq with e | ⟨q, e, -⟩ <;> cases e
  | cons c cs =>
    rcases hq with rfl | ⟨q, rfl, hq, hok'⟩
    · have h : Laid (compItems c ++ (cs.flatMap (fun c => "," :: compItems c) ++ "}" :: X)) s := by
        rw [restItems_ofComps] at h
        simpa [restItems] using h
      obtain ⟨R, h1⟩ := alternatives_reads (f := f) (n := n) hroot Close.curly (ended_of rfl) hs h
      have r : Rejects comma R := rejects_at h1.laid
      refine ⟨_, R, ⟨h1.laid, h1.less, or_yields (.here h1.yields (rest_cons (.inl (seq_rejects' h1.yields (seq_rejects r)).loses.ties) rest_nil))⟩, ?_⟩
      rw [plainItems_ofComps]
      have := itemsOf_comps (c :: cs) (toks := []) (r := .nil) rfl
      rw [List.append_nil] at this
      exact this
    · have h : Laid (compItems c ++ (cs.flatMap (fun c => "," :: compItems c) ++ "," :: "..." :: (restItems q ++ "}" :: X))) s := by
        rw [restItems_ofComps] at h
        simpa [restItems] using h
      obtain ⟨R1, h1⟩ := alternatives_reads (f := f) (n := n) hroot Close.comma (ended_comma rfl) hs h
      have h2 := comma_reads h1.laid
      have l1 := h1.less
      have l2 := h2.less
      obtain ⟨adds, hadds, he⟩ := shape_additions hq hok'
      have hmem : ∀ m ∈ adds, Member (additionAlternative (type (f + 2) n)) memItems memToks n m :=
        fun m hm => additionAlternative_reads (hadds m hm)
      have key : ∃ toks R, Laid ("}" :: X) R ∧ R.length < R1.length ∧ itemsOf toks = .ok (.marker (plainItems q)) ∧
          Yields (seqs [extensionAndException (type (f + 2) n) (value (f + 2)), additionAlternatives (type (f + 2) n), optionalExtensionMarker])
            (after "," R1) toks R := by
        have e0 : ∃ Y, Tail Y ∧ restItems q ++ "}" :: X = adds.flatMap (fun m => "," :: memItems m) ++ Y ∧
            ((Y = "}" :: X ∧ q = ofMems adds .nil) ∨ (Y = "," :: "..." :: "}" :: X ∧ q = ofMems adds (.marker .nil))) := by
          rcases he with rfl | ⟨e, rfl, -, he⟩
          · exact ⟨_, ⟨_, .inl rfl⟩, by rw [restItems_ofMems]; simp [restItems], .inl ⟨rfl, rfl⟩⟩
          · rw [he rfl]
            exact ⟨_, ⟨_, .inr rfl⟩, by rw [restItems_ofMems]; simp [restItems, ofComps], .inr ⟨rfl, rfl⟩⟩
        obtain ⟨Y, hY, eY, hcase⟩ := e0
        have h2' := h2.laid
        rw [eY] at h2'
        have hc : Close (adds.flatMap (fun m => "," :: memItems m) ++ Y) := by
          cases adds with
          | nil => exact hY.close
          | cons a as => exact Close.comma
        have h3 : Reads (extensionAndException (type (f + 2) n) (value (f + 2))) _ _ _ _ := extension_reads h2' hc
        have l3 := h3.less
        obtain ⟨R, h4, l4, h5⟩ := additions_reads hmem (by decide) (by omega) hY h3.laid
        have h5 : Yields (additionAlternatives (type (f + 2) n)) _ _ _ := h5
        rcases hcase with ⟨rfl, rfl⟩ | ⟨rfl, rfl⟩
        · refine ⟨_, R, h4, by omega, ?_, seqs_yields h3.yields (seqs_yields (ps := []) h5 (marker_empty h4))⟩
          rw [plainItems_ofMems, List.singleton_append]
          exact itemsOf_marker (itemsOf_mems adds rfl)
        · have h6 := marker_reads h4
          have l6 := h6.less
          refine ⟨_, _, h6.laid, by omega, ?_, seqs_yields h3.yields (seqs_yields (ps := []) h5 h6.yields)⟩
          rw [plainItems_ofMems, List.singleton_append]
          exact itemsOf_marker (itemsOf_mems adds rfl)
      obtain ⟨toks, R, a1, a2, a3, a4⟩ := key
      have y : Yields (seqs [alternativeTypeList (type (f + 2) n), comma, extensionAndException (type (f + 2) n) (value (f + 2)),
        additionAlternatives (type (f + 2) n), optionalExtensionMarker]) s ((c :: cs).flatMap compToks ++ ([] ++ toks)) R :=
        seq_yields h1.yields (seq_yields h2.yields a4)
      refine ⟨(c :: cs).flatMap compToks ++ ([] ++ toks), R, ⟨a1, by omega, or_yields (.there (h1.yields.loses (by omega)) (.here y rest_nil))⟩, ?_⟩
      rw [plainItems_ofComps]
      exact itemsOf_comps (c :: cs) a3

theorem choice_reads {items : Items} (hne : ∃ id t p r, items = .comp id t p r) (hi : Shape true .root items)
    (hok : ItemsOk true items) (hs : s.length < n + 1) (hX : Follow X) (h : Laid (typeItems (.choice items) ++ X) s) :
    ∃ R, Reads (type (f + 2) (n + 1)) s X [.group [.type (plainType (.choice items))]] R := by
  have h : Laid ("CHOICE" :: "{" :: ((restItems items).drop 1 ++ "}" :: X)) s := by
    have := h; simp only [typeItems] at this; simpa using this
  have h1 := lit_reads h
  have h2 : Reads leftCurly _ _ _ _ := (lit_reads h1.laid).drop
  have l1 := h1.less
  have l2 := h2.less
  obtain ⟨toks, R, h3, h4⟩ := choices_reads (f := f) (n := n) hne hi hok (by omega) h2.laid
  have h5 : Reads rightCurly _ _ _ _ := (lit_reads h3.laid).drop
  have l3 := h3.less
  have l5 := h5.less
  have h6 : Reads (choiceType (type (f + 2) n) (value (f + 2))) s X [.type (.choice (plainItems items))] (after "}" R) :=
    (h1.seqs (h2.seqs (h3.seqs (ps := []) h5))).act (by
      simp [parseChoiceType, h4, bind, Except.bind, pure, Except.pure])
  have h7 : Reads (builtinType (type (f + 2) n) (value (f + 2))) s X [.type (.choice (plainItems items))] (after "}" R) := by
    refine ⟨h6.laid, h6.less, or_yields ?_⟩
    have := h6.yields
    pick this at h
  rw [plainType]
  exact ⟨_, type_of_builtin h7 (word_loses ⟨⟨by unfold Word; decide, 'C', _, rfl, by decide⟩, by unfold Ends; decide⟩ h rfl (by omega))
    (rejects_at h) hX⟩

/-! ## SEQUENCE OF -/

theorem type_head {t : TObj} (ht : Writable t) : ∃ l Y, typeItems t = l :: Y ∧ Upper l := by
  have up : ∀ l : String, l.toList.head?.any Char.isUpper = true → Upper l := by
    intro l h
    cases e : l.toList with
    | nil => rw [e] at h; cases h
    | cons c r => rw [e] at h; exact ⟨c, r, e, by simpa using h⟩
  match t with
  | .simple k none => exact ⟨_, _, by rw [typeItems], up _ (by cases k <;> decide)⟩
  | .simple k (some c) => exact ⟨_, _, by rw [typeItems], up _ (by cases k <;> decide)⟩
  | .enumerated items => exact ⟨_, _, by rw [typeItems], up _ (by decide)⟩
  | .seqOf none e => exact ⟨_, _, by rw [typeItems], up _ (by decide)⟩
  | .seqOf (some c) e => exact ⟨_, _, by rw [typeItems], up _ (by decide)⟩
  | .sequence items => exact ⟨_, _, by rw [typeItems], up _ (by decide)⟩
  | .choice items => exact ⟨_, _, by rw [typeItems], up _ (by decide)⟩
  | .ref m => exact ⟨_, _, by rw [typeItems], (by unfold Writable at ht; exact ht.1.2)⟩

theorem named_rejects {T : P} [Tidy T] {t : TObj} (ht : Writable t) (h : Laid (typeItems t ++ X) s) : Rejects (namedType T) s := by
  obtain ⟨l, Y, e, hl⟩ := type_head ht
  rw [e] at h
  have h : Laid (l :: _) s := h
  rej h

theorem sequence_before_of (h : Laid ("SEQUENCE OF" :: X) s) :
    ∃ r, Yields (lit "SEQUENCE") s [.str "SEQUENCE"] ('O' :: r) := by
  obtain ⟨w, e, -, -, -⟩ := laid_split h
  have hm : strip "SEQUENCE".toList (skipWs s) = some (' ' :: 'O' :: 'F' :: (w ++ after "SEQUENCE OF" s)) := by
    rw [laid_skip h]
    conv => lhs; rw [e]
    exact strip_append "SEQUENCE".toList _
  refine ⟨'F' :: (w ++ after "SEQUENCE OF" s), ' ' :: 'O' :: 'F' :: (w ++ after "SEQUENCE OF" s), ?_, ?_, rfl⟩
  · simp only [lit, terminal, hm, Option.map_some]
  · simp only [lit, terminal, hm, Option.map_some, String.ofList_toList]

theorem at_char {p : P} {F : First} [hp : Starts p F] {c : Char} {r : List Char} (hn : F.null = false := by decide)
    (hc : F.has c = false := by decide) (hw : isWs c = false := by decide) : Rejects p (c :: r) :=
  hp.rejects hn _ fun d r' e => by
    rw [skipWs_cons hw] at e
    cases e; exact hc

theorem seqOf_reads {e : TObj} (he : Writable e) (hok : TypeOk e) (hs : s.length < n + 1) (hX : Follow X)
    (h : Laid (typeItems (.seqOf none e) ++ X) s) :
    ∃ R, Reads (type (f + 2) (n + 1)) s X [.group [.type (plainType (.seqOf none e))]] R := by
  have h : Laid ("SEQUENCE OF" :: (typeItems e ++ X)) s := by
    have := h; simp only [typeItems] at this; simpa using this
  have h1 := lit_reads h
  have l1 := h1.less
  obtain ⟨R, h2⟩ := hok f n X _ (by omega) hX h1.laid
  have l2 := h2.less
  have h3 := h1.seq h2
  have r1 : Rejects (namedType (type (f + 2) n)) (after "SEQUENCE OF" s) := named_rejects he h1.laid
  have y : Yields (sequenceOfType (type (f + 2) n)) s [.type (.seqOf none (plainType e))] R :=
    act_yields (or_yields (.here h3.yields (rest_cons (.inl (seq_rejects' h1.yields r1).loses.ties) rest_nil))) (by
      simp [parseSequenceOfType, typeIn, bind, Except.bind, pure, Except.pure])
  obtain ⟨r, h4⟩ := sequence_before_of h
  have r2 : Rejects (sequenceType (type (f + 2) n) (value (f + 2))) s := by
    refine act_rejects (or_rejects ?_)
    simp only [List.mem_cons, List.not_mem_nil, or_false, forall_eq_or_imp, forall_eq]
    exact ⟨seq_rejects' h4 (seq_rejects at_char), seq_rejects' h4 (seq_rejects at_char)⟩
  have y2 : Yields (builtinType (type (f + 2) n) (value (f + 2))) s [.type (.seqOf none (plainType e))] R := by
    refine or_yields ?_
    pick y at h
  have r3 : Rejects (typeWithConstraint (type (f + 2) n) (constraint (f + 2))) s := by
    have r1 : Rejects (lit "SET") s := lit_clash h ⟨_, rfl, by decide⟩ (by decide)
    refine act_rejects (or_rejects ?_)
    simp only [List.mem_cons, List.not_mem_nil, or_false, forall_eq_or_imp, forall_eq]
    exact ⟨seq_rejects r1, seq_rejects' h4 (seq_rejects at_char), seq_rejects r1, seq_rejects' h4 (seq_rejects at_char)⟩
  obtain ⟨R', h5, l5⟩ := reference_word (u := "SEQUENCE") (v := " OF") h rfl sequence_word.1 ⟨'O', _, rfl, by decide, by decide⟩
  rw [plainType]
  exact ⟨R, type_of_builtin ⟨h2.laid, by omega, y2⟩ (h5.loses (by omega)) r3 hX⟩

theorem seqOf_constrained {c : Con} {e : TObj} (hc : WritableCon c) (he : Writable e) (hok : TypeOk e) (hs : s.length < n + 1)
    (hX : Follow X) (h : Laid (typeItems (.seqOf (some c) e) ++ X) s) :
    ∃ R, Reads (type (f + 2) (n + 1)) s X [.group [.type (plainType (.seqOf (some c) e))]] R := by
  have h : Laid ("SEQUENCE" :: (conItems c ++ "OF" :: (typeItems e ++ X))) s := by
    have := h; simp only [typeItems] at this; simpa using this
  obtain ⟨Y, hY⟩ : ∃ Y, conItems c = "(" :: Y := by cases c <;> exact ⟨_, rfl⟩
  have h' := h
  rw [hY] at h'
  have h' : Laid ("SEQUENCE" :: "(" :: _) s := h'
  have h1 := lit_reads h
  obtain ⟨R1, t, ht, h2⟩ := con_reads (f := f) hc h1.laid
  have h3 := lit_reads h2.laid
  have l1 := h1.less
  have l2 := h2.less
  have l3 := h3.less
  obtain ⟨R, h4⟩ := hok f n X _ (by omega) hX h3.laid
  have l4 := h4.less
  have r1 : Rejects (namedType (type (f + 2) n)) (after "OF" R1) := named_rejects he h3.laid
  have r2 : Rejects (lit "SET") s := lit_clash h ⟨_, rfl, by decide⟩ (by decide)
  have y := seqs_yields h1.yields (seqs_yields h2.yields (seqs_yields (ps := []) h3.yields h4.yields))
  have y2 : Yields (typeWithConstraint (type (f + 2) n) (constraint (f + 2))) s [.type (.seqOf none (plainType e)), .con t] R := by
    refine act_yields (or_yields (.there (seq_rejects r2).loses (.here y (rest_cons (.inl (seq_rejects r2).loses.ties)
      (rest_cons (.inl ?_) rest_nil))))) ?_
    · exact (seq_rejects' h1.yields (seq_rejects' h2.yields (seq_rejects' h3.yields r1))).loses.ties
    · simp [parseTypeWithConstraint, typeIn, bind, Except.bind, pure, Except.pure]
  have rb : Rejects (builtinType (type (f + 2) n) (value (f + 2))) s := by
    have a1 := seqOf_rejects h' (c := '(') rfl (by decide)
    have a2 : Rejects leftCurly (after "SEQUENCE" s) := rejects_at (l := "(") (laid_after h')
    have b1 : Rejects (sequenceOfType (type (f + 2) n)) s := by
      refine act_rejects (or_rejects ?_)
      simp only [List.mem_cons, List.not_mem_nil, or_false, forall_eq_or_imp, forall_eq]
      exact ⟨seq_rejects a1, seq_rejects a1⟩
    have b2 : Rejects (sequenceType (type (f + 2) n) (value (f + 2))) s := by
      refine act_rejects (or_rejects ?_)
      simp only [List.mem_cons, List.not_mem_nil, or_false, forall_eq_or_imp, forall_eq]
      exact ⟨seq_rejects' h1.yields (seq_rejects a2), seq_rejects' h1.yields (seq_rejects a2)⟩
    refine or_rejects ?_
    simp only [List.mem_cons, List.not_mem_nil, or_false, forall_eq_or_imp, forall_eq]
    refine ⟨?_, ?_, ?_, ?_, ?_, ?_, ?_, ?_, ?_, ?_, b2, b1, ?_⟩ <;> rej h
  have y3 : Yields (constrainedType (type (f + 2) n) (value (f + 2)) (constraint (f + 2))) s [.type (.seqOf (some (CTuple.con t)) (plainType e))] R :=
    act_yields (or_yields (.there (seq_rejects rb).loses (.here y2 rest_nil))) (by simp [parseConstrainedType, constrain])
  have hl : Loses referencedType s R := word_loses (X := "(" :: _) sequence_word h' rfl (by omega)
  rw [plainType, Option.map_some, plainCon_eq ht]
  exact ⟨R, h4.laid, by omega, type_cases (.there rb.loses.group (.there hl.group (.here (group_yields y3) rest_nil)))⟩

/-! ## all types -/

mutual
theorem type_ok : ∀ t : TObj, Writable t → TypeOk t
  | .simple k none, _ => fun f n X s hs hX h => by
    obtain ⟨n, rfl⟩ : ∃ m, n = m + 1 := ⟨n - 1, by omega⟩
    have h : Laid (simpleItem k :: X) s := by have := h; simp only [typeItems] at this; exact this
    exact ⟨_, simple_reads h hX⟩
  | .simple k (some c), hw => fun f n X s hs hX h => by
    obtain ⟨n, rfl⟩ : ∃ m, n = m + 1 := ⟨n - 1, by omega⟩
    have h : Laid (simpleItem k :: (conItems c ++ X)) s := by have := h; simp only [typeItems] at this; exact this
    obtain ⟨R, t, ht, h1⟩ := constrained_reads (f := f) (m := n) (by unfold Writable at hw; exact hw) h
    exact ⟨R, by rw [plainType, Option.map_some, plainCon_eq ht]; exact h1⟩
  | .enumerated items, hw => fun f n X s hs hX h => by
    obtain ⟨n, rfl⟩ : ∃ m, n = m + 1 := ⟨n - 1, by omega⟩
    rw [plainType]
    exact enumerated_reads (by unfold Writable at hw; exact hw) hX h
  | .seqOf none e, hw => fun f n X s hs hX h => by
    obtain ⟨n, rfl⟩ : ∃ m, n = m + 1 := ⟨n - 1, by omega⟩
    have hw : Writable e := by unfold Writable at hw; exact hw
    exact seqOf_reads hw (type_ok e hw) hs hX h
  | .seqOf (some c) e, hw => fun f n X s hs hX h => by
    obtain ⟨n, rfl⟩ : ∃ m, n = m + 1 := ⟨n - 1, by omega⟩
    have hw : WritableCon c ∧ Writable e := by unfold Writable at hw; exact hw
    exact seqOf_constrained hw.1 hw.2 (type_ok e hw.2) hs hX h
  | .sequence items, hw => fun f n X s hs hX h => by
    obtain ⟨n, rfl⟩ : ∃ m, n = m + 1 := ⟨n - 1, by omega⟩
    have hw : Shape false .root items ∧ WritableItems false items := by unfold Writable at hw; exact hw
    exact sequence_reads hw.1 (items_ok false items hw.2) hs hX h
  | .choice items, hw => fun f n X s hs hX h => by
    obtain ⟨n, rfl⟩ : ∃ m, n = m + 1 := ⟨n - 1, by omega⟩
    have hw : (∃ id t p r, items = .comp id t p r) ∧ Shape true .root items ∧ WritableItems true items := by
      unfold Writable at hw; exact hw
    exact choice_reads hw.1 hw.2.1 (items_ok true items hw.2.2) hs hX h
  | .ref m, hw => fun f n X s hs hX h => by
    obtain ⟨n, rfl⟩ : ∃ m, n = m + 1 := ⟨n - 1, by omega⟩
    have hw : TypeName m := by unfold Writable at hw; exact hw
    have h : Laid (m :: X) s := by have := h; simp only [typeItems] at this; exact this
    rw [plainType]
    exact ⟨_, ref_reads hw h hX⟩
theorem items_ok (ch : Bool) : ∀ items : Items, WritableItems ch items → ItemsOk ch items
  | .nil, _ => trivial
  | .comp id t p r, hw => by
    have hw : (ValueName id ∧ Writable t ∧ WritablePres ch p) ∧ WritableItems ch r := by unfold WritableItems at hw; exact hw
    exact ⟨⟨hw.1.1, type_ok t hw.1.2.1, hw.1.2.2⟩, items_ok ch r hw.2⟩
  | .marker r, hw => by
    have hw : WritableItems ch r := by unfold WritableItems at hw; exact hw
    exact items_ok ch r hw
  | .group cs r, hw => by
    have hw : WritableComps ch cs ∧ WritableItems ch r := by unfold WritableItems at hw; exact hw
    exact ⟨comps_ok ch cs hw.1, items_ok ch r hw.2⟩
theorem comps_ok (ch : Bool) : ∀ cs : Comps, WritableComps ch cs → CompsOk ch cs
  | .nil, _ => trivial
  | .cons id t p r, hw => by
    have hw : (ValueName id ∧ Writable t ∧ WritablePres ch p) ∧ WritableComps ch r := by unfold WritableComps at hw; exact hw
    exact ⟨⟨hw.1.1, type_ok t hw.1.2.1, hw.1.2.2⟩, comps_ok ch r hw.2⟩
end

end
end Verif.Parse
