import Verif.Lemmas.ParseNest
/-!
# Types on lexical items: references and types without members
-/
namespace Verif.Parse
open Verif.Spec

/-- What can be behind a type. -/
def Follow (X : List String) : Prop := First.avoids { cs := ['(', '{', '.'] } X = true

theorem Follow.rejects {p : P} {F : First} [Starts p F] {X : List String} {s : List Char} (hX : Follow X) (h : Laid X s)
    (hF : F.le { cs := ['(', '{', '.'] } = true := by decide) : Rejects p s := by
  have : Starts p { cs := ['(', '{', '.'] } := Starts.mono inferInstance hF
  exact rejects_avoid h hX

theorem avoids_mono {F G : First} {X : List String} (h : F.le G = true) (hG : G.avoids X = true) : F.avoids X = true := by
  have h' := h
  simp only [First.le, Bool.and_eq_true, Bool.or_eq_true, Bool.not_eq_true'] at h'
  obtain ⟨⟨⟨⟨h1, h2⟩, h3⟩, h4⟩, h5⟩ := h'
  have hn : G.null = false → F.null = false := by
    intro hg; rcases h5 with h | h
    · exact h
    · rw [hg] at h; cases h
  cases X with
  | nil => simp only [First.avoids, Bool.not_eq_true'] at hG ⊢; exact hn hG
  | cons l X =>
    simp only [First.avoids, First.skips, Bool.and_eq_true, Bool.not_eq_true'] at hG ⊢
    refine ⟨hn hG.1, ?_⟩
    cases hl : l.toList with
    | nil => rw [hl] at hG; cases hG.2
    | cons c r =>
      rw [hl] at hG
      have hg : G.has c = false := by simpa using hG.2
      simp only [Bool.not_eq_true']
      cases hf : F.has c with
      | false => rfl
      | true =>
        have key : G.has c = true := by
          simp only [First.has, Bool.or_eq_true, Bool.and_eq_true, List.contains_iff_mem] at hf
          rcases hf with ((hf | hf) | hf) | hf
          · exact List.all_eq_true.1 h1 c hf
          · have : G.up = true := by rcases h2 with h | h; rw [hf.1] at h; cases h; exact h
            simp [First.has, this, hf.2]
          · have : G.lo = true := by rcases h3 with h | h; rw [hf.1] at h; cases h; exact h
            simp [First.has, this, hf.2]
          · have : G.dig = true := by rcases h4 with h | h; rw [hf.1] at h; cases h; exact h
            simp [First.has, this, hf.2]
        rw [key] at hg; cases hg

theorem Follow.point {X : List String} (h : Follow X) : First.avoids { cs := ['.'] } X = true := avoids_mono (by decide) h

/-! ## references -/

section
variable {s : List Char}

theorem typeref_scan {c : Char} {u rest : List Char} (hs : s = c :: u ++ rest) (hc : c.isUpper = true)
    (hu : ∀ d ∈ u, isBody d = true) (hr : ∀ d ∈ rest.head?, isBody d = false) :
    typereference.scan s = some rest ∧ typereference.run s = .ok ([.str (String.ofList (c :: u))], rest) := by
  have hb : isBody c = true := by simp [isBody, Char.isAlphanum, Char.isAlpha, hc]
  have e : skipWs s = c :: u ++ rest := by rw [hs]; exact skipWs_cons (isWs_body hb) _
  have hm := matchWord_eq (i := Char.isUpper) (b := isBody) hc hu hr
  rw [← e] at hm
  exact ⟨by simp [typereference, word, terminal, hm], by simp [typereference, word, terminal, hm]⟩

/-- A reference reaches exactly behind the word. -/
theorem referenced_scan {c : Char} {u rest : List Char} (hs : s = c :: u ++ rest) (hc : c.isUpper = true)
    (hu : ∀ d ∈ u, isBody d = true) (hr : ∀ d ∈ rest.head?, isBody d = false) (hdot : Rejects (lit ".") (skipWs rest)) :
    referencedType.scan s = some rest ∧ Yields referencedType s [.type (.ref (String.ofList (c :: u)))] (skipWs rest) := by
  obtain ⟨h1, h2⟩ := typeref_scan hs hc hu hr
  have hy : Yields typereference s [.str (String.ofList (c :: u))] (skipWs rest) := ⟨rest, h1, h2, rfl⟩
  have hx : Rejects (seqs [modulereference, lit ".", typereference]) s := by
    have : Yields modulereference s _ _ := hy
    exact seq_rejects' this (seq_rejects hdot)
  have hor : Yields (or [seqs [modulereference, lit ".", typereference], typereference]) s [.str (String.ofList (c :: u))]
      (skipWs rest) := or_yields (.there hx.loses (.here hy rest_nil))
  have hd : Yields definedType s [.type (.ref (String.ofList (c :: u)))] (skipWs rest) := act_yields hor rfl
  have hrf : Yields referencedType s [.type (.ref (String.ofList (c :: u)))] (skipWs rest) := or_one hd
  refine ⟨?_, hrf⟩
  obtain ⟨r, a1, -⟩ := hrf
  obtain ⟨p, hp, h⟩ := or_scan a1
  rw [List.mem_singleton.1 hp] at h
  have h' : (or [seqs [modulereference, lit ".", typereference], typereference]).scan (skipWs s) = some r := h
  obtain ⟨q, hq, h3⟩ := or_scan h'
  simp only [List.mem_cons, List.not_mem_nil, or_false] at hq
  rw [skipWs_idem] at h3
  rcases hq with rfl | rfl
  · rw [(Rejects.skip.2 hx).1] at h3; cases h3
  · have : typereference.scan (skipWs s) = typereference.scan s := (inferInstance : Tidy typereference).scan_skip s
    rw [this, h1] at h3
    rw [a1, ← h3]

/-- Nothing matches farther than a word up to the white space behind it. -/
theorem ties_word {p : P} {u rest R : List Char} {c : Char} (hs : s = u ++ c :: rest) (hc : isWs c = false)
    (hscan : p.scan s = some rest) (hR : skipWs rest = R) : Ties p s R := by
  intro r hr r0 h0 e
  rw [hscan] at hr; cases hr
  by_cases hl : r0.length ≤ rest.length
  · exact hl
  · have hsuf : c :: rest <:+ r0 := by
      have h1 : c :: rest <:+ s := ⟨u, hs.symm⟩
      exact suffix_of_le h1 h0 (by simp; omega)
    have := skipWs_mono hsuf
    rw [skipWs_cons hc, e, ← hR] at this
    have h3 := (skipWs_suffix rest).length_le
    simp only [List.length_cons] at this
    omega

theorem reference_reads {n : String} {X : List String} (h : Laid (n :: X) s) (hn : UpperName n) (he : Ends n)
    (hX : First.avoids { cs := ['.'] } X = true) :
    Reads referencedType s X [.type (.ref n)] (after n s) ∧ Ties referencedType s (after n s) := by
  obtain ⟨c, u, hc, hu⟩ := hn.2
  have hlast := last_alnum hn.1 (by simp [hc]) he
  obtain ⟨w, e, hw, hb⟩ := split_word h hlast
  have hl := laid_after h
  have hbody := isBody_word hn.1
  have hdot : Rejects (lit ".") (skipWs (w ++ after n s)) := by
    rw [skipWs_append hw, laid_skip hl]
    refine rejects_avoid hl ?_
    cases X <;> exact hX
  rw [hc] at e
  obtain ⟨h1, h2⟩ := referenced_scan e hu (fun d hd => hbody d (by simp [hc, hd])) hb hdot
  have e2 : skipWs (w ++ after n s) = after n s := by rw [skipWs_append hw, laid_skip hl]
  rw [e2, ← hc, String.ofList_toList] at h2
  refine ⟨⟨hl, after_lt h (by simp [hc]), h2⟩, ?_⟩
  have hne : n.toList ≠ [] := by simp [hc]
  have hsplit := List.dropLast_concat_getLast hne
  refine ties_word (u := n.toList.dropLast) (c := n.toList.getLast hne) (rest := w ++ after n s) ?_ ?_ h1 e2
  · conv => lhs; rw [e, ← hc, ← hsplit]
    simp
  · exact isWs_body (hbody _ (List.getLast_mem hne))

/-- The first word of an item with a space in it is a reference that does not reach far. -/
theorem reference_word {l u v : String} {X : List String} (h : Laid (l :: X) s) (hl : l.toList = u.toList ++ v.toList)
    (hu : UpperName u) (hv : ∃ d r, v.toList = ' ' :: d :: r ∧ isWs d = false ∧ d ≠ '.') :
    ∃ R', Yields referencedType s [.type (.ref u)] R' ∧ (after l s).length < R'.length := by
  obtain ⟨c, u', hc, hcu⟩ := hu.2
  obtain ⟨w, e, hw, -, -⟩ := laid_split h
  obtain ⟨d, r, hv1, hv2, hv3⟩ := hv
  have hbody := isBody_word hu.1
  have e1 : s = c :: u' ++ (' ' :: d :: (r ++ (w ++ after l s))) := by
    conv => lhs; rw [e, hl, hc, hv1]
    simp
  have e2 : skipWs (' ' :: d :: (r ++ (w ++ after l s))) = d :: (r ++ (w ++ after l s)) := by
    have := skipWs_append (w := [' ']) (by decide) (d :: (r ++ (w ++ after l s)))
    rw [List.cons_append, List.nil_append] at this
    rw [this, skipWs_cons hv2]
  have hdot : Rejects (lit ".") (skipWs (' ' :: d :: (r ++ (w ++ after l s)))) := by
    rw [e2]
    refine lit_rejects ?_
    rw [skipWs_cons hv2]
    simp [strip, Ne.symm hv3]
  obtain ⟨-, h2⟩ := referenced_scan e1 hcu (fun x hx => hbody x (by simp [hc, hx]))
    (by intro x hx; simp only [List.head?_cons, Option.mem_def, Option.some.injEq] at hx; subst hx; decide) hdot
  rw [← hc, String.ofList_toList] at h2
  refine ⟨_, h2, ?_⟩
  rw [e2]
  simp; omega

end

/-! ## names that are not keywords -/

/-- Behind a keyword that the name starts with, the name goes on. -/
def Inner (p : P) (s rest : List Char) : Prop :=
  ∀ r, p.scan s = some r → ∃ c m, isBody c = true ∧ r = c :: m ++ rest

section
variable {n s rest : List Char}

theorem inner_lit {k : String} (hs : s = n ++ rest) (hn : ∀ c ∈ n, isBody c = true) (hne : n ≠ [])
    (hr : ∀ d ∈ rest.head?, isBody d = false) (hk : k.toList.takeWhile isBody ≠ n) : Inner (lit k) s rest := by
  intro r h
  have hws : skipWs s = s := by
    cases n with
    | nil => exact absurd rfl hne
    | cons c n => rw [hs]; exact skipWs_cons (isWs_body (hn c (by simp))) _
  simp only [lit, terminal, hws, Option.map_map, Option.map_eq_some_iff] at h
  obtain ⟨r', h, e⟩ := h
  have e : r' = r := by simpa using e
  subst e
  have hk' := strip_eq h
  rw [hs] at hk'
  rcases List.append_eq_append_iff.1 hk' with ⟨a, h1, h2⟩ | ⟨a, h1, h2⟩
  · -- the keyword is longer
    exfalso
    refine hk ?_
    rw [h1, List.takeWhile_append_of_pos hn]
    cases a with
    | nil => simp
    | cons d a =>
      have : isBody d = false := hr d (by rw [h2]; simp)
      simp [List.takeWhile_cons, this]
  · cases a with
    | nil =>
      exfalso
      refine hk ?_
      rw [List.append_nil] at h1
      rw [← h1]
      conv => lhs; rw [show n = n ++ [] by simp]
      rw [List.takeWhile_append_of_pos hn]; simp
    | cons d a => exact ⟨d, a, hn d (by simp [h1]), h2⟩

theorem inner_lit_none {k : String} (hs : s = n ++ rest) (hn : ∀ c ∈ n, isBody c = true) (hne : n ≠ [])
    (hr : ∀ d ∈ rest.head?, isBody d = false) (hk : k.toList.takeWhile isBody ≠ n) (ha : k.toList.all isBody = false) :
    (lit k).scan s = none := by
  cases h : (lit k).scan s with
  | none => rfl
  | some r =>
    exfalso
    obtain ⟨c, m, hc, rfl⟩ := inner_lit hs hn hne hr hk r h
    have hws : skipWs s = s := by
      cases n with
      | nil => exact absurd rfl hne
      | cons c n => rw [hs]; exact skipWs_cons (isWs_body (hn c (by simp))) _
    simp only [lit, terminal, hws, Option.map_map, Option.map_eq_some_iff] at h
    obtain ⟨r', h, e⟩ := h
    have e : r' = c :: m ++ rest := by simpa using e
    subst e
    have hk' := strip_eq h
    rw [hs, ← List.append_assoc] at hk'
    have := List.append_cancel_right hk'
    have hall : k.toList.all isBody = true := List.all_eq_true.2 fun d hd => hn d (by rw [this]; simp [hd])
    rw [ha] at hall; cases hall

theorem inner_seq {p q : P} {F : First} [Starts q F] (h : Inner p s rest)
    (hF : (!F.null && !F.up && !F.lo && !F.dig && F.cs.all fun c => !isBody c) = true := by decide) : (seq p q).scan s = none := by
  simp only [Bool.and_eq_true, Bool.not_eq_true', List.all_eq_true] at hF
  obtain ⟨⟨⟨⟨h1, h2⟩, h3⟩, h4⟩, h5⟩ := hF
  cases hp : p.scan s with
  | none => simp [seq, hp]
  | some r =>
    obtain ⟨c, m, hc, rfl⟩ := h r hp
    have : Rejects q (c :: m ++ rest) := by
      refine (inferInstance : Starts q F).rejects h1 _ fun d r e => ?_
      rw [List.cons_append, skipWs_cons (isWs_body hc)] at e
      cases e
      have : c ∉ F.cs := not_mem_of_kind h5 hc
      simp [First.has, h2, h3, h4, this]
    simp only [seq, hp, Option.bind_some]
    exact this.1

theorem inner_none {p : P} (h : p.scan s = none) : Inner p s rest := by intro r hr; rw [h] at hr; cases hr

theorem inner_or {ps : List P} [hs : TidyAll ps] (h : ∀ p ∈ ps, Inner p s rest) : Inner (or ps) s rest := by
  intro r hr
  obtain ⟨p, hp, h1⟩ := or_scan hr
  rw [(hs.all p hp).scan_skip] at h1
  exact h p hp r h1

theorem Inner.loses {p : P} {R : List Char} (h : Inner p s rest) (hR : R.length ≤ rest.length) : Loses p s R := by
  intro r hr
  obtain ⟨c, m, hc, rfl⟩ := h r hr
  rw [List.cons_append, skipWs_cons (isWs_body hc)]
  simp; omega

end

section
variable {T V : P} [Tidy T] [Tidy V] {s : List Char} {X : List String} {f : Nat}

/-- No type of the grammar matches a whole name that is not reserved. -/
theorem builtin_inner {n : String} (h : Laid (n :: X) s) (hn : TypeName n) :
    ∃ rest, (after n s).length ≤ rest.length ∧ Inner (builtinType T V) s rest ∧
      (∀ k : String, String.ofList (k.toList.takeWhile isBody) ∈ reservedWords → Inner (lit k) s rest) := by
  obtain ⟨hu, he, hres⟩ := hn
  obtain ⟨c, u, hc, hcu⟩ := hu.2
  obtain ⟨w, e, hw, hb⟩ := split_word h (last_alnum hu.1 (by simp [hc]) he)
  have hlit : ∀ k : String, String.ofList (k.toList.takeWhile isBody) ∈ reservedWords → Inner (lit k) s (w ++ after n s) := by
    intro k hk
    refine inner_lit e (isBody_word hu.1) (by simp [hc]) hb fun heq => hres ?_
    rw [heq, String.ofList_toList] at hk
    exact hk
  refine ⟨w ++ after n s, by simp, ?_, hlit⟩
  have hp : Rejects (prefixedType T) s := by
    refine rejects_at h ?_
    have : c ≠ '[' := by rintro rfl; exact absurd hcu (by decide)
    simp [First.skips, hc, First.has, this]
  refine inner_or ?_
  simp only [List.mem_cons, List.not_mem_nil, or_false, forall_eq_or_imp, forall_eq]
  refine ⟨?_, hlit "BOOLEAN" (by decide), ?_, ?_, hlit "DATE" (by decide), ?_, ?_, hlit "NULL" (by decide),
    hlit "OCTET STRING" (by decide), hlit "REAL" (by decide), ?_, ?_, inner_none hp.1⟩
  · refine inner_or (ps := [_, _]) ?_
    simp only [List.mem_cons, List.not_mem_nil, or_false, forall_eq_or_imp, forall_eq]
    exact ⟨hlit "BIT STRING" (by decide), inner_none (inner_seq (hlit "BIT STRING" (by decide)))⟩
  · refine inner_or ?_
    simp only [List.mem_cons, List.not_mem_nil, or_false, forall_eq]
    refine inner_or ?_
    simp only [List.mem_cons, List.not_mem_nil, or_false, forall_eq_or_imp, forall_eq]
    exact ⟨hlit "IA5String" (by decide), hlit "NumericString" (by decide), hlit "UTF8String" (by decide),
      hlit "VisibleString" (by decide)⟩
  · exact inner_none (inner_seq (hlit "CHOICE" (by decide)))
  · exact inner_none (inner_seq (hlit "ENUMERATED" (by decide)))
  · refine inner_or (ps := [_, _]) ?_
    simp only [List.mem_cons, List.not_mem_nil, or_false, forall_eq_or_imp, forall_eq]
    exact ⟨hlit "INTEGER" (by decide), inner_none (inner_seq (hlit "INTEGER" (by decide)))⟩
  · refine inner_or (ps := [_, _]) ?_
    simp only [List.mem_cons, List.not_mem_nil, or_false, forall_eq_or_imp, forall_eq]
    exact ⟨inner_none (inner_seq (hlit "SEQUENCE" (by decide))), inner_none (inner_seq (hlit "SEQUENCE" (by decide)))⟩
  · refine inner_or (ps := [_, _]) ?_
    simp only [List.mem_cons, List.not_mem_nil, or_false, forall_eq_or_imp, forall_eq]
    have : (lit "SEQUENCE OF").scan s = none :=
      inner_lit_none e (isBody_word hu.1) (by simp [hc]) hb (fun heq => hres (by
        rw [← String.ofList_toList (s := n), ← heq]; decide)) (by decide)
    exact ⟨inner_none (by simp [seq, this]), inner_none (by simp [seq, this])⟩

/-! ## types without members -/

theorem type_cases {m : Nat} {t : List Tok} {R : List Char}
    (h : Best s t R [(builtinType (type f m) (value f)).group, referencedType.group,
      (constrainedType (type f m) (value f) (constraint f)).group]) : Yields (type f (m + 1)) s t R := by
  rw [type]; exact or_yields h

theorem Loses.group {p : P} {R : List Char} (h : Loses p s R) : Loses p.group s R := h
theorem Ties.group {p : P} {R : List Char} (h : Ties p s R) : Ties p.group s R := h
theorem Ties.act {p : P} {R : List Char} {g : List Tok → Except PErr (List Tok)} (h : Ties p s R) : Ties (p.act g) s R := h
theorem Loses.act {p : P} {R : List Char} {g : List Tok → Except PErr (List Tok)} (h : Loses p s R) : Loses (p.act g) s R := h

theorem ref_reads {n : String} {m : Nat} (hn : TypeName n) (h : Laid (n :: X) s) (hX : Follow X) :
    Reads (type f (m + 1)) s X [.group [.type (.ref n)]] (after n s) := by
  obtain ⟨h1, -⟩ := reference_reads h hn.1 hn.2.1 hX.point
  obtain ⟨rest, hle, hb, hk⟩ := builtin_inner (T := type f m) (V := value f) h hn
  refine ⟨h1.laid, h1.less, type_cases (.there (hb.loses hle).group (.here (group_yields h1.yields) (rest_cons (.inl ?_) rest_nil)))⟩
  refine Ties.group (Ties.act (Loses.ties ?_))
  refine or_loses ?_
  simp only [List.mem_cons, List.not_mem_nil, or_false, forall_eq_or_imp, forall_eq]
  refine ⟨(inner_none (inner_seq hb)).loses hle, Loses.act (or_loses ?_)⟩
  simp only [List.mem_cons, List.not_mem_nil, or_false, forall_eq_or_imp, forall_eq]
  exact ⟨(inner_none (inner_seq (hk "SET" (by decide)))).loses hle, (inner_none (inner_seq (hk "SEQUENCE" (by decide)))).loses hle,
    (inner_none (inner_seq (hk "SET" (by decide)))).loses hle, (inner_none (inner_seq (hk "SEQUENCE" (by decide)))).loses hle⟩

theorem simpleItem_ne (k : Simple) : (simpleItem k).toList ≠ [] := by cases k <;> decide

theorem builtin_simple {k : Simple} (h : Laid (simpleItem k :: X) s) (hX : First.avoids { cs := ['{'] } X = true) :
    Reads (builtinType T V) s X [.type (.simple k none)] (after (simpleItem k) s) := by
  have h0 := lit_reads h (simpleItem_ne k)
  have hcurly : Rejects leftCurly (after (simpleItem k) s) := rejects_avoid h0.laid hX
  refine ⟨h0.laid, h0.less, or_yields ?_⟩
  cases k with
  | integer =>
    have h1 : Yields integerType s [.type (.simple .integer none)] (after "INTEGER" s) := by
      refine act_yields (t := [.str "INTEGER"]) (or_yields ?_) rfl
      exact .here h0.yields (rest_cons (.inl (seq_rejects' h0.yields (seq_rejects hcurly)).loses.ties) rest_nil)
    have r1 : Rejects characterStringType s := by
      refine or_rejects ?_
      simp only [List.mem_cons, List.not_mem_nil, or_false, forall_eq]
      refine or_rejects ?_
      simp only [List.mem_cons, List.not_mem_nil, or_false, forall_eq_or_imp, forall_eq]
      refine ⟨act_rejects (lit_clash h (by decide) (by decide)), ?_, ?_, ?_⟩ <;> rej h
    pick h1 at h
  | boolean =>
    have h1 : Yields ((lit "BOOLEAN").act (returns (.simple .boolean none))) s [.type (.simple .boolean none)]
        (after "BOOLEAN" s) := act_yields h0.yields rfl
    have r1 : Rejects bitStringType s := by
      have := lit_clash (k := "BIT STRING") h (by decide) (by decide)
      refine act_rejects (or_rejects ?_)
      simp only [List.mem_cons, List.not_mem_nil, or_false, forall_eq_or_imp, forall_eq]
      exact ⟨this, seq_rejects this⟩
    pick h1 at h
  | octetString =>
    have h1 : Yields ((lit "OCTET STRING").act (returns (.simple .octetString none))) s [.type (.simple .octetString none)]
        (after "OCTET STRING" s) := act_yields h0.yields rfl
    pick h1 at h
  | bitString =>
    have h1 : Yields bitStringType s [.type (.simple .bitString none)] (after "BIT STRING" s) := by
      refine act_yields (t := [.str "BIT STRING"]) (or_yields ?_) rfl
      exact .here h0.yields (rest_cons (.inl (seq_rejects' h0.yields (seq_rejects hcurly)).loses.ties) rest_nil)
    have r1 : Rejects ((lit "BOOLEAN").act (returns (.simple .boolean none))) s :=
      act_rejects (lit_clash h (by decide) (by decide))
    pick h1 at h

theorem simple_reference {k : Simple} (h : Laid (simpleItem k :: X) s) (hX : First.avoids { cs := ['.'] } X = true) :
    Ties referencedType s (after (simpleItem k) s) ∧
      ∃ t R', Yields referencedType s t R' ∧ (after (simpleItem k) s).length ≤ R'.length := by
  have one : ∀ l : String, UpperName l ∧ Ends l → Laid (l :: X) s → Ties referencedType s (after l s) ∧
      ∃ t R', Yields referencedType s t R' ∧ (after l s).length ≤ R'.length := fun l hl h =>
    have := reference_reads h hl.1 hl.2 hX
    ⟨this.2, _, _, this.1.yields, Nat.le_refl _⟩
  have two : ∀ l u v : String, l.toList = u.toList ++ v.toList → UpperName u →
      (∃ d r, v.toList = ' ' :: d :: r ∧ isWs d = false ∧ d ≠ '.') → Laid (l :: X) s →
      Ties referencedType s (after l s) ∧ ∃ t R', Yields referencedType s t R' ∧ (after l s).length ≤ R'.length :=
    fun l u v hl hu hv h =>
    have ⟨R', h1, h2⟩ := reference_word h hl hu hv
    ⟨(h1.loses h2).ties, _, _, h1, Nat.le_of_lt h2⟩
  cases k with
  | integer => exact one _ ⟨⟨by unfold Word; decide, 'I', _, rfl, by decide⟩, by unfold Ends; decide⟩ h
  | boolean => exact one _ ⟨⟨by unfold Word; decide, 'B', _, rfl, by decide⟩, by unfold Ends; decide⟩ h
  | octetString =>
    exact two _ "OCTET" " STRING" rfl ⟨by unfold Word; decide, 'O', _, rfl, by decide⟩ ⟨'S', _, rfl, by decide, by decide⟩ h
  | bitString =>
    exact two _ "BIT" " STRING" rfl ⟨by unfold Word; decide, 'B', _, rfl, by decide⟩ ⟨'S', _, rfl, by decide, by decide⟩ h

theorem simple_with {k : Simple} {C : P} [Tidy C] (h : Laid (simpleItem k :: X) s) : Rejects (typeWithConstraint T C) s := by
  cases k <;> exact rejects_at h

theorem simple_reads {k : Simple} {m : Nat} (h : Laid (simpleItem k :: X) s) (hX : Follow X) :
    Reads (type f (m + 1)) s X [.group [.type (.simple k none)]] (after (simpleItem k) s) := by
  have h0 := builtin_simple (T := type f m) (V := value f) h (avoids_mono (by decide) hX)
  have hw := simple_with (T := type f m) (C := constraint f) h
  refine ⟨h0.laid, h0.less, type_cases (.here (group_yields h0.yields) (rest_cons (.inl ?_) (rest_cons (.inl ?_) rest_nil)))⟩
  · exact (simple_reference h hX.point).1.group
  · refine Ties.group (Ties.act (Loses.ties (or_loses ?_)))
    simp only [List.mem_cons, List.not_mem_nil, or_false, forall_eq_or_imp, forall_eq]
    exact ⟨(seq_rejects' h0.yields (hX.rejects h0.laid)).loses, hw.loses⟩

theorem constrained_reads {k : Simple} {c : Con} {m : Nat} (hc : WritableCon c) (h : Laid (simpleItem k :: (conItems c ++ X)) s) :
    ∃ R t, c.tuple = .ok t ∧ Reads (type (f + 2) (m + 1)) s X [.group [.type (.simple k (some (CTuple.con t)))]] R := by
  obtain ⟨Y, hY⟩ : ∃ Y, conItems c = "(" :: Y := by cases c <;> exact ⟨_, rfl⟩
  have hX1 : First.avoids { cs := ['{'] } (conItems c ++ X) = true := by rw [hY]; rfl
  have hX2 : First.avoids { cs := ['.'] } (conItems c ++ X) = true := by rw [hY]; rfl
  have h0 := builtin_simple (T := type (f + 2) m) (V := value (f + 2)) h hX1
  have hw := simple_with (T := type (f + 2) m) (C := constraint (f + 2)) h
  obtain ⟨R, t, ht, hR⟩ := con_reads (f := f) hc h0.laid
  obtain ⟨-, tr, R', hr, hle⟩ := simple_reference h hX2
  have hall := h0.seq hR
  refine ⟨R, t, ht, hR.laid, hall.less, type_cases (.there ?_ (.there ?_ (.here (group_yields ?_) rest_nil)))⟩
  · exact (h0.yields.loses hR.less).group
  · exact (hr.loses (by have := hR.less; omega)).group
  · refine act_yields (or_yields (.here hall.yields (rest_cons (.inl hw.loses.ties) rest_nil))) ?_
    simp [parseConstrainedType, constrain]

end
end Verif.Parse
