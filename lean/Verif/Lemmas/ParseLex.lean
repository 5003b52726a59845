import Verif.Lemmas.ParseFirst
import Verif.SpecSchema
/-!
# Elements of the grammar on lexical items
-/
namespace Verif.Parse
open Verif.Spec

theorem isWs_iff {c : Char} : isWs c = true ↔ Blank c := by
  simp [isWs, Blank, or_assoc]

theorem isWs_body {c : Char} (h : isBody c = true) : isWs c = false := by
  cases hw : isWs c with
  | false => rfl
  | true =>
    rcases isWs_iff.1 hw with rfl | rfl | rfl | rfl <;> simp [isBody, nonBreakingHyphen] at h <;> exact absurd h (by decide)

/-! ## layout -/

theorem laid_skip {X : List String} {s : List Char} (h : Laid X s) : skipWs s = s := by
  cases X with
  | nil => rw [show s = [] from h]; rfl
  | cons l X =>
    cases s with
    | nil => rfl
    | cons c s =>
      refine skipWs_cons ?_ s
      cases hw : isWs c with
      | false => rfl
      | true => exact absurd (isWs_iff.1 hw) (h.1 c rfl)

/-- What is behind the first item. -/
def after (k : String) (s : List Char) : List Char := skipWs (s.drop k.toList.length)

theorem laid_split {k : String} {X : List String} {s : List Char} (h : Laid (k :: X) s) :
    ∃ w, s = k.toList ++ (w ++ after k s) ∧ (∀ c ∈ w, isWs c = true) ∧ (w = [] → ¬ Joins k (after k s)) ∧
      Laid X (after k s) := by
  obtain ⟨_, w, r, rfl, hw, hj, hl⟩ := h
  have hw' : ∀ c ∈ w, isWs c = true := fun c hc => isWs_iff.2 (hw c hc)
  have e : after k (k.toList ++ (w ++ r)) = r := by
    simp [after, List.drop_left, skipWs_append hw', laid_skip hl]
  rw [e]
  exact ⟨w, rfl, hw', hj, hl⟩

theorem laid_after {k : String} {X : List String} {s : List Char} (h : Laid (k :: X) s) : Laid X (after k s) := by
  obtain ⟨_, _, _, _, h⟩ := laid_split h
  exact h

theorem after_lt {k : String} {X : List String} {s : List Char} (h : Laid (k :: X) s) (hk : k.toList ≠ []) :
    (after k s).length < s.length := by
  obtain ⟨w, e, _⟩ := laid_split h
  have := congrArg List.length e
  simp only [List.length_append] at this
  have : 0 < k.toList.length := List.length_pos_iff.2 hk
  omega

/-- The element matches with these tokens and leaves the items `X`. -/
structure Reads (p : P) (s : List Char) (X : List String) (toks : List Tok) (R : List Char) : Prop where
  laid : Laid X R
  less : R.length < s.length
  yields : Yields p s toks R

theorem Reads.seq {p q : P} {s R1 R : List Char} {X Y : List String} {t u : List Tok} [Tidy q] (h1 : Reads p s Y t R1)
    (h2 : Reads q R1 X u R) : Reads (seq p q) s X (t ++ u) R :=
  ⟨h2.laid, by have := h1.less; have := h2.less; omega, seq_yields h1.yields h2.yields⟩

theorem Reads.seqs {p q : P} {ps : List P} {s R1 R : List Char} {X Y : List String} {t u : List Tok} [Tidy (seqs (q :: ps))]
    (h1 : Reads p s Y t R1) (h2 : Reads (seqs (q :: ps)) R1 X u R) : Reads (seqs (p :: q :: ps)) s X (t ++ u) R :=
  ⟨h2.laid, by have := h1.less; have := h2.less; omega, seqs_yields h1.yields h2.yields⟩

theorem Reads.act {p : P} {f : List Tok → Except PErr (List Tok)} {s R : List Char} {X : List String} {t u : List Tok}
    (h : Reads p s X t R) (hf : f t = .ok u) : Reads (p.act f) s X u R := ⟨h.laid, h.less, act_yields h.yields hf⟩

theorem Reads.drop {p : P} {s R : List Char} {X : List String} {t : List Tok}
    (h : Reads p s X t R) : Reads p.drop s X [] R := ⟨h.laid, h.less, drop_yields h.yields⟩

theorem Reads.group {p : P} {s R : List Char} {X : List String} {t : List Tok}
    (h : Reads p s X t R) : Reads p.group s X [.group t] R := ⟨h.laid, h.less, group_yields h.yields⟩

theorem Reads.one {p : P} {s R : List Char} {X : List String} {t : List Tok} [Tidy p]
    (h : Reads p s X t R) : Reads (or [p]) s X t R := ⟨h.laid, h.less, or_one h.yields⟩

theorem Reads.or {s R : List Char} {X : List String} {t : List Tok} {ps : List P} [TidyAll ps] (h : Best s t R ps)
    (hX : Laid X R) (hl : R.length < s.length) : Reads (or ps) s X t R := ⟨hX, hl, or_yields h⟩

/-! ## one item -/

theorem terminal_yields {m : List Char → Option (List Char × List Char)} {s t w R : List Char} (hs : skipWs s = s)
    (h : m s = some (t, w ++ R)) (hw : ∀ c ∈ w, isWs c = true) (hR : skipWs R = R) :
    Yields (terminal m) s [.str (String.ofList t)] R :=
  ⟨w ++ R, by simp [terminal, hs, h], by simp [terminal, hs, h], by rw [skipWs_append hw, hR]⟩

theorem lit_reads {k : String} {X : List String} {s : List Char} (h : Laid (k :: X) s) (hk : k.toList ≠ [] := by decide) :
    Reads (lit k) s X [.str k] (after k s) := by
  obtain ⟨w, e, hw, _, hl⟩ := laid_split h
  refine ⟨hl, after_lt h hk, ?_⟩
  have := terminal_yields (m := fun s => (strip k.toList s).map fun r => (k.toList, r)) (laid_skip h) (t := k.toList)
    (by conv => lhs; rw [e]
        rw [strip_append]; rfl) hw (laid_skip hl)
  rwa [String.ofList_toList] at this

theorem matchWord_eq {i b : Char → Bool} {c : Char} {l r : List Char} (hi : i c = true) (hb : ∀ d ∈ l, b d = true)
    (hr : ∀ d ∈ r.head?, b d = false) : matchWord i b (c :: l ++ r) = some (c :: l, r) := by
  have h1 : (l ++ r).takeWhile b = l := by
    rw [List.takeWhile_append_of_pos hb]
    cases r with
    | nil => simp
    | cons d r => simp [List.takeWhile_cons, hr d (by simp)]
  have h2 : (l ++ r).dropWhile b = r := by
    rw [List.dropWhile_append_of_pos hb]
    cases r with
    | nil => simp
    | cons d r => simp [List.dropWhile_cons, hr d (by simp)]
  simp [matchWord, hi, h1, h2]

/-- Behind a word there is something that does not continue it. -/
theorem split_word {n : String} {X : List String} {s : List Char} (h : Laid (n :: X) s)
    (hl : ∃ c, n.toList.getLast? = some c ∧ c.isAlphanum = true) :
    ∃ w, s = n.toList ++ (w ++ after n s) ∧ (∀ c ∈ w, isWs c = true) ∧ ∀ d ∈ (w ++ after n s).head?, isBody d = false := by
  obtain ⟨w, e, hw, hj, _⟩ := laid_split h
  refine ⟨w, e, hw, fun d hd => ?_⟩
  cases hb : isBody d with
  | false => rfl
  | true =>
    cases w with
    | cons c w =>
      simp only [List.cons_append, List.head?_cons, Option.mem_def, Option.some.injEq] at hd
      subst hd
      have := isWs_body hb
      rw [hw c (by simp)] at this
      cases this
    | nil =>
      refine absurd ⟨hl, d, by simpa using hd, ?_⟩ (hj rfl)
      simpa [isBody, nonBreakingHyphen, or_assoc] using hb

theorem word_reads {i b : Char → Bool} {n : String} {X : List String} {s : List Char} (h : Laid (n :: X) s)
    (hn : ∃ c r, n.toList = c :: r ∧ i c = true) (hb : ∀ c ∈ n.toList, b c = true) (hbody : ∀ c, b c = true → isBody c = true)
    (hl : ∃ c, n.toList.getLast? = some c ∧ c.isAlphanum = true) :
    Reads (word i b) s X [.str n] (after n s) := by
  obtain ⟨c, r, hc, hi⟩ := hn
  obtain ⟨w, e, hw, hd⟩ := split_word h hl
  refine ⟨laid_after h, after_lt h (by simp [hc]), ?_⟩
  have := terminal_yields (m := matchWord i b) (laid_skip h) (t := n.toList) (w := w) (R := after n s)
    (by
      conv => lhs; rw [e, hc]
      rw [hc]
      exact matchWord_eq hi (fun d hd' => hb d (by simp [hc, hd'])) (fun d hd' => by
        have := hd d hd'
        cases hbd : b d with
        | false => rfl
        | true => rw [hbody d hbd] at this; cases this)) hw (laid_skip (laid_after h))
  rwa [String.ofList_toList] at this

theorem isBody_word {s : String} (h : Word s) : ∀ c ∈ s.toList, isBody c = true := by
  intro c hc
  rcases h c hc with h | h <;> simp [isBody, h]

theorem last_alnum {s : String} (h : Word s) (hne : s.toList ≠ []) (he : Ends s) :
    ∃ c, s.toList.getLast? = some c ∧ c.isAlphanum = true := by
  have hlast := List.getLast?_eq_some_getLast hne
  refine ⟨_, hlast, ?_⟩
  rcases h _ (List.getLast_mem hne) with h | h
  · exact h
  · exact absurd (h ▸ hlast) he

theorem ident_reads {n : String} {X : List String} {s : List Char} (h : Laid (n :: X) s) (hn : ValueName n) :
    Reads identifier s X [.str n] (after n s) := by
  obtain ⟨⟨hw, c, r, hc, hl⟩, he⟩ := hn
  exact word_reads h ⟨c, r, hc, hl⟩ (isBody_word hw) (fun _ h => h) (last_alnum hw (by simp [hc]) he)

theorem typeref_reads {n : String} {X : List String} {s : List Char} (h : Laid (n :: X) s) (hn : UpperName n) (he : Ends n) :
    Reads typereference s X [.str n] (after n s) := by
  obtain ⟨hw, c, r, hc, hl⟩ := hn
  exact word_reads h ⟨c, r, hc, hl⟩ (isBody_word hw) (fun _ h => h) (last_alnum hw (by simp [hc]) he)

/-! ## keywords -/

/-- The keyword does not start with the word, nor the word with the keyword; or the keyword is longer. -/
def clash : List Char → List Char → Bool
  | [], _ => false
  | c :: _, [] => isBody c
  | a :: k, b :: l => a != b || clash k l

theorem strip_clash {r : List Char} (hr : ∀ d ∈ r.head?, isBody d = false) :
    ∀ {k l : List Char}, clash k l = true → strip k (l ++ r) = none
  | [], _, h => by simp [clash] at h
  | c :: k, [], h => by
    simp only [clash] at h
    cases r with
    | nil => rfl
    | cons d r =>
      have := hr d (by simp)
      simp only [List.nil_append, strip]
      rw [if_neg]
      rintro rfl
      rw [h] at this; cases this
  | a :: k, b :: l, h => by
    simp only [List.cons_append, strip]
    split
    · next e =>
      subst e
      exact strip_clash hr (by simpa [clash] using h)
    · rfl

theorem lit_rejects {k : String} {s : List Char} (h : strip k.toList (skipWs s) = none) : Rejects (lit k) s := by
  simp [Rejects, lit, terminal, h]

/-- A keyword where another word is. -/
theorem lit_clash {k l : String} {X : List String} {s : List Char} (h : Laid (l :: X) s)
    (hl : ∃ c, l.toList.getLast? = some c ∧ c.isAlphanum = true) (hc : clash k.toList l.toList = true) : Rejects (lit k) s := by
  obtain ⟨w, e, _, hd⟩ := split_word h hl
  refine lit_rejects ?_
  rw [laid_skip h, e]
  exact strip_clash hd hc

/-! ## items that do not fit -/

/-- The item starts with another character. -/
def First.skips (F : First) (l : String) : Bool :=
  !F.null && match l.toList with | c :: _ => !F.has c | [] => false

/-- The first item starts with another character. -/
def First.avoids (F : First) : List String → Bool
  | [] => !F.null
  | l :: _ => F.skips l

theorem laid_head {l : String} {X : List String} {s l' : List Char} {c : Char} (h : Laid (l :: X) s) (hc : l.toList = c :: l') :
    ∃ r, s = c :: r := by
  obtain ⟨w, e, _⟩ := laid_split h
  rw [hc] at e
  exact ⟨_, e⟩

theorem rejects_avoid {p : P} {F : First} [hp : Starts p F] {X : List String} {s : List Char} (h : Laid X s)
    (hc : F.avoids X = true) : Rejects p s := by
  cases X with
  | nil =>
    rw [show s = [] from h]
    refine hp.rejects (by simpa [First.avoids] using hc) _ fun c r e => ?_
    simp [skipWs] at e
  | cons l X =>
    simp only [First.avoids, First.skips, Bool.and_eq_true, Bool.not_eq_true'] at hc
    obtain ⟨hn, hc⟩ := hc
    cases hl : l.toList with
    | nil => simp [hl] at hc
    | cons c l' =>
      rw [hl] at hc
      obtain ⟨r, e⟩ := laid_head h hl
      refine hp.rejects hn _ fun d r' e' => ?_
      rw [laid_skip h, e] at e'
      cases e'
      simpa using hc

theorem rejects_at {p : P} {F : First} [hp : Starts p F] {l : String} {X : List String} {s : List Char} (h : Laid (l :: X) s)
    (hc : F.skips l = true := by decide) : Rejects p s := rejects_avoid h hc

theorem lower_kind {c : Char} (h : c.isLower = true) : c.isUpper = false ∧ c.isDigit = false := by
  simp only [Char.isLower, Char.isUpper, Char.isDigit, Bool.decide_and, Bool.and_eq_true, Bool.and_eq_false_iff, decide_eq_true_eq,
    decide_eq_false_iff_not, ge_iff_le, UInt32.le_iff_toNat_le, show 'a'.val.toNat = 97 from rfl, show 'z'.val.toNat = 122 from rfl,
    show 'A'.val.toNat = 65 from rfl, show 'Z'.val.toNat = 90 from rfl, show '0'.val.toNat = 48 from rfl,
    show '9'.val.toNat = 57 from rfl] at h ⊢
  omega

theorem upper_kind {c : Char} (h : c.isUpper = true) : c.isLower = false ∧ c.isDigit = false := by
  simp only [Char.isLower, Char.isUpper, Char.isDigit, Bool.decide_and, Bool.and_eq_true, Bool.and_eq_false_iff, decide_eq_true_eq,
    decide_eq_false_iff_not, ge_iff_le, UInt32.le_iff_toNat_le, show 'a'.val.toNat = 97 from rfl, show 'z'.val.toNat = 122 from rfl,
    show 'A'.val.toNat = 65 from rfl, show 'Z'.val.toNat = 90 from rfl, show '0'.val.toNat = 48 from rfl,
    show '9'.val.toNat = 57 from rfl] at h ⊢
  omega

theorem digit_kind {c : Char} (h : c.isDigit = true) : c.isLower = false ∧ c.isUpper = false := by
  simp only [Char.isLower, Char.isUpper, Char.isDigit, Bool.decide_and, Bool.and_eq_true, Bool.and_eq_false_iff, decide_eq_true_eq,
    decide_eq_false_iff_not, ge_iff_le, UInt32.le_iff_toNat_le, show 'a'.val.toNat = 97 from rfl, show 'z'.val.toNat = 122 from rfl,
    show 'A'.val.toNat = 65 from rfl, show 'Z'.val.toNat = 90 from rfl, show '0'.val.toNat = 48 from rfl,
    show '9'.val.toNat = 57 from rfl] at h ⊢
  omega

theorem not_mem_of_kind {cs : List Char} {k : Char → Bool} {c : Char} (h : ∀ x ∈ cs, k x = false) (hc : k c = true) : c ∉ cs :=
  fun hm => by rw [h c hm] at hc; cases hc

theorem skips_lower {F : First} {l : String} (hl : ∃ c r, l.toList = c :: r ∧ c.isLower = true)
    (hF : (!F.null && !F.lo && F.cs.all fun c => !c.isLower) = true := by decide) : F.skips l = true := by
  obtain ⟨c, r, e, hc⟩ := hl
  simp only [Bool.and_eq_true, Bool.not_eq_true', List.all_eq_true] at hF
  obtain ⟨⟨h1, h2⟩, h3⟩ := hF
  have hm := not_mem_of_kind (k := Char.isLower) h3 hc
  obtain ⟨k1, k2⟩ := lower_kind hc
  simp [First.skips, e, First.has, h1, h2, hm, k1, k2]

theorem skips_upper {F : First} {l : String} (hl : ∃ c r, l.toList = c :: r ∧ c.isUpper = true)
    (hF : (!F.null && !F.up && F.cs.all fun c => !c.isUpper) = true := by decide) : F.skips l = true := by
  obtain ⟨c, r, e, hc⟩ := hl
  simp only [Bool.and_eq_true, Bool.not_eq_true', List.all_eq_true] at hF
  obtain ⟨⟨h1, h2⟩, h3⟩ := hF
  have hm := not_mem_of_kind (k := Char.isUpper) h3 hc
  obtain ⟨k1, k2⟩ := upper_kind hc
  simp [First.skips, e, First.has, h1, h2, hm, k1, k2]

theorem skips_digit {F : First} {l : String} (hl : ∃ c r, l.toList = c :: r ∧ c.isDigit = true)
    (hF : (!F.null && !F.dig && F.cs.all fun c => !c.isDigit) = true := by decide) : F.skips l = true := by
  obtain ⟨c, r, e, hc⟩ := hl
  simp only [Bool.and_eq_true, Bool.not_eq_true', List.all_eq_true] at hF
  obtain ⟨⟨h1, h2⟩, h3⟩ := hF
  have hm := not_mem_of_kind (k := Char.isDigit) h3 hc
  obtain ⟨k1, k2⟩ := digit_kind hc
  simp [First.skips, e, First.has, h1, h2, hm, k1, k2]

end Verif.Parse
