import Verif.Lemmas.ParseFirst
import Verif.SpecText
/-!
# What a parsed schema consists of
-/
namespace Verif.Parse

open Spec (Word LowerName UpperName Worded WordedItems WordedComps WordedPres)

/-- No hyphen that Python does not know. -/
def Clean (s : List Char) : Prop := nonBreakingHyphen ∉ s

/-- What the element gives for such a text, and it leaves such a text. -/
def Gives (p : P) (Q : List Tok → Prop) : Prop := ∀ s t r, Clean s → p.run s = .ok (t, r) → Clean r ∧ Q t

theorem clean_skip {s : List Char} (h : Clean s) : Clean (skipWs s) := fun hm => h ((skipWs_suffix s).subset hm)

theorem Gives.mono {p : P} {Q R : List Tok → Prop} (h : Gives p Q) (hq : ∀ t, Q t → R t) : Gives p R :=
  fun s t r hs hr => ⟨(h s t r hs hr).1, hq _ (h s t r hs hr).2⟩

theorem gives_terminal {m : List Char → Option (List Char × List Char)} [hm : Splits m] {Q : List Tok → Prop}
    (h : ∀ s t r, Clean s → m s = some (t, r) → Q [.str (String.ofList t)]) : Gives (terminal m) Q := by
  intro s t r hs hr
  simp only [terminal] at hr
  split at hr
  · next t' r' e =>
    cases hr
    refine ⟨fun hn => clean_skip hs ?_, h _ _ _ (clean_skip hs) e⟩
    rw [hm.eq _ _ _ e]
    exact List.mem_append_right _ hn
  · cases hr

theorem gives_empty {Q : List Tok → Prop} (h : Q []) : Gives empty Q := by
  intro s t r hs hr
  cases hr
  exact ⟨clean_skip hs, h⟩

theorem gives_nothing {Q : List Tok → Prop} : Gives nothing Q := by intro s t r hs hr; cases hr

theorem gives_seq {p q : P} {A B Q : List Tok → Prop} (hp : Gives p A) (hq : Gives q B) (h : ∀ a b, A a → B b → Q (a ++ b)) :
    Gives (seq p q) Q := by
  intro s t r hs hr
  simp only [seq, bind, Except.bind] at hr
  split at hr
  · cases hr
  · next x h1 =>
    split at hr
    · cases hr
    · next y h2 =>
      cases hr
      obtain ⟨c1, a1⟩ := hp _ _ _ hs h1
      obtain ⟨c2, a2⟩ := hq _ _ _ c1 h2
      exact ⟨c2, h _ _ a1 a2⟩

theorem gives_tryEach {s : List Char} {Q : List Tok → Prop} (hs : Clean s) : ∀ (l : List (Nat × P)) (best : Option (List Tok × List Char)),
    (∀ x ∈ l, Gives x.2 Q) → (∀ b, best = some b → Clean b.2 ∧ Q b.1) → ∀ t r, tryEach s l best = .ok (t, r) → Clean r ∧ Q t
  | [], none, _, _, _, _, h => by cases h
  | [], some b, _, hb, _, _, h => by cases h; exact hb _ rfl
  | (n, p) :: cs, best, hl, hb, t, r, h => by
    unfold tryEach at h
    have ih := fun best hb => gives_tryEach hs cs best (fun x hx => hl x (List.mem_cons_of_mem _ hx)) hb t r
    split at h
    · split at h
      · cases h; exact hb _ rfl
      · cases h
    · split at h
      · exact ih _ hb h
      · cases h
      · next t' r' e =>
        have := hl _ List.mem_cons_self _ _ _ hs e
        split at h
        · cases h; exact this
        · split at h
          · exact ih _ (fun b hb => by cases hb; exact this) h
          · exact ih _ hb h

theorem gives_or {ps : List P} {Q : List Tok → Prop} (h : ∀ p ∈ ps, Gives p Q) : Gives (or ps) Q := by
  intro s t r hs hr
  refine gives_tryEach (clean_skip hs) _ _ (fun x hx => ?_) (fun b hb => by cases hb) t r hr
  exact h _ (mem_matching.1 (mem_sortBy.1 hx)).1

theorem gives_firstOf {Q : List Tok → Prop} : ∀ {ps : List P}, (∀ p ∈ ps, Gives p Q) → Gives (firstOf ps) Q
  | [], _ => gives_nothing
  | p :: ps, h => by
    intro s t r hs hr
    simp only [firstOf] at hr
    split at hr
    · exact gives_firstOf (fun q hq => h q (List.mem_cons_of_mem _ hq)) _ _ _ (clean_skip hs) hr
    · exact h p List.mem_cons_self _ _ _ (clean_skip hs) hr

/-- A property of lists of tokens that is kept when they are joined. -/
structure Joins (Q : List Tok → Prop) : Prop where
  nil : Q []
  append : ∀ a b, Q a → Q b → Q (a ++ b)

theorem gives_repeat {p : P} {Q : List Tok → Prop} (hq : Joins Q) (h : Gives p Q) : ∀ n s t r, Clean s →
    repeatRun p n s = .ok (t, r) → Clean r ∧ Q t
  | 0, s, t, r, hs, hr => by cases hr; exact ⟨hs, hq.nil⟩
  | n + 1, s, t, r, hs, hr => by
    rw [repeatRun] at hr
    split at hr
    · cases hr; exact ⟨hs, hq.nil⟩
    · cases hr
    · next t' r' e =>
      obtain ⟨c, a⟩ := h _ _ _ hs e
      simp only [bind, Except.bind] at hr
      split at hr
      · cases hr
      · next y e2 =>
        cases hr
        obtain ⟨c2, a2⟩ := gives_repeat hq h n _ _ _ c e2
        exact ⟨c2, hq.append _ _ a a2⟩

theorem gives_many {p : P} {Q : List Tok → Prop} (hq : Joins Q) (h : Gives p Q) : Gives (many p) Q :=
  fun _ _ _ hs hr => gives_repeat hq h _ _ _ _ (clean_skip hs) hr

theorem gives_many1 {p : P} {Q : List Tok → Prop} (hq : Joins Q) (h : Gives p Q) : Gives (many1 p) Q := by
  intro s t r hs hr
  simp only [many1, bind, Except.bind] at hr
  split at hr
  · cases hr
  · next x h1 =>
    split at hr
    · cases hr
    · next y h2 =>
      cases hr
      obtain ⟨c1, a1⟩ := h _ _ _ hs h1
      obtain ⟨c2, a2⟩ := gives_repeat hq h _ _ _ _ c1 h2
      exact ⟨c2, hq.append _ _ a1 a2⟩

theorem gives_opt {p : P} {Q : List Tok → Prop} (h0 : Q []) (h : Gives p Q) : Gives (opt p) Q := by
  intro s t r hs hr
  simp only [opt] at hr
  split at hr
  · cases hr; exact ⟨clean_skip hs, h0⟩
  · exact h _ _ _ (clean_skip hs) hr

theorem gives_act {p : P} {f : List Tok → Except PErr (List Tok)} {A Q : List Tok → Prop} (h : Gives p A)
    (hf : ∀ t u, A t → f t = .ok u → Q u) : Gives (p.act f) Q := by
  intro s t r hs hr
  simp only [P.act, bind, Except.bind] at hr
  split at hr
  · cases hr
  · next x h1 =>
    split at hr
    · cases hr
    · next u h2 =>
      cases hr
      obtain ⟨c, a⟩ := h _ _ _ hs h1
      exact ⟨c, hf _ _ a h2⟩

/-! ## tokens -/

/-- Text that starts like a name can be quoted; components have identifiers, and so on. -/
inductive Fine : Tok → Prop
  | str {s : String} : (isName s.toList = true → Spec.quotable s = true) → Fine (.str s)
  | group {l : List Tok} : (∀ t ∈ l, Fine t) → Fine (.group l)
  | type {t : TObj} : Worded t → Fine (.type t)
  | comp {id : String} {t : TObj} {p : Pres} : LowerName id → Worded t → WordedPres p → Fine (.comp id t p)
  | con {c : CTuple} : Fine (.con c)
  | assignType {n : String} {t : TObj} : UpperName n → Worded t → Fine (.assign (.type n t))
  | assignValue {n : String} {k : Simple} {l : Lit} : LowerName n → WordedPres (.default l) → Fine (.assign (.value n k l))
  | assignConstant {n m : String} {l : Lit} : LowerName n → WordedPres (.default l) → Fine (.assign (.constant n m l))

def AllFine (t : List Tok) : Prop := ∀ x ∈ t, Fine x

theorem allFine_joins : Joins AllFine :=
  ⟨fun _ h => (nomatch h), fun _ _ ha hb x hx => (List.mem_append.1 hx).elim (ha x) (hb x)⟩

class Neat (p : P) : Prop where
  gives : Gives p AllFine

class NeatAll (ps : List P) : Prop where
  all : ∀ p ∈ ps, Neat p

instance : NeatAll [] := ⟨fun _ h => nomatch h⟩
instance {p : P} {ps : List P} [h : Neat p] [hs : NeatAll ps] : NeatAll (p :: ps) :=
  ⟨fun q hq => by
    rcases List.mem_cons.1 hq with h' | h'
    · exact h' ▸ h
    · exact hs.all q h'⟩

instance : Neat empty := ⟨gives_empty allFine_joins.nil⟩
instance : Neat nothing := ⟨gives_nothing⟩
instance {p q : P} [hp : Neat p] [hq : Neat q] : Neat (seq p q) := ⟨gives_seq hp.gives hq.gives allFine_joins.append⟩
instance : Neat (seqs []) := by unfold seqs; infer_instance
instance {p : P} [Neat p] : Neat (seqs [p]) := by unfold seqs; infer_instance
instance {p q : P} {ps : List P} [Neat p] [Neat (seqs (q :: ps))] : Neat (seqs (p :: q :: ps)) := by
  unfold seqs; infer_instance
instance {ps : List P} [h : NeatAll ps] : Neat (or ps) := ⟨gives_or fun p hp => (h.all p hp).gives⟩
instance {ps : List P} [h : NeatAll ps] : Neat (firstOf ps) := ⟨gives_firstOf fun p hp => (h.all p hp).gives⟩
instance {p : P} [h : Neat p] : Neat (many p) := ⟨gives_many allFine_joins h.gives⟩
instance {p : P} [h : Neat p] : Neat (many1 p) := ⟨gives_many1 allFine_joins h.gives⟩
instance {p : P} [h : Neat p] : Neat (opt p) := ⟨gives_opt allFine_joins.nil h.gives⟩
instance {p : P} [h : Neat p] : Neat p.drop := ⟨gives_act h.gives fun t u _ e => by cases e; exact allFine_joins.nil⟩
instance {p : P} [h : Neat p] : Neat p.group :=
  ⟨gives_act h.gives fun t u ht e => by cases e; exact fun x hx => by rw [List.mem_singleton] at hx; exact hx ▸ .group ht⟩

theorem fine_one {x : Tok} (h : Fine x) : AllFine [x] := fun y hy => by rw [List.mem_singleton] at hy; exact hy ▸ h

/-! ## words -/

theorem quotable_char {c : Char} (h : isBody c = true) : c ≠ '\'' ∧ c ≠ '\\' ∧ ¬ c < ' ' := by
  refine ⟨by rintro rfl; exact absurd h (by decide), by rintro rfl; exact absurd h (by decide), fun hlt => ?_⟩
  have hv : c.val < 32 := hlt
  simp only [isBody, Bool.or_eq_true, beq_iff_eq] at h
  rcases h with (h | rfl) | rfl
  · simp only [Char.isAlphanum, Char.isAlpha, Char.isUpper, Char.isLower, Char.isDigit, Bool.or_eq_true, Bool.and_eq_true,
      decide_eq_true_eq, UInt32.le_iff_toNat_le] at h
    rw [UInt32.lt_iff_toNat_lt] at hv
    simp at hv h
    omega
  · exact absurd hlt (by decide)
  · exact absurd hlt (by decide)

theorem quotable_chars {l : List Char} (h : ∀ c ∈ l, isBody c = true) : Spec.quotable (String.ofList l) = true := by
  refine List.all_eq_true.2 fun c hc => ?_
  rw [String.toList_ofList] at hc
  obtain ⟨a, b, d⟩ := quotable_char (h c hc)
  simp [a, b, d]

theorem matchWord_some {i b : Char → Bool} {s t r : List Char} (h : matchWord i b s = some (t, r)) :
    ∃ c l, t = c :: l ∧ i c = true ∧ ∀ x ∈ l, b x = true := by
  cases s with
  | nil => cases h
  | cons c s =>
    simp only [matchWord] at h
    split at h
    · next hi =>
      cases h
      refine ⟨c, _, rfl, hi, fun x hx => ?_⟩
      exact List.all_eq_true.1 List.all_takeWhile x hx
    · cases h

theorem word_of {s t r : List Char} {i b : Char → Bool} (hs : Clean s) (h : matchWord i b s = some (t, r))
    (hi : ∀ c, i c = true → c.isAlphanum = true) (hb : ∀ c, b c = true → isBody c = true) : Word (String.ofList t) := by
  obtain ⟨c, l, rfl, hc, hl⟩ := matchWord_some h
  intro x hx
  rw [String.toList_ofList] at hx
  rcases List.mem_cons.1 hx with rfl | hx'
  · exact .inl (hi _ hc)
  · have h1 := hb _ (hl x hx')
    simp only [isBody, Bool.or_eq_true, beq_iff_eq] at h1
    rcases h1 with (h1 | h1) | h1
    · exact .inl h1
    · exact .inr h1
    · exfalso
      apply hs
      rw [(splits_word i b).eq _ _ _ h]
      exact List.mem_append_left _ (h1 ▸ hx)

theorem lower_alphanum {c : Char} (h : c.isLower = true) : c.isAlphanum = true := by simp [Char.isAlphanum, Char.isAlpha, h]
theorem upper_alphanum {c : Char} (h : c.isUpper = true) : c.isAlphanum = true := by simp [Char.isAlphanum, Char.isAlpha, h]

theorem fine_word {s : String} (h : Word s) : Fine (.str s) := by
  refine .str fun _ => ?_
  have := quotable_chars (l := s.toList) fun c hc => by
    rcases h c hc with h | h
    · simp [isBody, h]
    · simp [isBody, h]
  rwa [String.ofList_toList] at this

theorem gives_identifier : Gives identifier fun t => ∃ id, t = [.str id] ∧ LowerName id := by
  unfold identifier word
  refine gives_terminal fun s t r hs h => ⟨_, rfl, word_of hs h (fun c => lower_alphanum) (fun c h => h), ?_⟩
  obtain ⟨c, l, rfl, hc, _⟩ := matchWord_some h
  exact ⟨c, l, String.toList_ofList, hc⟩

theorem gives_typereference : Gives typereference fun t => ∃ n, t = [.str n] ∧ UpperName n := by
  unfold typereference word
  refine gives_terminal fun s t r hs h => ⟨_, rfl, word_of hs h (fun c => upper_alphanum) (fun c h => h), ?_⟩
  obtain ⟨c, l, rfl, hc, _⟩ := matchWord_some h
  exact ⟨c, l, String.toList_ofList, hc⟩

instance : Neat identifier :=
  ⟨gives_identifier.mono fun t h => by obtain ⟨id, rfl, h⟩ := h; exact fine_one (fine_word h.1)⟩
instance : Neat typereference :=
  ⟨gives_typereference.mono fun t h => by obtain ⟨id, rfl, h⟩ := h; exact fine_one (fine_word h.1)⟩
instance : Neat valuereference := by unfold valuereference; infer_instance
instance : Neat modulereference := by unfold modulereference; infer_instance

theorem fine_str {l : List Char} (h : ∀ c r, l = c :: r → c.isAlpha = false) : Fine (.str (String.ofList l)) := by
  refine .str fun hn => ?_
  rw [String.toList_ofList] at hn
  cases l with
  | nil => cases hn
  | cons c r => simp [isName, h c r rfl] at hn

theorem digit_alpha {c : Char} (h : c.isDigit = true) : c.isAlpha = false := by
  simp only [Char.isDigit, Bool.and_eq_true, decide_eq_true_eq, UInt32.le_iff_toNat_le] at h
  simp only [Char.isAlpha, Char.isUpper, Char.isLower, Bool.or_eq_false_iff, Bool.and_eq_false_iff, decide_eq_false_iff_not,
    UInt32.le_iff_toNat_le]
  simp at h ⊢
  omega

theorem gives_number : Gives number fun t => ∃ c l, t = [.str (String.ofList (c :: l))] ∧ c.isDigit = true := by
  unfold number
  refine gives_terminal fun s t r hs h => ?_
  obtain ⟨c, l, rfl, hc, _⟩ := matchWord_some h
  exact ⟨c, l, rfl, hc⟩

instance : Neat number :=
  ⟨gives_number.mono fun t h => by
    obtain ⟨c, l, rfl, hc⟩ := h
    exact fine_one (fine_str fun d r e => by cases e; exact digit_alpha hc)⟩

instance : Neat realnumber := ⟨by
  unfold realnumber
  refine gives_terminal fun s t r hs h => ?_
  unfold matchReal at h
  split at h
  · next a r1 h1 =>
    split at h
    · cases h
      obtain ⟨c, l, rfl, hc, _⟩ := matchWord_some h1
      exact fine_one (fine_str fun d r e => by cases e; exact digit_alpha hc)
    · cases h
  · cases h⟩

theorem neat_quoted {q : Char} {ok : Char → Bool} {tail : List Char} (hq : q.isAlpha = false) :
    Neat (terminal (matchQuoted q ok tail)) := ⟨by
  refine gives_terminal fun s t r hs h => ?_
  cases s with
  | nil => cases h
  | cons c s =>
    simp only [matchQuoted] at h
    split at h
    · next e =>
      rw [Option.map_eq_some_iff] at h
      obtain ⟨r', _, h⟩ := h
      cases h
      exact fine_one (fine_str fun d r e' => by cases e'; exact e ▸ hq)
    · cases h⟩

instance : Neat bstring := neat_quoted (by decide)
instance : Neat hstring := neat_quoted (by decide)
instance : Neat cstring := neat_quoted (by decide)

instance : Neat encodingreference := ⟨by
  unfold encodingreference word
  refine gives_terminal fun s t r hs h => fine_one (fine_word (word_of hs h (fun c => upper_alphanum) fun c h => ?_))
  simp only [Bool.or_eq_true, beq_iff_eq] at h
  rcases h with (h | h) | h
  · simp [isBody, upper_alphanum h]
  · simp [isBody, h]
  · simp [isBody, h]⟩

/-- Words of the language can be quoted. -/
theorem neat_lit {k : String} (h : Spec.quotable k = true) : Neat (lit k) := ⟨by
  unfold lit
  refine gives_terminal fun s t r hs e => ?_
  rw [Option.map_eq_some_iff] at e
  obtain ⟨r', _, e⟩ := e
  cases e
  rw [String.ofList_toList]
  exact fine_one (.str fun _ => h)⟩

theorem gives_lit (k : String) : Gives (lit k) fun t => t = [.str k] := by
  unfold lit
  refine gives_terminal fun s t r hs e => ?_
  rw [Option.map_eq_some_iff] at e
  obtain ⟨r', _, e⟩ := e
  cases e
  rw [String.ofList_toList]

/-! ## words of the language -/

instance : Neat (lit "{") := neat_lit (by decide)
instance : Neat (lit "}") := neat_lit (by decide)
instance : Neat (lit ",") := neat_lit (by decide)
instance : Neat (lit "(") := neat_lit (by decide)
instance : Neat (lit ")") := neat_lit (by decide)
instance : Neat (lit "-") := neat_lit (by decide)
instance : Neat (lit ".") := neat_lit (by decide)
instance : Neat (lit "PLUS-INFINITY") := neat_lit (by decide)
instance : Neat (lit "MINUS-INFINITY") := neat_lit (by decide)
instance : Neat (lit "NOT-A-NUMBER") := neat_lit (by decide)
instance : Neat (lit "CONTAINING") := neat_lit (by decide)
instance : Neat (lit "TRUE") := neat_lit (by decide)
instance : Neat (lit "FALSE") := neat_lit (by decide)
instance : Neat (lit "NULL") := neat_lit (by decide)
instance : Neat (lit "MAX") := neat_lit (by decide)
instance : Neat (lit "MIN") := neat_lit (by decide)
instance : Neat (lit "<") := neat_lit (by decide)
instance : Neat (lit "..") := neat_lit (by decide)
instance : Neat (lit "SIZE") := neat_lit (by decide)
instance : Neat (lit "^") := neat_lit (by decide)
instance : Neat (lit "INTERSECTION") := neat_lit (by decide)
instance : Neat (lit "|") := neat_lit (by decide)
instance : Neat (lit "UNION") := neat_lit (by decide)
instance : Neat (lit "EXCEPT") := neat_lit (by decide)
instance : Neat (lit "ALL") := neat_lit (by decide)
instance : Neat (lit "...") := neat_lit (by decide)
instance : Neat (lit "!") := neat_lit (by decide)
instance : Neat (lit ":") := neat_lit (by decide)
instance : Neat (lit "INTEGER") := neat_lit (by decide)
instance : Neat (lit "ENUMERATED") := neat_lit (by decide)
instance : Neat (lit "BIT STRING") := neat_lit (by decide)
instance : Neat (lit "OPTIONAL") := neat_lit (by decide)
instance : Neat (lit "DEFAULT") := neat_lit (by decide)
instance : Neat (lit "[[") := neat_lit (by decide)
instance : Neat (lit "]]") := neat_lit (by decide)
instance : Neat (lit "SEQUENCE") := neat_lit (by decide)
instance : Neat (lit "SEQUENCE OF") := neat_lit (by decide)
instance : Neat (lit "CHOICE") := neat_lit (by decide)
instance : Neat (lit "[") := neat_lit (by decide)
instance : Neat (lit "UNIVERSAL") := neat_lit (by decide)
instance : Neat (lit "APPLICATION") := neat_lit (by decide)
instance : Neat (lit "PRIVATE") := neat_lit (by decide)
instance : Neat (lit "]") := neat_lit (by decide)
instance : Neat (lit "IMPLICIT") := neat_lit (by decide)
instance : Neat (lit "EXPLICIT") := neat_lit (by decide)
instance : Neat (lit "IA5String") := neat_lit (by decide)
instance : Neat (lit "NumericString") := neat_lit (by decide)
instance : Neat (lit "UTF8String") := neat_lit (by decide)
instance : Neat (lit "VisibleString") := neat_lit (by decide)
instance : Neat (lit "BOOLEAN") := neat_lit (by decide)
instance : Neat (lit "DATE") := neat_lit (by decide)
instance : Neat (lit "OCTET STRING") := neat_lit (by decide)
instance : Neat (lit "REAL") := neat_lit (by decide)
instance : Neat (lit "SET") := neat_lit (by decide)
instance : Neat (lit "OF") := neat_lit (by decide)
instance : Neat (lit "::=") := neat_lit (by decide)
instance : Neat (lit "DEFINITIONS") := neat_lit (by decide)
instance : Neat (lit "AUTOMATIC TAGS") := neat_lit (by decide)
instance : Neat (lit "BEGIN") := neat_lit (by decide)
instance : Neat (lit "END") := neat_lit (by decide)
instance : Neat leftCurly := by unfold leftCurly; infer_instance
instance : Neat rightCurly := by unfold rightCurly; infer_instance
instance : Neat comma := by unfold comma; infer_instance
instance : Neat leftParen := by unfold leftParen; infer_instance
instance : Neat rightParen := by unfold rightParen; infer_instance

theorem texts_joined {l : List String} : texts (l.map .str) = some l := by
  induction l with
  | nil => rfl
  | cons s l ih => simp [texts, ih]

instance : Neat signedNumber := ⟨by
  unfold signedNumber
  refine gives_act (A := fun t => ∃ c l, (t = [.str (String.ofList (c :: l))] ∨ t = [.str "-", .str (String.ofList (c :: l))]) ∧
    c.isDigit = true) (gives_or fun p hp => ?_) ?_
  · rcases List.mem_cons.1 hp with rfl | hp
    · exact gives_number.mono fun t ⟨c, l, e, h⟩ => ⟨c, l, .inl e, h⟩
    · rw [List.mem_singleton] at hp
      subst hp
      refine gives_seq (gives_lit "-") gives_number fun a b ha ⟨c, l, hb, h⟩ => ⟨c, l, .inr ?_, h⟩
      rw [ha, hb]; rfl
  · rintro t u ⟨c, l, h | h, hc⟩ e
    · subst h
      unfold joined at e
      rw [show texts [.str (String.ofList (c :: l))] = some [String.ofList (c :: l)] from rfl] at e
      cases e
      refine fine_one (.str fun hn => ?_)
      have : (String.join [String.ofList (c :: l)]).toList = c :: l := by simp [String.join]
      rw [this] at hn
      simp [isName, digit_alpha hc] at hn
    · subst h
      unfold joined at e
      rw [show texts [.str "-", .str (String.ofList (c :: l))] = some ["-", String.ofList (c :: l)] from rfl] at e
      cases e
      refine fine_one (.str fun hn => ?_)
      have : (String.join ["-", String.ofList (c :: l)]).toList = '-' :: c :: l := by simp [String.join]
      rw [this] at hn
      exact absurd hn (by simp [isName])⟩
instance : Neat externalValueReference := by unfold externalValueReference; infer_instance
instance : Neat definedValue := by unfold definedValue; infer_instance
instance : Neat namedNumber := by unfold namedNumber; infer_instance
instance : Neat namedNumberList := by unfold namedNumberList; infer_instance
instance : Neat tuple := by unfold tuple; infer_instance
instance : Neat quadruple := by unfold quadruple; infer_instance
instance : Neat charsDefn := by unfold charsDefn; infer_instance
instance : Neat charSyms := by unfold charSyms; infer_instance
instance : Neat characterStringList := by unfold characterStringList; infer_instance
instance {V : P} [Neat V] : Neat (namedValue V) := by unfold namedValue; infer_instance
instance {V : P} [Neat V] : Neat (componentValueList V) := by unfold componentValueList; infer_instance
instance {V : P} [Neat V] : Neat (sequenceValue V) := by unfold sequenceValue; infer_instance
instance : Neat specialRealValue := by unfold specialRealValue; infer_instance
instance {V : P} [Neat V] : Neat (numericRealValue V) := by unfold numericRealValue; infer_instance
instance {V : P} [Neat V] : Neat (realValue V) := by unfold realValue; infer_instance
instance : Neat referencedValue := by unfold referencedValue; infer_instance
instance : Neat integerValue := by unfold integerValue; infer_instance
instance {V : P} [Neat V] : Neat (octetStringValue V) := by unfold octetStringValue; infer_instance
instance : Neat booleanValue := by unfold booleanValue; infer_instance
instance : Neat restrictedCharacterStringValue := by unfold restrictedCharacterStringValue; infer_instance
instance : Neat characterStringValue := by unfold characterStringValue; infer_instance
instance {V : P} [Neat V] : Neat (builtinValue V) := by unfold builtinValue; infer_instance
instance neat_value : ∀ n, Neat (value n)
  | 0 => by unfold value; infer_instance
  | n + 1 => by
    have := neat_value n
    unfold value; infer_instance


/-! ## parse actions -/

/-- A parse action that keeps tokens in order. -/
class FineAct (f : List Tok → Except PErr (List Tok)) : Prop where
  fine : ∀ t u, AllFine t → f t = .ok u → AllFine u

instance {p : P} {f : List Tok → Except PErr (List Tok)} [h : Neat p] [hf : FineAct f] : Neat (p.act f) :=
  ⟨gives_act h.gives hf.fine⟩

theorem fine_type {t : TObj} (h : Fine (.type t)) : Worded t := by cases h; assumption

theorem fine_group {l : List Tok} (h : Fine (.group l)) : AllFine l := by cases h; assumption

theorem typeIn_fine {x : Tok} {t : TObj} (h : Fine x) (e : typeIn (some x) = .ok t) : Worded t := by
  unfold typeIn at e
  split at e
  · next heq => cases heq; cases e; exact fine_type (fine_group h _ List.mem_cons_self)
  · cases e
  · cases e

theorem typeIn_index {l : List Tok} {i : Nat} {t : TObj} (h : AllFine l) (e : typeIn l[i]? = .ok t) : Worded t := by
  cases hx : l[i]? with
  | none => rw [hx] at e; cases e
  | some x => rw [hx] at e; exact typeIn_fine (h x (List.mem_of_getElem? hx)) e

theorem litOf_fine {s : String} {l : Lit} (h : Fine (.str s)) (e : litOf s = .ok l) : WordedPres (.default l) := by
  cases h with
  | str h =>
    unfold litOf at e
    repeat' split at e
    all_goals first
      | (cases e; exact trivial)
      | (cases e; exact h (by assumption))
      | cases e

instance (k : Simple) : FineAct (returns (.simple k none)) := ⟨fun _ _ _ e => by cases e; exact fine_one (.type trivial)⟩
instance : FineAct unmodelled := ⟨fun _ _ _ e => by cases e⟩
instance : FineAct parseDefinedType := ⟨fun t u _ e => by
  unfold parseDefinedType at e
  split at e
  · cases e; exact fine_one (.type trivial)
  · cases e⟩
instance : FineAct parseEnumeratedType := ⟨fun t u _ e => by
  unfold parseEnumeratedType at e
  simp only [bind, Except.bind] at e
  split at e
  · cases e
  · cases e; exact fine_one (.type trivial)⟩
instance : FineAct parseSequenceOfType := ⟨fun t u h e => by
  unfold parseSequenceOfType at e
  simp only [bind, Except.bind] at e
  split at e
  · cases e
  · next x hx => cases e; exact fine_one (.type (by rw [Worded]; exact typeIn_index h hx))⟩

mutual
theorem itemsOf_fine : ∀ (l : List Tok) {i : Items}, AllFine l → itemsOf l = .ok i → WordedItems i
  | [], i, _, e => by rw [itemsOf] at e; cases e; trivial
  | .comp id t p :: r, i, h, e => by
    rw [itemsOf] at e
    simp only [bind, Except.bind] at e
    split at e
    · cases e
    · next is he =>
      cases e
      have hc := h _ List.mem_cons_self
      cases hc with
      | comp a b c => exact ⟨⟨a, b, c⟩, itemsOf_fine r (fun x hx => h x (List.mem_cons_of_mem _ hx)) he⟩
  | .str s :: r, i, h, e => by
    rw [itemsOf] at e
    simp only [bind, Except.bind] at e
    have hr : AllFine r := fun x hx => h x (List.mem_cons_of_mem _ hx)
    split at e
    · split at e
      · cases e
      · next is he => cases e; rw [WordedItems]; exact itemsOf_fine r hr he
    · split at e
      · split at e
        · cases e
        · next x he => cases e; exact groupOf_fine r hr he
      · cases e
  | .group _ :: _, _, _, e => by simp [itemsOf] at e
  | .type _ :: _, _, _, e => by simp [itemsOf] at e
  | .con _ :: _, _, _, e => by simp [itemsOf] at e
  | .assign _ :: _, _, _, e => by simp [itemsOf] at e
theorem groupOf_fine : ∀ (l : List Tok) {x : Comps × Items}, AllFine l → groupOf l = .ok x → WordedComps x.1 ∧ WordedItems x.2
  | [], i, _, e => by simp [groupOf] at e
  | .comp id t p :: r, i, h, e => by
    rw [groupOf] at e
    simp only [bind, Except.bind] at e
    split at e
    · cases e
    · next is he =>
      cases e
      have hc := h _ List.mem_cons_self
      obtain ⟨a1, a2⟩ := groupOf_fine r (fun x hx => h x (List.mem_cons_of_mem _ hx)) he
      cases hc with
      | comp a b c => exact ⟨⟨⟨a, b, c⟩, a1⟩, a2⟩
  | .str s :: r, i, h, e => by
    rw [groupOf] at e
    simp only [bind, Except.bind] at e
    have hr : AllFine r := fun x hx => h x (List.mem_cons_of_mem _ hx)
    split at e
    · split at e
      · cases e
      · next is he => cases e; exact ⟨trivial, itemsOf_fine r hr he⟩
    · cases e
  | .group _ :: _, _, _, e => by simp [groupOf] at e
  | .type _ :: _, _, _, e => by simp [groupOf] at e
  | .con _ :: _, _, _, e => by simp [groupOf] at e
  | .assign _ :: _, _, _, e => by simp [groupOf] at e
end

instance : FineAct parseSequenceType := ⟨fun t u h e => by
  unfold parseSequenceType at e
  simp only [bind, Except.bind] at e
  split at e
  · cases e
  · next x hx => cases e; exact fine_one (.type (by rw [Worded]; exact itemsOf_fine _ (fun x hx => h x (List.mem_of_mem_tail hx)) hx))⟩
instance : FineAct parseChoiceType := ⟨fun t u h e => by
  unfold parseChoiceType at e
  simp only [bind, Except.bind] at e
  split at e
  · cases e
  · next x hx => cases e; exact fine_one (.type (by rw [Worded]; exact itemsOf_fine _ (fun x hx => h x (List.mem_of_mem_tail hx)) hx))⟩

/-! ## types -/

/-- A type is one token. -/
class Boxed (p : P) : Prop where
  gives : Gives p fun t => ∃ l, t = [.group l] ∧ AllFine l

instance {p : P} [h : Boxed p] : Neat p := ⟨h.gives.mono fun t ht => by obtain ⟨l, rfl, h⟩ := ht; exact fine_one (.group h)⟩
instance {p : P} [h : Neat p] : Boxed p.group := ⟨gives_act h.gives fun t u ht e => by cases e; exact ⟨t, rfl, ht⟩⟩

instance : Neat definedType := by unfold definedType; infer_instance
instance : Neat referencedType := by unfold referencedType; infer_instance
instance {T V : P} [Boxed T] [Neat V] : Neat (exceptionSpec T V) := by unfold exceptionSpec; infer_instance

/-- Identifiers and types in turn. -/
inductive Paired : List Tok → Prop
  | nil : Paired []
  | cons {id : String} {l t : List Tok} : LowerName id → AllFine l → Paired t → Paired (.str id :: .group l :: t)

theorem paired_joins : Joins Paired :=
  ⟨.nil, fun a b ha hb => by
    induction ha with
    | nil => exact hb
    | cons h1 h2 _ ih => exact .cons h1 h2 ih⟩

theorem Paired.fine {t : List Tok} (h : Paired t) : AllFine t := by
  induction h with
  | nil => exact allFine_joins.nil
  | cons h1 h2 _ ih =>
    intro x hx
    rcases List.mem_cons.1 hx with rfl | hx
    · exact fine_word h1.1
    · rcases List.mem_cons.1 hx with rfl | hx
      · exact .group h2
      · exact ih x hx

theorem gives_namedType {T : P} [h : Boxed T] : Gives (namedType T) fun t => ∃ id l, t = [.str id, .group l] ∧ LowerName id ∧ AllFine l := by
  unfold namedType
  refine gives_seq gives_identifier h.gives fun a b ha hb => ?_
  obtain ⟨id, rfl, h1⟩ := ha
  obtain ⟨l, rfl, h2⟩ := hb
  exact ⟨id, l, rfl, h1, h2⟩

theorem paired_namedType {T : P} [h : Boxed T] : Gives (namedType T) Paired :=
  gives_namedType.mono fun t ht => by obtain ⟨id, l, rfl, h1, h2⟩ := ht; exact .cons h1 h2 .nil

instance {T : P} [Boxed T] : Neat (namedType T) := ⟨paired_namedType.mono fun _ h => h.fine⟩
instance : Neat integerType := by unfold integerType; infer_instance
instance : Neat enumerationItem := by unfold enumerationItem; infer_instance
instance : Neat enumeration := by unfold enumeration; infer_instance
instance {T V : P} [Boxed T] [Neat V] : Neat (enumerations T V) := by unfold enumerations; infer_instance
instance {T V : P} [Boxed T] [Neat V] : Neat (enumeratedType T V) := by unfold enumeratedType; infer_instance
instance : Neat namedBit := by unfold namedBit; infer_instance
instance : Neat namedBitList := by unfold namedBitList; infer_instance
instance : Neat bitStringType := by unfold bitStringType; infer_instance
instance : Neat versionNumber := by unfold versionNumber; infer_instance
instance {T V : P} [Boxed T] [Neat V] : Neat (extensionAndException T V) := by unfold extensionAndException; infer_instance
instance : Neat optionalExtensionMarker := by unfold optionalExtensionMarker; infer_instance

theorem component_fine {id : String} {t u : List Tok} (hi : LowerName id) (h : AllFine t)
    (e : parseComponentType (.str id :: t) = .ok u) : AllFine u := by
  unfold parseComponentType at e
  split at e
  · next id' ty rest heq =>
    cases heq
    simp only [bind, Except.bind] at e
    split at e
    · cases e
    · next x hx =>
      have hx := typeIn_fine (h _ List.mem_cons_self) hx
      split at e
      · cases e; exact fine_one (.comp hi hx trivial)
      · next k r =>
        split at e
        · cases e; exact fine_one (.comp hi hx trivial)
        · split at e
          · split at e
            · cases e; exact fine_one (.comp hi hx trivial)
            · next v _ =>
              split at e
              · cases e
              · next l hl =>
                cases e
                exact fine_one (.comp hi hx (litOf_fine (h _ (List.mem_cons_of_mem _ (List.mem_cons_of_mem _ List.mem_cons_self))) hl))
            · cases e
          · cases e; exact fine_one (.comp hi hx trivial)
      · cases e; exact fine_one (.comp hi hx trivial)
  · cases e

instance {T V : P} [hT : Boxed T] [hV : Neat V] : Neat (componentType T V) := ⟨by
  unfold componentType
  have key : ∀ p, Neat p → Gives (seq (namedType T) p) fun t => ∃ id r, t = .str id :: r ∧ LowerName id ∧ AllFine r := by
    intro p hp
    refine gives_seq gives_namedType hp.gives fun a b ha hb => ?_
    obtain ⟨id, l, rfl, h1, h2⟩ := ha
    refine ⟨id, .group l :: b, rfl, h1, fun x hx => ?_⟩
    rcases List.mem_cons.1 hx with rfl | hx
    · exact .group h2
    · exact hb x hx
  refine gives_act (A := fun t => ∃ id r, t = .str id :: r ∧ LowerName id ∧ AllFine r) (gives_or fun p hp => ?_) ?_
  · rcases List.mem_cons.1 hp with rfl | hp
    · refine gives_namedType.mono fun t ht => ?_
      obtain ⟨id, l, rfl, h1, h2⟩ := ht
      exact ⟨id, [.group l], rfl, h1, fine_one (.group h2)⟩
    · rcases List.mem_cons.1 hp with rfl | hp
      · exact key _ inferInstance
      · rw [List.mem_singleton] at hp
        subst hp
        exact key (seqs [lit "DEFAULT", V]) inferInstance
  · rintro t u ⟨id, r, rfl, h1, h2⟩ e
    exact component_fine h1 h2 e⟩
instance {T V : P} [Boxed T] [Neat V] : Neat (componentTypeList T V) := by unfold componentTypeList; infer_instance
instance {T V : P} [Boxed T] [Neat V] : Neat (extensionAdditionGroup T V) := by unfold extensionAdditionGroup; infer_instance
instance {T V : P} [Boxed T] [Neat V] : Neat (extensionAddition T V) := by unfold extensionAddition; infer_instance
instance {T V : P} [Boxed T] [Neat V] : Neat (extensionAdditionList T V) := by unfold extensionAdditionList; infer_instance
instance {T V : P} [Boxed T] [Neat V] : Neat (extensionAdditions T V) := by unfold extensionAdditions; infer_instance
instance {T V : P} [Boxed T] [Neat V] : Neat (componentTypeLists T V) := by unfold componentTypeLists; infer_instance
instance {T V : P} [Boxed T] [Neat V] : Neat (sequenceType T V) := by unfold sequenceType; infer_instance
instance {T : P} [Boxed T] : Neat (sequenceOfType T) := by unfold sequenceOfType; infer_instance

theorem pairs_fine {t : List Tok} (h : Paired t) : ∀ {u : List Tok}, pairs t = .ok u → AllFine u := by
  induction h with
  | nil => intro u e; rw [pairs] at e; cases e; exact allFine_joins.nil
  | cons h1 h2 _ ih =>
    intro u e
    rw [pairs] at e
    simp only [bind, Except.bind] at e
    split at e
    · cases e
    · next x hx =>
      split at e
      · cases e
      · next y hy =>
        cases e
        intro z hz
        rcases List.mem_cons.1 hz with rfl | hz
        · exact .comp h1 (typeIn_fine (.group h2) hx) trivial
        · exact ih hy z hz

theorem paired_types {T : P} [Boxed T] : Gives (or [seq (namedType T) (many (seq comma (namedType T)))]) Paired := by
  refine gives_or fun p hp => ?_
  rw [List.mem_singleton] at hp
  subst hp
  refine gives_seq paired_namedType (gives_many paired_joins ?_) paired_joins.append
  have hc : Gives comma fun t => t = [] := by
    unfold comma P.drop
    exact gives_act (gives_lit ",") fun t u _ e => by cases e; rfl
  refine gives_seq hc paired_namedType ?_
  rintro a b rfl hb
  exact hb

instance {T : P} [Boxed T] : Neat (alternativeTypeList T) := ⟨gives_act paired_types fun _ _ h e => pairs_fine h e⟩

theorem lower_ne {id k : String} (h : LowerName id) (hk : ∀ c r, k.toList = c :: r → c.isLower = false) (hk0 : k.toList ≠ []) :
    (id == k) = false := by
  rw [beq_eq_false_iff_ne]
  rintro rfl
  obtain ⟨_, c, r, e, hc⟩ := h
  rw [hk c r e] at hc
  cases hc

theorem paired_is {t : List Tok} (h : Paired t) {k : String} (hk : ∀ id, LowerName id → (id == k) = false) :
    t.any (Tok.is k) = false ∧ ∀ r, removeFirst k (t ++ .str k :: r) = t ++ r := by
  induction h with
  | nil => exact ⟨rfl, fun r => by simp [removeFirst, Tok.is]⟩
  | cons h1 _ _ ih => exact ⟨by simp [Tok.is, hk _ h1, ih.1], fun r => by simp [removeFirst, Tok.is, hk _ h1, ih.2]⟩

theorem lower_brackets {id : String} (h : LowerName id) : (id == "[[") = false ∧ (id == "]]") = false :=
  ⟨lower_ne h (fun c r e => by cases e; rfl) (by decide), lower_ne h (fun c r e => by cases e; rfl) (by decide)⟩

instance {T : P} [Boxed T] : Neat (additionAlternative T) := ⟨by
  unfold additionAlternative
  refine gives_act (A := fun t => Paired t ∨ ∃ v t', t = .str "[[" :: (v ++ (t' ++ [.str "]]"])) ∧ Paired t' ∧
    (v = [] ∨ ∃ c l, v = [.str (String.ofList (c :: l)), .str ":"] ∧ c.isDigit = true)) (gives_or fun p hp => ?_) ?_
  · rcases List.mem_cons.1 hp with rfl | hp
    · unfold additionAlternativesGroup
      refine gives_seq (gives_lit "[[") (gives_seq (A := fun v => v = [] ∨ ∃ c l, v = [.str (String.ofList (c :: l)), .str ":"] ∧ c.isDigit = true)
        (Q := fun t => ∃ v t', t = v ++ (t' ++ [.str "]]"]) ∧ Paired t' ∧
          (v = [] ∨ ∃ c l, v = [.str (String.ofList (c :: l)), .str ":"] ∧ c.isDigit = true)) ?_
        (gives_seq (Q := fun t => ∃ t', t = t' ++ [.str "]]"] ∧ Paired t') paired_types (gives_lit "]]") ?_) ?_) ?_
      · refine gives_or fun p hp => ?_
        rcases List.mem_cons.1 hp with rfl | hp
        · exact gives_empty (.inl rfl)
        · rw [List.mem_singleton] at hp
          subst hp
          refine gives_seq gives_number (gives_lit ":") fun a b ⟨c, l, ha, hc⟩ hb => .inr ⟨c, l, ?_, hc⟩
          rw [ha, hb]; rfl
      · rintro a b ha rfl; exact ⟨a, rfl, ha⟩
      · rintro a b ha ⟨t', rfl, h⟩; exact ⟨a, t', rfl, h, ha⟩
      · rintro a b rfl ⟨v, t', rfl, h1, h2⟩; exact .inr ⟨v, t', rfl, h1, h2⟩
    · rw [List.mem_singleton] at hp
      subst hp
      exact paired_namedType.mono fun _ => .inl
  · rintro t u (h | ⟨v, t', rfl, h, hv⟩) e
    · unfold parseAdditions at e
      rw [(paired_is h fun id hi => (lower_brackets hi).1).1] at e
      exact pairs_fine h e
    · unfold parseAdditions at e
      have h1 : (Tok.str "[[" :: (v ++ (t' ++ [Tok.str "]]"]))).any (Tok.is "[[") = true := by simp [Tok.is]
      rw [h1] at e
      simp only [if_true, bind, Except.bind] at e
      rw [show removeFirst "[[" (Tok.str "[[" :: (v ++ (t' ++ [Tok.str "]]"]))) = v ++ (t' ++ [Tok.str "]]"]) by
        simp [removeFirst, Tok.is]] at e
      rcases hv with rfl | ⟨c, l, rfl, hc⟩
      · rw [List.nil_append, (paired_is h fun id hi => (lower_brackets hi).2).2, List.append_nil] at e
        split at e
        · cases e
        · next y hy =>
          cases e
          intro z hz
          rcases List.mem_cons.1 hz with rfl | hz
          · exact .str fun _ => by decide
          · rcases List.mem_append.1 hz with hz | hz
            · exact pairs_fine h hy z hz
            · rw [List.mem_singleton] at hz; subst hz; exact .str fun _ => by decide
      · have hn : (String.ofList (c :: l) == "]]") = false := by
          rw [beq_eq_false_iff_ne]
          intro h
          have := congrArg String.toList h
          rw [String.toList_ofList] at this
          have := (List.cons.inj this).1
          subst this
          cases hc
        simp only [List.cons_append, List.nil_append, removeFirst, Tok.is, hn, Bool.false_eq_true, if_false,
          show (":" == "]]") = false from by decide, pairs, typeIn, bind, Except.bind] at e
        cases e⟩
instance {T : P} [Boxed T] : Neat (additionAlternativesList T) := by unfold additionAlternativesList; infer_instance
instance {T : P} [Boxed T] : Neat (additionAlternatives T) := by unfold additionAlternatives; infer_instance
instance {T V : P} [Boxed T] [Neat V] : Neat (alternativeTypeLists T V) := by unfold alternativeTypeLists; infer_instance
instance {T V : P} [Boxed T] [Neat V] : Neat (choiceType T V) := by unfold choiceType; infer_instance
instance : Neat tag := by unfold tag; infer_instance
instance {T : P} [Boxed T] : Neat (taggedType T) := by unfold taggedType; infer_instance
instance {T : P} [Boxed T] : Neat (prefixedType T) := by unfold prefixedType; infer_instance
instance : Neat characterStringType := by unfold characterStringType; infer_instance
instance {T V : P} [Boxed T] [Neat V] : Neat (builtinType T V) := by unfold builtinType; infer_instance

/-! ## constraints -/

/-- What a constraint gives: ends, or text that was not understood. -/
def Loose (x : Tok) : Prop := (∃ c, x = .con c) ∨ ∃ s, x = .str s

theorem loose_joins : Joins fun t => ∀ x ∈ t, Loose x :=
  ⟨fun _ h => (nomatch h), fun _ _ ha hb x hx => (List.mem_append.1 hx).elim (ha x) (hb x)⟩

theorem loose_terminal {m : List Char → Option (List Char × List Char)} [Splits m] :
    Gives (terminal m) fun t => ∀ x ∈ t, Loose x :=
  gives_terminal fun s t r _ _ x hx => by rw [List.mem_singleton] at hx; exact .inr ⟨_, hx⟩

theorem loose_action {fuel : Nat} {l t u : List Tok} (hl : ∀ x ∈ l, Loose x) (e : parseConstraintAction fuel (.group l :: t) = .ok u) :
    ∀ x ∈ u, Loose x := by
  unfold parseConstraintAction at e
  simp only at e
  split at e
  · cases e
  · next y r =>
    split at e
    · split at e
      · next c _ =>
        cases e
        intro x hx
        rw [List.mem_singleton] at hx
        subst hx
        exact hl _ (List.mem_cons_of_mem _ List.mem_cons_self)
      · cases e
    · split at e
      · cases e
      · simp only [bind, Except.bind] at e
        repeat' split at e
        all_goals first
          | (cases e; intro x hx; rw [List.mem_singleton] at hx; exact .inl ⟨_, hx⟩)
          | cases e

theorem loose_nested {fuel : Nat} : ∀ n, Gives (nestedExpr (parseConstraintAction fuel) n) fun t => ∀ x ∈ t, Loose x
  | 0 => gives_nothing
  | n + 1 => by
    have ih := loose_nested (fuel := fuel) n
    unfold nestedExpr
    have hd : ∀ k : String, Gives (lit k).drop fun t => ∀ x ∈ t, Loose x := fun k =>
      gives_act (gives_lit k) fun t u _ e => by cases e; exact loose_joins.nil
    refine gives_act (A := fun t => ∃ l, t = [.group l] ∧ ∀ x ∈ l, Loose x)
      (gives_act (gives_seq (hd _) (gives_seq (gives_many loose_joins (gives_firstOf fun p hp => ?_)) (hd _)
        loose_joins.append) loose_joins.append) fun t u ht e => by cases e; exact ⟨t, rfl, ht⟩) ?_
    · rcases List.mem_cons.1 hp with rfl | hp
      · exact loose_terminal
      · rcases List.mem_cons.1 hp with rfl | hp
        · exact ih
        · rw [List.mem_singleton] at hp
          subst hp
          unfold content
          intro s t r hs hr
          simp only [terminal] at hr
          have hc := matchContent_eq (skipWs s)
          split at hr
          · next t' r' e =>
            cases hr
            split at e
            · cases e
            · next c t2 r2 e2 =>
              cases e
              rw [e2] at hc
              refine ⟨fun hn => clean_skip hs ?_, fun x hx => ?_⟩
              · rw [← hc]; exact List.mem_append_right _ hn
              · rw [List.mem_singleton] at hx; exact .inr ⟨_, hx⟩
          · cases hr
    · rintro t u ⟨l, rfl, hl⟩ e
      exact loose_action hl e

class Restricts (p : P) : Prop where
  gives : Gives p fun t => ∀ x ∈ t, Loose x

instance (fuel : Nat) : Restricts (constraint fuel) := ⟨loose_nested fuel⟩

/-- Types, also those in groups, are in order. -/
def Typed (x : Tok) : Prop := (∀ t, x = .type t → Worded t) ∧ ∀ t l, x = .group (.type t :: l) → Worded t

theorem Fine.typed {x : Tok} (h : Fine x) : Typed x :=
  ⟨fun t e => by subst e; exact fine_type h, fun t l e => by subst e; exact fine_type (fine_group h _ List.mem_cons_self)⟩

theorem Loose.typed {x : Tok} (h : Loose x) : Typed x := by
  rcases h with ⟨c, rfl⟩ | ⟨s, rfl⟩ <;> exact ⟨fun _ e => (by cases e), fun _ _ e => (by cases e)⟩

def AllTyped (t : List Tok) : Prop := ∀ x ∈ t, Typed x

theorem typed_append {a b : List Tok} (ha : AllTyped a) (hb : AllTyped b) : AllTyped (a ++ b) :=
  fun x hx => (List.mem_append.1 hx).elim (ha x) (hb x)

theorem Neat.typed {p : P} (h : Neat p) : Gives p AllTyped := h.gives.mono fun _ ht x hx => (ht x hx).typed
theorem Restricts.typed {p : P} (h : Restricts p) : Gives p AllTyped := h.gives.mono fun _ ht x hx => (ht x hx).typed

theorem typed_with {T C : P} [hT : Boxed T] [hC : Restricts C] : Gives (typeWithConstraint T C) AllTyped := by
  unfold typeWithConstraint
  have key : ∀ (k : String) (U : P), Neat (lit k) → Neat U → Gives (seqs [lit k, C, lit "OF", U]) AllTyped := by
    intro k U hk hU
    have h3 : Neat (seq (lit "OF") U) := inferInstance
    exact gives_seq hk.typed (gives_seq hC.typed h3.typed fun _ _ => typed_append) fun _ _ => typed_append
  refine gives_act (A := AllTyped) (gives_or fun p hp => ?_) ?_
  · simp only [List.mem_cons, List.not_mem_nil, or_false] at hp
    rcases hp with rfl | rfl | rfl | rfl <;> exact key _ _ inferInstance inferInstance
  · intro t u ht e
    unfold parseTypeWithConstraint at e
    split at e
    · next k c y ty r =>
      split at e
      · cases e
      · simp only [bind, Except.bind] at e
        split at e
        · cases e
        · next x hx =>
          cases e
          have hw : Worded x := by
            unfold typeIn at hx
            split at hx
            · next heq => cases heq; cases hx; exact (ht (.group (.type x :: _)) (by simp; exact .inr (.inr (.inl rfl)))).2 _ _ rfl
            · cases hx
            · cases hx
          intro z hz
          rcases List.mem_cons.1 hz with rfl | hz
          · exact (Fine.type (t := .seqOf none x) (by rw [Worded]; exact hw)).typed
          · rw [List.mem_singleton] at hz; subst hz; exact ht _ (by simp)
    · cases e

theorem worded_constrain {c : CTuple} {t : TObj} (h : Worded t) : Worded (constrain c t) := by
  cases t <;> exact h

instance {T V C : P} [hT : Boxed T] [hV : Neat V] [hC : Restricts C] : Neat (constrainedType T V C) := ⟨by
  unfold constrainedType
  refine gives_act (A := AllTyped) (gives_or fun p hp => ?_) ?_
  · rcases List.mem_cons.1 hp with rfl | hp
    · have hb : Neat (builtinType T V) := inferInstance
      exact gives_seq hb.typed hC.typed fun _ _ => typed_append
    · rw [List.mem_singleton] at hp
      subst hp
      exact typed_with
  · intro t u ht e
    unfold parseConstrainedType at e
    split at e
    · next x c r => cases e; exact fine_one (.type (worded_constrain ((ht _ List.mem_cons_self).1 _ rfl)))
    · cases e
    · cases e⟩

instance {T V C : P} [Boxed T] [Neat V] [Restricts C] : Boxed (typeBody T V C) := ⟨by
  unfold typeBody
  refine gives_or fun p hp => ?_
  simp only [List.mem_cons, List.not_mem_nil, or_false] at hp
  rcases hp with rfl | rfl | rfl <;> exact (inferInstance : Boxed (P.group _)).gives⟩

instance boxed_type (fuel : Nat) : ∀ n, Boxed (type fuel n)
  | 0 => ⟨gives_nothing⟩
  | n + 1 => by
    have := boxed_type fuel n
    unfold type; infer_instance

/-! ## assignments -/

instance {T V : P} [hT : Boxed T] [hV : Neat V] : Neat (valueAssignment T V) := ⟨by
  unfold valueAssignment
  have h3 : Neat (seqs [T, lit "::=", V]) := inferInstance
  refine gives_act (A := fun t => ∃ n r, t = .str n :: r ∧ LowerName n ∧ AllFine r)
    (gives_seq (q := seqs [T, lit "::=", V]) gives_identifier h3.gives ?_) ?_
  · rintro a b ⟨n, rfl, h1⟩ hb; exact ⟨n, b, rfl, h1, hb⟩
  · rintro t u ⟨n, r, rfl, h1, hr⟩ e
    unfold parseValueAssignment at e
    have hall : AllFine (.str n :: r) := fun x hx => by
      rcases List.mem_cons.1 hx with rfl | hx
      · exact fine_word h1.1
      · exact hr x hx
    split at e
    · next n' v hh hl =>
      cases hh
      have hv : Fine (.str v) := hall _ (List.mem_of_getLast? hl)
      simp only [bind, Except.bind] at e
      split at e
      · cases e
      · split at e
        · cases e
        · next l hl =>
          split at e
          · cases e; exact fine_one (.assignValue h1 (litOf_fine hv hl))
          · cases e; exact fine_one (.assignConstant h1 (litOf_fine hv hl))
          · cases e
    · cases e⟩

instance {T : P} [hT : Boxed T] : Neat (typeAssignment T) := ⟨by
  unfold typeAssignment
  have h3 : Neat (seqs [lit "::=", T]) := inferInstance
  refine gives_act (A := fun t => ∃ n r, t = .str n :: r ∧ UpperName n ∧ AllFine r)
    (gives_seq (q := seqs [lit "::=", T]) gives_typereference h3.gives ?_) ?_
  · rintro a b ⟨n, rfl, h1⟩ hb; exact ⟨n, b, rfl, h1, hb⟩
  · rintro t u ⟨n, r, rfl, h1, hr⟩ e
    unfold parseTypeAssignment at e
    have hall : AllFine (.str n :: r) := fun x hx => by
      rcases List.mem_cons.1 hx with rfl | hx
      · exact fine_word h1.1
      · exact hr x hx
    simp only [List.head?_cons, bind, Except.bind] at e
    split at e
    · cases e
    · next x hx => cases e; exact fine_one (.assignType h1 (typeIn_index hall hx))⟩
instance {T V : P} [Boxed T] [Neat V] : Neat (assignmentList T V) := by unfold assignmentList; infer_instance
instance {T V : P} [Boxed T] [Neat V] : Neat (moduleBodyDef T V) := by unfold moduleBodyDef; infer_instance
instance {T V : P} [Boxed T] [Neat V] : Neat (moduleDefinition T V) := by unfold moduleDefinition; infer_instance

/-! ## modules -/

theorem clean_tabs {s : List Char} (h : Clean s) : ∀ col : Nat, Clean (expandTabs col s) := by
  induction s with
  | nil => intro col hm; rw [expandTabs] at hm; cases hm
  | cons c s ih =>
    have ih := ih fun hm => h (List.mem_cons_of_mem _ hm)
    have hc : nonBreakingHyphen ≠ c := fun e => h (e ▸ List.mem_cons_self)
    intro col hm
    rw [expandTabs] at hm
    split at hm
    · rcases List.mem_append.1 hm with hm | hm
      · exact absurd (List.eq_of_mem_replicate hm) (by decide)
      · exact ih _ hm
    · split at hm
      all_goals
        rcases List.mem_cons.1 hm with hm | hm
        · exact hc hm
        · exact ih _ hm

theorem assigns_fine : ∀ {l : List Tok}, AllFine l → ∀ a ∈ assigns l, Fine (.assign a)
  | [], _, a, ha => by rw [assigns] at ha; cases ha
  | x :: r, h, a, ha => by
    have ih := assigns_fine (l := r) (fun x hx => h x (List.mem_cons_of_mem _ hx)) a
    cases x with
    | assign b =>
      rw [assigns] at ha
      rcases List.mem_cons.1 ha with rfl | ha
      · exact h _ List.mem_cons_self
      · exact ih ha
    | _ => simp only [assigns] at ha; exact ih ha

/-- Every assignment of a text that can be parsed is in order. -/
theorem parse_fine {text : List Char} {as : List Assign} (hc : Clean text) (h : parseModule text = .ok as) :
    ∀ a ∈ as, Fine (.assign a) := by
  unfold parseModule at h
  simp only [bind, Except.bind] at h
  split at h
  · cases h
  · next x hx =>
    cases h
    have hn : Neat (moduleDefinition (type ((expandTabs 0 text).length + 1) ((expandTabs 0 text).length + 1))
      (value ((expandTabs 0 text).length + 1))) := inferInstance
    obtain ⟨_, hf⟩ := hn.gives _ _ _ (clean_tabs hc 0) hx
    intro a ha
    unfold bodyOf at ha
    obtain ⟨y, hy, ha⟩ := List.mem_flatMap.1 ha
    split at ha
    · exact assigns_fine (fine_group (hf _ hy)) a ha
    · cases ha

end Verif.Parse
