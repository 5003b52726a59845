import Verif.Lemmas.ParseLex
/-!
# Values and ends of constraints on lexical items
-/
namespace Verif.Parse
open Verif.Spec

/-- Starts with a lower-case letter, and so on. -/
def Lower (l : String) : Prop := ∃ c r, l.toList = c :: r ∧ c.isLower = true
def Upper (l : String) : Prop := ∃ c r, l.toList = c :: r ∧ c.isUpper = true
def Digit (l : String) : Prop := ∃ c r, l.toList = c :: r ∧ c.isDigit = true

/-- The element cannot start with the first item. -/
syntax "rej" term : tactic
macro_rules
  | `(tactic| rej $h) => `(tactic| first
      | assumption
      | exact rejects_at $h (by decide)
      | exact rejects_at $h (skips_lower (by assumption))
      | exact rejects_at $h (skips_upper (by assumption))
      | exact rejects_at $h (skips_digit (by assumption))
      | exact rejects_avoid $h (by assumption))

theorem rest_nil {s R : List Char} {t : List Tok} : ∀ q ∈ ([] : List P), Ties q s R ∨ Yields q s t R := fun _ h => nomatch h

theorem rest_cons {s R : List Char} {t : List Tok} {p : P} {ps : List P} (h : Ties p s R ∨ Yields p s t R)
    (hs : ∀ q ∈ ps, Ties q s R ∨ Yields q s t R) : ∀ q ∈ p :: ps, Ties q s R ∨ Yields q s t R := by
  intro q hq
  rcases List.mem_cons.1 hq with e | hq
  · exact e ▸ h
  · exact hs q hq

/-- One alternative matches, the others cannot start like that. -/
syntax "pick" term "at" term : tactic
syntax "unpicked" term "at" term : tactic
macro_rules
  | `(tactic| pick $y at $h) => `(tactic| first
      | (refine Best.here $y ?_; unpicked $y at $h)
      | (refine Best.there (Rejects.loses ?_) ?_; rej $h; pick $y at $h))
macro_rules
  | `(tactic| unpicked $y at $h) => `(tactic| first
      | exact rest_nil
      | (refine rest_cons (.inr $y) ?_; unpicked $y at $h)
      | (refine rest_cons (.inl (Loses.ties (Rejects.loses ?_))) ?_; rej $h; unpicked $y at $h))

/-! ## numbers -/

theorem repr_digits (k : Nat) : ∃ c r, k.repr.toList = c :: r ∧ (∀ d ∈ c :: r, d.isDigit = true) := by
  have h : ∀ d ∈ k.repr.toList, d.isDigit = true := by
    intro d hd
    rw [Nat.toList_repr] at hd
    exact Nat.isDigit_of_mem_toDigits (by decide) (by decide) hd
  cases e : k.repr.toList with
  | nil => rw [Nat.toList_repr] at e; exact absurd e (by simp)
  | cons c r => exact ⟨c, r, rfl, e ▸ h⟩

theorem repr_digit (k : Nat) : Digit k.repr := by
  obtain ⟨c, r, e, h⟩ := repr_digits k
  exact ⟨c, r, e, h c (by simp)⟩

theorem digit_alnum {c : Char} (h : c.isDigit = true) : c.isAlphanum = true := by simp [Char.isAlphanum, h]

theorem repr_last (k : Nat) : ∃ c, k.repr.toList.getLast? = some c ∧ c.isAlphanum = true := by
  obtain ⟨c, r, e, h⟩ := repr_digits k
  rw [e]
  exact ⟨_, List.getLast?_eq_some_getLast (by simp), digit_alnum (h _ (List.getLast_mem (by simp)))⟩

theorem number_reads {k : Nat} {X : List String} {s : List Char} (h : Laid (k.repr :: X) s) :
    Reads number s X [.str k.repr] (after k.repr s) := by
  obtain ⟨c, r, e, hd⟩ := repr_digits k
  exact word_reads h ⟨c, r, e, hd c (by simp)⟩ (e ▸ hd) (fun d hd => by simp [isBody, digit_alnum hd]) (repr_last k)

/-- Not followed by a point and a digit. -/
def noFrac : List String → Bool
  | [] => true
  | l :: _ =>
    match l.toList with
    | [] => false
    | [c] => c != '.'
    | c :: d :: _ => c != '.' || !d.isDigit

theorem real_rejects {k : Nat} {X : List String} {s : List Char} (h : Laid (k.repr :: X) s) (hX : noFrac X = true) :
    Rejects realnumber s := by
  obtain ⟨c, r, e, hd⟩ := repr_digits k
  obtain ⟨w, es, hw, hb⟩ := split_word h (repr_last k)
  have hl := laid_after h
  refine terminal_rejects ?_
  rw [laid_skip h]
  have hm : matchDigits s = some (c :: r, w ++ after k.repr s) := by
    conv => lhs; rw [es, e]
    refine matchWord_eq (hd c (by simp)) (fun d h => hd d (by simp [h])) fun d h => ?_
    have := hb d h
    cases hdd : d.isDigit with
    | false => rfl
    | true => simp [isBody, digit_alnum hdd] at this
  simp only [matchReal, hm]
  split
  · next a r' e' =>
    obtain ⟨ea, e'⟩ := Prod.mk.inj (Option.some.inj e')
    have hw0 : w = [] := by
      cases w with
      | nil => rfl
      | cons d w =>
        have := hw d (by simp)
        have e2 := List.cons.inj e'
        rw [e2.1] at this
        exact absurd this (by decide)
    subst hw0
    rw [List.nil_append] at e'
    rw [e'] at hl
    cases X with
    | nil => cases hl
    | cons l X =>
      obtain ⟨w2, e3, -⟩ := laid_split hl
      simp only [noFrac] at hX
      split at hX
      · cases hX
      · next c' hc =>
        rw [hc] at e3
        have := (List.cons.inj e3).1
        subst this
        cases hX
      · next c' d l' hc =>
        rw [hc] at e3
        obtain ⟨e4, e5⟩ := List.cons.inj e3
        subst e4
        have hdd : d.isDigit = false := by simpa using hX
        rw [e5]
        simp [matchDigits, matchWord, hdd]
  · rfl

/-! ## values -/

section
variable {s : List Char} {X : List String} {n : Nat}

theorem special_rejects {l : String} (h : Laid (l :: X) s) (hl : Lower l ∨ Digit l ∨ l = "-") : Rejects specialRealValue s := by
  rcases hl with hl | hl | rfl
  · exact rejects_at h (skips_lower hl)
  · exact rejects_at h (skips_digit hl)
  · exact rejects_at h

theorem nat_value {k : Nat} (h : Laid (k.repr :: X) s) (hX : noFrac X = true) :
    Reads (value (n + 1)) s X [.str k.repr] (after k.repr s) := by
  have hd : Digit k.repr := repr_digit k
  have h0 := number_reads h
  have h1 : Reads signedNumber s X [.str k.repr] (after k.repr s) := by
    refine Reads.act (t := [.str k.repr]) ⟨h0.laid, h0.less, or_yields ?_⟩ (by simp [joined, texts, String.join])
    pick h0.yields at h
  have h2 : Yields integerValue s [.str k.repr] (after k.repr s) := by
    refine or_yields ?_
    pick h1.yields at h
  have hr : Rejects (realValue (value n)) s := by
    have h3 := real_rejects h hX
    have h4 : Rejects (numericRealValue (value n)) s := by
      refine or_rejects ?_
      simp only [List.mem_cons, List.not_mem_nil, or_false, forall_eq_or_imp, forall_eq]
      refine ⟨h3, ?_, ?_⟩ <;> rej h
    refine or_rejects ?_
    simp only [List.mem_cons, List.not_mem_nil, or_false, forall_eq_or_imp, forall_eq]
    exact ⟨h4, by rej h⟩
  have h3 : Yields (builtinValue (value n)) s [.str k.repr] (after k.repr s) := by
    refine or_yields ?_
    pick h2 at h
  refine ⟨h0.laid, h0.less, ?_⟩
  unfold value
  refine or_yields ?_
  pick h3 at h

theorem neg_value {k : Nat} (h : Laid ("-" :: k.repr :: X) s) (hX : noFrac X = true) :
    Reads (value (n + 1)) s X [.str ("-" ++ k.repr)] (after k.repr (after "-" s)) := by
  have hd : Digit k.repr := repr_digit k
  have hl := lit_reads h
  have h0 := number_reads hl.laid
  have h1 : Reads signedNumber s X [.str ("-" ++ k.repr)] (after k.repr (after "-" s)) := by
    have := hl.seq h0
    refine Reads.act (t := [.str "-", .str k.repr]) ⟨h0.laid, this.less, or_yields ?_⟩ (by simp [joined, texts, String.join])
    pick this.yields at h
  have h2 : Yields integerValue s [.str ("-" ++ k.repr)] (after k.repr (after "-" s)) := by
    refine or_yields ?_
    pick h1.yields at h
  have hr : Rejects (realValue (value n)) s := by
    have h3 := real_rejects hl.laid hX
    have h4 : Rejects (numericRealValue (value n)) s := by
      refine or_rejects ?_
      simp only [List.mem_cons, List.not_mem_nil, or_false, forall_eq_or_imp, forall_eq]
      exact ⟨by rej h, seq_rejects' hl.yields h3, by rej h⟩
    refine or_rejects ?_
    simp only [List.mem_cons, List.not_mem_nil, or_false, forall_eq_or_imp, forall_eq]
    exact ⟨h4, by rej h⟩
  have h3 : Yields (builtinValue (value n)) s [.str ("-" ++ k.repr)] (after k.repr (after "-" s)) := by
    refine or_yields ?_
    pick h2 at h
  refine ⟨h0.laid, h1.less, ?_⟩
  unfold value
  refine or_yields ?_
  pick h3 at h

/-- The text of a number. -/
def numText (z : Int) : String := if z < 0 then "-" ++ z.natAbs.repr else z.natAbs.repr

theorem num_value {z : Int} (h : Laid (numberItems z ++ X) s) (hX : noFrac X = true) :
    ∃ R, Reads (value (n + 1)) s X [.str (numText z)] R := by
  unfold numberItems at h; unfold numText
  split at h
  · next hz => rw [if_pos hz]; exact ⟨_, neg_value h hX⟩
  · next hz => rw [if_neg hz]; exact ⟨_, nat_value h hX⟩

theorem name_value {v : String} (h : Laid (v :: X) s) (hv : ValueName v) :
    Reads (value (n + 1)) s X [.str v] (after v s) := by
  have hlo : Lower v := hv.1.2
  have h0 := ident_reads h hv
  have h1 : Yields integerValue s [.str v] (after v s) := by
    refine or_yields ?_
    pick h0.yields at h
  have h2 : Yields (builtinValue (value n)) s [.str v] (after v s) := by
    refine or_yields ?_
    pick h1 at h
  have hid : Yields valuereference s [.str v] (after v s) := h0.yields
  have h3 : Yields definedValue s [.str v] (after v s) := by
    refine or_yields ?_
    pick hid at h
  have h4 : Yields referencedValue s [.str v] (after v s) := or_one h3
  refine ⟨h0.laid, h0.less, ?_⟩
  unfold value
  exact or_yields (.here h2 (rest_cons (.inr h4) rest_nil))

/-- A word in capitals is not a reference, because no point follows. -/
theorem external_rejects {l : String} (h : Laid (l :: X) s) (hl : UpperName l) (he : Ends l)
    (hX : (First.avoids { cs := ['.'] } X) = true) : Rejects externalValueReference s := by
  have h1 := typeref_reads h hl he
  have h2 : Rejects (lit ".") (after l s) := by
    refine rejects_avoid h1.laid ?_
    cases X <;> exact hX
  exact seq_rejects' h1.yields (by simp only [seqs]; exact seq_rejects h2)

theorem bool_value {b : String} (hb : b = "TRUE" ∨ b = "FALSE") (h : Laid (b :: X) s)
    (hX : (First.avoids { cs := ['.'] } X) = true) :
    Reads (value (n + 1)) s X [.str b] (after b s) := by
  have hn : b.toList ≠ [] := by rcases hb with rfl | rfl <;> decide
  have h0 := lit_reads h hn
  have h1 : Yields booleanValue s [.str b] (after b s) := by
    refine or_yields ?_
    rcases hb with rfl | rfl <;> pick h0.yields at h
  have hu : UpperName b ∧ Ends b := by
    rcases hb with rfl | rfl
    · exact ⟨⟨by unfold Word; decide, 'T', _, rfl, by decide⟩, by unfold Ends; decide⟩
    · exact ⟨⟨by unfold Word; decide, 'F', _, rfl, by decide⟩, by unfold Ends; decide⟩
  have hr : Rejects referencedValue s := by
    have := external_rejects h hu.1 hu.2 hX
    refine or_rejects ?_
    simp only [List.mem_cons, List.not_mem_nil, or_false, forall_eq]
    refine or_rejects ?_
    simp only [List.mem_cons, List.not_mem_nil, or_false, forall_eq_or_imp, forall_eq]
    exact ⟨this, by rcases hb with rfl | rfl <;> rej h⟩
  have h2 : Yields (builtinValue (value n)) s [.str b] (after b s) := by
    refine or_yields ?_
    rcases hb with rfl | rfl <;> pick h1 at h
  refine ⟨h0.laid, h0.less, ?_⟩
  unfold value
  refine or_yields ?_
  pick h2 at h

/-! ## binary and hexadecimal strings -/

theorem takeWhile_append_stop {p : Char → Bool} {l r : List Char} (hl : ∀ c ∈ l, p c = true) (hr : ∀ c ∈ r.head?, p c = false) :
    (l ++ r).takeWhile p = l ∧ (l ++ r).dropWhile p = r := by
  rw [List.takeWhile_append_of_pos hl, List.dropWhile_append_of_pos hl]
  cases r with
  | nil => simp
  | cons d r => simp [List.takeWhile_cons, List.dropWhile_cons, hr d (by simp)]

theorem quoted_reads {ok : Char → Bool} {l : List Char} {t : Char} {k : String} (hk : k = String.ofList ('\'' :: (l ++ ['\'', t])))
    (h : Laid (k :: X) s) (hl : ∀ c ∈ l, ok c = true) (ho : ok '\'' = false) :
    Reads (terminal (matchQuoted '\'' ok [t])) s X [.str k] (after k s) := by
  have hk' : k.toList = '\'' :: (l ++ ['\'', t]) := by rw [hk, String.toList_ofList]
  obtain ⟨w, e, hw, _, hR⟩ := laid_split h
  refine ⟨hR, after_lt h (by simp [hk']), ?_⟩
  rw [hk']at e
  have := terminal_yields (m := matchQuoted '\'' ok [t]) (laid_skip h) (t := k.toList) (w := w) (R := after k s)
    (by
      have := takeWhile_append_stop (p := ok) (l := l) (r := '\'' :: t :: (w ++ after k s)) hl (by simpa using ho)
      conv => lhs; rw [e]
      simp [matchQuoted, this, strip, hk']) hw (laid_skip hR)
  rwa [String.ofList_toList] at this

theorem quoted_rejects {ok : Char → Bool} {l : List Char} {t u : Char} {k : String}
    (hk : k = String.ofList ('\'' :: (l ++ ['\'', t])))
    (h : Laid (k :: X) s) (hl : ∀ c ∈ l, ok c = true) (ho : ok '\'' = false) (hu : u ≠ t) :
    Rejects (terminal (matchQuoted '\'' ok [u])) s := by
  have hk' : k.toList = '\'' :: (l ++ ['\'', t]) := by rw [hk, String.toList_ofList]
  obtain ⟨w, e, hw, _, hR⟩ := laid_split h
  rw [hk'] at e
  refine terminal_rejects ?_
  have := takeWhile_append_stop (p := ok) (l := l) (r := '\'' :: t :: (w ++ after k s)) hl (by simpa using ho)
  rw [laid_skip h]
  conv => lhs; rw [e]
  simp [matchQuoted, this, strip, hu]

theorem quoted_value {k : String} {l : List Char} (hk : k.toList = '\'' :: l) (h : Laid (k :: X) s)
    (h0 : Reads (octetStringValue (value n)) s X [.str k] (after k s)) :
    Reads (value (n + 1)) s X [.str k] (after k s) := by
  have skip : ∀ F : First, (!F.null && !F.has '\'') = true → F.skips k = true := by
    intro F hF; simp only [Bool.and_eq_true] at hF; simp [First.skips, hk, hF.1, hF.2]
  have h2 : Yields (builtinValue (value n)) s [.str k] (after k s) := by
    have r1 : Rejects booleanValue s := rejects_at h (skip _ (by decide))
    have r2 : Rejects characterStringValue s := rejects_at h (skip _ (by decide))
    have r3 : Rejects integerValue s := rejects_at h (skip _ (by decide))
    have r4 : Rejects (lit "NULL") s := rejects_at h (skip _ (by decide))
    have r5 : Rejects (realValue (value n)) s := rejects_at h (skip _ (by decide))
    have r6 : Rejects (sequenceValue (value n)) s := rejects_at h (skip _ (by decide))
    refine or_yields ?_
    pick h0.yields at h
  have r7 : Rejects referencedValue s := rejects_at h (skip _ (by decide))
  refine ⟨h0.laid, h0.less, ?_⟩
  unfold value
  refine or_yields ?_
  pick h2 at h

theorem binItem_toList (b : Bits) :
    (binItem b).toList = '\'' :: (b.map (fun x => if x then '1' else '0') ++ ['\'', 'B']) := by
  rw [binItem, String.toList_ofList]

theorem bin_bstring {b : Bits} (h : Laid (binItem b :: X) s) :
    Reads bstring s X [.str (binItem b)] (after (binItem b) s) := by
  refine quoted_reads (l := b.map fun x => if x then '1' else '0') rfl h ?_ (by decide)
  intro c hc
  obtain ⟨x, -, rfl⟩ := List.mem_map.1 hc
  cases x <;> decide

theorem bin_hstring {b : Bits} (h : Laid (binItem b :: X) s) : Rejects hstring s := by
  refine quoted_rejects (k := binItem b) (t := 'B') (u := 'H') (l := b.map fun x => if x then '1' else '0') rfl h ?_ (by decide) (by decide)
  intro c hc
  obtain ⟨x, -, rfl⟩ := List.mem_map.1 hc
  cases x <;> decide

theorem bin_value {b : Bits} (h : Laid (binItem b :: X) s) :
    Reads (value (n + 1)) s X [.str (binItem b)] (after (binItem b) s) := by
  have h0 := bin_bstring h
  have e := binItem_toList b
  refine quoted_value e h ⟨h0.laid, h0.less, or_yields ?_⟩
  have r2 : Rejects (seq (lit "CONTAINING") (value n)) s := rejects_at h (by simp [First.skips, e]; decide)
  exact .here h0.yields (rest_cons (.inl (bin_hstring h).loses.ties) (rest_cons (.inl r2.loses.ties) rest_nil))

theorem hex_value {b : List (Fin 16)} (h : Laid (hexItem b :: X) s) :
    Reads (value (n + 1)) s X [.str (hexItem b)] (after (hexItem b) s) := by
  have hb : ∀ c ∈ b.map (fun d => "0123456789ABCDEF".toList.getD d.val '0'),
      (('A' ≤ c && c ≤ 'F') || c.isDigit || isSpace c) = true := by
    intro c hc
    obtain ⟨x, -, rfl⟩ := List.mem_map.1 hc
    clear hc; revert x; decide
  have h0 : Reads hstring s X [.str (hexItem b)] (after (hexItem b) s) :=
    quoted_reads (l := b.map fun d => "0123456789ABCDEF".toList.getD d.val '0') rfl h hb (by decide)
  have e : (hexItem b).toList = '\'' :: (b.map (fun d => "0123456789ABCDEF".toList.getD d.val '0') ++ ['\'', 'H']) := by
    rw [hexItem, String.toList_ofList]
  have h1 : Rejects bstring s := by
    refine terminal_rejects ?_
    obtain ⟨w, es, -⟩ := laid_split h
    rw [laid_skip h]
    conv => lhs; rw [es, e]
    simp only [List.cons_append, matchQuoted, if_true, Option.map_eq_none_iff]
    generalize b.map (fun d => "0123456789ABCDEF".toList.getD d.val '0') = l at *
    clear h0 e es h
    induction l with
    | nil => simp [isSpace, isWs, strip]
    | cons c l ih =>
      simp only [List.cons_append, List.dropWhile_cons]
      split
      · exact ih fun c hc => hb c (by simp [hc])
      · simp only [strip]
        rw [if_neg]
        rintro rfl
        exact absurd (hb '\'' (by simp)) (by decide)
  refine quoted_value e h ⟨h0.laid, h0.less, or_yields ?_⟩
  have r2 : Rejects (seq (lit "CONTAINING") (value n)) s := rejects_at h (by simp [First.skips, e]; decide)
  exact .there h1.loses (.here h0.yields (rest_cons (.inl r2.loses.ties) rest_nil))

/-- The text of a value. -/
def litText : Lit → String
  | .num z => numText z
  | .word s => s
  | .bin b => binItem b
  | .hex b => hexItem b

theorem noFrac_of_avoids (hX : (First.avoids { cs := ['.'] } X) = true) : noFrac X = true := by
  cases X with
  | nil => rfl
  | cons l X =>
    simp only [First.avoids, First.skips] at hX
    simp only [noFrac]
    split at hX <;> simp_all [First.has]
    split <;> simp_all

theorem lit_value {l : Lit} (h : Laid (litItems l ++ X) s) (hl : WritableLit l) (hX : (First.avoids { cs := ['.'] } X) = true) :
    ∃ R, Reads (value (n + 1)) s X [.str (litText l)] R := by
  cases l with
  | num z => exact num_value h (noFrac_of_avoids hX)
  | word v =>
    rcases hl with hl | hl
    · exact ⟨_, name_value h hl⟩
    · exact ⟨_, bool_value hl h hX⟩
  | bin b => exact ⟨_, bin_value h⟩
  | hex b => exact ⟨_, hex_value h⟩

end
end Verif.Parse
