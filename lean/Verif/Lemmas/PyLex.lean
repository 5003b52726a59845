import Verif.Python
/-!
# Tokens of a line
-/
namespace Verif.Python

/-- A Python identifier (letters of ASCII). -/
def Ident (s : String) : Prop := ∃ c r, s.toList = c :: r ∧ nameStart c = true ∧ ∀ x ∈ r, nameChar x = true

/-- What may stand after a name or a number. -/
def Boundary (r : List Char) : Prop := ∀ c t, r = c :: t → nameChar c = false ∧ c ≠ '\'' ∧ c ≠ '.'

theorem Boundary.nil : Boundary [] := by intro c t h; cases h

theorem Boundary.cons {c : Char} {r : List Char} (h : nameChar c = false ∧ c ≠ '\'' ∧ c ≠ '.') : Boundary (c :: r) := by
  intro c' t e; cases e; exact h

theorem nameStart_ne {c : Char} (h : nameStart c = true) : c ≠ ' ' := by rintro rfl; exact absurd h (by decide)

theorem nameStart_char {c : Char} (h : nameStart c = true) : nameChar c = true := by
  simp only [nameStart, nameChar, Bool.or_eq_true, decide_eq_true_eq, Char.isAlphanum] at *
  rcases h with h | h
  · exact .inl (.inl h)
  · exact .inr h

theorem lex_name_acc (acc n r : List Char) (hn : ∀ x ∈ n, nameChar x = true) :
    lex (.name acc) (n ++ r) = lex (.name (n.reverse ++ acc)) r := by
  induction n generalizing acc with
  | nil => rfl
  | cons c n ih =>
    have hc : nameChar c = true := hn c (by simp)
    have : lex (.name acc) (c :: (n ++ r)) = lex (.name (c :: acc)) (n ++ r) := by
      simp [lex, step, hc]
    rw [List.cons_append, this, ih _ fun x hx => hn x (by simp [hx])]
    simp

theorem lex_name_stop (acc r : List Char) (h : Boundary r) :
    lex (.name acc) r = (lex .idle r).map (Tok.name (String.ofList acc.reverse) :: ·) := by
  cases r with
  | nil => simp [lex, flush]
  | cons c r =>
    obtain ⟨h1, h2, _⟩ := h c r rfl
    simp only [lex, step, h1, h2, Bool.false_eq_true, if_false]
    cases begin c with
    | none => rfl
    | some p =>
      obtain ⟨m, ts⟩ := p
      simp only [Option.bind_eq_bind, Option.bind_some, Option.pure_def]
      cases lex m r <;> simp

theorem lex_name {s : String} (hs : Ident s) {r : List Char} (h : Boundary r) :
    lex .idle (s.toList ++ r) = (lex .idle r).map (Tok.name s :: ·) := by
  obtain ⟨c, n, e, hc, hn⟩ := hs
  have : lex .idle (c :: (n ++ r)) = lex (.name [c]) (n ++ r) := by
    simp [lex, step, begin, hc, nameStart_ne hc]
  rw [e, List.cons_append, this, lex_name_acc _ _ _ hn, lex_name_stop _ _ h]
  have : String.ofList (n.reverse ++ [c]).reverse = s := by
    rw [List.reverse_append, List.reverse_reverse]
    show String.ofList (c :: n) = s
    rw [← e, String.ofList_toList]
  rw [this]

theorem lex_space (r : List Char) : lex .idle (' ' :: r) = lex .idle r := by
  simp [lex, step, begin]

theorem lex_op {c : Char} (h : isOp c = true) (r : List Char) :
    lex .idle (c :: r) = (lex .idle r).map (Tok.op c :: ·) := by
  have : begin c = some (.idle, [.op c]) := by
    simp only [isOp, decide_eq_true_eq] at h
    simp only [List.mem_cons, List.not_mem_nil, or_false] at h
    rcases h with rfl | rfl | rfl | rfl | rfl | rfl | rfl | rfl | rfl | rfl | rfl | rfl <;> rfl
  simp only [lex, step, this, Option.bind_eq_bind, Option.bind_some, Option.pure_def]
  cases lex .idle r <;> simp

/-- Text inside quotes. -/
def Quotable (s : List Char) : Prop := ∀ c ∈ s, c ≠ '\'' ∧ c ≠ '\\' ∧ ¬ c < ' '

theorem lex_str_acc (acc s r : List Char) (hs : Quotable s) :
    lex (.str acc) (s ++ '\'' :: r) = (lex .idle r).map (Tok.str (String.ofList (acc.reverse ++ s)) :: ·) := by
  induction s generalizing acc with
  | nil =>
    simp only [List.nil_append, lex, step, List.append_nil, if_true, Option.bind_eq_bind, Option.bind_some, Option.pure_def]
    cases lex .idle r <;> simp
  | cons c s ih =>
    obtain ⟨h1, h2, h3⟩ := hs c (by simp)
    have : lex (.str acc) (c :: (s ++ '\'' :: r)) = lex (.str (c :: acc)) (s ++ '\'' :: r) := by
      simp [lex, step, h1, h2, h3]
    rw [List.cons_append, this, ih _ fun x hx => hs x (by simp [hx])]
    simp

theorem lex_str (s r : List Char) (hs : Quotable s) :
    lex .idle ('\'' :: (s ++ '\'' :: r)) = (lex .idle r).map (Tok.str (String.ofList s) :: ·) := by
  have : lex .idle ('\'' :: (s ++ '\'' :: r)) = lex (.str []) (s ++ '\'' :: r) := by
    have : begin '\'' = some (.str [], []) := rfl
    simp [lex, step, this]
  rw [this, lex_str_acc _ _ _ hs]; rfl

/-! ### numbers -/

theorem lex_num_acc (acc ds r : List Char) (hd : ∀ x ∈ ds, x.isDigit = true) :
    lex (.num acc) (ds ++ r) = lex (.num (ds.reverse ++ acc)) r := by
  induction ds generalizing acc with
  | nil => rfl
  | cons c ds ih =>
    have hc : c.isDigit = true := hd c (by simp)
    have : lex (.num acc) (c :: (ds ++ r)) = lex (.num (c :: acc)) (ds ++ r) := by
      simp [lex, step, hc]
    rw [List.cons_append, this, ih _ fun x hx => hd x (by simp [hx])]
    simp

theorem digit_char {c : Char} (h : c.isDigit = true) : nameChar c = true := by
  simp [nameChar, Char.isAlphanum, h]

theorem lex_num_stop (acc r : List Char) {t : Tok} (ht : numTok acc = some t) (h : Boundary r) :
    lex (.num acc) r = (lex .idle r).map (t :: ·) := by
  cases r with
  | nil => simp [lex, flush, ht]
  | cons c r =>
    obtain ⟨h1, h2, h3⟩ := h c r rfl
    have hd : c.isDigit = false := by
      cases hd : c.isDigit with
      | false => rfl
      | true => rw [digit_char hd] at h1; cases h1
    simp only [lex, step, hd, h1, h2, h3, decide_false, Bool.or_self, Bool.false_eq_true, if_false, ht]
    cases begin c with
    | none => rfl
    | some p =>
      obtain ⟨m, ts⟩ := p
      simp only [Option.bind_eq_bind, Option.bind_some, Option.pure_def]
      cases lex m r <;> simp

theorem digits_value (n : Nat) :
    (Nat.toDigits 10 n).foldl (fun k c => 10 * k + (c.toNat - '0'.toNat)) 0 = n :=
  Nat.ofDigitChars_toDigits (b := 10) (by decide) (by decide)

end Verif.Python
