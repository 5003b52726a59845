import Verif.Lemmas.PyText
/-!
# Tokens and lines of a generated module
-/
namespace Verif.Python

/-! ## tokens of a line -/

theorem numTok_repr (n : Nat) : numTok n.repr.toList.reverse = some (.num n) := by
  have hv := digits_value n
  rw [Nat.toList_repr]
  unfold numTok
  rw [List.reverse_reverse]
  cases n with
  | zero => decide
  | succ n =>
    have hne : Nat.toDigits 10 (n + 1) ≠ [] := Nat.toDigits_ne_nil
    have hh : ∀ r, Nat.toDigits 10 (n + 1) ≠ '0' :: r := by
      intro r hr
      have := Parse.digits_head (n := n + 1) (by omega)
      rw [hr] at this
      simp at this
    split
    · next h => exact absurd h (hh _)
    · next h => exact absurd h (hh _)
    · rw [hv]

theorem lex_num (n : Nat) {r : List Char} (h : Boundary r) :
    lex .idle (n.repr.toList ++ r) = (lex .idle r).map (Tok.num n :: ·) := by
  obtain ⟨c, ds, e, hall⟩ := Parse.repr_digits n
  have hc : c.isDigit = true := hall c (by simp)
  have hb : begin c = some (.num [c], []) := by
    have h1 : c ≠ ' ' := by rintro rfl; exact absurd hc (by decide)
    have h2 : nameStart c = false := by
      cases hs : nameStart c with
      | false => rfl
      | true =>
        simp only [Char.isDigit, Bool.and_eq_true, decide_eq_true_eq, nameStart, Char.isAlpha, Char.isUpper, Char.isLower,
          Bool.or_eq_true, ge_iff_le] at hc hs
        have e1 : '0'.val.toNat = 48 := rfl
        have e2 : '9'.val.toNat = 57 := rfl
        simp only [UInt32.le_iff_toNat_le] at hc hs
        rcases hs with (hs | hs) | hs
        · have : 'A'.val.toNat = 65 := rfl
          simp_all; omega
        · simp_all; omega
        · subst hs; simp_all
    simp [begin, h1, h2, hc]
  have : lex .idle (c :: (ds ++ r)) = lex (.num [c]) (ds ++ r) := by
    simp [lex, step, hb]
  rw [e, List.cons_append, this, lex_num_acc _ _ _ fun x hx => hall x (by simp [hx]), lex_num_stop _ _ ?_ h]
  have := numTok_repr n
  rwa [e, List.reverse_cons] at this

theorem piece_boundary {p : Piece} (h : p = .sp ∨ ∃ c, p = .op c ∧ c ≠ '.') (hp : p.Good) (r : List Char) :
    Boundary (p.text ++ r) := by
  rcases h with rfl | ⟨c, rfl, hc⟩
  · exact Boundary.cons (by decide)
  · refine Boundary.cons ⟨?_, ?_, hc⟩ <;>
    · simp only [Piece.Good, isOp, decide_eq_true_eq, List.mem_cons, List.not_mem_nil, or_false] at hp
      rcases hp with rfl | rfl | rfl | rfl | rfl | rfl | rfl | rfl | rfl | rfl | rfl | rfl <;> decide

theorem pieces_boundary {ps : List Piece} (h : ∀ p, ps.head? = some p → p = .sp ∨ ∃ c, p = .op c ∧ c ≠ '.')
    (hg : ∀ p ∈ ps, p.Good) : Boundary (textOf ps) := by
  cases ps with
  | nil => exact Boundary.nil
  | cons p ps => exact piece_boundary (h p rfl) (hg p (by simp)) _

theorem lex_pieces (ps : List Piece) (hg : ∀ p ∈ ps, p.Good) (ha : Apart ps) : lex .idle (textOf ps) = some (toksOf ps) := by
  induction ps with
  | nil => rfl
  | cons p ps ih =>
    have hg' : ∀ p ∈ ps, p.Good := fun x hx => hg x (by simp [hx])
    have hp := hg p (by simp)
    have et : textOf (p :: ps) = p.text ++ textOf ps := rfl
    have ek : toksOf (p :: ps) = p.toks ++ toksOf ps := rfl
    rw [et, ek]
    cases p with
    | name s =>
      rw [show Piece.text (.name s) = s.toList from rfl, lex_name hp (pieces_boundary ha.1 hg'), ih hg' ha.2]; rfl
    | num n =>
      rw [show Piece.text (.num n) = n.repr.toList from rfl, lex_num n (pieces_boundary ha.1 hg'), ih hg' ha.2]; rfl
    | str s =>
      have : Piece.text (.str s) ++ textOf ps = '\'' :: (s.toList ++ '\'' :: textOf ps) := by simp [Piece.text]
      rw [this, lex_str _ _ hp, ih hg' ha, String.ofList_toList]; rfl
    | op c =>
      rw [show Piece.text (.op c) ++ textOf ps = c :: textOf ps from rfl, lex_op hp, ih hg' ha]; rfl
    | sp => rw [show Piece.text .sp ++ textOf ps = ' ' :: textOf ps from rfl, lex_space, ih hg' ha]; rfl

/-! ## names and numbers do not touch -/

/-- A piece that may follow a name. -/
def Next (ps : List Piece) : Prop := ∀ p, ps.head? = some p → p = .sp ∨ ∃ c, p = .op c ∧ c ≠ '.'

theorem next_nil : Next [] := by intro p h; cases h
theorem next_sp (ps : List Piece) : Next (.sp :: ps) := by intro p h; cases h; exact .inl rfl
theorem next_op {c : Char} (hc : c ≠ '.') (ps : List Piece) : Next (.op c :: ps) := by
  intro p h; cases h; exact .inr ⟨c, rfl, hc⟩

theorem apart_append {a b : List Piece} (ha : Apart a) (hb : Apart b) (hn : Next b) : Apart (a ++ b) := by
  induction a with
  | nil => exact hb
  | cons p a ih =>
    cases p with
    | name s =>
      refine ⟨?_, ih ha.2⟩
      cases a with
      | nil => exact hn
      | cons q a => exact ha.1
    | num s =>
      refine ⟨?_, ih ha.2⟩
      cases a with
      | nil => exact hn
      | cons q a => exact ha.1
    | str s => exact ih ha
    | op s => exact ih ha
    | sp => exact ih ha

theorem apart_int (z : Int) : Apart (intPieces z) := by
  unfold intPieces; split <;> simp [Apart]

theorem apart_end (e : End) : Apart (endPieces e) := by
  cases e with
  | num z => exact apart_int z
  | min => simp [endPieces, Apart]
  | max => simp [endPieces, Apart]
  | ref s => simp [endPieces, Apart]

theorem apart_expr (e : Expr) : Apart (exprPieces e) := by
  cases e with
  | int z => exact apart_int z
  | bool b => simp [exprPieces, Apart]
  | name s => simp [exprPieces, Apart]
  | str s => simp [exprPieces, Apart]
  | bin b => simp [exprPieces, Apart]
  | hex h => simp [exprPieces, Apart]
  | junk => simp [exprPieces, Apart]

theorem apart_name {s : String} {ps : List Piece} (hn : Next ps) (h : Apart ps) : Apart (.name s :: ps) := ⟨hn, h⟩

theorem apart_set (x : String) {ps : List Piece} (h : Apart ps) : Apart (setTo x ++ ps) := by
  have : setTo x ++ ps = .name x :: .sp :: .op '=' :: .sp :: ps := rfl
  rw [this]; exact ⟨next_sp _, h⟩

theorem apart_spec (f : String) (c : CTuple) : Apart (specLine f c).2 := by
  have h2 : Apart ((if c.ext then [Piece.op ',', .sp, .name "extensionMarker", .op '=', .name "True"] else []) ++ [.op ')']) := by
    split <;> simp [Apart]
  have n2 : Next ((if c.ext then [Piece.op ',', .sp, .name "extensionMarker", .op '=', .name "True"] else []) ++ [.op ')']) := by
    split
    · exact next_op (by decide) _
    · exact next_op (by decide) _
  have h1 := apart_append (apart_end c.upper) h2 n2
  have h0 : Apart (endPieces c.lower ++ ([.op ',', .sp] ++ (endPieces c.upper ++
    ((if c.ext then [Piece.op ',', .sp, .name "extensionMarker", .op '=', .name "True"] else []) ++ [.op ')'])))) :=
    apart_append (apart_end c.lower) h1 (next_op (by decide) _)
  exact apart_set _ ⟨next_op (by decide) _, h0⟩

theorem apart_nt (i j : Nat) (nt : NT) : Apart (ntLine i j nt).2 := by
  unfold ntLine
  split
  · simp [Apart]
  · simp [Apart]
  · next e _ =>
    have := apart_append (apart_expr e) (b := [.op ')', .op ')', .op ',']) trivial (next_op (by decide) _)
    exact ⟨next_op (by decide) _, next_op (by decide) _, this⟩
  · simp [Apart]

theorem apart_item (i : String × Int) : Apart (itemLine i).2 :=
  apart_append (apart_int i.2) (b := [.op ')', .op ',']) trivial (next_op (by decide) _)

/-! ## physical lines -/

/-- A line that is read as its tokens. -/
def Whole (l : SLine) : Prop := LineGood l ∧ Apart l.2 ∧ l.2.head? ≠ some .sp

/-- What is read of it. -/
def tokLine (l : SLine) : Line := (if l.2.isEmpty then 0 else l.1, toksOf l.2)

theorem Piece.Good.head {p : Piece} (h : p.Good) (hs : p ≠ .sp) : ∃ c r, p.text = c :: r ∧ c ≠ ' ' := by
  cases p with
  | name s =>
    obtain ⟨c, r, e, hc, _⟩ := h
    exact ⟨c, r, e, nameStart_ne hc⟩
  | num n =>
    obtain ⟨c, r, e, hall⟩ := Parse.repr_digits n
    refine ⟨c, r, e, ?_⟩
    rintro rfl
    exact absurd (hall ' ' (by simp)) (by decide)
  | str s => exact ⟨_, _, rfl, by decide⟩
  | op c =>
    refine ⟨_, _, rfl, ?_⟩
    rintro rfl
    exact absurd h (by simp [Piece.Good, isOp])
  | sp => exact absurd rfl hs

theorem takeWhile_spaces (n : Nat) {c : Char} {r : List Char} (hc : c ≠ ' ') :
    (spaces n ++ c :: r).takeWhile (· = ' ') = spaces n ∧ (spaces n ++ c :: r).dropWhile (· = ' ') = c :: r := by
  induction n with
  | zero => simp [spaces, hc]
  | succ n ih =>
    have : spaces (n + 1) = ' ' :: spaces n := rfl
    rw [this]
    simpa using ih

theorem physical_line {l : SLine} (h : Whole l) : physical (lineText l) = some (tokLine l) := by
  obtain ⟨i, ps⟩ := l
  obtain ⟨hg, ha, hs⟩ := h
  cases ps with
  | nil => rfl
  | cons p ps =>
    obtain ⟨c, r, e, hc⟩ := (hg p (by simp)).head (by simpa using hs)
    have hl := lex_pieces _ hg ha
    have et : textOf (p :: ps) = c :: (r ++ textOf ps) := by
      rw [← List.cons_append, ← e]; rfl
    obtain ⟨h1, h2⟩ := takeWhile_spaces i (r := r ++ textOf ps) hc
    rw [lineText_cons, physical, et, h1, h2, ← et, hl]
    simp [tokLine, spaces]

theorem physicals_lines (ls : List SLine) (h : ∀ l ∈ ls, Whole l) : (ls.map lineText).mapM physical = some (ls.map tokLine) := by
  induction ls with
  | nil => rfl
  | cons l ls ih =>
    rw [List.map_cons, List.mapM_cons, physical_line (h l (by simp)), ih fun x hx => h x (by simp [hx])]
    rfl

/-! ### all the lines of a class -/

def Wholes (ls : List SLine) : Prop := ∀ l ∈ ls, Whole l

/-- The same without what has been shown already. -/
def Shape (ls : List SLine) : Prop := ∀ l ∈ ls, Apart l.2 ∧ l.2.head? ≠ some .sp

theorem shape_nil : Shape [] := by intro p hp; cases hp
theorem shape_cons {i : Nat} {ps : List Piece} {ls : List SLine} (h : Apart ps) (h' : ps.head? ≠ some .sp) (hl : Shape ls) :
    Shape ((i, ps) :: ls) := by
  intro l hm
  rcases List.mem_cons.1 hm with rfl | hm
  · exact ⟨h, h'⟩
  · exact hl l hm
theorem shape_append {a b : List SLine} (h : Shape a) (h' : Shape b) : Shape (a ++ b) := by
  intro l hm
  rcases List.mem_append.1 hm with hm | hm
  · exact h l hm
  · exact h' l hm
theorem shape_map {α : Type} {l : List α} {f : α → SLine} (h : ∀ x ∈ l, Apart (f x).2 ∧ (f x).2.head? ≠ some .sp) :
    Shape (l.map f) := by
  intro x hm
  obtain ⟨y, hy, rfl⟩ := List.mem_map.1 hm
  exact h y hy
theorem shape_shift {ls : List SLine} (h : Shape ls) : Shape (ls.map (shift 4)) := by
  intro x hm
  obtain ⟨y, hy, rfl⟩ := List.mem_map.1 hm
  exact h y hy

theorem shape_nts (i j : Nat) (l : List NT) : Shape (l.map (ntLine i j)) :=
  shape_map fun nt _ => ⟨apart_nt i j nt, by unfold ntLine; split <;> simp⟩

theorem shape_items (l : List (String × Int)) : Shape (l.map itemLine) :=
  shape_map fun nt _ => ⟨apart_item nt, by simp [itemLine]⟩

theorem shape_marker (b : Bool) : Shape (markerLines b) := by
  unfold markerLines
  split
  · exact shape_cons (apart_set _ (by simp [Apart])) (by simp [setTo]) shape_nil
  · exact shape_nil

theorem shape_specLine (f : String) (c : CTuple) : Shape [specLine f c] := by
  intro l hm
  rw [List.mem_singleton] at hm
  subst hm
  exact ⟨apart_spec f c, by simp [specLine, setTo]⟩

theorem apart_plus (a g : Bool) (x : String) : Apart (.name x :: ((if a then [] else plusPieces "extensionAddition") ++
    (if g then [] else plusPieces "extensionAdditionGroups"))) := by
  cases a <;> cases g <;> simp [Apart, plusPieces]

theorem shape_parts (root add : List NT) (groups : List (List NT)) : Shape (partsLines root add groups) := by
  unfold partsLines
  refine shape_cons (apart_set _ (by simp [Apart])) (by simp [setTo]) (shape_append (shape_nts _ _ _)
    (shape_cons (by simp [Apart]) (by simp) (shape_append ?_ (shape_append ?_ (shape_cons (apart_set _ (apart_plus _ _ _))
      (by simp [setTo]) shape_nil)))))
  · split
    · exact shape_nil
    · exact shape_cons (apart_set _ (by simp [Apart])) (by simp [setTo]) (shape_append (shape_nts _ _ _)
        (shape_cons (by simp [Apart]) (by simp) shape_nil))
  · split
    · exact shape_nil
    · refine shape_cons (apart_set _ (by simp [Apart])) (by simp [setTo]) (shape_append ?_
        (shape_cons (by simp [Apart]) (by simp) shape_nil))
      intro l hl
      obtain ⟨g, _, hl⟩ := List.mem_flatMap.1 hl
      exact shape_cons (by simp [Apart]) (by simp) (shape_append (shape_nts 12 16 g)
        (shape_cons (by simp [Apart]) (by simp) shape_nil)) l hl

theorem apart_class (x b : String) : Apart (classLine x b) := by simp [classLine, Apart]

mutual
theorem shape_code : ∀ c : Code, Shape (codeLines c)
  | .simple x k spec => by
    refine shape_cons (apart_class _ _) (by simp [classLine]) ?_
    cases shown k spec with
    | none => exact shape_cons (by simp [Apart]) (by simp) shape_nil
    | some c => exact shape_specLine _ c
  | .enumerated x marker root add => by
    rw [codeLines]
    refine shape_cons (apart_class _ _) (by simp [classLine]) (shape_append (shape_marker _)
      (shape_cons (apart_set _ (by simp [Apart])) (by simp [setTo]) (shape_append (shape_items _) (shape_cons (by simp [Apart])
        (by simp) (shape_append ?_ (shape_cons (apart_set _ ?_) (by simp [setTo]) shape_nil))))))
    · split
      · exact shape_nil
      · exact shape_cons (apart_set _ (by simp [Apart])) (by simp [setTo]) (shape_append (shape_items _)
          (shape_cons (by simp [Apart]) (by simp) shape_nil))
    · split <;> simp [Apart, plusPieces]
  | .seqOf x spec f => by
    refine shape_cons (apart_class _ _) (by simp [classLine]) (shape_append ?_ (shape_cons (apart_set _ (by simp [Apart]))
      (by simp [setTo]) shape_nil))
    cases spec with
    | none => exact shape_nil
    | some c => exact shape_specLine _ c
  | .sequence x subs marker root add groups =>
    shape_cons (apart_class _ _) (by simp [classLine]) (shape_append (shape_codes subs) (shape_append (shape_marker _)
      (shape_parts _ _ _)))
  | .choice x subs marker root add groups =>
    shape_cons (apart_class _ _) (by simp [classLine]) (shape_append (shape_codes subs) (shape_append (shape_marker _)
      (shape_parts _ _ _)))
theorem shape_codes : ∀ c : Codes, Shape (codesLines c)
  | .nil => shape_nil
  | .cons c r => shape_append (shape_shift (shape_code c)) (shape_cons trivial (by simp) (shape_codes r))
end

theorem whole_code (c : Code) (h : CodeGood c) : Wholes (codeLines c) := fun l hl =>
  ⟨codeLines_good c h l hl, shape_code c l hl⟩

end Verif.Python
