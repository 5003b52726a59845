import Verif.Pyparsing
/-!
# Elements of the grammar on a text
-/
namespace Verif.Parse

/-! ## white space -/

theorem skipWs_idem (s : List Char) : skipWs (skipWs s) = skipWs s := by
  induction s with
  | nil => rfl
  | cons c s ih =>
    unfold skipWs at *
    by_cases h : isWs c = true
    · simp [List.dropWhile_cons, h, ih]
    · simp [List.dropWhile_cons, h]

theorem skipWs_suffix (s : List Char) : skipWs s <:+ s := List.dropWhile_suffix _

theorem skipWs_append {w : List Char} (h : ∀ c ∈ w, isWs c = true) (s : List Char) : skipWs (w ++ s) = skipWs s := by
  induction w with
  | nil => rfl
  | cons c w ih =>
    have := h c (by simp)
    simp only [skipWs, List.cons_append, List.dropWhile_cons, this, if_true]
    exact ih fun d hd => h d (by simp [hd])

theorem skipWs_cons {c : Char} (h : isWs c = false) (s : List Char) : skipWs (c :: s) = c :: s := by
  simp [skipWs, List.dropWhile_cons, h]

theorem skipWs_mono {r s : List Char} (h : r <:+ s) : (skipWs r).length ≤ (skipWs s).length := by
  induction s with
  | nil => rw [List.suffix_nil.1 h]; exact Nat.le_refl _
  | cons c s ih =>
    rcases List.suffix_cons_iff.1 h with rfl | h
    · exact Nat.le_refl _
    · by_cases hc : isWs c = true
      · have : skipWs (c :: s) = skipWs s := by simp [skipWs, List.dropWhile_cons, hc]
        rw [this]; exact ih h
      · have : skipWs (c :: s) = c :: s := by simp [skipWs, List.dropWhile_cons, hc]
        rw [this]
        exact Nat.le_trans (ih h) (Nat.le_trans (skipWs_suffix s).length_le (by simp))

theorem suffix_of_le {r t s : List Char} (hr : r <:+ s) (ht : t <:+ s) (h : r.length ≤ t.length) : r <:+ t :=
  List.suffix_of_suffix_length_le hr ht h

/-! ## what all elements have in common -/

/-- White space in front of the text does not matter, and what is left is the end of the text. -/
class Tidy (p : P) : Prop where
  scan_skip : ∀ s, p.scan (skipWs s) = p.scan s
  run_skip : ∀ s, p.run (skipWs s) = p.run s
  suffix : ∀ s r, p.scan s = some r → r <:+ s

class TidyAll (ps : List P) : Prop where
  all : ∀ p ∈ ps, Tidy p

instance : TidyAll [] := ⟨fun _ h => nomatch h⟩
instance {p : P} {ps : List P} [h : Tidy p] [hs : TidyAll ps] : TidyAll (p :: ps) :=
  ⟨fun q hq => by
    rcases List.mem_cons.1 hq with h' | h'
    · exact h' ▸ h
    · exact hs.all q h'⟩

theorem TidyAll.head {p : P} {ps : List P} (h : TidyAll (p :: ps)) : Tidy p := h.all p (by simp)
theorem TidyAll.tail {p : P} {ps : List P} (h : TidyAll (p :: ps)) : TidyAll ps := ⟨fun q hq => h.all q (by simp [hq])⟩

/-- A match and the rest make up the text. -/
class Splits (m : List Char → Option (List Char × List Char)) : Prop where
  eq : ∀ s t r, m s = some (t, r) → s = t ++ r

instance tidy_terminal {m : List Char → Option (List Char × List Char)} [h : Splits m] : Tidy (terminal m) where
  scan_skip s := by simp [terminal, skipWs_idem]
  run_skip s := by simp [terminal, skipWs_idem]
  suffix s r hr := by
    simp only [terminal, Option.map_eq_some_iff] at hr
    obtain ⟨⟨t, r'⟩, h1, rfl⟩ := hr
    have := h.eq _ _ _ h1
    exact List.IsSuffix.trans ⟨t, this.symm⟩ (skipWs_suffix s)

theorem strip_eq {k s r : List Char} (h : strip k s = some r) : s = k ++ r := by
  induction k generalizing s with
  | nil => simp_all [strip]
  | cons c k ih =>
    cases s with
    | nil => simp [strip] at h
    | cons d s =>
      simp only [strip] at h
      split at h
      · next hc => rw [hc, ih h]; rfl
      · cases h

theorem strip_append (k s : List Char) : strip k (k ++ s) = some s := by
  induction k with
  | nil => simp [strip]
  | cons c k ih => simp [strip, ih]

instance (k : List Char) : Splits fun s => (strip k s).map fun r => (k, r) :=
  ⟨fun s t r h => by
    simp only [Option.map_eq_some_iff, Prod.mk.injEq] at h
    obtain ⟨r', h1, rfl, rfl⟩ := h
    exact strip_eq h1⟩

instance splits_word (i b : Char → Bool) : Splits (matchWord i b) :=
  ⟨fun s t r h => by
    cases s with
    | nil => simp [matchWord] at h
    | cons c s =>
      simp only [matchWord] at h
      split at h
      · simp only [Option.some.injEq, Prod.mk.injEq] at h
        obtain ⟨rfl, rfl⟩ := h
        simp
      · cases h⟩

instance : Splits matchDigits := splits_word _ _

instance : Splits matchReal :=
  ⟨fun s t r h => by
    unfold matchReal at h
    split at h
    · next a r1 h1 =>
      have e1 := Splits.eq _ _ _ h1
      split at h
      · next b r2 h2 =>
        have e2 := Splits.eq _ _ _ h2
        simp only [Option.some.injEq, Prod.mk.injEq] at h
        obtain ⟨rfl, rfl⟩ := h
        rw [e1, e2]; simp
      · cases h
    · cases h⟩

instance (q : Char) (ok : Char → Bool) (tail : List Char) : Splits (matchQuoted q ok tail) :=
  ⟨fun s t r h => by
    cases s with
    | nil => simp [matchQuoted] at h
    | cons c s =>
      simp only [matchQuoted] at h
      split at h
      · simp only [Option.map_eq_some_iff, Prod.mk.injEq] at h
        obtain ⟨r', h1, rfl, rfl⟩ := h
        have := strip_eq h1
        conv => lhs; rw [← List.takeWhile_append_dropWhile (p := ok) (l := s), this]
        simp
      · cases h⟩

instance (k : String) : Tidy (lit k) := by unfold lit; infer_instance
instance (i b : Char → Bool) : Tidy (word i b) := by unfold word; infer_instance

instance : Tidy empty where
  scan_skip s := by simp [empty, skipWs_idem]
  run_skip s := by simp [empty, skipWs_idem]
  suffix s r h := by simp only [empty, Option.some.injEq] at h; exact h ▸ skipWs_suffix s

instance : Tidy nothing where
  scan_skip _ := rfl
  run_skip _ := rfl
  suffix _ _ h := by simp [nothing] at h

instance {p q : P} [hp : Tidy p] [hq : Tidy q] : Tidy (seq p q) where
  scan_skip s := by simp [seq, hp.scan_skip]
  run_skip s := by simp only [seq, hp.run_skip]
  suffix s r h := by
    simp only [seq, Option.bind_eq_some_iff] at h
    obtain ⟨r1, h1, h2⟩ := h
    exact (hq.suffix _ _ h2).trans (hp.suffix _ _ h1)

instance : Tidy (seqs []) := by unfold seqs; infer_instance
instance {p : P} [Tidy p] : Tidy (seqs [p]) := by unfold seqs; infer_instance
instance {p q : P} {ps : List P} [Tidy p] [Tidy (seqs (q :: ps))] : Tidy (seqs (p :: q :: ps)) := by
  unfold seqs; infer_instance

theorem mem_insertBy {α : Type} {x y : Nat × α} {l : List (Nat × α)} : y ∈ insertBy x l ↔ y = x ∨ y ∈ l := by
  induction l with
  | nil => simp [insertBy]
  | cons z l ih =>
    simp only [insertBy]
    split
    · simp
    · simp only [List.mem_cons, ih]
      constructor <;> (intro h; rcases h with h | h | h <;> simp [h])

theorem mem_sortBy {α : Type} {y : Nat × α} {l : List (Nat × α)} : y ∈ sortBy l ↔ y ∈ l := by
  induction l with
  | nil => simp [sortBy]
  | cons x l ih => simp [sortBy, mem_insertBy, ih]

theorem mem_matching {ps : List P} {s : List Char} {n : Nat} {p : P} :
    (n, p) ∈ matching ps s ↔ p ∈ ps ∧ ∃ r, p.scan s = some r ∧ r.length = n := by
  simp only [matching, List.mem_filterMap, Option.map_eq_some_iff, Prod.mk.injEq]
  constructor
  · rintro ⟨q, hq, r, hr, rfl, rfl⟩; exact ⟨hq, r, hr, rfl⟩
  · rintro ⟨hq, r, hr, rfl⟩; exact ⟨p, hq, r, hr, rfl, rfl⟩

theorem or_scan {ps : List P} {s r : List Char} (h : (or ps).scan s = some r) :
    ∃ p ∈ ps, p.scan (skipWs s) = some r := by
  simp only [or] at h
  split at h
  · cases h
  · next n p _ hs =>
    exact ⟨p, (mem_matching.1 (mem_sortBy.1 (hs ▸ List.mem_cons_self))).1, h⟩

instance {ps : List P} [hs : TidyAll ps] : Tidy (or ps) where
  scan_skip s := by simp [or, skipWs_idem]
  run_skip s := by simp [or, skipWs_idem]
  suffix s r h := by
    obtain ⟨p, hp, h⟩ := or_scan h
    exact ((hs.all p hp).suffix _ _ h).trans (skipWs_suffix s)

theorem firstOf_suffix : ∀ {ps : List P}, TidyAll ps → ∀ s r, (firstOf ps).scan s = some r → r <:+ s
  | [], _, _, _, h => by simp [firstOf, nothing] at h
  | p :: ps, hs, s, r, h => by
    simp only [firstOf] at h
    cases hp : p.scan (skipWs s) with
    | none => exact (firstOf_suffix hs.tail _ _ (by simpa [hp] using h)).trans (skipWs_suffix s)
    | some r' =>
      simp only [hp, Option.orElse_some, Option.some.injEq] at h
      exact h ▸ (hs.head.suffix _ _ hp).trans (skipWs_suffix s)

instance {ps : List P} [hs : TidyAll ps] : Tidy (firstOf ps) where
  scan_skip s := by cases ps <;> simp [firstOf, skipWs_idem, nothing]
  run_skip s := by cases ps <;> simp [firstOf, skipWs_idem, nothing]
  suffix := firstOf_suffix hs

theorem repeat_suffix {p : P} (hp : Tidy p) : ∀ (n : Nat) (s : List Char), repeatScan p n s <:+ s
  | 0, _ => List.suffix_refl _
  | n + 1, s => by
    simp only [repeatScan]
    split
    · exact List.suffix_refl _
    · next r h => exact (repeat_suffix hp n r).trans (hp.suffix _ _ h)

instance {p : P} [hp : Tidy p] : Tidy (many p) where
  scan_skip s := by simp [many, skipWs_idem]
  run_skip s := by simp [many, skipWs_idem]
  suffix s r h := by
    simp only [many, Option.some.injEq] at h
    exact h ▸ (repeat_suffix hp _ _).trans (skipWs_suffix s)

instance {p : P} [hp : Tidy p] : Tidy (many1 p) where
  scan_skip s := by simp [many1, hp.scan_skip]
  run_skip s := by simp only [many1, hp.run_skip]
  suffix s r h := by
    simp only [many1, Option.map_eq_some_iff] at h
    obtain ⟨r1, h1, rfl⟩ := h
    exact (repeat_suffix hp _ _).trans (hp.suffix _ _ h1)

instance {p : P} [hp : Tidy p] : Tidy (opt p) where
  scan_skip s := by simp [opt, skipWs_idem]
  run_skip s := by simp [opt, skipWs_idem]
  suffix s r h := by
    simp only [opt, Option.some.injEq] at h
    cases h1 : p.scan (skipWs s) with
    | none => simp only [h1, Option.getD_none] at h; exact h ▸ skipWs_suffix s
    | some r' => simp only [h1, Option.getD_some] at h; exact h ▸ (hp.suffix _ _ h1).trans (skipWs_suffix s)

instance {p : P} {f : List Tok → Except PErr (List Tok)} [hp : Tidy p] : Tidy (p.act f) where
  scan_skip s := by simp [P.act, hp.scan_skip]
  run_skip s := by simp only [P.act, hp.run_skip]
  suffix s r h := hp.suffix s r h

instance {p : P} [Tidy p] : Tidy p.drop := by unfold P.drop; infer_instance
instance {p : P} [Tidy p] : Tidy p.group := by unfold P.group; infer_instance

/-! ## matches -/

/-- The element matches with these tokens; `R` is the rest without white space in front. -/
def Yields (p : P) (s : List Char) (toks : List Tok) (R : List Char) : Prop :=
  ∃ r, p.scan s = some r ∧ p.run s = .ok (toks, r) ∧ skipWs r = R

/-- The element does not match. -/
def Rejects (p : P) (s : List Char) : Prop := p.scan s = none ∧ p.run s = .error .noMatch

/-- The element does not match, or not as far as `R`. -/
def Loses (p : P) (s R : List Char) : Prop := ∀ r, p.scan s = some r → R.length < (skipWs r).length

/-- The element does not match farther than to `R`. -/
def Ties (p : P) (s R : List Char) : Prop :=
  ∀ r, p.scan s = some r → ∀ r0, r0 <:+ s → skipWs r0 = R → r0.length ≤ r.length

theorem Rejects.loses {p : P} {s R : List Char} (h : Rejects p s) : Loses p s R := by
  intro r hr; rw [h.1] at hr; cases hr

theorem Yields.loses {p : P} {s R R' : List Char} {t : List Tok} (h : Yields p s t R') (hl : R.length < R'.length) :
    Loses p s R := by
  intro r hr
  obtain ⟨r', h1, _, h3⟩ := h
  rw [h1] at hr; cases hr
  rw [h3]; exact hl

theorem Loses.ties {p : P} {s R : List Char} [hp : Tidy p] (h : Loses p s R) : Ties p s R := by
  intro r hr r0 h0 e
  by_cases hl : r0.length ≤ r.length
  · exact hl
  · have := h r hr
    have h2 := skipWs_mono (suffix_of_le (hp.suffix _ _ hr) h0 (by omega))
    rw [e] at h2
    omega

theorem Yields.skip {p : P} {s R : List Char} {t : List Tok} [hp : Tidy p] : Yields p (skipWs s) t R ↔ Yields p s t R := by
  unfold Yields; rw [hp.scan_skip, hp.run_skip]

theorem Rejects.skip {p : P} {s : List Char} [hp : Tidy p] : Rejects p (skipWs s) ↔ Rejects p s := by
  unfold Rejects; rw [hp.scan_skip, hp.run_skip]

theorem Yields.suffix {p : P} {s R : List Char} {t : List Tok} [hp : Tidy p] (h : Yields p s t R) : R <:+ s := by
  obtain ⟨r, h1, _, h3⟩ := h
  exact h3 ▸ (skipWs_suffix r).trans (hp.suffix _ _ h1)

theorem Yields.skipped {p : P} {s R : List Char} {t : List Tok} (h : Yields p s t R) : skipWs R = R := by
  obtain ⟨r, _, _, h3⟩ := h
  rw [← h3, skipWs_idem]

theorem Yields.unique {p : P} {s R R' : List Char} {t t' : List Tok} (h : Yields p s t R) (h' : Yields p s t' R') : R = R' := by
  obtain ⟨r, a1, _, rfl⟩ := h
  obtain ⟨r', b1, _, rfl⟩ := h'
  rw [a1] at b1; cases b1; rfl

/-- One alternative wins: those before it are worse, those after it not better (or as good). -/
inductive Best (s : List Char) (toks : List Tok) (R : List Char) : List P → Prop
  | here {p : P} {qs : List P} : Yields p s toks R → (∀ q ∈ qs, Ties q s R ∨ Yields q s toks R) → Best s toks R (p :: qs)
  | there {p : P} {qs : List P} : Loses p s R → Best s toks R qs → Best s toks R (p :: qs)

theorem sortBy_nil {α : Type} {l : List (Nat × α)} (h : sortBy l = []) : l = [] := by
  cases l with
  | nil => rfl
  | cons x l =>
    have : x ∈ sortBy (x :: l) := mem_sortBy.2 (by simp)
    rw [h] at this; cases this

theorem Best.winner {s R : List Char} {toks : List Tok} {ps : List P} (hs : TidyAll ps) (h : Best s toks R ps) :
    ∃ r q rest, sortBy (matching ps s) = (r.length, q) :: rest ∧ q.scan s = some r ∧ q.run s = .ok (toks, r) ∧
      skipWs r = R ∧ q ∈ ps := by
  induction h with
  | @here p qs hy hq =>
    obtain ⟨r, h1, h2, h3⟩ := hy
    have e : matching (p :: qs) s = (r.length, p) :: matching qs s := by simp [matching, h1]
    rw [e, sortBy]
    cases hm : sortBy (matching qs s) with
    | nil => exact ⟨r, p, [], rfl, h1, h2, h3, by simp⟩
    | cons x rest =>
      obtain ⟨n, q⟩ := x
      obtain ⟨hq1, r', hr', rfl⟩ := mem_matching.1 (mem_sortBy.1 (hm ▸ List.mem_cons_self : (n, q) ∈ sortBy (matching qs s)))
      simp only [insertBy]
      split
      · exact ⟨r, p, _, rfl, h1, h2, h3, by simp⟩
      · next hl =>
        rcases hq q hq1 with ht | ⟨r'', g1, g2, g3⟩
        · exact absurd (ht r' hr' r (hs.head.suffix _ _ h1) h3) hl
        · rw [g1] at hr'; cases hr'
          exact ⟨_, q, _, rfl, g1, g2, g3, by simp [hq1]⟩
  | @there p qs hl _ ih =>
    obtain ⟨r, q, rest, h1, h2, h3, h4, h5⟩ := ih hs.tail
    cases hp : p.scan s with
    | none =>
      have e : matching (p :: qs) s = matching qs s := by simp [matching, hp]
      exact ⟨r, q, rest, e ▸ h1, h2, h3, h4, by simp [h5]⟩
    | some r' =>
      have e : matching (p :: qs) s = (r'.length, p) :: matching qs s := by simp [matching, hp]
      rw [e, sortBy, h1, insertBy]
      have : ¬ r'.length ≤ r.length := by
        intro hle
        have h6 := skipWs_mono (suffix_of_le (hs.head.suffix _ _ hp) ((hs.all q (by simp [h5])).suffix _ _ h2) hle)
        have := hl r' hp
        rw [h4] at h6
        omega
      rw [if_neg (by simpa using this)]
      exact ⟨r, q, _, rfl, h2, h3, h4, by simp [h5]⟩

theorem Best.skip {s R : List Char} {toks : List Tok} {ps : List P} (hs : TidyAll ps) (h : Best s toks R ps) :
    Best (skipWs s) toks R ps := by
  induction h with
  | @here p qs hy hq =>
    have hp := hs.head
    refine .here (Yields.skip.2 hy) fun q hq' => ?_
    have := hs.tail.all q hq'
    rcases hq q hq' with ht | hy
    · refine .inl fun r hr r0 h0 e => ht r ?_ r0 (h0.trans (skipWs_suffix s)) e
      rwa [this.scan_skip] at hr
    · exact .inr (Yields.skip.2 hy)
  | @there p qs hl _ ih =>
    refine .there (fun r hr => hl r ?_) (ih hs.tail)
    rwa [hs.head.scan_skip] at hr

theorem or_yields {s R : List Char} {toks : List Tok} {ps : List P} [hs : TidyAll ps] (h : Best s toks R ps) :
    Yields (or ps) s toks R := by
  obtain ⟨r, q, rest, h1, h2, h3, h4, h5⟩ := (h.skip hs).winner hs
  refine ⟨r, ?_, ?_, h4⟩
  · simp only [or, h1, h2]
  · simp only [or, h1, tryEach, h3]
    simp

theorem or_one {s R : List Char} {toks : List Tok} {p : P} [Tidy p] (h : Yields p s toks R) : Yields (or [p]) s toks R :=
  or_yields (.here h fun _ h => nomatch h)

theorem or_rejects {s : List Char} {ps : List P} [hs : TidyAll ps] (h : ∀ p ∈ ps, Rejects p s) : Rejects (or ps) s := by
  have : sortBy (matching ps (skipWs s)) = [] := by
    cases hm : sortBy (matching ps (skipWs s)) with
    | nil => rfl
    | cons x rest =>
      obtain ⟨n, q⟩ := x
      obtain ⟨hq1, r', hr', rfl⟩ :=
        mem_matching.1 (mem_sortBy.1 (hm ▸ List.mem_cons_self : (n, q) ∈ sortBy (matching ps (skipWs s))))
      rw [(hs.all q hq1).scan_skip, (h q hq1).1] at hr'
      cases hr'
  constructor
  · simp only [or, this]
  · simp only [or, this, tryEach]

theorem or_loses {s R : List Char} {ps : List P} [hs : TidyAll ps] (h : ∀ p ∈ ps, Loses p s R) : Loses (or ps) s R := by
  intro r hr
  obtain ⟨p, hp, h1⟩ := or_scan hr
  rw [(hs.all p hp).scan_skip] at h1
  exact h p hp r h1

theorem seq_yields {p q : P} {s R1 R : List Char} {t u : List Tok} [hq : Tidy q] (h1 : Yields p s t R1)
    (h2 : Yields q R1 u R) : Yields (seq p q) s (t ++ u) R := by
  obtain ⟨r1, a1, a2, rfl⟩ := h1
  obtain ⟨r2, b1, b2, b3⟩ := Yields.skip.1 h2
  exact ⟨r2, by simp [seq, a1, b1], by simp [seq, a2, b2, bind, Except.bind, pure, Except.pure], b3⟩

theorem seq_rejects {p q : P} {s : List Char} (h : Rejects p s) : Rejects (seq p q) s :=
  ⟨by simp [seq, h.1], by simp [seq, h.2, bind, Except.bind]⟩

theorem seq_rejects' {p q : P} {s R1 : List Char} {t : List Tok} [hq : Tidy q] (h1 : Yields p s t R1) (h2 : Rejects q R1) :
    Rejects (seq p q) s := by
  obtain ⟨r1, a1, a2, rfl⟩ := h1
  obtain ⟨b1, b2⟩ := Rejects.skip.1 h2
  exact ⟨by simp [seq, a1, b1], by simp [seq, a2, b2, bind, Except.bind]⟩

theorem seqs_yields {p q : P} {ps : List P} {s R1 R : List Char} {t u : List Tok} [Tidy (seqs (q :: ps))]
    (h1 : Yields p s t R1) (h2 : Yields (seqs (q :: ps)) R1 u R) : Yields (seqs (p :: q :: ps)) s (t ++ u) R := by
  rw [seqs]; exact seq_yields h1 h2
  simp

theorem act_yields {p : P} {f : List Tok → Except PErr (List Tok)} {s R : List Char} {t u : List Tok}
    (h : Yields p s t R) (hf : f t = .ok u) : Yields (p.act f) s u R := by
  obtain ⟨r, a1, a2, a3⟩ := h
  exact ⟨r, a1, by simp [P.act, a2, hf, bind, Except.bind, pure, Except.pure], a3⟩

theorem drop_yields {p : P} {s R : List Char} {t : List Tok} (h : Yields p s t R) : Yields p.drop s [] R := act_yields h rfl

theorem group_yields {p : P} {s R : List Char} {t : List Tok} (h : Yields p s t R) : Yields p.group s [.group t] R :=
  act_yields h rfl

theorem act_rejects {p : P} {f : List Tok → Except PErr (List Tok)} {s : List Char} (h : Rejects p s) :
    Rejects (p.act f) s := ⟨h.1, by simp [P.act, h.2, bind, Except.bind]⟩

theorem empty_yields (s : List Char) : Yields empty s [] (skipWs s) := ⟨_, rfl, rfl, skipWs_idem s⟩

theorem opt_yields {p : P} {s R : List Char} {t : List Tok} [hp : Tidy p] (h : Yields p s t R) : Yields (opt p) s t R := by
  obtain ⟨r, a1, a2, a3⟩ := Yields.skip.2 h
  exact ⟨r, by simp [opt, a1], by simp [opt, a2], a3⟩

theorem opt_empty {p : P} {s : List Char} [hp : Tidy p] (h : Rejects p s) : Yields (opt p) s [] (skipWs s) := by
  obtain ⟨a1, a2⟩ := Rejects.skip.2 h
  exact ⟨_, by simp [opt, a1], by simp [opt, a2], skipWs_idem s⟩

/-! ## repetition -/

/-- The loop of a repetition, started at `s`. -/
def Reps (p : P) (s : List Char) (toks : List Tok) (R : List Char) : Prop :=
  ∀ n s', skipWs s' = s → s.length < n →
    ∃ r, repeatScan p n s' = r ∧ repeatRun p n s' = .ok (toks, r) ∧ skipWs r = R

theorem reps_nil {p : P} {s : List Char} [hp : Tidy p] (h : Rejects p s) : Reps p s [] s := by
  intro n s' e hn
  cases n with
  | zero => omega
  | succ n =>
    obtain ⟨a1, a2⟩ := Rejects.skip.1 (e.symm ▸ h)
    exact ⟨s', by simp [repeatScan, a1], by simp [repeatRun, a2], e⟩

theorem reps_cons {p : P} {s R1 R : List Char} {t u : List Tok} [hp : Tidy p] (h : Yields p s t R1)
    (hl : R1.length < s.length) (hr : Reps p R1 u R) : Reps p s (t ++ u) R := by
  intro n s' e hn
  cases n with
  | zero => omega
  | succ n =>
    obtain ⟨r1, a1, a2, a3⟩ := Yields.skip.1 (e.symm ▸ h)
    obtain ⟨r, b1, b2, b3⟩ := hr n r1 a3 (by omega)
    exact ⟨r, by simp [repeatScan, a1, b1],
      by simp [repeatRun, a2, b2, bind, Except.bind, pure, Except.pure], b3⟩

theorem many_yields {p : P} {s R : List Char} {t : List Tok} (hs : skipWs s = s) (h : Reps p s t R) :
    Yields (many p) s t R := by
  obtain ⟨r, a1, a2, a3⟩ := h ((skipWs s).length + 1) s hs (by rw [hs]; omega)
  exact ⟨r, by simp only [many]; rw [hs] at a1 ⊢; rw [a1], by simp only [many]; rw [hs] at a2 ⊢; rw [a2], a3⟩

theorem many1_yields {p : P} {s R1 R : List Char} {t u : List Tok} (h : Yields p s t R1) (hr : Reps p R1 u R) :
    Yields (many1 p) s (t ++ u) R := by
  obtain ⟨r1, a1, a2, a3⟩ := h
  obtain ⟨r, b1, b2, b3⟩ := hr (r1.length + 1) r1 a3 (by
    have := (skipWs_suffix r1).length_le; rw [a3] at this; omega)
  exact ⟨r, by simp [many1, a1, b1], by simp [many1, a2, b2, bind, Except.bind, pure, Except.pure], b3⟩

theorem many1_rejects {p : P} {s : List Char} (h : Rejects p s) : Rejects (many1 p) s :=
  ⟨by simp [many1, h.1], by simp [many1, h.2, bind, Except.bind]⟩

end Verif.Parse
