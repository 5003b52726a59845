import Verif.SpecModule
/-!
# Lines and comments
-/
namespace Verif
open Spec

/-! ## lines -/

theorem splitLines_cr_lf (cur r : List Char) : splitLines cur ('\r' :: '\n' :: r) = cur :: splitLines [] r := by
  rw [splitLines]

theorem splitLines_cons {cur r : List Char} {c : Char} (h : ¬ (c = '\r' ∧ r.head? = some '\n')) :
    splitLines cur (c :: r) = if isBreak c then cur :: splitLines [] r else splitLines (cur ++ [c]) r := by
  rw [splitLines]
  rintro r' rfl rfl
  exact h ⟨rfl, rfl⟩

theorem splitLines_plain : ∀ (l cur rest : List Char), (∀ c ∈ l, isBreak c = false) →
    splitLines cur (l ++ rest) = splitLines (cur ++ l) rest
  | [], cur, rest, _ => by simp
  | c :: l, cur, rest, h => by
    have hc := h c (by simp)
    rw [List.cons_append, splitLines_cons (by rintro ⟨rfl, _⟩; revert hc; decide), hc, if_neg (by simp),
      splitLines_plain l _ rest fun d hd => h d (List.mem_cons_of_mem _ hd)]
    simp

theorem splitLines_end {t rest : List Char} (cur : List Char) (h : Terminator t rest) :
    splitLines cur (t ++ rest) = cur :: splitLines [] rest := by
  rcases h with rfl | ⟨c, rfl, hc, hn⟩
  · exact splitLines_cr_lf cur rest
  · rw [List.singleton_append, splitLines_cons hn, if_pos hc]

/-- The lines of a text are what `splitlines` gives. -/
theorem lines_eq {text : List Char} {ls : List (List Char)} (h : Lines text ls) : splitLines [] text = ls := by
  induction h with
  | nil => rfl
  | @last l hne hl =>
    have := splitLines_plain l [] [] hl
    rw [List.append_nil] at this
    rw [this, splitLines, List.nil_append, if_neg (by cases l <;> simp_all)]
  | @line l t rest ls hl ht _ ih =>
    rw [List.append_assoc, splitLines_plain l [] _ hl, List.nil_append, splitLines_end _ ht, ih]

theorem splitLines_lines : ∀ (n : Nat) (text cur : List Char), text.length ≤ n → (∀ c ∈ cur, isBreak c = false) →
    Lines (cur ++ text) (splitLines cur text)
  | n, [], cur, _, h => by
    rw [splitLines, List.append_nil]
    cases cur with
    | nil => exact .nil
    | cons c cur => exact .last (by simp) h
  | 0, c :: r, _, hl, _ => by simp at hl
  | n + 1, c :: r, cur, hl, h => by
    simp only [List.length_cons, Nat.add_le_add_iff_right] at hl
    by_cases hcr : c = '\r' ∧ r.head? = some '\n'
    · obtain ⟨rfl, hr⟩ := hcr
      cases r with
      | nil => simp at hr
      | cons d r =>
        simp only [List.head?_cons, Option.some.injEq] at hr
        subst hr
        rw [splitLines_cr_lf]
        have := Lines.line h (t := ['\r', '\n']) (Or.inl rfl)
          (splitLines_lines n r [] (by simp only [List.length_cons] at hl; omega) (by simp))
        simpa using this
    · rw [splitLines_cons hcr]
      cases hb : isBreak c with
      | true =>
        rw [if_pos rfl]
        have := Lines.line h (t := [c]) (Or.inr ⟨c, rfl, hb, hcr⟩) (splitLines_lines n r [] hl (by simp))
        simpa using this
      | false =>
        rw [if_neg (by simp)]
        have := splitLines_lines n r (cur ++ [c]) hl (by
          intro d hd
          rcases List.mem_append.1 hd with hd | hd
          · exact h d hd
          · simp only [List.mem_singleton] at hd; rw [hd]; exact hb)
        simpa using this

/-- Every text has lines. -/
theorem lines_exist (text : List Char) : Lines text (splitLines [] text) :=
  splitLines_lines text.length text [] (Nat.le_refl _) (by simp)

theorem lines_plain {text : List Char} {ls : List (List Char)} (h : Lines text ls) :
    ∀ l ∈ ls, ∀ c ∈ l, isBreak c = false := by
  induction h with
  | nil => simp
  | last _ hl => simpa using hl
  | line hl _ _ ih =>
    intro l hm
    rcases List.mem_cons.1 hm with rfl | hm
    · exact hl
    · exact ih l hm

theorem lines_of_list : ∀ (ls : List (List Char)), (∀ l ∈ ls, ∀ c ∈ l, isBreak c = false) →
    Lines (ls.map (· ++ ['\n'])).flatten ls
  | [], _ => .nil
  | l :: ls, h => by
    rw [List.map_cons, List.flatten_cons]
    exact .line (h l (by simp)) (Or.inr ⟨'\n', rfl, by decide, by simp⟩)
      (lines_of_list ls fun m hm => h m (List.mem_cons_of_mem _ hm))

/-! ## comments -/

theorem hasComment_iff {l : List Char} : HasComment l ↔ ∃ i : Nat, l[i]? = some '-' ∧ l[i + 1]? = some '-' := by
  constructor
  · rintro ⟨s, t, rfl⟩
    refine ⟨s.length, ?_, ?_⟩ <;> simp
  · rintro ⟨i, h1, h2⟩
    obtain ⟨hi, h1⟩ := List.getElem?_eq_some_iff.1 h1
    obtain ⟨hj, h2⟩ := List.getElem?_eq_some_iff.1 h2
    refine ⟨l.take i, l.drop (i + 2), ?_⟩
    have e : l = l.take i ++ l.drop i := (List.take_append_drop i l).symm
    rw [List.drop_eq_getElem_cons hi, List.drop_eq_getElem_cons hj, h1, h2] at e
    simpa using e.symm

theorem hasComment_cons {c : Char} {l : List Char} :
    HasComment (c :: l) ↔ (c = '-' ∧ l.head? = some '-') ∨ HasComment l := by
  simp only [hasComment_iff]
  constructor
  · rintro ⟨i, h1, h2⟩
    cases i with
    | zero => left; simp at h1 h2; exact ⟨h1, by simpa [List.head?_eq_getElem?] using h2⟩
    | succ i => right; exact ⟨i, by simpa using h1, by simpa using h2⟩
  · rintro (⟨h1, h2⟩ | ⟨i, h1, h2⟩)
    · exact ⟨0, by simpa using h1, by simpa [List.head?_eq_getElem?] using h2⟩
    · exact ⟨i + 1, by simpa using h1, by simpa using h2⟩

theorem hasComment_nil : ¬ HasComment [] := by simp [hasComment_iff]

theorem stripComment_cons {c : Char} {r : List Char} (h : ¬ (c = '-' ∧ r.head? = some '-')) :
    stripComment (c :: r) = c :: stripComment r := by
  rw [stripComment]
  rintro r' rfl rfl
  exact h ⟨rfl, rfl⟩

theorem stripComment_spec : ∀ (l : List Char), Uncommented l (stripComment l)
  | [] => Or.inl ⟨hasComment_nil, rfl⟩
  | c :: r => by
    by_cases h : c = '-' ∧ r.head? = some '-'
    · obtain ⟨rfl, hr⟩ := h
      cases r with
      | nil => simp at hr
      | cons d r =>
        simp only [List.head?_cons, Option.some.injEq] at hr
        subst hr
        rw [stripComment]
        exact Or.inr ⟨⟨r, rfl⟩, by simp [hasComment_iff]⟩
    · rw [stripComment_cons h]
      rcases stripComment_spec r with ⟨h1, h2⟩ | ⟨⟨d, h1⟩, h2⟩
      · exact Or.inl ⟨fun hc => (hasComment_cons.1 hc).elim h h1, by rw [h2]⟩
      · refine Or.inr ⟨⟨d, by rw [List.cons_append, List.cons_append, ← h1]⟩, fun hc => ?_⟩
        rw [List.cons_append] at hc
        rcases hasComment_cons.1 hc with ⟨hc, hd⟩ | hc
        · refine h ⟨hc, ?_⟩
          rw [h1]
          generalize stripComment r = s at hd
          cases s <;> simpa using hd
        · exact h2 hc

theorem hasComment_append_left {a b : List Char} (h : HasComment a) : HasComment (a ++ b) := by
  obtain ⟨s, t, h⟩ := h
  exact ⟨s, t ++ b, by simp [← h]⟩

/-- The part of the line that is kept is determined. -/
theorem uncommented_unique : ∀ {l s t : List Char}, Uncommented l s → Uncommented l t → s = t := by
  have key : ∀ {s t c d : List Char}, s ++ ['-', '-'] ++ c = t ++ ['-', '-'] ++ d → ¬ HasComment (t ++ ['-']) →
      ¬ s.length < t.length := by
    intro s t c d he ht hlt
    apply ht
    rw [hasComment_iff]
    have h1 := congrArg (fun x => x[s.length]?) he
    have h2 := congrArg (fun x => x[s.length + 1]?) he
    simp only [List.append_assoc, List.getElem?_append_right (Nat.le_refl _)] at h1
    refine ⟨s.length, ?_, ?_⟩
    · rw [List.getElem?_append_left hlt]
      rw [List.getElem?_append_left hlt] at h1
      simpa using h1.symm
    · simp only [List.append_assoc, List.getElem?_append_right (Nat.le_add_right _ _)] at h2
      by_cases h : s.length + 1 < t.length
      · rw [List.getElem?_append_left h] at h2 ⊢
        simpa using h2.symm
      · rw [List.getElem?_append_right (by omega), show s.length + 1 - t.length = 0 by omega]
        rfl
  rintro l s t (⟨h1, rfl⟩ | ⟨⟨c, h1⟩, h2⟩) (⟨h3, rfl⟩ | ⟨⟨d, h3⟩, h4⟩)
  · rfl
  · exact absurd ⟨t, d, h3.symm⟩ h1
  · exact absurd ⟨s, c, h1.symm⟩ h3
  · have he := h1.symm.trans h3
    have a := key he h4
    have b := key he.symm h2
    have hl : s.length = t.length := by omega
    rw [List.append_assoc, List.append_assoc] at he
    exact (List.append_inj he hl).1

theorem uncommented_clean {l s : List Char} (h : Uncommented l s) : ¬ HasComment s := by
  rcases h with ⟨h, rfl⟩ | ⟨_, h⟩
  · exact h
  · exact fun hs => h (hasComment_append_left hs)

theorem uncommented_sublist {l s : List Char} (h : Uncommented l s) : s.Sublist l := by
  rcases h with ⟨h, rfl⟩ | ⟨⟨c, rfl⟩, h⟩
  · exact List.Sublist.refl _
  · rw [List.append_assoc]; exact List.sublist_append_left ..

theorem removeComments_eq (text : List Char) :
    removeComments text = (((splitLines [] text).map stripComment).map (· ++ ['\n'])).flatten := by
  unfold removeComments
  have : ∀ (ls : List (List Char)) (s : List Char), ls.foldl (fun s line => s ++ (stripComment line ++ ['\n'])) s =
      s ++ ((ls.map stripComment).map (· ++ ['\n'])).flatten := by
    intro ls
    induction ls with
    | nil => simp
    | cons l ls ih => intro s; rw [List.foldl_cons, ih]; simp
  simpa using this (splitLines [] text) []

theorem removeComments_lines {text : List Char} {ls : List (List Char)} (h : Lines text ls) :
    Lines (removeComments text) (ls.map stripComment) := by
  rw [removeComments_eq, lines_eq h]
  apply lines_of_list
  intro l hl c hc
  obtain ⟨m, hm, rfl⟩ := List.mem_map.1 hl
  exact lines_plain h m hm c ((uncommented_sublist (stripComment_spec m)).subset hc)

theorem hasComment_break : ∀ (a b : List Char), HasComment (a ++ '\n' :: b) → HasComment a ∨ HasComment b
  | [], b, h => by
    rw [List.nil_append] at h
    rcases hasComment_cons.1 h with ⟨h, _⟩ | h
    · exact absurd h (by decide)
    · exact Or.inr h
  | c :: a, b, h => by
    rw [List.cons_append] at h
    rcases hasComment_cons.1 h with ⟨h1, h2⟩ | h
    · left
      cases a with
      | nil => simp at h2
      | cons d a => exact hasComment_cons.2 (Or.inl ⟨h1, by simpa using h2⟩)
    · rcases hasComment_break a b h with h | h
      · exact Or.inl (hasComment_cons.2 (Or.inr h))
      · exact Or.inr h

theorem clean_lines : ∀ (ls : List (List Char)), (∀ l ∈ ls, ¬ HasComment l) →
    ¬ HasComment (ls.map (· ++ ['\n'])).flatten
  | [], _, h => hasComment_nil h
  | l :: ls, h, hc => by
    rw [List.map_cons, List.flatten_cons, List.append_assoc, List.singleton_append] at hc
    rcases hasComment_break _ _ hc with hc | hc
    · exact h l (by simp) hc
    · exact clean_lines ls (fun m hm => h m (List.mem_cons_of_mem _ hm)) hc

end Verif
