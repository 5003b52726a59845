import Verif.Lemmas.ParseValue
/-!
# Numbers and values as text
-/
namespace Verif.Parse
open Verif.Spec

theorem toDigits_step {n : Nat} (h : 10 ≤ n) : Nat.toDigits 10 n = Nat.toDigits 10 (n / 10) ++ [Nat.digitChar (n % 10)] := by
  rw [Nat.toDigits_of_base_le (by decide) h]

theorem natOf_append (l : List Char) (c : Char) : intOf.natOf (l ++ [c]) = 10 * intOf.natOf l + (c.toNat - '0'.toNat) := by
  simp [intOf.natOf]

theorem natOf_digits (n : Nat) : intOf.natOf (Nat.toDigits 10 n) = n := by
  induction n using Nat.strongRecOn with
  | ind n ih =>
    by_cases h : 10 ≤ n
    · rw [toDigits_step h, natOf_append, ih _ (by omega),
        show '0'.toNat = 48 from rfl, Nat.toNat_digitChar_sub_48_of_lt_ten (by omega)]
      omega
    · have hn : n < 10 := by omega
      rw [Nat.toDigits_of_lt_base hn]
      simp [intOf.natOf, Nat.toNat_digitChar_sub_48_of_lt_ten hn]

theorem digits_head {n : Nat} (h : 0 < n) : (Nat.toDigits 10 n).head? ≠ some '0' := by
  induction n using Nat.strongRecOn with
  | ind n ih =>
    by_cases h' : 10 ≤ n
    · rw [toDigits_step h']
      have := ih (n / 10) (by omega) (by omega)
      cases e : Nat.toDigits 10 (n / 10) with
      | nil => simp at e
      | cons c r => rw [e] at this; simpa using this
    · have : n = 1 ∨ n = 2 ∨ n = 3 ∨ n = 4 ∨ n = 5 ∨ n = 6 ∨ n = 7 ∨ n = 8 ∨ n = 9 := by omega
      rcases this with rfl | rfl | rfl | rfl | rfl | rfl | rfl | rfl | rfl <;> decide

theorem digit_ne_minus {c : Char} (h : c.isDigit = true) : c ≠ '-' := by rintro rfl; exact absurd h (by decide)

theorem intOf_repr (k : Nat) : intOf k.repr.toList = some (k : Int) := by
  by_cases h0 : k = 0
  · subst h0; decide
  · have hh := digits_head (n := k) (by omega)
    have hd := natOf_digits k
    obtain ⟨c, r, e, hall⟩ := repr_digits k
    rw [Nat.toList_repr] at e
    rw [e] at hh hd
    rw [Nat.toList_repr, e]
    have hc0 : c ≠ '0' := by simpa using hh
    have hcm := digit_ne_minus (hall c (by simp))
    unfold intOf
    split
    · next h => simp only [List.cons.injEq] at h; exact absurd h.1 hc0
    · next h => cases h; rw [if_neg hcm, if_pos ⟨List.all_eq_true.2 hall, hc0⟩, hd]
    · next h => cases h

theorem intOf_neg (k : Nat) : intOf ("-" ++ k.repr).toList = some (-(k : Int)) := by
  have hd := natOf_digits k
  obtain ⟨c, r, e, hall⟩ := repr_digits k
  have e' : ("-" ++ k.repr).toList = '-' :: c :: r := by rw [String.toList_append, e]; rfl
  have hz : (c :: r).head? ≠ some '0' ∨ c :: r = ['0'] := by
    by_cases h0 : k = 0
    · subst h0; right; rw [← e]; decide
    · left
      have hh := digits_head (n := k) (by omega)
      rw [Nat.toList_repr] at e
      rwa [e] at hh
  rw [e']
  unfold intOf
  split
  · next h => cases h
  · next h =>
    cases h
    rw [if_pos rfl, if_pos ⟨by simp, List.all_eq_true.2 hall, hz⟩]
    rw [Nat.toList_repr] at e
    rw [← e, hd]
  · next h => cases h

theorem intOf_num (z : Int) : intOf (numText z).toList = some z := by
  unfold numText
  split
  · next h => rw [intOf_neg]; congr 1; omega
  · next h => rw [intOf_repr]; congr 1; omega

theorem intOf_word {v : String} (h : Lower v ∨ Upper v) : intOf v.toList = none := by
  have : ∃ c r, v.toList = c :: r ∧ c.isDigit = false ∧ c ≠ '-' ∧ c ≠ '0' := by
    rcases h with ⟨c, r, e, h⟩ | ⟨c, r, e, h⟩
    · refine ⟨c, r, e, (lower_kind h).2, ?_, ?_⟩ <;> rintro rfl <;> exact absurd h (by decide)
    · refine ⟨c, r, e, (upper_kind h).2, ?_, ?_⟩ <;> rintro rfl <;> exact absurd h (by decide)
  obtain ⟨c, r, e, hd, hm, h0⟩ := this
  rw [e]
  unfold intOf
  split
  · next h => cases h; exact absurd rfl h0
  · next h => cases h; rw [if_neg hm, if_neg]; simp [hd]
  · next h => cases h

/-! ## ends of constraints -/

/-- The text of an end of a constraint. -/
def endText : End → String
  | .num z => numText z
  | .min => "MIN"
  | .max => "MAX"
  | .ref s => s

theorem num_ne {z : Int} {s : String} (h : intOf s.toList = none) : numText z ≠ s := by
  rintro rfl; rw [intOf_num] at h; cases h

theorem endOf_text {e : End} (h : ∀ s, e = .ref s → ValueName s) : endOf (endText e) = .ok e := by
  cases e with
  | num z =>
    have h1 : numText z ≠ "MIN" := num_ne (by decide)
    have h2 : numText z ≠ "MAX" := num_ne (by decide)
    simp [endOf, endText, h1, h2, intOf_num]
  | min => simp [endOf, endText]
  | max => simp [endOf, endText]
  | ref s =>
    have hs := h s rfl
    obtain ⟨c, r, e, hl⟩ := hs.1.2
    have h1 : s ≠ "MIN" := by rintro rfl; cases e; exact absurd hl (by decide)
    have h2 : s ≠ "MAX" := by rintro rfl; cases e; exact absurd hl (by decide)
    have hi := intOf_word (.inl hs.1.2)
    rw [e] at hi
    simp [endOf, endText, h1, h2, hi, e, hl]

/-! ## values -/

theorem mapM_map {α β γ : Type} {f : β → Option γ} {g : α → β} {h : α → γ} (hf : ∀ a, f (g a) = some (h a)) (l : List α) :
    (l.map g).mapM f = some (l.map h) := by
  induction l with
  | nil => rfl
  | cons a l ih => simp [hf, ih]

theorem intOf_quote (l : List Char) : intOf ('\'' :: l) = none := by
  unfold intOf
  split
  · next h => cases h
  · next h =>
    cases h
    rw [if_neg (by decide), if_neg]
    simp [show ('\'').isDigit = false from by decide]
  · next h => cases h

theorem litOf_text {l : Lit} (h : WritableLit l) : litOf (litText l) = .ok l := by
  cases l with
  | num z => simp [litOf, litText, intOf_num]
  | word s =>
    have : (Lower s ∨ Upper s) ∧ isName s.toList = true := by
      rcases h with h | rfl | rfl
      · obtain ⟨c, r, e, hl⟩ := h.1.2
        exact ⟨.inl ⟨c, r, e, hl⟩, by simp [isName, e, Char.isAlpha, hl]⟩
      · exact ⟨.inr ⟨'T', _, rfl, by decide⟩, by decide⟩
      · exact ⟨.inr ⟨'F', _, rfl, by decide⟩, by decide⟩
    simp [litOf, litText, intOf_word this.1, this.2]
  | bin b =>
    have e : (binItem b).toList = '\'' :: (b.map (fun x => if x then '1' else '0') ++ ['\'', 'B']) := binItem_toList b
    have hm : (b.map (fun x => if x then '1' else '0')).mapM binDigit = some b := by
      rw [mapM_map (h := id) (by intro a; cases a <;> decide)]; simp
    simp [litOf, litText, e, intOf_quote, isName, show ('\'').isAlpha = false from by decide, hm]
  | hex b =>
    have e : (hexItem b).toList = '\'' :: (b.map (fun d => "0123456789ABCDEF".toList.getD d.val '0') ++ ['\'', 'H']) := by
      rw [hexItem, String.toList_ofList]
    have hm : (b.map (fun d => "0123456789ABCDEF".toList.getD d.val '0')).mapM hexDigit = some b := by
      rw [mapM_map (h := id) (by decide)]; simp
    generalize b.map (fun d => "0123456789ABCDEF".toList.getD d.val '0') = l at e hm
    simp [litOf, litText, e, intOf_quote, isName, show ('\'').isAlpha = false from by decide, hm]

end Verif.Parse
