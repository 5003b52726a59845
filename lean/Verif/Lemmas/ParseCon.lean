import Verif.Lemmas.ParseText
/-!
# Constraints on lexical items
-/
namespace Verif.Parse
open Verif.Spec

/-- The text of a token of a constraint. -/
def ctokText : CTok → String
  | .value e => endText e
  | .dots => ".."
  | .less => "<"
  | .caret => "^"
  | .bar => "|"
  | .ellipsis => "..."

def strs (l : List CTok) : List Tok := l.map fun t => .str (ctokText t)

theorem Reads.seq_none {p q : P} {s R : List Char} {X : List String} {t : List Tok} [Tidy q] (h : Reads p s X t R)
    (hq : Rejects q R) : Reads (Parse.seq p (opt q)) s X t R := by
  refine ⟨h.laid, h.less, ?_⟩
  have := seq_yields h.yields (opt_empty hq)
  rwa [laid_skip h.laid, List.append_nil] at this

/-- How an element of a constraint starts. -/
def Head (l : String) : Prop := Lower l ∨ Digit l ∨ l = "-" ∨ l = "MIN"

theorem head_rejects {p : P} {F : First} [Starts p F] {l : String} {X : List String} {s : List Char} (h : Laid (l :: X) s)
    (hl : Head l)
    (hF : (!F.null && !F.lo && !F.dig && !F.up &&
      F.cs.all fun c => !c.isLower && !c.isDigit && c != '-' && c != 'M') = true := by decide) : Rejects p s := by
  simp only [Bool.and_eq_true, Bool.not_eq_true', List.all_eq_true, bne_iff_ne] at hF
  obtain ⟨⟨⟨⟨h1, h2⟩, h3⟩, h4⟩, h5⟩ := hF
  refine rejects_at h ?_
  rcases hl with hl | hl | rfl | rfl
  · exact skips_lower hl (by simp only [h1, h2, Bool.not_false, Bool.true_and, List.all_eq_true]; intro c hc; simp [(h5 c hc).1.1.1])
  · exact skips_digit hl (by simp only [h1, h3, Bool.not_false, Bool.true_and, List.all_eq_true]; intro c hc; simp [(h5 c hc).1.1.2])
  · have : '-' ∉ F.cs := fun hm => (h5 _ hm).1.2 rfl
    simp [First.skips, First.has, h1, h2, h3, h4, this]
  · have : 'M' ∉ F.cs := fun hm => (h5 _ hm).2 rfl
    simp [First.skips, First.has, h1, h2, h3, h4, this]

theorem end_head {e : End} (h : WritableValue e) : ∃ l Y, endItems e = l :: Y ∧ (Lower l ∨ Digit l ∨ l = "-") := by
  cases e with
  | num z =>
    simp only [endItems, numberItems]
    split
    · exact ⟨_, _, rfl, .inr (.inr rfl)⟩
    · exact ⟨_, _, rfl, .inr (.inl (repr_digit _))⟩
  | ref s => exact ⟨_, _, rfl, .inl h.1.2⟩
  | min => cases h
  | max => cases h

theorem elem_head {e : Elem} (h : WritableElem e) : ∃ l Y, elemItems e = l :: Y ∧ Head l := by
  cases e with
  | value e =>
    obtain ⟨l, Y, e, hl⟩ := end_head h
    exact ⟨l, Y, e, by unfold Head; rcases hl with h | h | h <;> simp [h]⟩
  | range lo lo' hi hi' =>
    rcases h.1 with h | rfl
    · obtain ⟨l, Y, e, hl⟩ := end_head h
      exact ⟨l, _, by rw [elemItems, e]; rfl, by unfold Head; rcases hl with h | h | h <;> simp [h]⟩
    · exact ⟨"MIN", _, rfl, by simp [Head]⟩

section
variable {s : List Char} {X : List String} {n : Nat}

theorem end_value {e : End} (he : WritableValue e) (h : Laid (endItems e ++ X) s) (hX : noFrac X = true) :
    ∃ R, Reads (value (n + 1)) s X [.str (endText e)] R := by
  cases e with
  | num z => exact num_value h hX
  | ref v => exact ⟨_, name_value h he⟩
  | min => cases he
  | max => cases he

theorem special_word {l : String} (h : Laid (l :: X) s) (hl : l = "MIN" ∨ l = "MAX") (hx : Rejects externalValueReference s) :
    Rejects (value (n + 1)) s := by
  have r1 : Rejects (lit "MINUS-INFINITY") s := by
    rcases hl with rfl | rfl <;> exact lit_clash h ⟨_, rfl, by decide⟩ (by decide)
  have r2 : Rejects specialRealValue s := by
    refine or_rejects ?_
    simp only [List.mem_cons, List.not_mem_nil, or_false, forall_eq_or_imp, forall_eq]
    refine ⟨?_, r1, ?_⟩ <;> rcases hl with rfl | rfl <;> rej h
  have r3 : Rejects (realValue (value n)) s := by
    refine or_rejects ?_
    simp only [List.mem_cons, List.not_mem_nil, or_false, forall_eq_or_imp, forall_eq]
    refine ⟨?_, r2⟩; rcases hl with rfl | rfl <;> rej h
  have r4 : Rejects (builtinValue (value n)) s := by
    refine or_rejects ?_
    simp only [List.mem_cons, List.not_mem_nil, or_false, forall_eq_or_imp, forall_eq]
    refine ⟨?_, ?_, ?_, ?_, ?_, r3, ?_⟩ <;> rcases hl with rfl | rfl <;> rej h
  have r5 : Rejects definedValue s := by
    refine or_rejects ?_
    simp only [List.mem_cons, List.not_mem_nil, or_false, forall_eq_or_imp, forall_eq]
    refine ⟨hx, ?_⟩; rcases hl with rfl | rfl <;> rej h
  unfold value
  refine or_rejects ?_
  simp only [List.mem_cons, List.not_mem_nil, or_false, forall_eq_or_imp, forall_eq]
  refine ⟨r4, or_rejects ?_⟩
  simpa using r5

theorem upperName_min : UpperName "MIN" ∧ Ends "MIN" :=
  ⟨⟨by unfold Word; decide, 'M', _, rfl, by decide⟩, by unfold Ends; decide⟩
theorem upperName_max : UpperName "MAX" ∧ Ends "MAX" :=
  ⟨⟨by unfold Word; decide, 'M', _, rfl, by decide⟩, by unfold Ends; decide⟩

/-- Two points are not a point and a name. -/
theorem dots_rejects (h : Laid (".." :: X) s) : Rejects (seq (lit ".") valuereference) s := by
  obtain ⟨w, e, -⟩ := laid_split h
  have e' : s = '.' :: '.' :: (w ++ after ".." s) := e
  have h1 : Yields (lit ".") s [.str "."] ('.' :: (w ++ after ".." s)) := by
    refine terminal_yields (t := ['.']) (w := []) (laid_skip h) ?_ (by simp) (skipWs_cons (by decide) _)
    conv => lhs; rw [e']
    simp [strip]
  refine seq_rejects' h1 ?_
  refine terminal_rejects ?_
  rw [skipWs_cons (by decide)]
  simp [matchWord, show ('.').isLower = false from by decide]

theorem min_rejects {l : String} (h : Laid ("MIN" :: l :: X) s) (hl : l = ".." ∨ l = "<") : Rejects (value (n + 1)) s := by
  refine special_word h (.inl rfl) ?_
  rcases hl with rfl | rfl
  · have h1 := typeref_reads h upperName_min.1 upperName_min.2
    exact seq_rejects' h1.yields (dots_rejects h1.laid)
  · exact external_rejects h upperName_min.1 upperName_min.2 (rfl)

/-! ## ranges -/

theorem lowerEnd_reads {lo : End} {l : String} (hlo : WritableValue lo ∨ lo = .min) (h : Laid (endItems lo ++ l :: X) s)
    (hl : l = ".." ∨ l = "<") : ∃ R, Reads (lowerEndValue (value (n + 1))) s (l :: X) [.str (endText lo)] R := by
  have hf : noFrac (l :: X) = true := by rcases hl with rfl | rfl <;> rfl
  rcases hlo with hlo | rfl
  · obtain ⟨R, hR⟩ := end_value (n := n) hlo h hf
    refine ⟨R, hR.laid, hR.less, or_yields ?_⟩
    obtain ⟨m, Y, e, hm⟩ := end_head hlo
    rw [e] at h
    have : Rejects (lit "MIN") s := by
      rcases hm with hm | hm | rfl <;> rej h
    pick hR.yields at h
  · have h0 := lit_reads h
    refine ⟨_, h0.laid, h0.less, or_yields ?_⟩
    exact .there (min_rejects h hl).loses (.here h0.yields rest_nil)

theorem lowerEndpoint_reads {lo : End} {lo' : Bool} (hlo : WritableValue lo ∨ lo = .min)
    (h : Laid (endItems lo ++ ((if lo' then ["<"] else []) ++ ".." :: X)) s) :
    ∃ R, Reads (lowerEndpoint (value (n + 1))) s (".." :: X) (strs (.value lo :: if lo' then [.less] else [])) R := by
  cases lo' with
  | false =>
    obtain ⟨R, hR⟩ := lowerEnd_reads (n := n) hlo h (.inl rfl)
    refine ⟨R, hR.laid, hR.less, or_yields ?_⟩
    have : Rejects (lit "<") R := rejects_at hR.laid
    exact .here hR.yields (rest_cons (.inl (seq_rejects' hR.yields this).loses.ties) rest_nil)
  | true =>
    obtain ⟨R, hR⟩ := lowerEnd_reads (n := n) hlo h (.inr rfl)
    have h1 := lit_reads hR.laid
    refine ⟨_, h1.laid, by have := h1.less; have := hR.less; omega, or_yields ?_⟩
    exact .there (hR.yields.loses h1.less) (.here (seq_yields hR.yields h1.yields) rest_nil)

theorem upperEnd_reads {hi : End} (hhi : WritableValue hi ∨ hi = .max) (h : Laid (endItems hi ++ X) s)
    (hX : First.avoids { cs := ['.'] } X = true) :
    ∃ R, Reads (upperEndValue (value (n + 1))) s X [.str (endText hi)] R := by
  rcases hhi with hhi | rfl
  · obtain ⟨R, hR⟩ := end_value (n := n) hhi h (noFrac_of_avoids hX)
    refine ⟨R, hR.laid, hR.less, or_yields ?_⟩
    obtain ⟨m, Y, e, hm⟩ := end_head hhi
    rw [e] at h
    have : Rejects (lit "MAX") s := by
      rcases hm with hm | hm | rfl <;> rej h
    pick hR.yields at h
  · have h0 := lit_reads h
    refine ⟨_, h0.laid, h0.less, or_yields ?_⟩
    exact .there (special_word h (.inr rfl) (external_rejects h upperName_max.1 upperName_max.2 hX)).loses
      (.here h0.yields rest_nil)

theorem upper_head {hi : End} (h : WritableValue hi ∨ hi = .max) :
    ∃ l Y, endItems hi = l :: Y ∧ (Lower l ∨ Digit l ∨ l = "-" ∨ l = "MAX") := by
  rcases h with h | rfl
  · obtain ⟨l, Y, e, hl⟩ := end_head h
    exact ⟨l, Y, e, by rcases hl with h | h | h <;> simp [h]⟩
  · exact ⟨_, _, rfl, by simp⟩

theorem upperEndpoint_reads {hi : End} {hi' : Bool} (hhi : WritableValue hi ∨ hi = .max)
    (h : Laid ((if hi' then ["<"] else []) ++ (endItems hi ++ X)) s) (hX : First.avoids { cs := ['.'] } X = true) :
    ∃ R, Reads (upperEndpoint (value (n + 1))) s X (strs ((if hi' then [.less] else []) ++ [.value hi])) R := by
  cases hi' with
  | false =>
    obtain ⟨R, hR⟩ := upperEnd_reads (n := n) hhi h hX
    refine ⟨R, hR.laid, hR.less, or_yields ?_⟩
    obtain ⟨l, Y, e, hl⟩ := upper_head hhi
    simp only [Bool.false_eq_true, ↓reduceIte, List.nil_append, e] at h
    have : Rejects (seq (lit "<") (upperEndValue (value (n + 1)))) s := by
      rcases hl with hl | hl | rfl | rfl <;> rej h
    pick hR.yields at h
  | true =>
    have h1 := lit_reads (k := "<") h
    obtain ⟨R, hR⟩ := upperEnd_reads (n := n) hhi h1.laid hX
    refine ⟨R, hR.laid, by have := h1.less; have := hR.less; omega, or_yields ?_⟩
    have r : Rejects (upperEndValue (value (n + 1))) s := rejects_at (X := endItems hi ++ X) (l := "<") h
    exact .there r.loses (.here (seq_yields h1.yields hR.yields) rest_nil)

/-! ## elements -/

/-- What can be behind an element. -/
def Stop (X : List String) : Prop := ∃ l Y, X = l :: Y ∧ (l = "|" ∨ l = "^" ∨ l = "," ∨ l = ")")

theorem Stop.point (h : Stop X) : First.avoids { cs := ['.'] } X = true := by
  obtain ⟨l, Y, rfl, rfl | rfl | rfl | rfl⟩ := h <;> rfl

theorem Stop.rejects {p : P} {F : First} [Starts p F] (hX : Stop X) (h : Laid X s)
    (hF : (F.skips "|" && F.skips "^" && F.skips "," && F.skips ")") = true := by decide) : Rejects p s := by
  simp only [Bool.and_eq_true] at hF
  obtain ⟨⟨⟨h1, h2⟩, h3⟩, h4⟩ := hF
  obtain ⟨l, Y, rfl, rfl | rfl | rfl | rfl⟩ := hX <;> exact rejects_at h (by assumption)

variable {C E : P} [Tidy C] [Tidy E]

theorem subtype_reads {e : Elem} (he : WritableElem e) (h : Laid (elemItems e ++ X) s) (hX : Stop X) :
    ∃ R, Reads (subtypeElements (value (n + 1)) C) s X (strs e.toks) R := by
  have hsize : Rejects (sizeConstraint C) s := by
    obtain ⟨l, Y, e', hl⟩ := elem_head he
    rw [e'] at h
    exact head_rejects h hl
  cases e with
  | value e =>
    obtain ⟨R, hR⟩ := end_value (n := n) he h (noFrac_of_avoids hX.point)
    refine ⟨R, hR.laid, hR.less, or_yields ?_⟩
    have hlow : Rejects (valueRange (value (n + 1))) s := by
      obtain ⟨m, Y, e', hm⟩ := end_head he
      have h' := h
      rw [elemItems, e'] at h'
      have hmin : Rejects (lit "MIN") s := by rcases hm with hm | hm | rfl <;> rej h'
      have h1 : Yields (lowerEndValue (value (n + 1))) s [.str (endText e)] R := by
        refine or_yields ?_
        pick hR.yields at h'
      have h2 : Yields (lowerEndpoint (value (n + 1))) s [.str (endText e)] R := by
        refine or_yields (.here h1 (rest_cons (.inl ?_) rest_nil))
        exact (seq_rejects' h1 (hX.rejects hR.laid)).loses.ties
      exact seq_rejects' h2 (seq_rejects (hX.rejects hR.laid))
    exact .here hR.yields (rest_cons (.inl hlow.loses.ties) (rest_cons (.inl hsize.loses.ties) rest_nil))
  | range lo lo' hi hi' =>
    have h' : Laid (endItems lo ++ ((if lo' then ["<"] else []) ++ ".." ::
        ((if hi' then ["<"] else []) ++ (endItems hi ++ X)))) s := by
      simpa [elemItems] using h
    obtain ⟨R1, h1⟩ := lowerEndpoint_reads (n := n) he.1 h'
    have h2 := lit_reads h1.laid
    obtain ⟨R, h3⟩ := upperEndpoint_reads (n := n) he.2 h2.laid hX.point
    have hall : Reads (valueRange (value (n + 1))) s X (strs (Elem.toks (.range lo lo' hi hi'))) R := by
      have : strs (Elem.toks (.range lo lo' hi hi')) = strs (.value lo :: if lo' then [.less] else []) ++ ([.str ".."] ++
          strs ((if hi' then [.less] else []) ++ [.value hi])) := by simp [Elem.toks, strs, ctokText]
      rw [this]
      exact h1.seqs (h2.seqs (ps := []) h3)
    refine ⟨R, hall.laid, hall.less, or_yields ?_⟩
    have hV : Loses (value (n + 1)) s R := by
      have hmark : ∃ l Y, ((if lo' then ["<"] else []) ++ ".." :: ((if hi' then ["<"] else []) ++ (endItems hi ++ X))) = l :: Y ∧
          (l = ".." ∨ l = "<") := by
        cases lo' with
        | false => exact ⟨_, _, rfl, .inl rfl⟩
        | true => exact ⟨_, _, rfl, .inr rfl⟩
      obtain ⟨l, Y, e, hl⟩ := hmark
      rw [e] at h'
      rcases he.1 with hlo | rfl
      · obtain ⟨R2, hR2⟩ := end_value (n := n) hlo h' (by rcases hl with rfl | rfl <;> rfl)
        refine hR2.yields.loses ?_
        -- what the value alone leaves contains the dots
        have a1 := h2.less
        have a2 := h3.less
        have a3 : R1.length ≤ R2.length := by
          have hlt := lowerEnd_reads (n := n) (.inl hlo) h' hl
          obtain ⟨R3, hR3⟩ := hlt
          have : R3 = R2 := by
            obtain ⟨m, Z, e', hm⟩ := end_head hlo
            rw [e'] at h'
            have hmin : Rejects (lit "MIN") s := by rcases hm with hm | hm | rfl <;> rej h'
            have h1 : Yields (lowerEndValue (value (n + 1))) s [.str (endText lo)] R2 := by
              refine or_yields ?_
              pick hR2.yields at h'
            exact hR3.yields.unique h1
          subst this
          have hmem : Yields (lowerEndpoint (value (n + 1))) s (strs (.value lo :: if lo' then [.less] else [])) R1 := h1.yields
          rcases hl with rfl | rfl
          · have : Yields (lowerEndpoint (value (n + 1))) s [.str (endText lo)] R3 := by
              have : Rejects (lit "<") R3 := rejects_at hR3.laid
              exact or_yields (.here hR3.yields (rest_cons (.inl (seq_rejects' hR3.yields this).loses.ties) rest_nil))
            rw [hmem.unique this]; exact Nat.le_refl _
          · have h4 := lit_reads hR3.laid
            have : Yields (lowerEndpoint (value (n + 1))) s ([.str (endText lo)] ++ [.str "<"]) (after "<" R3) :=
              or_yields (.there (hR3.yields.loses h4.less) (.here (seq_yields hR3.yields h4.yields) rest_nil))
            rw [hmem.unique this]
            exact Nat.le_of_lt h4.less
        omega
      · exact (min_rejects h' hl).loses
    exact .there hV (.here hall.yields (rest_cons (.inl hsize.loses.ties) rest_nil))

theorem elements_reads {e : Elem} (he : WritableElem e) (h : Laid (elemItems e ++ X) s) (hX : Stop X) :
    ∃ R, Reads (elements (value (n + 1)) C E) s X (strs e.toks) R := by
  obtain ⟨R, hR⟩ := subtype_reads (n := n) (C := C) he h hX
  refine ⟨R, hR.laid, hR.less, or_yields ?_⟩
  obtain ⟨l, Y, e', hl⟩ := elem_head he
  rw [e'] at h
  have hp : Rejects (seqs [leftParen, E, rightParen]) s := head_rejects h hl
  pick hR.yields at h

theorem intersectionElements_reads {e : Elem} (he : WritableElem e) (h : Laid (elemItems e ++ X) s) (hX : Stop X) :
    ∃ R, Reads (intersectionElements (value (n + 1)) C E) s X (strs e.toks) R := by
  obtain ⟨R, hR⟩ := elements_reads (n := n) (C := C) (E := E) he h hX
  have := hR.seq_none (q := exclusions (value (n + 1)) C E) (hX.rejects hR.laid)
  exact ⟨R, this.one⟩

end
end Verif.Parse
