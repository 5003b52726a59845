import Verif.Lemmas.ParseType
/-!
# Lists on lexical items, and enumerations
-/
namespace Verif.Parse
open Verif.Spec

theorem seq_loses {p q : P} {s R1 R : List Char} {t : List Tok} [hq : Tidy q] (h1 : Yields p s t R1) (h2 : Loses q R1 R) :
    Loses (seq p q) s R := by
  obtain ⟨r1, a1, -, a3⟩ := h1
  intro r h
  simp only [seq, a1, Option.bind_some] at h
  refine h2 r ?_
  rw [← a3, hq.scan_skip]; exact h

/-- Behind a member of a list. -/
def Close (X : List String) : Prop := ∃ l Y, X = l :: Y ∧ (l = "," ∨ l = "}" ∨ l = "]]")

theorem Close.comma {Y : List String} : Close ("," :: Y) := ⟨_, _, rfl, .inl rfl⟩
theorem Close.curly {Y : List String} : Close ("}" :: Y) := ⟨_, _, rfl, .inr (.inl rfl)⟩
theorem Close.square {Y : List String} : Close ("]]" :: Y) := ⟨_, _, rfl, .inr (.inr rfl)⟩

theorem Close.avoids {X : List String} (hX : Close X) {F : First} (h1 : F.skips "," = true := by decide)
    (h2 : F.skips "}" = true := by decide) (h3 : F.skips "]]" = true := by decide) : F.avoids X = true := by
  obtain ⟨l, Y, rfl, rfl | rfl | rfl⟩ := hX
  · exact h1
  · exact h2
  · exact h3

theorem Close.follow {X : List String} (hX : Close X) : Follow X := hX.avoids

/-- The list ends here: no comma with another member behind it. -/
def Ended (q : P) (X : List String) : Prop := ∀ s, Laid X s → Rejects (seq comma q) s

theorem ended_of {q : P} {X : List String} (h : First.avoids { cs := [','] } X = true) : Ended q X :=
  fun _ hs => seq_rejects (rejects_avoid hs h)

theorem ended_comma {q : P} [Tidy q] {F : First} [Starts q F] {X : List String} (h : F.avoids X = true) :
    Ended q ("," :: X) := fun _ hs =>
  have h1 := comma_reads hs
  seq_rejects' h1.yields (rejects_avoid h1.laid h)

section
variable {α : Type} {q : P} [Tidy q] {f : α → List String} {g : α → List Tok} {N : Nat} {X : List String} {s : List Char}

/-- How a member of a list is read. -/
def Member (q : P) (f : α → List String) (g : α → List Tok) (N : Nat) (x : α) : Prop :=
  ∀ s X, s.length < N → Close X → Laid (f x ++ X) s → ∃ R, Reads q s X (g x) R

theorem reps_comma : ∀ {xs : List α} {s : List Char}, (∀ x ∈ xs, Member q f g N x) → Close X → Ended q X →
    s.length < N → Laid (xs.flatMap (fun y => "," :: f y) ++ X) s →
    ∃ R, Laid X R ∧ R.length ≤ s.length ∧ Reps (seq comma q) s (xs.flatMap g) R
  | [], s, _, _, hE, _, h => ⟨s, h, Nat.le_refl _, reps_nil (hE s h)⟩
  | x :: xs, s, H, hX, hE, hs, h => by
    simp only [List.flatMap_cons, List.cons_append, List.append_assoc] at h
    have h1 := comma_reads h
    have l1 := h1.less
    have hc : Close (xs.flatMap (fun y => "," :: f y) ++ X) := by
      cases xs with
      | nil => exact hX
      | cons y ys => exact Close.comma
    obtain ⟨R1, h2⟩ := H x (by simp) _ _ (by omega) hc h1.laid
    have l2 := h2.less
    obtain ⟨R, h3, h4, h5⟩ := reps_comma (xs := xs) (fun y hy => H y (by simp [hy])) hX hE (by omega) h2.laid
    refine ⟨R, h3, by omega, ?_⟩
    rw [List.flatMap_cons]
    exact reps_cons (seq_yields h1.yields h2.yields) (by omega) h5

theorem list_reads {x : α} {xs : List α} (H : ∀ y ∈ x :: xs, Member q f g N y) (hX : Close X) (hE : Ended q X)
    (hs : s.length < N) (h : Laid (f x ++ (xs.flatMap (fun y => "," :: f y) ++ X)) s) :
    ∃ R, Reads (or [seq q (many (seq comma q))]) s X ((x :: xs).flatMap g) R := by
  have hc : Close (xs.flatMap (fun y => "," :: f y) ++ X) := by
    cases xs with
    | nil => exact hX
    | cons y ys => exact Close.comma
  obtain ⟨R1, h1⟩ := H x (by simp) _ _ hs hc h
  have l1 := h1.less
  obtain ⟨R, h2, h3, h4⟩ := reps_comma (fun y hy => H y (by simp [hy])) hX hE (by omega) h1.laid
  refine ⟨R, h2, by omega, or_one ?_⟩
  rw [List.flatMap_cons]
  exact seq_yields h1.yields (many_yields (laid_skip h1.laid) h4)

theorem between_cons (x : α) (xs : List α) : between "," f (x :: xs) = f x ++ xs.flatMap fun y => "," :: f y := by
  induction xs generalizing x with
  | nil => simp [between]
  | cons y ys ih => rw [between, ih]; simp; simp

end

/-! ## enumerations -/

section
variable {X : List String} {s : List Char}

def enumToks : EnumItem → List Tok
  | .id i => [.str i]
  | .number n i => [.group [.str i, .str n]]

def signItems (n : String) : List String := match n.toList with | '-' :: r => ["-", String.ofList r] | _ => [n]

theorem signItems_of {n : String} (h : n.toList.head? ≠ some '-') : signItems n = [n] := by
  unfold signItems
  split
  · next e => rw [e] at h; exact absurd rfl h
  · rfl

theorem signed_reads {n : String} (hn : WritableNumber n) (h : Laid (signItems n ++ X) s) :
    ∃ R, (Reads signedNumber s X [.str n] R ∧ Rejects definedValue s) ∨
      (Reads definedValue s X [.str n] R ∧ Rejects signedNumber s) := by
  rcases hn with ⟨k, rfl | rfl⟩ | hn
  · obtain ⟨c, r, e, hd⟩ := repr_digits k
    rw [signItems_of (by rw [e]; rintro h; cases h; exact absurd (hd '-' (by simp)) (by decide))] at h
    have h : Laid (k.repr :: X) s := h
    have h0 := number_reads h
    have hdg := repr_digit k
    refine ⟨_, .inl ⟨⟨h0.laid, h0.less, act_yields (t := [.str k.repr]) (or_yields ?_) (by simp [joined, texts, String.join])⟩, ?_⟩⟩
    · pick h0.yields at h
    · rej h
  · have e : signItems ("-" ++ k.repr) = ["-", k.repr] := by
      have e : ("-" ++ k.repr).toList = '-' :: k.repr.toList := by rw [String.toList_append]; rfl
      rw [signItems, e]
      simp only [String.ofList_toList]
    rw [e] at h
    have h : Laid ("-" :: k.repr :: X) s := h
    have h1 := lit_reads h
    have h2 := h1.seq (number_reads h1.laid)
    refine ⟨_, .inl ⟨⟨h2.laid, h2.less, act_yields (t := [.str "-", .str k.repr]) (or_yields ?_) (by simp [joined, texts, String.join])⟩, ?_⟩⟩
    · have := h2.yields
      pick this at h
    · rej h
  · have hlo : Lower n := hn.1.2
    rw [signItems_of (by obtain ⟨c, r, e, hc⟩ := hlo; rw [e]; rintro h; cases h; exact absurd hc (by decide))] at h
    have h : Laid (n :: X) s := h
    have h0 := ident_reads h hn
    have hid : Yields valuereference s [.str n] (after n s) := h0.yields
    refine ⟨_, .inr ⟨⟨h0.laid, h0.less, or_yields ?_⟩, ?_⟩⟩
    · pick hid at h
    · rej h

theorem enumItem_reads {i : EnumItem} {N : Nat} (hi : WritableItem i) : Member enumerationItem namedItems enumToks N i := by
  intro s X _ hX h
  cases i with
  | id i =>
    have h : Laid (i :: X) s := h
    have h0 := ident_reads h hi
    have r1 : Rejects leftParen (after i s) := rejects_avoid h0.laid hX.avoids
    have : Rejects namedNumber s := by
      refine or_rejects ?_
      simp only [List.mem_cons, List.not_mem_nil, or_false, forall_eq_or_imp, forall_eq]
      exact ⟨act_rejects (seq_rejects' h0.yields (seq_rejects r1)), act_rejects (seq_rejects' h0.yields (seq_rejects r1))⟩
    exact ⟨_, h0.laid, h0.less, or_yields (.here h0.yields (rest_cons (.inl this.loses.ties) rest_nil))⟩
  | number n i =>
    obtain ⟨hi, hn⟩ := hi
    have h : Laid (i :: "(" :: ((signItems n ++ [")"]) ++ X)) s := h
    rw [List.append_assoc, List.singleton_append] at h
    have h0 := ident_reads h hi
    have h1 : Reads leftParen _ _ _ _ := (lit_reads h0.laid).drop
    obtain ⟨R, hR⟩ := signed_reads hn h1.laid
    have hl := h1.less
    rcases hR with ⟨h2, hr⟩ | ⟨h2, hr⟩
    all_goals
      have h3 : Reads rightParen _ _ _ _ := (lit_reads h2.laid).drop
      have h4 := (h0.seqs (h1.seqs (h2.seqs (ps := []) h3))).group
      have hl2 := h2.less
      have hl3 := h3.less
      refine ⟨_, h4.laid, h4.less, or_yields (.there (h0.yields.loses (by omega)) (.here (or_yields ?_) rest_nil))⟩
    · refine .here h4.yields (rest_cons (.inl (Loses.ties (Rejects.loses ?_))) rest_nil)
      exact act_rejects (seq_rejects' h0.yields (seq_rejects' h1.yields (seq_rejects hr)))
    · refine .there (Rejects.loses ?_) (.here h4.yields rest_nil)
      exact act_rejects (seq_rejects' h0.yields (seq_rejects' h1.yields (seq_rejects hr)))

theorem enumItemsOf_toks : ∀ items : List EnumItem, enumItemsOf (items.flatMap enumToks) = .ok items
  | [] => rfl
  | .id s :: r => by simp [enumToks, enumItemsOf, enumItemsOf_toks r, bind, Except.bind, pure, Except.pure]
  | .number n s :: r => by simp [enumToks, enumItemsOf, enumItemsOf_toks r, bind, Except.bind, pure, Except.pure]

theorem exception_empty {T V : P} [Tidy T] [Tidy V] (h : Laid X s) (hX : Close X) : Yields (exceptionSpec T V) s [] s := by
  have h1 : Rejects (seq (lit "!") (or [signedNumber, definedValue, seqs [T, lit ":", V]])) s := rejects_avoid h hX.avoids
  have h2 := empty_yields s
  rw [laid_skip h] at h2
  exact or_yields (.there h1.loses (.here h2 rest_nil))

theorem enumeration_reads {x : EnumItem} {xs : List EnumItem} (hi : ∀ i ∈ x :: xs, WritableItem i) (hX : Close X)
    (hE : Ended enumerationItem X) (h : Laid (between "," namedItems (x :: xs) ++ X) s) :
    ∃ R, Reads enumeration s X ((x :: xs).flatMap enumToks) R := by
  rw [between_cons, List.append_assoc] at h
  exact list_reads (N := s.length + 1) (fun y hy => enumItem_reads (hi y hy)) hX hE (by omega) h

theorem enumerations_reads {T V : P} [Tidy T] [Tidy V] {items : List EnumItem} (hi : WritableEnum items)
    (h : Laid (between "," namedItems items ++ "}" :: X) s) :
    ∃ R, Reads (enumerations T V) s ("}" :: X) (items.flatMap enumToks) R := by
  obtain ⟨root, adds, rfl | rfl, hr, hall⟩ := hi
  · cases items with
    | nil => exact absurd rfl hr
    | cons x xs =>
      obtain ⟨R, h1⟩ := enumeration_reads (fun i hi => hall i (by simp only [List.mem_append]; exact .inl hi)) Close.curly (ended_of rfl) h
      have h2 : Rejects comma R := rejects_at h1.laid
      exact ⟨R, h1.laid, h1.less, or_yields (.here h1.yields
        (rest_cons (.inl (seq_rejects' h1.yields (seq_rejects h2)).loses.ties)
          (rest_cons (.inl (seq_rejects' h1.yields (seq_rejects h2)).loses.ties) rest_nil)))⟩
  · cases root with
    | nil => exact absurd rfl hr
    | cons x xs =>
      have e : between "," namedItems (x :: xs ++ .id "..." :: adds) ++ "}" :: X =
          between "," namedItems (x :: xs) ++ "," :: "..." :: (adds.flatMap (fun y => "," :: namedItems y) ++ "}" :: X) := by
        rw [List.cons_append, between_cons, between_cons]; simp [namedItems]
      rw [e] at h
      obtain ⟨R1, h1⟩ := enumeration_reads (fun i hi => hall i (by simp only [List.mem_append]; exact .inl hi)) Close.comma
        (ended_comma rfl) h
      have h2 := comma_reads h1.laid
      have h3 := lit_reads h2.laid
      have l1 := h1.less
      have l2 := h2.less
      have l3 := h3.less
      cases adds with
      | nil =>
        have h4 := exception_empty (T := T) (V := V) h3.laid Close.curly
        have y2 := seqs_yields h1.yields (seqs_yields h2.yields (seqs_yields h3.yields (ps := []) h4))
        have h5 : Rejects comma (after "..." (after "," R1)) := rejects_at (l := "}") h3.laid
        have y3 := seq_rejects' h1.yields (seq_rejects' h2.yields (seq_rejects' h3.yields (seq_rejects' h4
          (seq_rejects (q := enumeration) h5))))
        refine ⟨_, h3.laid, by omega, ?_⟩
        have e : (x :: xs ++ [EnumItem.id "..."]).flatMap enumToks = (x :: xs).flatMap enumToks ++ ([] ++ ([.str "..."] ++ [])) := by
          rw [List.flatMap_append]; rfl
        rw [e]
        exact or_yields (.there (h1.yields.loses (by omega)) (.here y2 (rest_cons (.inl y3.loses.ties) rest_nil)))
      | cons a as =>
        have hl : Laid ("," :: (between "," namedItems (a :: as) ++ "}" :: X)) (after "..." (after "," R1)) := by
          have := h3.laid
          rw [between_cons]
          simpa using this
        have h4 := exception_empty (T := T) (V := V) hl Close.comma
        have h5 := comma_reads hl
        obtain ⟨R, h6⟩ := enumeration_reads (fun i hi => hall i (by simp only [List.mem_append]; exact .inr hi)) Close.curly (ended_of rfl) h5.laid
        have l5 := h5.less
        have l6 := h6.less
        have y2 := seqs_yields h1.yields (seqs_yields h2.yields (seqs_yields h3.yields (ps := []) h4))
        have y3 := seqs_yields h1.yields (seqs_yields h2.yields (seqs_yields h3.yields (seqs_yields h4
          (seqs_yields (ps := []) h5.yields h6.yields))))
        refine ⟨_, h6.laid, by omega, ?_⟩
        have e : (x :: xs ++ EnumItem.id "..." :: a :: as).flatMap enumToks =
            (x :: xs).flatMap enumToks ++ ([] ++ ([.str "..."] ++ ([] ++ ([] ++ (a :: as).flatMap enumToks)))) := by
          rw [List.flatMap_append]; rfl
        rw [e]
        exact or_yields (.there (h1.yields.loses (by omega)) (.there (y2.loses (by omega)) (.here y3 rest_nil)))

/-! ## types that start with a word of their own -/

theorem type_of_builtin {f m : Nat} {t : TObj} {R : List Char}
    (hb : Reads (builtinType (type f m) (value f)) s X [.type t] R) (hr : Loses referencedType s R)
    (hw : Rejects (typeWithConstraint (type f m) (constraint f)) s) (hX : Follow X) :
    Reads (type f (m + 1)) s X [.group [.type t]] R := by
  refine ⟨hb.laid, hb.less, type_cases (.here (group_yields hb.yields) (rest_cons (.inl hr.group.ties) (rest_cons (.inl ?_) rest_nil)))⟩
  refine Ties.group (Ties.act (Loses.ties (or_loses ?_)))
  simp only [List.mem_cons, List.not_mem_nil, or_false, forall_eq_or_imp, forall_eq]
  exact ⟨(seq_rejects' hb.yields (hX.rejects hb.laid)).loses, hw.loses⟩

theorem word_loses {k : String} {R : List Char} (hk : UpperName k ∧ Ends k) (h : Laid (k :: X) s)
    (hX : First.avoids { cs := ['.'] } X = true) (hl : R.length < (after k s).length) : Loses referencedType s R :=
  (reference_reads h hk.1 hk.2 hX).1.yields.loses hl

theorem enumerated_reads {f m : Nat} {items : List EnumItem} (hi : WritableEnum items) (hX : Follow X)
    (h : Laid (typeItems (.enumerated items) ++ X) s) :
    ∃ R, Reads (type f (m + 1)) s X [.group [.type (.enumerated items)]] R := by
  have h : Laid ("ENUMERATED" :: "{" :: ((between "," namedItems items ++ ["}"]) ++ X)) s := by
    have := h; simp only [typeItems] at this; exact this
  rw [List.append_assoc, List.singleton_append] at h
  have h1 := lit_reads h
  have h2 : Reads leftCurly _ _ _ _ := (lit_reads h1.laid).drop
  obtain ⟨R, h3⟩ := enumerations_reads (T := type f m) (V := value f) hi h2.laid
  have h4 : Reads rightCurly _ _ _ _ := (lit_reads h3.laid).drop
  have l2 := h2.less
  have l3 := h3.less
  have l4 := h4.less
  have h5 : Reads (enumeratedType (type f m) (value f)) s X [.type (.enumerated items)] (after "}" R) :=
    (h1.seqs (h2.seqs (h3.seqs (ps := []) h4))).act (by
      simp [parseEnumeratedType, enumItemsOf_toks, bind, Except.bind, pure, Except.pure])
  have h6 : Reads (builtinType (type f m) (value f)) s X [.type (.enumerated items)] (after "}" R) := by
    refine ⟨h5.laid, h5.less, or_yields ?_⟩
    have := h5.yields
    pick this at h
  exact ⟨_, type_of_builtin h6 (word_loses ⟨⟨by unfold Word; decide, 'E', _, rfl, by decide⟩, by unfold Ends; decide⟩ h rfl (by omega))
    (rejects_at h) hX⟩

end
end Verif.Parse
