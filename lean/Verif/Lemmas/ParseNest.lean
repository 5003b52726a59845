import Verif.Lemmas.ParseSet
/-!
# Constraints in parentheses
-/
namespace Verif.Parse
open Verif.Spec

/-! ## words -/

/-- A character of a word in parentheses. -/
def okChar (c : Char) : Bool := c != '(' && c != ')' && c != '"' && c != '\''

/-- An item without white space, parentheses, and quotes. -/
def Plain (l : String) : Prop := l.toList ≠ [] ∧ ∀ c ∈ l.toList, isWs c = false ∧ okChar c = true

def gap (t : List Char) : List Char := if t = [] then [] else ' ' :: t

/-- One space for white space inside, none at the ends. -/
def squeeze : List Char → List Char
  | [] => []
  | c :: t =>
    if isWs c then squeeze t
    else c :: (match t with | [] => [] | d :: _ => if isWs d then gap (squeeze t) else squeeze t)

theorem squeeze_ws {w t : List Char} (h : ∀ c ∈ w, isWs c = true) : squeeze (w ++ t) = squeeze t := by
  induction w with
  | nil => rfl
  | cons c w ih =>
    simp only [List.cons_append, squeeze, h c (by simp), if_true]
    exact ih fun d hd => h d (by simp [hd])

theorem squeeze_head {c : Char} {t : List Char} (h : isWs c = false) : ∃ r, squeeze (c :: t) = c :: r := by
  simp [squeeze, h]

theorem squeeze_word {l t : List Char} (hne : l ≠ []) (h : ∀ c ∈ l, isWs c = false) :
    squeeze (l ++ t) = l ++ (match t with | [] => [] | d :: _ => if isWs d then gap (squeeze t) else squeeze t) := by
  induction l with
  | nil => exact absurd rfl hne
  | cons c l ih =>
    have hc := h c (by simp)
    cases l with
    | nil => simp [squeeze, hc]
    | cons d l =>
      have hd := h d (by simp)
      have := ih (by simp) (fun e he => h e (by simp [he]))
      simp only [List.cons_append] at this ⊢
      rw [← this]
      conv => lhs; unfold squeeze
      simp only [hc, hd, Bool.false_eq_true, if_false]

theorem squeeze_split {l w t : List Char} (hne : l ≠ []) (h : ∀ c ∈ l, isWs c = false) (hw : ∀ c ∈ w, isWs c = true)
    (ht : ∀ c ∈ t.head?, isWs c = false) :
    squeeze (l ++ (w ++ t)) = l ++ (if w = [] then squeeze t else gap (squeeze t)) := by
  rw [squeeze_word hne h]
  cases w with
  | nil =>
    cases t with
    | nil => rfl
    | cons d t => simp [ht d (by simp)]
  | cons d w =>
    have := squeeze_ws (w := d :: w) (t := t) hw
    simp only [List.cons_append] at this
    simp [hw d (by simp), this]

theorem laid_close : Laid [")"] [')'] :=
  ⟨by rintro c h; cases h; simp [Blank], [], [], rfl, by simp, (by rintro - ⟨-, c, h, -⟩; cases h), rfl⟩

/-- Items in a row, and the same items with single spaces. -/
theorem plain_split {X : List String} : ∀ {B : List String} {s : List Char}, (∀ l ∈ B, Plain l) → Laid (B ++ X) s →
    ∃ t R, s = t ++ R ∧ Laid X R ∧ (∀ c ∈ t, okChar c = true) ∧ (B ≠ [] → t ≠ []) ∧
      Laid (B ++ [")"]) (squeeze t ++ [')'])
  | [], s, _, h => ⟨[], s, rfl, h, by simp, by simp, laid_close⟩
  | l :: B, s, hB, h => by
    obtain ⟨-, w, r, rfl, hw, hj, hr⟩ := h
    obtain ⟨t, R, rfl, hX, hok, -, hl⟩ := plain_split (B := B) (fun m hm => hB m (by simp [hm])) hr
    have hw' : ∀ c ∈ w, isWs c = true := fun c hc => isWs_iff.2 (hw c hc)
    obtain ⟨hne, hp⟩ := hB l (by simp)
    have hth : ∀ c ∈ t.head?, isWs c = false := by
      intro c hc
      cases t with
      | nil => cases hc
      | cons d t =>
        simp only [List.head?_cons, Option.mem_def, Option.some.injEq] at hc; subst hc
        have := laid_skip hr
        cases hd : isWs d with
        | false => rfl
        | true =>
          have h2 := congrArg List.length this
          simp only [skipWs, List.cons_append, List.dropWhile_cons, hd, if_true] at h2
          have := (List.dropWhile_suffix isWs (l := t ++ R)).length_le
          simp only [List.length_cons] at h2
          omega
    have hsq := squeeze_split hne (fun c hc => (hp c hc).1) hw' hth
    have hwok : ∀ c ∈ w, okChar c = true := by
      intro c hc
      rcases hw c hc with rfl | rfl | rfl | rfl <;> decide
    refine ⟨l.toList ++ (w ++ t), R, by simp, hX, ?_, ?_, ?_⟩
    · intro c hc
      rcases List.mem_append.1 hc with hc | hc
      · exact (hp c hc).2
      · rcases List.mem_append.1 hc with hc | hc
        · exact hwok c hc
        · exact hok c hc
    · intro _; simp [hne]
    · rw [hsq]
      have hblank : ∀ c, (l.toList ++ (if w = [] then squeeze t else gap (squeeze t)) ++ [')']).head? = some c → ¬ Blank c := by
        intro c hc hb
        cases hl : l.toList with
        | nil => exact hne hl
        | cons d l' =>
          rw [hl] at hc
          simp only [List.cons_append, List.head?_cons, Option.some.injEq] at hc; subst hc
          have := (hp d (by simp [hl])).1
          rw [isWs_iff.2 hb] at this; cases this
      have hjoin : ∀ u, (∀ c ∈ u.head?, c ∉ t.head? → c = ')') → w = [] → ¬ Joins l u := by
        rintro u hu rfl ⟨h1, c, h2, h3⟩
        by_cases hc : c ∈ t.head?
        · refine hj rfl ⟨h1, c, ?_, h3⟩
          cases t with
          | nil => cases hc
          | cons d t => simpa using hc
        · have := hu c h2 hc
          subst this
          rcases h3 with h3 | h3 | h3 <;> exact absurd h3 (by decide)
      by_cases hw0 : w = []
      · rw [if_pos hw0] at hblank ⊢
        refine ⟨hblank, [], squeeze t ++ [')'], by simp, by simp, fun _ => hjoin _ ?_ hw0, hl⟩
        intro c hc hn
        cases t with
        | nil => simpa [squeeze] using hc.symm
        | cons d t =>
          obtain ⟨r, e⟩ := squeeze_head (t := t) (hth d (by simp))
          rw [e] at hc
          exact absurd (by simpa using hc) hn
      · rw [if_neg hw0] at hblank ⊢
        unfold gap at hblank ⊢
        by_cases ht0 : squeeze t = []
        · rw [if_pos ht0] at hblank ⊢
          rw [ht0] at hl
          refine ⟨hblank, [], [')'], by simp, by simp, ?_, hl⟩
          rintro - ⟨-, c, h2, h3⟩
          cases h2
          rcases h3 with h3 | h3 | h3 <;> exact absurd h3 (by decide)
        · rw [if_neg ht0] at hblank ⊢
          exact ⟨hblank, [' '], squeeze t ++ [')'], by simp, by simp [Blank], by simp, hl⟩

/-! ## the elements of `nestedExpr` -/

section
variable (N : P) [Tidy N]

/-- What is repeated in parentheses. -/
def inside : P := firstOf [terminal matchString, N, content]

instance : Tidy (inside N) := by unfold inside; infer_instance

variable {N} {s R : List Char} {t : List Tok}

theorem inside_nested (hq : matchString (skipWs s) = none) (h : Yields N s t R) : Yields (inside N) s t R := by
  obtain ⟨r, a1, a2, a3⟩ := Yields.skip.2 h
  refine ⟨r, ?_, ?_, a3⟩
  · simp [inside, firstOf, terminal, skipWs_idem, hq, a1]
  · simp [inside, firstOf, terminal, skipWs_idem, hq, a2]

theorem inside_content (hq : matchString (skipWs s) = none) (hN : Rejects N s) (h : Yields content s t R) :
    Yields (inside N) s t R := by
  obtain ⟨r, a1, a2, a3⟩ := Yields.skip.2 h
  obtain ⟨b1, b2⟩ := Rejects.skip.2 hN
  refine ⟨r, ?_, ?_, a3⟩
  · simp [inside, firstOf, terminal, skipWs_idem, hq, b1]; simp [content, terminal, skipWs_idem] at a1 ⊢; exact .inl a1
  · simp [inside, firstOf, terminal, skipWs_idem, hq, b2]; simp [content, terminal, skipWs_idem] at a2 ⊢; rw [a2]

theorem inside_rejects {r : List Char} (hs : s = ')' :: r) (hN : Rejects N s) : Rejects (inside N) s := by
  have e : skipWs s = ')' :: r := by rw [hs]; exact skipWs_cons (by decide) _
  obtain ⟨b1, b2⟩ := Rejects.skip.2 hN
  rw [e] at b1 b2
  have hq : matchString (')' :: r) = none := by simp [matchString]
  constructor
  · simp [inside, firstOf, nothing, terminal, skipWs_idem, e, hq, b1, content, matchContent, skipWs_cons (show isWs ')' = false from by decide)]
  · simp [inside, firstOf, nothing, terminal, skipWs_idem, e, hq, b2, content, matchContent, skipWs_cons (show isWs ')' = false from by decide)]

theorem matchString_ok {c : Char} {r : List Char} (h : okChar c = true) : matchString (c :: r) = none := by
  simp only [okChar, Bool.and_eq_true, bne_iff_ne] at h
  simp [matchString, h.1.2, h.2]

theorem matchContent_word {r : List Char} (hr : ∀ c ∈ r.head?, isWs c = true ∨ c = '(' ∨ c = ')') :
    ∀ {u : List Char}, (∀ c ∈ u, isWs c = false ∧ okChar c = true) → matchContent (u ++ r) = (u, r)
  | [], _ => by
    cases r with
    | nil => rfl
    | cons c r =>
      simp only [List.nil_append, matchContent]
      rw [if_pos]
      rcases hr c (by simp) with h | h | h <;> simp [h]
  | c :: u, h => by
    obtain ⟨h1, h2⟩ := h c (by simp)
    have hq := matchString_ok (r := u ++ r) h2
    simp only [okChar, Bool.and_eq_true, bne_iff_ne] at h2
    simp only [List.cons_append, matchContent]
    rw [if_neg (by simp [h1, hq, h2.1.1.1, h2.1.1.2]), matchContent_word hr fun d hd => h d (by simp [hd])]

theorem inside_word {c : Char} {u r : List Char} (hu : ∀ d ∈ c :: u, isWs d = false ∧ okChar d = true)
    (hr : ∀ d ∈ r.head?, isWs d = true ∨ d = '(' ∨ d = ')') (hN : Rejects N (c :: (u ++ r))) :
    Yields (inside N) (c :: (u ++ r)) [.str (String.ofList (c :: u))] (skipWs r) := by
  have hc := hu c (by simp)
  have e : skipWs (c :: (u ++ r)) = c :: (u ++ r) := skipWs_cons hc.1 _
  refine inside_content (by rw [e]; exact matchString_ok hc.2) hN ?_
  have hm := matchContent_word hr hu
  simp only [List.cons_append] at hm
  exact ⟨r, by simp [content, terminal, e, hm], by simp [content, terminal, e, hm], rfl⟩

/-- Words with single spaces between them. -/
def joinC : List String → List Char
  | [] => []
  | [w] => w.toList
  | w :: ws => w.toList ++ ' ' :: joinC ws

theorem joinC_intercalate : ∀ ws : List String, (" ".intercalate ws).toList = joinC ws
  | [] => rfl
  | [w] => by simp [joinC]
  | w :: v :: ws => by
    have := joinC_intercalate (v :: ws)
    rw [String.intercalate_cons_of_ne_nil (by simp), joinC]
    · simp [this]
    · simp

theorem joinC_cons {w : String} {ws : List String} (h : ∀ v ∈ ws, v.toList ≠ []) : joinC (w :: ws) = w.toList ++ gap (joinC ws) := by
  cases ws with
  | nil => simp [joinC, gap]
  | cons v ws =>
    have : joinC (v :: ws) ≠ [] := by
      have hv := h v (by simp)
      cases ws <;> simp [joinC, hv]
    rw [gap, if_neg this, joinC]
    simp

variable {toks : List Tok} {R' : List Char} {F : First}

theorem reps_words [hN : Starts N F] (hF : F.null = false ∧ ∀ c, okChar c = true → F.has c = false)
    (hR : ∃ c r, R = c :: r ∧ (c = '(' ∨ c = ')')) (hreps : Reps (inside N) R toks R') :
    ∀ (k : Nat) (t : List Char), t.length ≤ k → (∀ c ∈ t, okChar c = true) →
      ∃ ws : List String, Reps (inside N) (skipWs (t ++ R)) (ws.map Tok.str ++ toks) R' ∧ joinC ws = squeeze t ∧
        ∀ w ∈ ws, w.toList ≠ [] := by
  obtain ⟨p, R0, hRp, hp⟩ := hR
  have hws : isWs p = false := by rcases hp with rfl | rfl <;> decide
  intro k
  induction k with
  | zero =>
    intro t ht _
    have : t = [] := by cases t <;> simp_all
    subst this
    refine ⟨[], ?_, rfl, by simp⟩
    have : skipWs R = R := by rw [hRp]; exact skipWs_cons hws _
    simpa [this] using hreps
  | succ k ih =>
    intro t ht hok
    cases t with
    | nil =>
      refine ⟨[], ?_, rfl, by simp⟩
      have : skipWs R = R := by rw [hRp]; exact skipWs_cons hws _
      simpa [this] using hreps
    | cons c t =>
      cases hc : isWs c with
      | true =>
        obtain ⟨ws, h1, h2, h3⟩ := ih t (by simpa using ht) fun d hd => hok d (by simp [hd])
        refine ⟨ws, ?_, ?_, h3⟩
        · have : skipWs (c :: t ++ R) = skipWs (t ++ R) := by simp [skipWs, List.dropWhile_cons, hc]
          rw [this]; exact h1
        · rw [h2]; simp [squeeze, hc]
      | false =>
        let nw : Char → Bool := fun d => !isWs d
        have hsplit : t = t.takeWhile nw ++ t.dropWhile nw := (List.takeWhile_append_dropWhile).symm
        generalize hu : t.takeWhile nw = u at hsplit
        generalize hv : t.dropWhile nw = v at hsplit
        have hu' : ∀ d ∈ u, nw d = true := by
          intro d hd
          have := List.all_takeWhile (l := t) (p := nw)
          rw [hu, List.all_eq_true] at this
          exact this d hd
        have hvh : ∀ d ∈ v.head?, isWs d = true := by
          intro d hd
          have := List.head?_dropWhile_not nw t
          rw [hv] at this
          rw [Option.mem_def] at hd
          rw [hd] at this
          simpa [nw] using this
        subst hsplit
        have hlen : v.length ≤ k := by simp at ht; omega
        obtain ⟨ws, h1, h2, h3⟩ := ih v hlen fun d hd => hok d (by simp [hd])
        have hall : ∀ d ∈ c :: u, isWs d = false ∧ okChar d = true := by
          intro d hd
          refine ⟨?_, hok d ?_⟩
          · rcases List.mem_cons.1 hd with rfl | hd
            · exact hc
            · simpa [nw] using hu' d hd
          · rcases List.mem_cons.1 hd with rfl | hd
            · simp
            · simp [hd]
        have hrest : ∀ d ∈ (v ++ R).head?, isWs d = true ∨ d = '(' ∨ d = ')' := by
          intro d hd
          cases v with
          | nil =>
            rw [hRp] at hd
            simp only [List.nil_append, List.head?_cons, Option.mem_def, Option.some.injEq] at hd
            subst hd; exact .inr hp
          | cons e v => exact .inl (hvh d (by simpa using hd))
        have e0 : skipWs (c :: (u ++ v) ++ R) = c :: (u ++ (v ++ R)) := by
          rw [List.cons_append, skipWs_cons hc, List.append_assoc]
        have hrej : Rejects N (c :: (u ++ (v ++ R))) := by
          refine hN.rejects hF.1 _ fun d r e => ?_
          rw [skipWs_cons hc] at e
          cases e
          exact hF.2 c (hok c (by simp))
        have hy := inside_word hall hrest hrej
        have hlt : (skipWs (v ++ R)).length < (c :: (u ++ (v ++ R))).length := by
          have := (skipWs_suffix (v ++ R)).length_le
          simp only [List.length_cons, List.length_append] at this ⊢
          omega
        refine ⟨String.ofList (c :: u) :: ws, ?_, ?_, ?_⟩
        · rw [e0]
          have := reps_cons hy hlt h1
          simpa using this
        · rw [joinC_cons h3, String.toList_ofList, h2]
          have := squeeze_word (l := c :: u) (t := v) (by simp) fun d hd => (hall d hd).1
          rw [List.cons_append] at this
          rw [this]
          cases v with
          | nil => simp [gap, squeeze]
          | cons e v => simp [hvh e (by simp)]
        · intro w hw
          rcases List.mem_cons.1 hw with rfl | hw
          · simp
          · exact h3 w hw

end

/-! ## the items of a constraint are words -/

theorem plain_word {l : String} (hne : l.toList ≠ []) (h : Word l) : Plain l := by
  refine ⟨hne, fun c hc => ?_⟩
  have hb : isBody c = true := by rcases h c hc with h | h <;> simp [isBody, h]
  refine ⟨isWs_body hb, ?_⟩
  have key : ∀ d, isBody d = false → c ≠ d := by rintro d hd rfl; rw [hb] at hd; cases hd
  simp only [okChar, Bool.and_eq_true, bne_iff_ne]
  exact ⟨⟨⟨key _ (by decide), key _ (by decide)⟩, key _ (by decide)⟩, key _ (by decide)⟩

theorem plain_repr (k : Nat) : Plain k.repr := by
  obtain ⟨c, r, e, h⟩ := repr_digits k
  refine plain_word (by simp [e]) fun d hd => .inl ?_
  rw [e] at hd
  exact digit_alnum (h d hd)

theorem plain_name {v : String} (h : ValueName v) : Plain v := by
  obtain ⟨c, r, e, -⟩ := h.1.2
  exact plain_word (by simp [e]) h.1.1

theorem plain_end {e : End} (h : WritableValue e ∨ e = .min ∨ e = .max) : ∀ l ∈ endItems e, Plain l := by
  intro l hl
  cases e with
  | num z =>
    simp only [endItems, numberItems] at hl
    split at hl
    · simp only [List.mem_cons, List.not_mem_nil, or_false] at hl
      rcases hl with rfl | rfl
      · unfold Plain; decide
      · exact plain_repr _
    · simp only [List.mem_cons, List.not_mem_nil, or_false] at hl
      subst hl; exact plain_repr _
  | min => simp only [endItems, List.mem_singleton] at hl; subst hl; unfold Plain; decide
  | max => simp only [endItems, List.mem_singleton] at hl; subst hl; unfold Plain; decide
  | ref v =>
    simp only [endItems, List.mem_singleton] at hl; subst hl
    rcases h with h | h | h
    · exact plain_name h
    · cases h
    · cases h

theorem plain_elem {e : Elem} (h : WritableElem e) : ∀ l ∈ elemItems e, Plain l := by
  intro l hl
  cases e with
  | value e => exact plain_end (.inl h) l hl
  | range lo lo' hi hi' =>
    have hless : Plain "<" := by unfold Plain; decide
    have hdots : Plain ".." := by unfold Plain; decide
    simp only [elemItems, List.mem_append, List.mem_cons] at hl
    rcases hl with (hl | hl) | rfl | hl | hl
    · exact plain_end (h.1.imp id .inl) l hl
    · split at hl
      · rw [List.mem_singleton.1 hl]; exact hless
      · cases hl
    · exact hdots
    · split at hl
      · rw [List.mem_singleton.1 hl]; exact hless
      · cases hl
    · exact plain_end (h.2.imp id .inr) l hl

theorem plain_between {α : Type} {sep : String} {f : α → List String} (hsep : Plain sep) :
    ∀ {as : List α}, (∀ a ∈ as, ∀ l ∈ f a, Plain l) → ∀ l ∈ between sep f as, Plain l
  | [], _, l, hl => by simp [between] at hl
  | [a], h, l, hl => h a (by simp) l (by simpa [between] using hl)
  | a :: b :: as, h, l, hl => by
    simp only [between, List.mem_append, List.mem_cons] at hl
    rcases hl with hl | rfl | hl
    · exact h a (by simp) l hl
    · exact hsep
    · exact plain_between hsep (as := b :: as) (fun c hc => h c (List.mem_cons_of_mem _ hc)) l hl

theorem plain_set {u : List (List Elem)} (h : ∀ i ∈ u, ∀ e ∈ i, WritableElem e) : ∀ l ∈ setItems u, Plain l :=
  plain_between (by unfold Plain; decide) fun i hi =>
    plain_between (by unfold Plain; decide) fun e he => plain_elem (h i hi e he)

theorem plain_notation {N : Notation} (hN : WritableNotation N) : ∀ l ∈ notationItems N, Plain l := by
  intro l hl
  have hcomma : Plain "," := by unfold Plain; decide
  have hdots : Plain "..." := by unfold Plain; decide
  simp only [notationItems, List.mem_append] at hl
  rcases hl with hl | hl
  · exact plain_set (fun i hi => (hN.1.2 i hi).2.2) l hl
  · split at hl
    · simp only [List.mem_cons] at hl
      rcases hl with rfl | rfl | hl
      · exact hcomma
      · exact hdots
      · split at hl
        · cases hl
        · next ha =>
          rcases List.mem_cons.1 hl with rfl | hl
          · exact hcomma
          · exact plain_set (fun i hi => ((hN.2 ha).2.2 i hi).2.2) l hl
    · cases hl

/-! ## constraints -/

theorem texts_map : ∀ ws : List String, texts (ws.map Tok.str) = some ws
  | [] => rfl
  | w :: ws => by simp [texts, texts_map ws]

instance starts_nested {f : List Tok → Except PErr (List Tok)} : ∀ n, Starts (nestedExpr f n) { cs := ['('] }
  | 0 => ⟨fun _ _ _ => ⟨rfl, rfl⟩⟩
  | n + 1 => by unfold nestedExpr; starts

theorem nested_ok : ({ cs := ['('] } : First).null = false ∧
    ∀ c, okChar c = true → ({ cs := ['('] } : First).has c = false := by
  refine ⟨rfl, fun c hc => ?_⟩
  simp only [okChar, Bool.and_eq_true, bne_iff_ne] at hc
  simp [First.has, hc.1.1.1]

section
variable {s R : List Char} {X : List String} {f n : Nat}

theorem laid_paren (h : Laid (")" :: X) R) : ∃ c r, R = c :: r ∧ (c = '(' ∨ c = ')') := by
  obtain ⟨r, e⟩ := laid_head (c := ')') (l' := []) h rfl
  exact ⟨_, r, e, .inr rfl⟩

/-- The parentheses around repeated elements. -/
theorem nested_reads {g : List Tok → Except PErr (List Tok)} {Y : List String} {toks u : List Tok} {R : List Char}
    (h : Laid ("(" :: Y) s) (hreps : Reps (inside (nestedExpr g n)) (after "(" s) toks R) (hR : Laid (")" :: X) R)
    (hl : R.length ≤ (after "(" s).length)
    (hg : g [.group toks] = .ok u) : Reads (nestedExpr g (n + 1)) s X u (after ")" R) := by
  have h0 := lit_reads h
  have h1 := (lit_reads hR).drop
  rw [nestedExpr]
  refine Reads.act (t := [.group toks]) (Reads.group ?_) hg
  have hm : Yields (many (inside (nestedExpr g n))) (after "(" s) toks R := many_yields (laid_skip h0.laid) hreps
  have := seq_yields h0.drop.yields (seq_yields hm h1.yields)
  rw [List.nil_append, List.append_nil] at this
  refine ⟨h1.laid, ?_, this⟩
  have := h0.less; have := h1.less; omega

theorem action_value {N : Notation} {ws : List String} {t : CTuple} (hN : WritableNotation N)
    (hl : Laid (notationItems N ++ [")"]) (joinC ws ++ [')'])) (ht : parseConstraint N.toks = .ok t) :
    parseConstraintAction (f + 1) [.group (ws.map Tok.str)] = .ok [.con t] := by
  obtain ⟨l, Y, e, hh⟩ := set_head hN.1
  have hN' : ∃ Z, notationItems N = l :: Z := ⟨_, by rw [notationItems, e]; rfl⟩
  obtain ⟨Z, eN⟩ := hN'
  cases ws with
  | nil =>
    rw [eN] at hl
    have : ∃ c r, l.toList = c :: r ∧ c ≠ ')' := by
      rcases hh with ⟨c, r, h, hc⟩ | ⟨c, r, h, hc⟩ | rfl | rfl
      · exact ⟨c, r, h, by rintro rfl; exact absurd hc (by decide)⟩
      · exact ⟨c, r, h, by rintro rfl; exact absurd hc (by decide)⟩
      · exact ⟨_, _, rfl, by decide⟩
      · exact ⟨_, _, rfl, by decide⟩
    obtain ⟨c, r, h1, h2⟩ := this
    obtain ⟨r', h3⟩ := laid_head hl h1
    simp only [joinC, List.nil_append] at h3
    cases h3
    exact absurd rfl h2
  | cons w ws =>
    have hsize : w ≠ "SIZE" := by
      rintro rfl
      have e2 : ∃ r, joinC ("SIZE" :: ws) ++ [')'] = 'S' :: r := by
        cases ws with
        | nil => exact ⟨_, rfl⟩
        | cons v ws => exact ⟨_, by rw [joinC]; rfl; simp⟩
      obtain ⟨r0, e2⟩ := e2
      rw [e2, eN] at hl
      have : ∃ c r, l.toList = c :: r ∧ c ≠ 'S' := by
        rcases hh with ⟨c, r, h, hc⟩ | ⟨c, r, h, hc⟩ | rfl | rfl
        · exact ⟨c, r, h, by rintro rfl; exact absurd hc (by decide)⟩
        · exact ⟨c, r, h, by rintro rfl; exact absurd hc (by decide)⟩
        · exact ⟨_, _, rfl, by decide⟩
        · exact ⟨_, _, rfl, by decide⟩
      obtain ⟨c, r, h1, h2⟩ := this
      obtain ⟨r', h3⟩ := laid_head hl h1
      cases h3
      exact h2 rfl
    have htext : Laid ("(" :: (notationItems N ++ ")" :: [])) ('(' :: (joinC (w :: ws) ++ [')'])) :=
      ⟨by rintro c h; cases h; simp [Blank], [], _, rfl, by simp,
        by rintro - ⟨⟨c, h, h'⟩, -⟩; cases h; exact absurd h' (by decide), hl⟩
    obtain ⟨R, hR⟩ := notation_reads (n := f) (m := f) hN htext
    obtain ⟨r, -, hrun, -⟩ := hR.yields
    obtain ⟨a, b, h1, h2, h3, h4, h5⟩ := tuple_ok hN
    rw [ht] at h5
    cases h5
    have hb : (w == "SIZE") = false := by simpa using hsize
    have htx := texts_map (w :: ws)
    rw [List.map_cons] at htx
    simp only [parseConstraintAction, List.map_cons, Tok.is, hb, htx, joinC_intercalate, hrun, h1, h2, h3, h4, bind,
      Except.bind, pure, Except.pure, Bool.false_eq_true, if_false]

theorem nested_value {N : Notation} (hN : WritableNotation N) (h : Laid ("(" :: (notationItems N ++ ")" :: X)) s) :
    ∃ R t, parseConstraint N.toks = .ok t ∧
      Reads (nestedExpr (parseConstraintAction (f + 1)) (n + 1)) s X [.con t] R := by
  have h0 := lit_reads h
  obtain ⟨t, R, e, hR, hok, -, hl⟩ := plain_split (plain_notation hN) h0.laid
  obtain ⟨a, b, -, -, -, -, ht⟩ := tuple_ok hN
  have hstop : Reps (inside (nestedExpr (parseConstraintAction (f + 1)) n)) R [] R := by
    obtain ⟨r, e⟩ := laid_head (c := ')') (l' := []) hR rfl
    exact reps_nil (inside_rejects e (rejects_at hR))
  obtain ⟨ws, h1, h2, -⟩ := reps_words nested_ok (laid_paren hR) hstop t.length t (Nat.le_refl _) hok
  rw [← e, laid_skip h0.laid, List.append_nil] at h1
  rw [← h2] at hl
  exact ⟨_, _, ht, nested_reads h h1 hR (by rw [e]; simp) (action_value hN hl ht)⟩

theorem con_reads {c : Con} (hc : WritableCon c) (h : Laid (conItems c ++ X) s) :
    ∃ R t, c.tuple = .ok t ∧ Reads (constraint (f + 2)) s X [.con t] R := by
  cases c with
  | value N =>
    have h' : Laid ("(" :: (notationItems N ++ ")" :: X)) s := by simpa [conItems] using h
    exact nested_value (f := f + 1) (n := f + 1) hc h'
  | size N outer =>
    have h' : Laid ("(" :: (["SIZE"] ++ "(" :: (notationItems N ++ ")" :: ((if outer then [",", "..."] else []) ++ ")" :: X)))) s := by
      simpa [conItems] using h
    have h0 := lit_reads h'
    obtain ⟨w, e1, hw, -, hl1⟩ := laid_split (k := "SIZE") h0.laid
    obtain ⟨R1, t, ht, h1⟩ := nested_value (f := f + 1) (n := f) hc hl1
    obtain ⟨u, R, e2, hR, hok, -⟩ := plain_split (B := if outer then [",", "..."] else []) (by
      intro l hl
      cases outer with
      | false => cases hl
      | true =>
        simp only [if_true, List.mem_cons, List.not_mem_nil, or_false] at hl
        rcases hl with rfl | rfl <;> (unfold Plain; decide)) h1.laid
    have hstop : Reps (inside (nestedExpr (parseConstraintAction (f + 2)) (f + 1))) R [] R := by
      obtain ⟨r, e⟩ := laid_head (c := ')') (l' := []) hR rfl
      exact reps_nil (inside_rejects e (rejects_at hR))
    obtain ⟨ws, h2, -, -⟩ := reps_words nested_ok (laid_paren hR) hstop u.length u (Nat.le_refl _) hok
    rw [← e2, laid_skip h1.laid, List.append_nil] at h2
    have hq : matchString (skipWs (after "SIZE" (after "(" s))) = none := by
      obtain ⟨r, e⟩ := laid_head (c := '(') (l' := []) hl1 rfl
      rw [laid_skip hl1, e]; simp [matchString]
    have h3 := reps_cons (inside_nested hq h1.yields) h1.less h2
    have hsz : Yields (inside (nestedExpr (parseConstraintAction (f + 2)) (f + 1))) (after "(" s) [.str "SIZE"]
        (after "SIZE" (after "(" s)) := by
      obtain ⟨r, e⟩ := laid_head (c := '(') (l' := []) hl1 rfl
      have hrej : Rejects (nestedExpr (parseConstraintAction (f + 2)) (f + 1)) (after "(" s) :=
        rejects_at (l := "SIZE") h0.laid
      have e1' : after "(" s = 'S' :: (['I', 'Z', 'E'] ++ (w ++ after "SIZE" (after "(" s))) := e1
      have := inside_word (N := nestedExpr (parseConstraintAction (f + 2)) (f + 1)) (c := 'S') (u := ['I', 'Z', 'E'])
        (r := w ++ after "SIZE" (after "(" s)) (by decide) (by
          intro d hd
          cases w with
          | nil =>
            rw [e] at hd
            simp only [List.nil_append, List.head?_cons, Option.mem_def, Option.some.injEq] at hd
            exact .inr (.inl hd.symm)
          | cons a w =>
            simp only [List.cons_append, List.head?_cons, Option.mem_def, Option.some.injEq] at hd
            subst hd; exact .inl (hw a (by simp))) (e1' ▸ hrej)
      rw [← e1', skipWs_append hw, laid_skip hl1] at this
      exact this
    have h4 := reps_cons hsz (after_lt (k := "SIZE") h0.laid (by decide)) h3
    refine ⟨after ")" R, t, ht, ?_⟩
    have hle : R.length ≤ (after "(" s).length := by
      have a1 := h1.less
      have a2 := after_lt (k := "SIZE") h0.laid (by decide)
      have a3 := congrArg List.length e2
      simp only [List.length_append] at a3
      omega
    exact nested_reads (n := f + 1) h' h4 hR hle (by simp [parseConstraintAction, Tok.is])

end

end Verif.Parse
