import Verif.Lemmas.ParseModule
/-!
# Tabs, and texts as a whole
-/
namespace Verif.Parse
open Verif.Spec

/-- No tab in the item. -/
def NoTab (l : String) : Prop := '\t' ∉ l.toList

theorem expand_append : ∀ (a b : List Char) (col : Nat), '\t' ∉ a → ∃ col', expandTabs col (a ++ b) = a ++ expandTabs col' b
  | [], b, col, _ => ⟨col, rfl⟩
  | c :: a, b, col, h => by
    simp only [List.mem_cons, not_or] at h
    have hc : c ≠ '\t' := fun e => h.1 e.symm
    by_cases hn : c = '\n' ∨ c = '\r'
    · obtain ⟨col', e⟩ := expand_append a b 0 h.2
      exact ⟨col', by simp only [List.cons_append, expandTabs, if_neg hc, if_pos hn, e]⟩
    · obtain ⟨col', e⟩ := expand_append a b (col + 1) h.2
      exact ⟨col', by simp only [List.cons_append, expandTabs, if_neg hc, if_neg hn, e]⟩

theorem expand_blank : ∀ (w b : List Char) (col : Nat), (∀ c ∈ w, Blank c) →
    ∃ w' col', expandTabs col (w ++ b) = w' ++ expandTabs col' b ∧ (∀ c ∈ w', Blank c) ∧ (w' = [] → w = [])
  | [], b, col, _ => ⟨[], col, rfl, (fun _ h => nomatch h), fun _ => rfl⟩
  | c :: w, b, col, h => by
    have hw : ∀ d ∈ w, Blank d := fun d hd => h d (by simp [hd])
    by_cases hc : c = '\t'
    · obtain ⟨w', col', e, h1, -⟩ := expand_blank w b (col + (8 - col % 8)) hw
      refine ⟨List.replicate (8 - col % 8) ' ' ++ w', col', ?_, ?_, ?_⟩
      · simp only [List.cons_append, expandTabs, if_pos hc, e, List.append_assoc]
      · intro d hd
        rcases List.mem_append.1 hd with hd | hd
        · exact .inl (List.eq_of_mem_replicate hd)
        · exact h1 d hd
      · intro h0
        have := congrArg List.length h0
        simp only [List.length_append, List.length_replicate, List.length_nil] at this
        omega
    · by_cases hn : c = '\n' ∨ c = '\r'
      · obtain ⟨w', col', e, h1, -⟩ := expand_blank w b 0 hw
        refine ⟨c :: w', col', by simp only [List.cons_append, expandTabs, if_neg hc, if_pos hn, e], ?_, nofun⟩
        intro d hd
        rcases List.mem_cons.1 hd with rfl | hd
        · exact h d (by simp)
        · exact h1 d hd
      · obtain ⟨w', col', e, h1, -⟩ := expand_blank w b (col + 1) hw
        refine ⟨c :: w', col', by simp only [List.cons_append, expandTabs, if_neg hc, if_neg hn, e], ?_, nofun⟩
        intro d hd
        rcases List.mem_cons.1 hd with rfl | hd
        · exact h d (by simp)
        · exact h1 d hd

theorem expand_head (col : Nat) (s : List Char) (h : ∀ c, s.head? = some c → ¬ Blank c) : (expandTabs col s).head? = s.head? := by
  cases s with
  | nil => rfl
  | cons c s =>
    have hc : c ≠ '\t' := fun e => h c rfl (.inr (.inr (.inl e)))
    rw [expandTabs, if_neg hc]
    split <;> rfl

theorem laid_start {X : List String} {s : List Char} (h : Laid X s) : ∀ c, s.head? = some c → ¬ Blank c := by
  cases X with
  | nil => rw [show s = [] from h]; nofun
  | cons l X => exact h.1

theorem expand_laid : ∀ {X : List String} {s : List Char} (col : Nat), (∀ l ∈ X, NoTab l) → Laid X s → Laid X (expandTabs col s)
  | [], s, col, _, h => by rw [show s = [] from h]; rfl
  | l :: X, s, col, hl, h => by
    have hs := laid_start h
    obtain ⟨-, w, r, rfl, hw, hj, hr⟩ := h
    obtain ⟨c1, e1⟩ := expand_append l.toList (w ++ r) col (hl l (by simp))
    obtain ⟨w', c2, e2, hw', he⟩ := expand_blank w r c1 hw
    refine ⟨fun c hc => hs c (by rw [← expand_head col _ hs]; exact hc), w', expandTabs c2 r, by rw [e1, e2], hw', ?_, ?_⟩
    · intro h0 hjoin
      refine hj (he h0) ⟨hjoin.1, ?_⟩
      obtain ⟨c, hc, hc'⟩ := hjoin.2
      exact ⟨c, by rw [← expand_head c2 r (laid_start hr)]; exact hc, hc'⟩
    · exact expand_laid c2 (fun k hk => hl k (by simp [hk])) hr

/-! ## items have no tabs -/

theorem noTab_word {s : String} (h : Word s) : NoTab s := fun hm => by
  have := isBody_word h _ hm
  exact absurd this (by decide)

theorem noTab_repr (k : Nat) : NoTab k.repr := fun hm => by
  obtain ⟨c, r, e, h⟩ := repr_digits k
  rw [e] at hm
  exact absurd (h _ hm) (by decide)

theorem noTab_number (z : Int) : ∀ l ∈ numberItems z, NoTab l := by
  intro l hl
  unfold numberItems at hl
  split at hl
  · rcases List.mem_cons.1 hl with rfl | hl
    · unfold NoTab; decide
    · rw [List.mem_singleton.1 hl]; exact noTab_repr _
  · rw [List.mem_singleton.1 hl]; exact noTab_repr _

theorem noTab_between {α : Type} {sep : String} {f : α → List String} (hs : NoTab sep) :
    ∀ {xs : List α}, (∀ x ∈ xs, ∀ l ∈ f x, NoTab l) → ∀ l ∈ between sep f xs, NoTab l
  | [], _, l, hl => nomatch hl
  | [x], h, l, hl => h x (by simp) l hl
  | x :: y :: xs, h, l, hl => by
    rw [between] at hl
    · rcases List.mem_append.1 hl with hl | hl
      · exact h x (by simp) l hl
      · rcases List.mem_cons.1 hl with rfl | hl
        · exact hs
        · exact noTab_between hs (fun z hz => h z (by simp [hz])) l hl
    · nofun

theorem noTab_end {e : End} (h : ∀ v, e = .ref v → Word v) : ∀ l ∈ endItems e, NoTab l := by
  intro l hl
  cases e with
  | num z => exact noTab_number z l hl
  | min => rw [List.mem_singleton.1 hl]; unfold NoTab; decide
  | max => rw [List.mem_singleton.1 hl]; unfold NoTab; decide
  | ref s => rw [List.mem_singleton.1 hl]; exact noTab_word (h s rfl)

theorem value_word {e : End} (h : WritableValue e) : ∀ v, e = .ref v → Word v := by
  rintro v rfl; exact h.1.1

theorem noTab_elem {e : Elem} (h : WritableElem e) : ∀ l ∈ elemItems e, NoTab l := by
  cases e with
  | value e => exact noTab_end (value_word h)
  | range lo lo' hi hi' =>
    have h1 : ∀ l ∈ endItems lo, NoTab l := noTab_end (by
      rcases h.1 with h | rfl
      · exact value_word h
      · nofun)
    have h2 : ∀ l ∈ endItems hi, NoTab l := noTab_end (by
      rcases h.2 with h | rfl
      · exact value_word h
      · nofun)
    intro l hl
    simp only [elemItems, List.mem_append, List.mem_cons] at hl
    rcases hl with (hl | hl) | rfl | hl | hl
    · exact h1 l hl
    · split at hl
      · rw [List.mem_singleton.1 hl]; unfold NoTab; decide
      · cases hl
    · unfold NoTab; decide
    · split at hl
      · rw [List.mem_singleton.1 hl]; unfold NoTab; decide
      · cases hl
    · exact h2 l hl

theorem noTab_set {u : List (List Elem)} (h : WritableSet u) : ∀ l ∈ setItems u, NoTab l :=
  noTab_between (by unfold NoTab; decide) fun i hi => noTab_between (by unfold NoTab; decide) fun e he =>
    noTab_elem ((h.2 i hi).2.2 e he)

theorem noTab_notation {N : Notation} (h : WritableNotation N) : ∀ l ∈ notationItems N, NoTab l := by
  intro l hl
  rcases List.mem_append.1 hl with hl | hl
  · exact noTab_set h.1 l hl
  · split at hl
    · rcases List.mem_cons.1 hl with rfl | hl
      · unfold NoTab; decide
      rcases List.mem_cons.1 hl with rfl | hl
      · unfold NoTab; decide
      split at hl
      · cases hl
      · next hne =>
        rcases List.mem_cons.1 hl with rfl | hl
        · unfold NoTab; decide
        · exact noTab_set (h.2 hne).2 l hl
    · cases hl

theorem noTab_con {c : Con} (h : WritableCon c) : ∀ l ∈ conItems c, NoTab l := by
  intro l hl
  cases c with
  | value N =>
    simp only [conItems, List.mem_cons, List.mem_append, List.not_mem_nil, or_false] at hl
    rcases hl with rfl | hl | rfl
    · unfold NoTab; decide
    · exact noTab_notation h l hl
    · unfold NoTab; decide
  | size N o =>
    simp only [conItems, List.mem_cons, List.mem_append, List.not_mem_nil, or_false] at hl
    rcases hl with rfl | rfl | rfl | hl | rfl | hl | rfl
    · unfold NoTab; decide
    · unfold NoTab; decide
    · unfold NoTab; decide
    · exact noTab_notation h l hl
    · unfold NoTab; decide
    · split at hl
      · simp only [List.mem_cons, List.not_mem_nil, or_false] at hl
        rcases hl with rfl | rfl <;> (unfold NoTab; decide)
      · cases hl
    · unfold NoTab; decide

theorem noTab_lit {v : Lit} (h : WritableLit v) : ∀ l ∈ litItems v, NoTab l := by
  intro l hl
  cases v with
  | num z => exact noTab_number z l hl
  | word s =>
    rw [List.mem_singleton.1 hl]
    rcases h with h | rfl | rfl
    · exact noTab_word h.1.1
    · unfold NoTab; decide
    · unfold NoTab; decide
  | bin b =>
    rw [List.mem_singleton.1 hl, binItem, NoTab, String.toList_ofList]
    simp only [List.mem_cons, List.mem_append, List.mem_map, List.not_mem_nil, or_false, not_or, not_exists, not_and]
    refine ⟨by decide, fun x _ => ?_, by decide, by decide⟩
    cases x <;> decide
  | hex d =>
    rw [List.mem_singleton.1 hl, hexItem, NoTab, String.toList_ofList]
    simp only [List.mem_cons, List.mem_append, List.mem_map, List.not_mem_nil, or_false, not_or, not_exists, not_and]
    refine ⟨by decide, fun x _ => ?_, by decide, by decide⟩
    have key : ∀ x : Fin 16, ¬"0123456789ABCDEF".toList.getD x.val '0' = '\t' := by decide
    exact key x

theorem noTab_enum {i : EnumItem} (h : WritableItem i) : ∀ l ∈ namedItems i, NoTab l := by
  intro l hl
  cases i with
  | id s => rw [List.mem_singleton.1 hl]; exact noTab_word h.1.1
  | number n s =>
    obtain ⟨h1, h2⟩ := h
    have hl : l = s ∨ l = "(" ∨ l ∈ signItems n ∨ l = ")" := by
      have hl : l ∈ s :: "(" :: (signItems n ++ [")"]) := hl
      simpa using hl
    rcases hl with rfl | rfl | hl | rfl
    · exact noTab_word h1.1.1
    · unfold NoTab; decide
    · have hn : NoTab n := by
        rcases h2 with ⟨k, rfl | rfl⟩ | h2
        · exact noTab_repr k
        · have := noTab_repr k
          unfold NoTab at *
          rw [String.toList_append, List.mem_append, not_or]
          exact ⟨by decide, this⟩
        · exact noTab_word h2.1.1
      unfold signItems at hl
      split at hl
      · next r e =>
        simp only [List.mem_cons, List.not_mem_nil, or_false] at hl
        rcases hl with rfl | rfl
        · unfold NoTab; decide
        · unfold NoTab at *
          rw [e] at hn
          rw [String.toList_ofList]
          exact fun hm => hn (by simp [hm])
      · rw [List.mem_singleton.1 hl]; exact hn
    · unfold NoTab; decide

theorem noTab_pres {ch : Bool} {p : Pres} (h : WritablePres ch p) : ∀ l ∈ presItems p, NoTab l := by
  intro l hl
  cases p with
  | mandatory => cases hl
  | optional => rw [List.mem_singleton.1 hl]; unfold NoTab; decide
  | default v =>
    rcases List.mem_cons.1 hl with rfl | hl
    · unfold NoTab; decide
    · exact noTab_lit h.2 l hl

theorem noTab_simple (k : Simple) : NoTab (simpleItem k) := by cases k <;> (unfold NoTab; decide)

mutual
theorem noTab_type : ∀ t : TObj, Writable t → ∀ l ∈ typeItems t, NoTab l
  | .simple k none, _, l, hl => by
    rw [typeItems] at hl; rw [List.mem_singleton.1 hl]; exact noTab_simple k
  | .simple k (some c), h, l, hl => by
    rw [typeItems] at hl; unfold Writable at h
    rcases List.mem_cons.1 hl with rfl | hl
    · exact noTab_simple k
    · exact noTab_con h l hl
  | .enumerated items, h, l, hl => by
    rw [typeItems] at hl; unfold Writable at h
    simp only [List.mem_cons, List.mem_append, List.not_mem_nil, or_false] at hl
    rcases hl with rfl | rfl | hl | rfl
    · unfold NoTab; decide
    · unfold NoTab; decide
    · obtain ⟨root, adds, he, -, hall⟩ := h
      refine noTab_between (by unfold NoTab; decide) (fun i hi => ?_) l hl
      rcases he with rfl | rfl
      · exact noTab_enum (hall i (by simp [hi]))
      · simp only [List.mem_append, List.mem_cons] at hi
        rcases hi with hi | rfl | hi
        · exact noTab_enum (hall i (by simp [hi]))
        · intro l hl; rw [List.mem_singleton.1 hl]; unfold NoTab; decide
        · exact noTab_enum (hall i (by simp [hi]))
    · unfold NoTab; decide
  | .seqOf none e, h, l, hl => by
    rw [typeItems] at hl; unfold Writable at h
    rcases List.mem_cons.1 hl with rfl | hl
    · unfold NoTab; decide
    · exact noTab_type e h l hl
  | .seqOf (some c) e, h, l, hl => by
    rw [typeItems] at hl; unfold Writable at h
    simp only [List.mem_cons, List.mem_append] at hl
    rcases hl with rfl | hl | rfl | hl
    · unfold NoTab; decide
    · exact noTab_con h.1 l hl
    · unfold NoTab; decide
    · exact noTab_type e h.2 l hl
  | .sequence items, h, l, hl => by
    rw [typeItems] at hl; unfold Writable at h
    simp only [List.mem_cons, List.mem_append, List.not_mem_nil, or_false] at hl
    rcases hl with rfl | rfl | hl | rfl
    · unfold NoTab; decide
    · unfold NoTab; decide
    · exact noTab_items false items h.2 l (List.mem_of_mem_drop hl)
    · unfold NoTab; decide
  | .choice items, h, l, hl => by
    rw [typeItems] at hl; unfold Writable at h
    simp only [List.mem_cons, List.mem_append, List.not_mem_nil, or_false] at hl
    rcases hl with rfl | rfl | hl | rfl
    · unfold NoTab; decide
    · unfold NoTab; decide
    · exact noTab_items true items h.2.2 l (List.mem_of_mem_drop hl)
    · unfold NoTab; decide
  | .ref m, h, l, hl => by
    rw [typeItems] at hl; unfold Writable at h
    rw [List.mem_singleton.1 hl]; exact noTab_word h.1.1
theorem noTab_items (ch : Bool) : ∀ items : Items, WritableItems ch items → ∀ l ∈ restItems items, NoTab l
  | .nil, _, l, hl => by rw [restItems] at hl; cases hl
  | .comp id t p r, h, l, hl => by
    rw [restItems] at hl; unfold WritableItems at h
    simp only [List.mem_cons, List.mem_append] at hl
    rcases hl with rfl | rfl | hl | hl | hl
    · unfold NoTab; decide
    · exact noTab_word h.1.1.1.1
    · exact noTab_type t h.1.2.1 l hl
    · exact noTab_pres h.1.2.2 l hl
    · exact noTab_items ch r h.2 l hl
  | .marker r, h, l, hl => by
    rw [restItems] at hl; unfold WritableItems at h
    simp only [List.mem_cons] at hl
    rcases hl with rfl | rfl | hl
    · unfold NoTab; decide
    · unfold NoTab; decide
    · exact noTab_items ch r h l hl
  | .group cs r, h, l, hl => by
    rw [restItems] at hl; unfold WritableItems at h
    simp only [List.mem_cons, List.mem_append] at hl
    rcases hl with rfl | rfl | hl | rfl | hl
    · unfold NoTab; decide
    · unfold NoTab; decide
    · exact noTab_comps ch cs h.1 l (List.mem_of_mem_drop hl)
    · unfold NoTab; decide
    · exact noTab_items ch r h.2 l hl
theorem noTab_comps (ch : Bool) : ∀ cs : Comps, WritableComps ch cs → ∀ l ∈ groupItems cs, NoTab l
  | .nil, _, l, hl => by rw [groupItems] at hl; cases hl
  | .cons id t p r, h, l, hl => by
    rw [groupItems] at hl; unfold WritableComps at h
    simp only [List.mem_cons, List.mem_append] at hl
    rcases hl with rfl | rfl | hl | hl | hl
    · unfold NoTab; decide
    · exact noTab_word h.1.1.1.1
    · exact noTab_type t h.1.2.1 l hl
    · exact noTab_pres h.1.2.2 l hl
    · exact noTab_comps ch r h.2 l hl
end

theorem noTab_assign {a : Assign} (h : WritableAssign a) : ∀ l ∈ assignItems a, NoTab l := by
  intro l hl
  cases a with
  | type n t =>
    simp only [assignItems, List.mem_cons] at hl
    rcases hl with rfl | rfl | hl
    · exact noTab_word h.1.1.1
    · unfold NoTab; decide
    · exact noTab_type t h.2 l hl
  | value n k v =>
    simp only [assignItems, List.mem_cons] at hl
    rcases hl with rfl | rfl | rfl | hl
    · exact noTab_word h.1.1.1
    · exact noTab_simple k
    · unfold NoTab; decide
    · exact noTab_lit h.2 l hl
  | constant n m v =>
    simp only [assignItems, List.mem_cons] at hl
    rcases hl with rfl | rfl | rfl | hl
    · exact noTab_word h.1.1.1
    · exact noTab_word h.2.1.1.1
    · unfold NoTab; decide
    · exact noTab_lit h.2.2 l hl

theorem noTab_module {name : String} {tags : Bool} {as : List Assign} (hn : UpperName name) (ha : ∀ a ∈ as, WritableAssign a) :
    ∀ l ∈ moduleItems name tags as, NoTab l := by
  intro l hl
  simp only [moduleItems, List.mem_cons, List.mem_append, List.not_mem_nil, or_false, List.mem_flatMap] at hl
  rcases hl with rfl | rfl | hl | rfl | rfl | ⟨a, hm, hl⟩ | rfl
  · exact noTab_word hn.1
  · unfold NoTab; decide
  · split at hl
    · rw [List.mem_singleton.1 hl]; unfold NoTab; decide
    · cases hl
  · unfold NoTab; decide
  · unfold NoTab; decide
  · exact noTab_assign (ha a hm) l hl
  · unfold NoTab; decide

/-! ## texts -/

theorem parseModule_written {name : String} {tags : Bool} {as : List Assign} {text : List Char} (hn : UpperName name ∧ Ends name)
    (ha : ∀ a ∈ as, WritableAssign a) (h : Written name tags as text) : parseModule text = .ok (as.map plainAssign) := by
  obtain ⟨w, s, rfl, hw, h⟩ := h
  obtain ⟨w', col, e, hw', -⟩ := expand_blank w s 0 hw
  have h1 := expand_laid col (noTab_module hn.1 ha) h
  have hskip : skipWs (w' ++ expandTabs col s) = expandTabs col s := by
    rw [skipWs_append (fun c hc => isWs_iff.2 (hw' c hc)), laid_skip h1]
  have hpos : 0 < (expandTabs col s).length := by
    obtain ⟨c, r, hc, -⟩ := hn.1.2
    obtain ⟨r', e'⟩ := laid_head h1 hc
    rw [e']; simp
  have hlen : (w' ++ expandTabs col s).length = w'.length + (expandTabs col s).length := List.length_append
  obtain ⟨k, hk⟩ : ∃ k, (w' ++ expandTabs col s).length + 1 = k + 2 := ⟨(w' ++ expandTabs col s).length - 1, by omega⟩
  obtain ⟨toks, R, hy, hb⟩ := module_yields (f := k) (n := k + 2) hn ha (by omega) h1
  rw [← hskip] at hy
  obtain ⟨r, -, hrun, -⟩ := Yields.skip.1 hy
  simp only [parseModule, e, hk, hrun, bind, Except.bind, pure, Except.pure, hb]

end Verif.Parse
