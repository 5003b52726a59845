import Verif.Lemmas.Truncate
import Verif.Lemmas.Size
/-!
# Messages whose last field lies inside one octet
-/
namespace Verif
open Spec

/-! ## where fields end -/

/-- From a position as described the step leads to a position as described, if it succeeds. -/
def Lands {α : Type} (P : Phase) (m : Dec α) (Q : Phase) : Prop :=
  ∀ p a p', p.offset.currBits < 8 → m p = .ok (a, p') → P.holds p.pos → Q.holds p'.pos ∧ p'.offset.currBits < 8

theorem Lands.pure {α : Type} (P : Phase) (a : α) : Lands P (Pure.pure a : Dec α) P := by
  intro p b p' h8 h hp; cases h; exact ⟨hp, h8⟩

theorem Lands.raise {α : Type} (P Q : Phase) (e : Err) : Lands P (Verif.raise e : Dec α) Q := by
  intro p b p' h8 h hp; cases h

theorem Lands.liftE {α : Type} (P : Phase) (e : Except Err α) : Lands P (Verif.liftE e) P := by
  intro p b p' h8 h hp
  cases e with
  | error e => cases h
  | ok a => cases h; exact ⟨hp, h8⟩

theorem Lands.bind {α β : Type} {m : Dec α} {f : α → Dec β} {P Q R : Phase} (hm : Lands P m Q)
    (hf : ∀ a, Lands Q (f a) R) : Lands P (m >>= f) R := by
  intro p b p' h8 h hp
  obtain ⟨a, p1, e1, e2⟩ := bind_eq_ok h
  obtain ⟨h1, h2⟩ := hm p a p1 h8 e1 hp
  exact hf a p1 b p' h2 e2 h1

theorem Lands.ite {α : Type} {c : Prop} [Decidable c] {a b : Dec α} {P Q : Phase} (ha : c → Lands P a Q)
    (hb : ¬ c → Lands P b Q) : Lands P (if c then a else b) Q := by
  split
  · exact ha ‹_›
  · exact hb ‹_›

theorem Lands.pre {α : Type} {P P' Q : Phase} {m : Dec α} (h : Lands P m Q) (hp : ∀ k, P'.holds k → P.holds k) :
    Lands P' m Q := fun p a p' h8 e h0 => h p a p' h8 e (hp _ h0)

theorem lands_next {P Q : Phase} (size : BitSize) (align : Bool)
    (h : ∀ k, P.holds k → Q.holds (alignPos align k + (size.octets * 8 + size.bits))) :
    Lands P (Verif.next size align) Q := by
  intro p a p' h8 e hp
  have hat : At p p.pos (p.binaryString.drop p.pos) := ⟨h8, rfl, rfl⟩
  obtain ⟨h1, h2⟩ := next_eq hat size align
  rw [e] at h2
  have : p' = { p with offset := (if align then p.offset.align else p.offset).add size } := by
    split at h2
    · cases h2; rfl
    · split at h2
      · cases h2
      · cases h2; rfl
  rw [this]
  refine ⟨?_, h1.bits_lt⟩
  have hq := h1.pos_eq
  unfold PerBytes.pos at hq ⊢
  rw [hq]
  exact h _ hp

theorem lands_any {α : Type} (P : Phase) {m : Dec α} (h : Tame m) : Lands P m none :=
  fun p a p' h8 e _ => ⟨trivial, (h.run p a p' h8 e).2.1⟩

theorem lands_align (P : Phase) (n : Nat) : Lands P (Verif.next ⟨n, 0⟩ true) (some 0) :=
  lands_next _ _ fun k _ => by
    have : (alignPos true k) % 8 = 0 := by rw [alignPos_true]; exact add_padLen_mod k
    show (alignPos true k + (n * 8 + 0)) % 8 = 0
    omega

theorem lands_octets (P : Phase) (n : Nat) : Lands P (Verif.next ⟨n, 0⟩ false) P :=
  lands_next _ _ fun k hk => by
    rw [alignPos_false]
    cases P with
    | none => trivial
    | some r =>
      have hk : k % 8 = r := hk
      show (k + (n * 8 + 0)) % 8 = r
      omega

/-- A number that is followed by an alignment. -/
theorem lands_nonNeg (P : Phase) (s : Option BitSize) (m : Bool) :
    Lands P (decodeNonNegativeBinaryInteger s true m) (some 0) := by
  unfold decodeNonNegativeBinaryInteger
  refine Lands.ite (fun _ => Lands.raise _ _ _) fun _ => ?_
  refine (Lands.liftE P _).bind fun s => ?_
  refine (lands_any P (Tame.next s false)).bind fun _ => ?_
  exact (lands_align none 0).bind fun _ => Lands.pure _ _

theorem lands_lenDet (P : Phase) (l u : Option Int) : Lands P (decodeLengthDeterminant false false l u) (some 0) := by
  unfold decodeLengthDeterminant
  simp only [Bool.false_eq_true, if_false]
  refine (lands_align P 0).bind fun _ => ?_
  refine (lands_any (some 0) (Tame.next _ _)).bind fun _ => Lands.ite (fun _ => ?_) fun _ => ?_
  · exact (lands_nonNeg _ _ _).bind fun _ => Lands.pure _ _
  · refine (lands_any none (Tame.next _ _)).bind fun _ => Lands.ite (fun _ => ?_) fun _ => Lands.raise _ _ _
    exact (lands_nonNeg _ _ _).bind fun _ => Lands.pure _ _

theorem lands_cwn {l u : Int} (h : ¬ u - l + 1 ≤ 255) (P : Phase) :
    Lands P (decodeConstrainedWholeNumber (some l) (some u)) (some 0) := by
  unfold decodeConstrainedWholeNumber
  show Lands P (if _ then _ else _) _
  have hr : ¬ integerRange l u ≤ 255 := by unfold integerRange; omega
  rw [if_neg (by omega), if_neg hr]
  refine Lands.ite (fun _ => ?_) fun _ => Lands.ite (fun _ => ?_) fun _ => ?_
  · exact (lands_align _ 0).bind fun _ => (lands_nonNeg _ _ _).bind fun _ => Lands.pure _ _
  · exact (lands_align _ 0).bind fun _ => (lands_nonNeg _ _ _).bind fun _ => Lands.pure _ _
  · exact (lands_nonNeg _ _ _).bind fun _ => Lands.pure _ _

theorem lands_cwnField {l u : Int} (h : ¬ u - l + 1 ≤ 255) (P : Phase) :
    Lands P (decodeConstrainedFromFieldList (some l) (some u)) (some 0) := by
  unfold decodeConstrainedFromFieldList
  show Lands P (if _ then _ else _) _
  refine Lands.ite (fun _ => lands_cwn h P) fun _ => ?_
  refine (lands_any P (tame_lenDet _ _ _ _)).bind fun _ => ?_
  exact (lands_align _ _).bind fun _ => Lands.pure _ _

theorem lands_ty : ∀ (t : Ty) (P : Phase), Lands P (decTy t) (landing t P)
  | .boolean, P => lands_any P (tame_ty _)
  | .enumerated _ _ _, P => lands_any P (tame_ty _)
  | .bitString _, P => lands_any P (tame_ty _)
  | .seqOf _ _, P => lands_any P (tame_ty _)
  | .choice _ _ _ _, P => lands_any P (tame_ty _)
  | .sequence _ _ _ _, P => lands_any P (tame_ty _)
  | .integer c, P => by
    rw [landing]
    split
    · exact lands_any P (tame_ty _)
    · rename_i hx
      unfold decTy decodeInteger
      rw [if_neg hx]
      cases hl : c.lower with
      | none =>
        dsimp only
        refine Lands.bind (Q := some 0) ?_ fun _ => Lands.liftE _ _
        unfold decodeUnconstrainedWholeNumber
        exact (lands_align P 1).bind fun _ => (lands_octets _ _).bind fun _ => Lands.liftE _ _
      | some l =>
        cases hu : c.upper with
        | none =>
          dsimp only
          refine Lands.bind (Q := some 0) ?_ fun _ => Lands.liftE _ _
          unfold decodeSemiConstrainedFromFieldList
          exact (lands_lenDet P _ _).bind fun _ => (lands_octets _ _).bind fun _ => Lands.pure _ _
        | some u =>
          dsimp only
          by_cases h : u - l + 1 ≤ 255
          · rw [if_pos h]
            exact lands_any P (by tame)
          · rw [if_neg h, if_neg (by omega)]
            exact (lands_cwnField h P).bind fun _ => Lands.liftE _ _
  | .octetString c, P => by
    rw [landing]
    split
    · exact lands_any P (tame_ty _)
    · rename_i hx
      cases hu : c.upper with
      | none =>
        have : Lands P (decTy (.octetString c)) (some 0) := by
          unfold decTy decodeOctetstring decodeOctetstringRoot
          rw [if_neg hx, hu, if_neg (by simp), if_neg (by intro h; exact h.1 h.2)]
          dsimp only
          exact (lands_align P 0).bind fun _ => (lands_lenDet _ _ _).bind fun _ =>
            (lands_octets _ _).bind fun _ => Lands.liftE _ _
        cases hl : c.lower <;> exact this
      | some u =>
        cases hl : c.lower with
        | none => exact lands_any P (tame_ty _)
        | some l =>
          dsimp only
          split
          · rename_i e
            subst e
            unfold decTy decodeOctetstring decodeOctetstringRoot
            rw [if_neg hx, hl, hu]
            refine Lands.ite (fun h0 => ?_) fun _ => ?_
            · have : l = 0 := by simpa using h0
              subst this
              exact Lands.liftE _ _
            · rw [if_pos ⟨by simp, rfl⟩]
              show Lands P (if l ≤ 2 then _ else _) _
              split
              · exact (lands_octets P _).bind fun _ => Lands.liftE _ _
              · refine Lands.ite (fun _ => ?_) fun _ => Lands.raise _ _ _
                exact (lands_align P 0).bind fun _ => (lands_octets _ _).bind fun _ => Lands.liftE _ _
          · exact lands_any P (tame_ty _)

/-! ## steps that do not leave the input unnoticed -/

/-- The step, if it succeeds, ends inside the input if `s'`, where it began inside of it if `s`. -/
structure Ends {α : Type} (s : Bool) (P : Phase) (m : Dec α) (s' : Bool) (Q : Phase) : Prop extends Tame m where
  ends : ∀ p n a p', p.offset.currBits < 8 → p.binaryString.length = 8 * n → (s = true → p.pos ≤ 8 * n) →
    (p.pos ≤ 8 * n → P.holds p.pos) → m p = .ok (a, p') →
    (s' = true → p'.pos ≤ 8 * n) ∧ (p'.pos ≤ 8 * n → Q.holds p'.pos)

theorem Ends.bind {α β : Type} {m : Dec α} {f : α → Dec β} {s s' s'' : Bool} {P Q R : Phase} (hm : Ends s P m s' Q)
    (hf : ∀ a, Ends s' Q (f a) s'' R) : Ends s P (m >>= f) s'' R := by
  refine ⟨hm.toTame.bind fun a => (hf a).toTame, fun p n b p' h8 hl hs hP e => ?_⟩
  obtain ⟨a, p1, e1, e2⟩ := bind_eq_ok e
  obtain ⟨b1, b2, _, _⟩ := hm.run p a p1 h8 e1
  obtain ⟨h1, h2⟩ := hm.ends p n a p1 h8 hl hs hP e1
  exact (hf a).ends p1 n b p' b2 (by rw [b1, hl]) h1 h2 e2

theorem Ends.pure {α : Type} (s : Bool) (P : Phase) (a : α) : Ends s P (Pure.pure a : Dec α) s P :=
  ⟨Tame.pure a, fun p n b p' h8 hl hs hP e => by cases e; exact ⟨hs, hP⟩⟩

theorem Ends.raise {α : Type} (s s' : Bool) (P Q : Phase) (e : Err) : Ends s P (Verif.raise e : Dec α) s' Q :=
  ⟨Tame.raise e, fun p n b p' h8 hl hs hP e => by cases e⟩

theorem Ends.any {α : Type} (s : Bool) (P : Phase) {m : Dec α} (h : Tame m) : Ends s P m false none :=
  ⟨h, fun _ _ _ _ _ _ _ _ _ => ⟨(nomatch ·), fun _ => trivial⟩⟩

theorem Ends.mono {α : Type} {s t s' t' : Bool} {P P' Q Q' : Phase} {m : Dec α} (h : Ends s P m s' Q)
    (hs : s = true → t = true) (hP : ∀ k, P'.holds k → P.holds k) (ht : t' = true → s' = true)
    (hQ : ∀ k, Q.holds k → Q'.holds k) : Ends t P' m t' Q' :=
  ⟨h.toTame, fun p n a p' h8 hl h0 h1 e => by
    obtain ⟨h2, h3⟩ := h.ends p n a p' h8 hl (fun x => h0 (hs x)) (fun x => hP _ (h1 x)) e
    exact ⟨fun x => h2 (ht x), fun x => hQ _ (h3 x)⟩⟩

theorem Ends.ite {α : Type} {c : Prop} [Decidable c] {a b : Dec α} {s s' : Bool} {P Q : Phase}
    (ha : c → Ends s P a s' Q) (hb : ¬ c → Ends s P b s' Q) : Ends s P (if c then a else b) s' Q := by
  split
  · exact ha ‹_›
  · exact hb ‹_›

theorem Ends.after_pure {α β : Type} {a : α} {f : α → Dec β} {s s' : Bool} {P Q : Phase} (h : Ends s P (f a) s' Q) :
    Ends s P ((Pure.pure a : Dec α) >>= f) s' Q := h

theorem Stays.ends {α : Type} {P Q : Phase} {m : Dec α} (h : Stays P m Q) (ht : Tame m) : Ends true P m true Q :=
  ⟨ht, fun p n a p' h8 hl h0 h1 e => by
    have := h p n h8 hl (h0 rfl) (h1 (h0 rfl))
    unfold Outcome at this
    rw [e] at this
    exact ⟨fun _ => this.2.2.1, fun _ => this.2.2.2.1⟩⟩

/-- A step that needs a bit need not begin inside the input. -/
theorem Ends.field {α : Type} {P Q : Phase} {m : Dec α} {b : Bool} (h : Ends true P m true Q) (he : b = true → Eats m)
    (s : Bool) : Ends s P m (s || b) Q :=
  ⟨h.toTame, fun p n a p' h8 hl h0 h1 e => by
    obtain ⟨_, _, hle, _⟩ := h.run p a p' h8 e
    refine ⟨fun hs => ?_, fun hp => ?_⟩
    · by_cases hp : p.pos ≤ 8 * n
      · exact (h.ends p n a p' h8 hl (fun _ => hp) h1 e).1 rfl
      · have hb : b = true := by
          cases s
          · simpa using hs
          · exact absurd (h0 rfl) hp
        have := (he hb).run p a p' h8 e
        obtain ⟨hb', _, _, _⟩ := h.run p a p' h8 e
        unfold PerBytes.seen at this
        rw [hb', hl] at this
        omega
    · have : p.pos ≤ 8 * n := by omega
      exact (h.ends p n a p' h8 hl (fun _ => this) h1 e).2 hp⟩

/-- Nothing is known about the end, except where it lies. -/
theorem Lands.ends {α : Type} {P Q : Phase} {m : Dec α} (h : Lands P m Q) (ht : Tame m) (s : Bool) : Ends s P m false Q :=
  ⟨ht, fun p n a p' h8 hl h0 h1 e => ⟨(nomatch ·), fun hp => by
    obtain ⟨_, _, hle, _⟩ := ht.run p a p' h8 e
    exact (h p a p' h8 e (h1 (by omega))).1⟩⟩

theorem Ends.repeat {α : Type} {m : Dec α} (h : Ends true none m true none) : ∀ n, Ends true none (repeatDec n m) true none
  | 0 => Ends.pure _ _ _
  | n + 1 => by
    unfold repeatDec
    exact h.bind fun _ => (Ends.repeat h n).bind fun _ => Ends.pure _ _ _

theorem behind_ends {t : Ty} {P : Phase} (hc : closing t P = true → Ends true P (decTy t) true (behind t P)) (s : Bool) :
    Ends s P (decTy t) (closing t P && (s || needsBit t)) (behind t P) := by
  by_cases h : closing t P = true
  · rw [h, Bool.true_and]
    exact (hc h).field (eats_ty t) s
  · have h : closing t P = false := by simpa using h
    rw [h, Bool.false_and]
    have hn : narrow t P = none := by
      cases e : narrow t P with
      | none => rfl
      | some Q => cases t <;> (rw [closing, e] at h; cases h)
    unfold behind
    rw [hn]
    exact (lands_ty t P).ends (tame_ty t) s

theorem narrow_ends {t : Ty} {P : Phase} (h : (narrow t P).isSome = true) : Ends true P (decTy t) true (behind t P) := by
  obtain ⟨Q, e⟩ := Option.isSome_iff_exists.1 h
  unfold behind
  rw [e]
  exact (stays_ty t P Q e).ends (tame_ty t)

mutual
theorem closing_ty : ∀ (t : Ty) (P : Phase), closing t P = true → Ends true P (decTy t) true (behind t P)
  | .boolean, P, h => narrow_ends (by rwa [closing] at h)
  | .integer c, P, h => narrow_ends (by rwa [closing] at h)
  | .enumerated _ _ _, P, h => narrow_ends (by rwa [closing] at h)
  | .bitString c, P, h => narrow_ends (by rwa [closing] at h)
  | .octetString c, P, h => narrow_ends (by rwa [closing] at h)
  | .seqOf c t, P, h => by
    have ht := closing_ty t none
    rw [closing, Bool.or_eq_true] at h
    by_cases hn : (narrow (.seqOf c t) P).isSome = true
    · exact narrow_ends hn
    have h := h.resolve_left hn
    have hp : behind (.seqOf c t) P = none := by
      unfold behind
      cases e : narrow (.seqOf c t) P with
      | none => rfl
      | some Q => rw [e] at hn; simp at hn
    rw [hp]
    rw [Bool.and_eq_true] at h
    obtain ⟨hx, h⟩ := h
    have hx : ¬ c.ext = true := by simpa using hx
    split at h
    · rename_i l u hl hu
      rw [Bool.and_eq_true] at h
      have hrep : ∀ n, Ends true none (repeatDec n (decTy t)) true none := fun n =>
        Ends.repeat ((ht h.2).mono id (fun _ => id) id fun _ _ => trivial) n
      unfold decTy
      refine Ends.bind (s' := true) (Q := none) ?_ fun n => (hrep _).bind fun _ => Ends.pure _ _ _
      unfold decodeSequenceOfCount
      rw [if_neg hx, hl, hu]
      dsimp only
      split at h
      · rename_i hlu
        rw [if_pos ⟨hlu, by simpa [hlu] using h.1⟩]
        exact (Ends.pure true P _).mono id (fun _ => id) id fun _ _ => trivial
      · rename_i hlu
        have h1 := h.1
        rw [Bool.and_eq_true, decide_eq_true_eq] at h1
        obtain ⟨hlt, hone⟩ := h1
        obtain ⟨Q, hQ⟩ := Option.isSome_iff_exists.1 hone
        rw [if_neg (fun x => hlu x.1)]
        have hle : u - l + 1 ≤ 256 := by
          unfold oneOf at hQ
          repeat' split at hQ
          all_goals first | omega | cases hQ
        rw [if_pos (by omega)]
        have : Stays P (decodeLengthDeterminant false true c.lowerZ c.upperZ) Q := by
          unfold decodeLengthDeterminant SizeC.lowerZ SizeC.upperZ
          rw [hl, hu]
          exact stays_cwn (l := (l : Int)) (u := (u : Int)) (n := u - l + 1) (by omega) hQ
        exact (this.ends (tame_lenDet _ _ _ _)).mono id (fun _ => id) id fun _ _ => trivial
    · cases h
  | .choice ext r a g, P, h => by
    have hr := closing_any r
    rw [closing, Bool.or_eq_true] at h
    by_cases hn : (narrow (.choice ext r a g) P).isSome = true
    · exact narrow_ends hn
    have h := h.resolve_left hn
    have hp : behind (.choice ext r a g) P = none := by
      unfold behind
      cases e : narrow (.choice ext r a g) P with
      | none => rfl
      | some Q => rw [e] at hn; simp at hn
    rw [hp]
    rw [Bool.and_eq_true] at h
    obtain ⟨hx, h⟩ := h
    unfold decTy
    rw [if_pos hx]
    split at h
    · rename_i Q hQ
      split
      · rename_i h1
        rw [h1] at hQ
        cases hQ
        exact (hr _ h 0).bind fun _ => Ends.pure _ _ _
      · exact ((stays_cwnField (l := 0) (u := (r.length : Int) - 1) (n := r.length) (by omega) hQ).ends
          (tame_cwnField _ _)).bind fun i => (hr _ h _).bind fun _ => Ends.pure _ _ _
    · rename_i hQ
      rw [if_neg (by intro h1; rw [h1] at hQ; cases hQ)]
      exact (Ends.any true P (tame_cwnField _ _)).bind fun i => (hr _ h _).bind fun _ => Ends.pure _ _ _
  | .sequence ext r a g, P, h => by
    have hr := closing_all r
    rw [closing, Bool.or_eq_true] at h
    by_cases hn : (narrow (.sequence ext r a g) P).isSome = true
    · exact narrow_ends hn
    replace h := h.resolve_left hn
    have hp : behind (.sequence ext r a g) P = none := by
      unfold behind
      cases e : narrow (.sequence ext r a g) P with
      | none => rfl
      | some Q => rw [e] at hn; simp at hn
    rw [hp]
    rw [Bool.and_eq_true] at h
    obtain ⟨hx, h⟩ := h
    have hx : ext = false := by simpa using hx
    subst hx
    unfold decTy
    show Ends true P ((Pure.pure 0 : Dec Nat) >>= _) true none
    refine Ends.after_pure ?_
    rw [optionalCount_optionals]
    split at h
    · rename_i Q hQ
      refine Ends.bind (s' := true) (Q := Q) (Stays.ends ?_ (tame_optionalBits _)) fun o => (hr _ h o).bind fun _ => Ends.pure _ _ _
      unfold decodeOptionalBits
      split
      · rename_i h0
        rw [h0] at hQ
        exact (Stays.pure _ _).post fun k hk => (inOctet_spec hQ hk).2
      · split
        · exact (stays_bits hQ (by simp)).bind fun _ => Stays.pure _ _
        · exact Stays.raise _ _ _
    · exact (Ends.any true P (tame_optionalBits _)).bind fun o => (hr _ h o).bind fun _ => Ends.pure _ _ _
theorem closing_any : ∀ (r : Fields) (P : Phase) {s : Bool}, closingAny r P s = true → ∀ i, Ends s P (decAlt r i) true none
  | .nil, P, s, h, i => by unfold decAlt; exact Ends.raise _ _ _ _ _
  | .cons _ _ t r, P, s, h, 0 => by
    rw [closingAny, Bool.and_eq_true] at h
    unfold decAlt
    have := behind_ends (closing_ty t P) s
    rw [h.1] at this
    exact this.mono id (fun _ => id) id fun _ _ => trivial
  | .cons _ _ t r, P, s, h, i + 1 => by
    rw [closingAny, Bool.and_eq_true] at h
    unfold decAlt
    exact closing_any r P h.2 i
theorem closing_all : ∀ (r : Fields) (P : Phase) {s : Bool}, closingAll r P s = true → ∀ o, Ends s P (decRoot r o) true none
  | .nil, P, s, h, o => by
    rw [closingAll] at h; subst h
    unfold decRoot
    exact (Ends.pure true P _).mono id (fun _ => id) id fun _ _ => trivial
  | .cons _ k t r, P, s, h, o => by
    have ht := behind_ends (closing_ty t P) s
    rw [closingAll] at h
    unfold decRoot
    cases k with
    | mandatory => exact ht.bind fun _ => (closing_all r _ h _).bind fun _ => Ends.pure _ _ _
    | _ =>
      have hr := closing_all r _ h
      cases o with
      | nil => exact Ends.raise _ _ _ _ _
      | cons b o =>
        dsimp only
        split
        · refine Ends.bind (ht.mono id (fun _ => id) ?_ fun _ => Phase.or_right) fun _ => (hr _).bind fun _ => Ends.pure _ _ _
          intro hs
          simp only [Bool.and_eq_true, Bool.or_eq_true] at hs ⊢
          exact ⟨hs.2, .inl hs.1⟩
        · refine Ends.bind ((hr _).mono ?_ (fun _ => Phase.or_left) id fun _ => id) fun _ => Ends.pure _ _ _
          intro hs
          rw [Bool.and_eq_true] at hs
          exact hs.1
end

end Verif
