import Verif.SpecTruncate
import Verif.Lemmas.Tame
import Verif.Lemmas.Number
import Verif.Lemmas.Message
/-!
# Reading functions that take every octet completely or not at all
-/
namespace Verif
open Spec

/-- What comes out of a step that began inside the `n` octets of the input: it ends inside them and does the same on
longer inputs, or it fails on longer inputs just so, or it raises `ValueError`. -/
def Outcome {α : Type} (n : Nat) (m : Dec α) (p : PerBytes) (Q : Phase) : Prop :=
  match m p with
  | .ok (a, p') => p'.binaryString = p.binaryString ∧ p'.offset.currBits < 8 ∧ p'.pos ≤ 8 * n ∧ Q.holds p'.pos ∧
      ∀ y, m (p.extend y) = .ok (a, p'.extend y)
  | .error e => e = .valueError ∨ ∀ y, m (p.extend y) = .error e

/-- From a position as described the step does not leave the input unnoticed. -/
def Stays {α : Type} (P : Phase) (m : Dec α) (Q : Phase) : Prop :=
  ∀ p n, p.offset.currBits < 8 → p.binaryString.length = 8 * n → p.pos ≤ 8 * n → P.holds p.pos → Outcome n m p Q

theorem Outcome.mono {α : Type} {n : Nat} {m : Dec α} {p : PerBytes} {Q Q' : Phase} (h : Outcome n m p Q)
    (hq : ∀ k, Q.holds k → Q'.holds k) : Outcome n m p Q' := by
  unfold Outcome at h ⊢
  split at h
  · exact ⟨h.1, h.2.1, h.2.2.1, hq _ h.2.2.2.1, h.2.2.2.2⟩
  · exact h

theorem Stays.post {α : Type} {P Q Q' : Phase} {m : Dec α} (h : Stays P m Q) (hq : ∀ k, Q.holds k → Q'.holds k) :
    Stays P m Q' := fun p n h1 h2 h3 h4 => (h p n h1 h2 h3 h4).mono hq

theorem Stays.pre {α : Type} {P P' Q : Phase} {m : Dec α} (h : Stays P m Q) (hp : ∀ k, P'.holds k → P.holds k) :
    Stays P' m Q := fun p n h1 h2 h3 h4 => h p n h1 h2 h3 (hp _ h4)

theorem Stays.pure {α : Type} (P : Phase) (a : α) : Stays P (Pure.pure a : Dec α) P :=
  fun _ _ h1 _ h3 h4 => ⟨rfl, h1, h3, h4, fun _ => rfl⟩

theorem Stays.raise {α : Type} (P Q : Phase) (e : Err) : Stays P (Verif.raise e : Dec α) Q :=
  fun _ _ _ _ _ _ => Or.inr fun _ => rfl

theorem Stays.liftE {α : Type} (P : Phase) (e : Except Err α) : Stays P (Verif.liftE e) P := by
  intro p n h1 _ h3 h4
  cases e with
  | error e => exact Or.inr fun _ => rfl
  | ok a => exact ⟨rfl, h1, h3, h4, fun _ => rfl⟩

theorem bind_error {α β : Type} {m : Dec α} {f : α → Dec β} {p : PerBytes} {e : Err} (h : m p = .error e) :
    (m >>= f) p = .error e := by
  show StateT.bind m f p = _
  unfold StateT.bind
  rw [h]; rfl

theorem Stays.bind {α β : Type} {m : Dec α} {f : α → Dec β} {P Q R : Phase} (hm : Stays P m Q)
    (hf : ∀ a, Stays Q (f a) R) : Stays P (m >>= f) R := by
  intro p n h1 h2 h3 h4
  have hm := hm p n h1 h2 h3 h4
  unfold Outcome at hm
  split at hm
  · rename_i a p' e
    obtain ⟨s1, s2, s3, s4, s5⟩ := hm
    have hf := hf a p' n s2 (by rw [s1, h2]) s3 s4
    unfold Outcome at hf ⊢
    rw [bind_of_ok e rfl]
    split at hf
    · rename_i b p'' e'
      obtain ⟨t1, t2, t3, t4, t5⟩ := hf
      exact ⟨by rw [t1, s1], t2, t3, t4, fun y => bind_of_ok (s5 y) (t5 y)⟩
    · rename_i x e'
      exact hf.imp id fun hx y => bind_of_ok (s5 y) (hx y)
  · rename_i x e
    unfold Outcome
    rw [bind_error e]
    exact hm.imp id fun hx y => bind_error (hx y)

theorem Stays.after_pure {α β : Type} {a : α} {f : α → Dec β} {P Q : Phase} (h : Stays P (f a) Q) :
    Stays P ((Pure.pure a : Dec α) >>= f) Q := h

theorem Stays.ite {α : Type} {c : Prop} [Decidable c] {a b : Dec α} {P Q : Phase} (ha : Stays P a Q)
    (hb : Stays P b Q) : Stays P (if c then a else b) Q := by
  split <;> assumption

/-- A read of bits that lie inside one octet. -/
theorem stays_next {P Q : Phase} (size : BitSize) (align : Bool)
    (h : ∀ k, P.holds k → alignPos align k % 8 + (size.octets * 8 + size.bits) ≤ 8 ∧
      Q.holds (alignPos align k + (size.octets * 8 + size.bits))) : Stays P (Verif.next size align) Q := by
  intro p n hb hl hp hP
  obtain ⟨hs, hq⟩ := h _ hP
  have hat : At p p.pos (p.binaryString.drop p.pos) := ⟨hb, rfl, rfl⟩
  have ha : alignPos align p.pos ≤ 8 * n := by
    cases align
    · exact hp
    · rw [alignPos_true]; unfold padLen; omega
  have ht := (Tame.next size align).run p
  obtain ⟨h1, h2⟩ := next_eq hat size align
  unfold Outcome
  rw [h2]
  by_cases h0 : size.octets * 8 + size.bits = 0
  · rw [if_pos h0] at h2 ⊢
    dsimp only
    have hpos := h1.pos_eq
    obtain ⟨a1, a2, _, a4⟩ := ht _ _ hb h2
    refine ⟨a1, a2, ?_, ?_, fun y => a4 y ?_⟩
    · unfold PerBytes.pos; rw [hpos]; omega
    · unfold PerBytes.pos; rw [hpos]; exact hq
    · unfold PerBytes.pos; rw [hpos, hl]; omega
  · rw [if_neg h0] at h2 ⊢
    by_cases hlen : p.binaryString.length ≤ alignPos align p.pos
    · rw [if_pos hlen]; exact Or.inl rfl
    · rw [if_neg hlen] at h2 ⊢
      dsimp only
      have hpos := h1.pos_eq
      obtain ⟨a1, a2, _, a4⟩ := ht _ _ hb h2
      have hle : alignPos align p.pos + (size.octets * 8 + size.bits) ≤ 8 * n := by omega
      refine ⟨a1, a2, ?_, ?_, fun y => a4 y ?_⟩
      · unfold PerBytes.pos; rw [hpos]; exact hle
      · unfold PerBytes.pos; rw [hpos]; exact hq
      · unfold PerBytes.pos; rw [hpos, hl]; exact hle

/-- Going to the next octet boundary. -/
theorem stays_align (P : Phase) : Stays P (Verif.next ⟨0, 0⟩ true) (some 0) := by
  refine stays_next _ _ fun k _ => ?_
  have : (alignPos true k) % 8 = 0 := by rw [alignPos_true]; exact add_padLen_mod k
  exact ⟨by simp [this], by simpa [Phase.holds] using this⟩

theorem inOctet_spec {n : Nat} {P Q : Phase} (h : inOctet n P = some Q) {k : Nat} (hk : P.holds k) :
    k % 8 + n ≤ 8 ∧ Q.holds (k + n) := by
  unfold inOctet at h
  cases P with
  | none =>
    dsimp only at h
    split at h
    · cases h; exact ⟨by omega, trivial⟩
    · cases h
  | some r =>
    dsimp only at h
    have hk : k % 8 = r := hk
    split at h
    · cases h; exact ⟨by omega, show (k + n) % 8 = _ by omega⟩
    · cases h

theorem stays_bits {n : Nat} {P Q : Phase} (h : inOctet n P = some Q) {size : BitSize}
    (hs : size.octets * 8 + size.bits = n) : Stays P (Verif.next size false) Q :=
  stays_next _ _ fun k hk => by rw [hs, alignPos_false]; exact inOctet_spec h hk

theorem liftE_ok_bind {α β : Type} (a : α) (f : α → Dec β) : (Verif.liftE (.ok a) >>= f : Dec β) = f a := rfl

theorem stays_nonNeg {n : Nat} {P Q : Phase} (h : inOctet n P = some Q) {size : BitSize}
    (hs : size.octets * 8 + size.bits = n) : Stays P (decodeNonNegativeBinaryInteger (some size) false false) Q := by
  unfold decodeNonNegativeBinaryInteger
  simp only [Bool.false_eq_true, if_false]
  exact (stays_bits h hs).bind fun _ => Stays.pure _ _

theorem stays_octet : Stays (some 0) (decodeNonNegativeBinaryInteger (some ⟨1, 0⟩) true false) (some 0) := by
  have h8 : inOctet 8 (some 0) = some (some 0) := by decide
  unfold decodeNonNegativeBinaryInteger
  simp only [Bool.false_eq_true, if_false, if_true, needSize, liftE_ok_bind]
  exact (stays_bits (size := ⟨1, 0⟩) h8 rfl).bind fun _ => (stays_align _).bind fun _ => Stays.pure _ _

theorem bitFieldSize_log2 {r : Nat} (h1 : 2 ≤ r) (h2 : r ≤ 255) :
    getBitFieldSize (r : Int) = some ⟨0, (r - 1).log2 + 1⟩ := by
  obtain ⟨w, e, w0, w1, w2⟩ := getBitFieldSize_small (r := (r : Int)) (by omega) (by omega)
  rw [e]
  have hw : (r - 1).log2 = w - 1 := by
    rw [Nat.log2_eq_iff (by omega)]
    have a1 : r ≤ 2 ^ w := by exact_mod_cast w1
    have a2 : 2 ^ (w - 1) < r := by exact_mod_cast w2
    rw [Nat.sub_add_cancel w0]
    omega
  rw [hw, Nat.sub_add_cancel w0]

theorem stays_cwn {l u : Int} {n : Nat} {P Q : Phase} (hn : u - l + 1 = (n : Int)) (h : oneOf n P = some Q) :
    Stays P (decodeConstrainedWholeNumber (some l) (some u)) Q := by
  unfold decodeConstrainedWholeNumber
  show Stays P (if _ then _ else _) Q
  have hr : integerRange l u = (n : Int) := by unfold integerRange; omega
  rw [hr]
  unfold oneOf at h
  by_cases h1 : n = 1
  · rw [if_pos h1] at h; cases h
    subst h1
    exact Stays.pure _ _
  · rw [if_neg h1] at h
    rw [if_neg (by omega)]
    by_cases h2 : 2 ≤ n ∧ n ≤ 255
    · rw [if_pos h2] at h
      rw [if_pos (by omega), bitFieldSize_log2 h2.1 h2.2]
      exact (stays_nonNeg h (by simp)).bind fun _ => Stays.pure _ _
    · rw [if_neg h2] at h
      by_cases h3 : n = 256
      · rw [if_pos h3] at h; cases h
        subst h3
        rw [if_neg (by decide), if_pos (by decide)]
        refine (stays_align P).bind fun _ => ?_
        exact stays_octet.bind fun _ => Stays.pure _ _
      · rw [if_neg h3] at h; cases h

theorem stays_cwnField {l u : Int} {n : Nat} {P Q : Phase} (hn : u - l + 1 = (n : Int)) (h : oneOf n P = some Q) :
    Stays P (decodeConstrainedFromFieldList (some l) (some u)) Q := by
  unfold decodeConstrainedFromFieldList
  show Stays P (if _ then _ else _) Q
  have hle : n ≤ 256 := by
    unfold oneOf at h
    repeat' split at h
    all_goals first | omega | cases h
  rw [if_pos (by unfold integerRange; omega)]
  exact stays_cwn hn h

theorem Phase.or_left {P Q : Phase} {k : Nat} (h : P.holds k) : (P.or Q).holds k := by
  unfold Phase.or; split
  · exact h
  · trivial

theorem Phase.or_right {P Q : Phase} {k : Nat} (h : Q.holds k) : (P.or Q).holds k := by
  unfold Phase.or; split
  · rename_i e; rw [e]; exact h
  · trivial

theorem stays_times {α : Type} {m : Dec α} {f : Phase → Option Phase} (hm : ∀ P Q, f P = some Q → Stays P m Q) :
    ∀ n P Q, times f n P = some Q → Stays P (repeatDec n m) Q
  | 0, P, Q, h => by
    cases h
    exact Stays.pure _ _
  | n + 1, P, Q, h => by
    unfold times at h
    obtain ⟨R, e1, e2⟩ := Option.bind_eq_some_iff.1 h
    unfold repeatDec
    exact (hm _ _ e1).bind fun _ => (stays_times hm n _ _ e2).bind fun _ => Stays.pure _ _

theorem stays_repeat {α : Type} {m : Dec α} {P : Phase} (h : Stays P m P) : ∀ n, Stays P (repeatDec n m) P
  | 0 => Stays.pure _ _
  | n + 1 => by
    unfold repeatDec
    exact h.bind fun _ => (stays_repeat h n).bind fun _ => Stays.pure _ _

theorem stays_anyTimes {α : Type} {m : Dec α} {f : Phase → Option Phase} (hm : ∀ P Q, f P = some Q → Stays P m Q)
    {P Q : Phase} (h : anyTimes f P = some Q) (n : Nat) : Stays P (repeatDec n m) Q := by
  unfold anyTimes at h
  split at h
  · rename_i e
    cases h
    exact stays_repeat (hm _ _ e) n
  · split at h
    · rename_i e
      cases h
      obtain ⟨R, hR⟩ := Option.isSome_iff_exists.1 e
      exact (stays_repeat ((hm _ _ hR).post (Q' := none) fun _ _ => trivial) n).pre fun _ _ => trivial
    · cases h

theorem optionalCount_optionals : ∀ r : Fields, r.optionalCount = optionals r
  | .nil => rfl
  | .cons _ k _ r => by
    have ih := optionalCount_optionals r
    unfold Fields.optionalCount optionals
    cases k <;> simp [Kind.isOptional, Kind.isDefaulted, ih] <;> omega

mutual
theorem stays_ty : ∀ (t : Ty) (P Q : Phase), narrow t P = some Q → Stays P (decTy t) Q
  | .boolean, P, Q, h => by
    unfold narrow at h
    unfold decTy decodeBoolean
    exact (stays_bits h rfl).bind fun _ => Stays.pure _ _
  | .integer c, P, Q, h => by
    unfold narrow at h
    split at h
    · cases h
    · rename_i hx
      split at h
      · rename_i l u hl hu
        split at h
        · rename_i hle
          unfold decTy decodeInteger
          rw [if_neg hx, hl, hu]
          dsimp only
          split
          · rename_i he
            subst he
            rw [show (l - l + 1).toNat = 1 by omega] at h
            cases h
            exact Stays.liftE _ _
          · exact (stays_cwnField (by omega) h).bind fun _ => Stays.liftE _ _
        · cases h
      · cases h
  | .enumerated ext root add, P, Q, h => by
    unfold narrow at h
    split at h
    · cases h
    · rename_i hx
      unfold decTy decodeEnumerated
      rw [if_pos (by simpa using hx)]
      refine (stays_cwn (n := root.length + add.length) ?_ h).bind fun _ => Stays.liftE _ _
      rw [List.length_append]; omega
  | .bitString c, P, Q, h => by
    unfold narrow at h
    split at h
    · cases h
    · rename_i hx
      split at h
      · rename_i l u hl hu
        split at h
        · rename_i hle
          subst hle
          unfold decTy decodeBitstring decodeBitstringRoot
          rw [if_neg hx, hl, hu]
          have h8 : l ≤ 8 := by
            unfold inOctet at h
            cases P <;> dsimp only at h <;> split at h <;> first | omega | cases h
          by_cases h0 : l = 0
          · subst h0
            rw [if_pos rfl]
            refine (Stays.liftE _ _).post fun k hk => ?_
            exact (inOctet_spec h hk).2
          · rw [if_neg (by simpa using h0), if_pos ⟨by simp, rfl⟩]
            show Stays P (if l ≤ 16 then _ else _) Q
            rw [if_pos (by omega)]
            exact (stays_bits h (by simp)).bind fun _ => Stays.liftE _ _
        · cases h
      · cases h
  | .octetString c, P, Q, h => by
    unfold narrow at h
    split at h
    · cases h
    · rename_i hx
      split at h
      · rename_i l u hl hu
        split at h
        · rename_i hle
          subst hle
          unfold decTy decodeOctetstring decodeOctetstringRoot
          rw [if_neg hx, hl, hu]
          have h8 : l ≤ 1 := by
            unfold inOctet at h
            cases P <;> dsimp only at h <;> split at h <;> first | omega | cases h
          by_cases h0 : l = 0
          · subst h0
            rw [if_pos rfl]
            refine (Stays.liftE _ _).post fun k hk => ?_
            exact (inOctet_spec h hk).2
          · rw [if_neg (by simpa using h0), if_pos ⟨by simp, rfl⟩]
            show Stays P (if l ≤ 2 then _ else _) Q
            rw [if_pos (by omega)]
            exact (stays_bits h (by simp; omega)).bind fun _ => Stays.liftE _ _
        · cases h
      · cases h
  | .seqOf c t, P, Q, h => by
    have ht := stays_ty t
    unfold narrow at h
    split at h
    · cases h
    · rename_i hx
      split at h
      · rename_i l u hl hu
        unfold decTy decodeSequenceOfCount
        rw [if_neg hx]
        split at h
        · rename_i hle
          subst hle
          split at h
          · rename_i hs
            rw [hl, hu]
            dsimp only
            rw [if_pos ⟨rfl, hs⟩]
            exact (stays_times ht l P Q h).bind fun _ => Stays.pure _ _
          · cases h
        · split at h
          · rename_i hne hlt
            obtain ⟨R, e1, e2⟩ := Option.bind_eq_some_iff.1 h
            rw [hl, hu]
            dsimp only
            rw [if_neg (by omega), if_pos (by omega)]
            have : Stays P (decodeLengthDeterminant false true c.lowerZ c.upperZ) R := by
              unfold decodeLengthDeterminant SizeC.lowerZ SizeC.upperZ
              rw [hl, hu]
              exact stays_cwn (l := (l : Int)) (u := (u : Int)) (n := u - l + 1) (by omega) e1
            exact this.bind fun n => (stays_anyTimes ht e2 _).bind fun _ => Stays.pure _ _
          · cases h
      · cases h
  | .choice ext r a g, P, Q, h => by
    have hr := stays_any r
    unfold narrow at h
    split at h
    · cases h
    · rename_i hx
      obtain ⟨R, e1, e2⟩ := Option.bind_eq_some_iff.1 h
      unfold decTy
      rw [if_pos (by simpa using hx)]
      split
      · rename_i h1
        rw [h1] at e1
        cases e1
        exact (hr _ _ e2 0).bind fun _ => Stays.pure _ _
      · exact (stays_cwnField (l := 0) (u := (r.length : Int) - 1) (n := r.length) (by omega) e1).bind fun i => (hr _ _ e2 _).bind fun _ => Stays.pure _ _
  | .sequence ext r a g, P, Q, h => by
    have hr := stays_all r
    unfold narrow at h
    split at h
    · cases h
    · rename_i hx
      obtain ⟨R, e1, e2⟩ := Option.bind_eq_some_iff.1 h
      have hx : ext = false := by simpa using hx
      subst hx
      unfold decTy
      show Stays P ((Pure.pure 0 : Dec Nat) >>= _) Q
      refine Stays.after_pure ?_
      refine Stays.bind (Q := R) ?_ fun opt => (hr _ _ e2 opt).bind fun _ => Stays.pure _ _
      rw [optionalCount_optionals]
      unfold decodeOptionalBits
      split
      · rename_i h0
        rw [h0] at e1
        exact (Stays.pure _ _).post fun k hk => (inOctet_spec e1 hk).2
      · split
        · exact (stays_bits e1 (by simp)).bind fun _ => Stays.pure _ _
        · exact Stays.raise _ _ _
theorem stays_any : ∀ (r : Fields) (P Q : Phase), narrowAny r P = some Q → ∀ i, Stays P (decAlt r i) Q
  | .nil, P, Q, h, i => by unfold narrowAny at h; cases h
  | .cons _ _ t .nil, P, Q, h, 0 => by
    unfold narrowAny at h; unfold decAlt
    exact stays_ty t P Q h
  | .cons _ _ t .nil, P, Q, h, i + 1 => by
    unfold decAlt decAlt
    exact Stays.raise _ _ _
  | .cons _ _ t (.cons a b c d), P, Q, h, 0 => by
    unfold narrowAny at h; unfold decAlt
    obtain ⟨R, e1, e2⟩ := Option.bind_eq_some_iff.1 h
    obtain ⟨S, e3, e4⟩ := Option.map_eq_some_iff.1 e2
    subst e4
    exact (stays_ty t P R e1).post fun _ => Phase.or_left
  | .cons _ _ t (.cons a b c d), P, Q, h, i + 1 => by
    unfold narrowAny at h; unfold decAlt
    obtain ⟨R, e1, e2⟩ := Option.bind_eq_some_iff.1 h
    obtain ⟨S, e3, e4⟩ := Option.map_eq_some_iff.1 e2
    subst e4
    exact (stays_any (.cons a b c d) P S e3 i).post fun _ => Phase.or_right
theorem stays_all : ∀ (r : Fields) (P Q : Phase), narrowAll r P = some Q → ∀ o, Stays P (decRoot r o) Q
  | .nil, P, Q, h, o => by
    unfold narrowAll at h; cases h
    unfold decRoot
    exact Stays.pure _ _
  | .cons _ k t r, P, Q, h, o => by
    unfold narrowAll at h
    obtain ⟨R, e1, e2⟩ := Option.bind_eq_some_iff.1 h
    have ht := stays_ty t P R e1
    have hr := stays_all r _ Q e2
    unfold decRoot
    cases k with
    | mandatory => exact ht.bind fun _ => (hr _).bind fun _ => Stays.pure _ _
    | _ =>
      cases o with
      | nil => exact Stays.raise _ _ _
      | cons b o =>
        dsimp only
        split
        · exact (ht.post fun _ => Phase.or_right).bind fun _ => (hr _).bind fun _ => Stays.pure _ _
        · exact ((hr _).pre fun _ => Phase.or_left).bind fun _ => Stays.pure _ _
end

end Verif
