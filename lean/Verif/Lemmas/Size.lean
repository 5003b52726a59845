import Verif.SpecSize
import Verif.Lemmas.Tame
import Verif.Lemmas.Exact
/-!
# How much the decoder can return
-/
namespace Verif

open Spec

/-- The bits of the input that have been read. -/
def PerBytes.seen (p : PerBytes) : Nat := min p.pos p.binaryString.length

/-- `m` reads, and what it returns has at most the size stated.  -/
structure Bound {α : Type} (m : Dec α) (s : α → Nat) (k : Cost) : Prop extends Tame m where
  bound : ∀ p a p', p.offset.currBits < 8 → m p = .ok (a, p') →
    s a ≤ k.fixed + k.perBit * (p'.seen - p.seen) +
      (if p.pos ≤ p.binaryString.length ∧ p.binaryString.length < p'.pos then k.short else 0)

def Cost.le (a b : Cost) : Prop := a.fixed ≤ b.fixed ∧ a.perBit ≤ b.perBit ∧ a.short ≤ b.short

theorem Bound.mono {α : Type} {m : Dec α} {s : α → Nat} {k k' : Cost} (h : Bound m s k) (hk : Cost.le k k') : Bound m s k' := by
  refine ⟨h.toTame, fun p a p' hb e => Nat.le_trans (h.bound p a p' hb e) ?_⟩
  obtain ⟨h1, h2, h3⟩ := hk
  have := Nat.mul_le_mul_right (p'.seen - p.seen) h2
  split <;> omega

/-- No bits needed. -/
theorem Bound.of_ensures {α : Type} {m : Dec α} {s : α → Nat} {n : Nat} (h : Tame m) (hs : Ensures m (fun a => s a ≤ n)) (b x : Nat) :
    Bound m s ⟨n, b, x⟩ :=
  ⟨h, fun p a p' _ e => Nat.le_trans (hs.run p a p' e) (by dsimp only; omega)⟩

theorem Bound.pure {α : Type} {s : α → Nat} {a : α} {n : Nat} (h : s a ≤ n) (b x : Nat) : Bound (Pure.pure a : Dec α) s ⟨n, b, x⟩ :=
  Bound.of_ensures (Tame.pure a) (Ensures.pure h) b x

theorem Bound.raise {α : Type} {s : α → Nat} {k : Cost} (e : Err) : Bound (Verif.raise e : Dec α) s k :=
  ⟨Tame.raise e, fun _ _ _ _ h => by cases h⟩

theorem Bound.bind {α β : Type} {m : Dec α} {f : α → Dec β} {s1 : α → Nat} {s : β → Nat} {n1 n2 b x : Nat} {P : α → Prop}
    (hp : Ensures m P) (hm : Bound m s1 ⟨n1, b, x⟩) (hf : ∀ a, P a → Bound (f a) s ⟨n2 + s1 a, b, x⟩)
    (ht : ∀ a, Tame (f a)) : Bound (m >>= f) s ⟨n1 + n2, b, x⟩ := by
  refine ⟨Tame.bind hm.toTame ht, fun p c p' hb e => ?_⟩
  obtain ⟨a, p1, e1, e2⟩ := bind_eq_ok e
  have h1 := hm.bound p a p1 hb e1
  obtain ⟨t1, t2, t3, _⟩ := hm.run p a p1 hb e1
  have h2 := (hf a (hp.run _ _ _ e1)).bound p1 c p' t2 e2
  obtain ⟨u1, u2, u3, _⟩ := (ht a).run p1 c p' t2 e2
  dsimp only at h1 h2 ⊢
  have hl : p'.binaryString = p.binaryString := by rw [u1, t1]
  unfold PerBytes.seen at h1 h2 ⊢
  rw [hl, t1] at h2
  rw [t1] at h1
  rw [hl]
  have hd : b * (min p'.pos p.binaryString.length - min p.pos p.binaryString.length) =
      b * (min p'.pos p.binaryString.length - min p1.pos p.binaryString.length) +
      b * (min p1.pos p.binaryString.length - min p.pos p.binaryString.length) := by
    rw [← Nat.mul_add]; congr 1; omega
  rw [hd]
  split at h1 <;> split at h2 <;> split <;> omega

/-- A step that returns nothing of size. -/
theorem Bound.after {α β : Type} {m : Dec α} {f : α → Dec β} {s : β → Nat} {k : Cost} (hm : Tame m)
    (hf : ∀ a, Bound (f a) s k) : Bound (m >>= f) s k := by
  have := Bound.bind (P := fun _ => True) (n1 := 0) (n2 := k.fixed) (s1 := fun _ => 0) (s := s) (Ensures.trivial m)
    (Bound.of_ensures hm ⟨fun _ _ _ _ => Nat.le_refl 0⟩ k.perBit k.short) (fun a _ => by simpa using hf a)
    (fun a => (hf a).toTame)
  simpa using this

theorem Bound.afterP {α β : Type} {m : Dec α} {f : α → Dec β} {s : β → Nat} {k : Cost} {P : α → Prop} (hm : Tame m)
    (hp : Ensures m P) (hf : ∀ a, P a → Bound (f a) s k) (ht : ∀ a, Tame (f a)) : Bound (m >>= f) s k := by
  have := Bound.bind (P := P) (n1 := 0) (n2 := k.fixed) (s1 := fun _ => 0) (s := s) hp
    (Bound.of_ensures hm ⟨fun _ _ _ _ => Nat.le_refl 0⟩ k.perBit k.short) (fun a h => by simpa using hf a h) ht
  simpa using this

theorem Bound.ite {α : Type} {c : Prop} [Decidable c] {a b : Dec α} {s : α → Nat} {k : Cost} (ha : c → Bound a s k)
    (hb : ¬ c → Bound b s k) : Bound (if c then a else b) s k := by
  by_cases h : c
  · rw [if_pos h]; exact ha h
  · rw [if_neg h]; exact hb h

/-- Where a read leads. -/
theorem next_run {size : BitSize} {align : Bool} {p p' : PerBytes} {v : Nat} (hb : p.offset.currBits < 8)
    (h : next size align p = .ok (v, p')) : p'.binaryString = p.binaryString ∧
      p'.pos = alignPos align p.pos + (size.octets * 8 + size.bits) ∧
      (0 < size.octets * 8 + size.bits → alignPos align p.pos < p.binaryString.length) := by
  have hat : At p p.pos (p.binaryString.drop p.pos) := ⟨hb, rfl, rfl⟩
  obtain ⟨h1, h2⟩ := next_eq hat size align
  rw [h] at h2
  split at h2
  · cases h2; exact ⟨rfl, h1.pos_eq, fun _ => by omega⟩
  · split at h2
    · cases h2
    · cases h2; exact ⟨rfl, h1.pos_eq, fun _ => by omega⟩

theorem le_alignPos (align : Bool) (n : Nat) : n ≤ alignPos align n := by unfold alignPos; omega

/-- The bits asked for have been there, or the input has ended. -/
theorem Bound.next (size : BitSize) (align : Bool) (n x : Nat) (hx : size.octets * 8 + size.bits ≤ x) (b : Nat) (hb : 0 < b) :
    Bound (Verif.next size align) (fun _ => size.octets * 8 + size.bits) ⟨n, b, x⟩ := by
  refine ⟨Tame.next _ _, fun p a p' h8 e => ?_⟩
  obtain ⟨h1, h2, h3⟩ := next_run h8 e
  have h4 := le_alignPos align p.pos
  dsimp only
  by_cases h0 : size.octets * 8 + size.bits = 0
  · omega
  · have h3 := h3 (by omega)
    split
    · omega
    · have : size.octets * 8 + size.bits ≤ p'.seen - p.seen := by
        unfold PerBytes.seen; rw [h1]; omega
      have := Nat.le_trans this (Nat.le_mul_of_pos_left _ hb)
      omega

/-! ## at least one bit -/

/-- `m` needs at least one bit of the input. -/
structure Eats {α : Type} (m : Dec α) : Prop where
  run : ∀ p a p', p.offset.currBits < 8 → m p = .ok (a, p') → p.seen < p'.seen

theorem Eats.raise {α : Type} (e : Err) : Eats (Verif.raise e : Dec α) := ⟨fun _ _ _ _ h => by cases h⟩

theorem Eats.next {size : BitSize} (align : Bool) (h0 : 0 < size.octets * 8 + size.bits) : Eats (Verif.next size align) := by
  refine ⟨fun p a p' h8 e => ?_⟩
  obtain ⟨h1, h2, h3⟩ := next_run h8 e
  have h4 := le_alignPos align p.pos
  have h3 := h3 h0
  unfold PerBytes.seen; rw [h1]; omega

theorem Tame.seen {α : Type} {m : Dec α} (h : Tame m) {p p' : PerBytes} {a : α} (hb : p.offset.currBits < 8) (e : m p = .ok (a, p')) :
    p.seen ≤ p'.seen ∧ p'.offset.currBits < 8 := by
  obtain ⟨h1, h2, h3, _⟩ := h.run p a p' hb e
  refine ⟨?_, h2⟩
  unfold PerBytes.seen; rw [h1]; omega

theorem Eats.left {α β : Type} {m : Dec α} {f : α → Dec β} (hm : Eats m) (ht : Tame m) (hf : ∀ a, Tame (f a)) : Eats (m >>= f) := by
  refine ⟨fun p b p' h8 e => ?_⟩
  obtain ⟨a, p1, e1, e2⟩ := bind_eq_ok e
  have h1 := hm.run p a p1 h8 e1
  have h2 := (hf a).seen (ht.seen h8 e1).2 e2
  omega

theorem Eats.rightP {α β : Type} {m : Dec α} {f : α → Dec β} {P : α → Prop} (ht : Tame m) (hp : Ensures m P)
    (hf : ∀ a, P a → Eats (f a)) : Eats (m >>= f) := by
  refine ⟨fun p b p' h8 e => ?_⟩
  obtain ⟨a, p1, e1, e2⟩ := bind_eq_ok e
  have h1 := ht.seen h8 e1
  have h2 := (hf a (hp.run _ _ _ e1)).run p1 b p' h1.2 e2
  omega

theorem Eats.right {α β : Type} {m : Dec α} {f : α → Dec β} (ht : Tame m) (hf : ∀ a, Eats (f a)) : Eats (m >>= f) :=
  Eats.rightP ht (Ensures.trivial m) fun a _ => hf a

theorem Eats.ite {α : Type} {c : Prop} [Decidable c] {a b : Dec α} (ha : c → Eats a) (hb : ¬ c → Eats b) : Eats (if c then a else b) := by
  by_cases h : c
  · rw [if_pos h]; exact ha h
  · rw [if_neg h]; exact hb h

theorem Eats.map {α β : Type} {m : Dec α} {f : α → β} (hm : Eats m) (ht : Tame m) : Eats (m >>= fun a => Pure.pure (f a)) :=
  hm.left ht fun _ => Tame.pure _

theorem eats_nonNeg {s : Option BitSize} (al mn : Bool) (h : ∀ z, s = some z → 0 < z.octets * 8 + z.bits) :
    Eats (decodeNonNegativeBinaryInteger s al mn) := by
  unfold decodeNonNegativeBinaryInteger
  refine Eats.ite (fun _ => Eats.raise _) fun _ => ?_
  refine Eats.rightP (P := fun z => s = some z) (Tame.liftE _) (Ensures.liftE fun a e => by cases s <;> cases e; rfl) fun z hz => ?_
  exact (Eats.next false (h z hz)).left (Tame.next _ _) fun _ => by tame

theorem getBitFieldSize_pos {r : Int} {z : BitSize} (h1 : r ≠ 1) (h2 : r ≤ 65536) (h : getBitFieldSize r = some z) : 0 < z.octets * 8 + z.bits := by
  unfold getBitFieldSize at h
  rw [if_neg h1] at h
  repeat' split at h
  all_goals first | (cases h; decide) | (exfalso; omega) | cases h

theorem eats_cwn {l u : Int} (h : l ≠ u) : Eats (decodeConstrainedWholeNumber (some l) (some u)) := by
  unfold decodeConstrainedWholeNumber
  refine Eats.rightP (P := fun x => x = u) (Tame.liftE _) (Ensures.liftE fun a e => by cases e; rfl) fun ub hub => ?_
  refine Eats.rightP (P := fun x => x = l) (Tame.liftE _) (Ensures.liftE fun a e => by cases e; rfl) fun lb hlb => ?_
  subst hub hlb
  dsimp only
  unfold integerRange
  refine Eats.ite (fun _ => by omega) fun h1 => ?_
  refine Eats.ite (fun h2 => (eats_nonNeg _ _ fun z hz => getBitFieldSize_pos h1 (by omega) hz).map (tame_nonNeg _ _ _)) fun h2 => ?_
  refine Eats.ite (fun h2 => Eats.right (Tame.next _ _) fun _ => (eats_nonNeg _ _ fun z hz => getBitFieldSize_pos h1 (by omega) hz).map (tame_nonNeg _ _ _)) fun h2 => ?_
  refine Eats.ite (fun h2 => Eats.right (Tame.next _ _) fun _ => (eats_nonNeg _ _ fun z hz => getBitFieldSize_pos h1 (by omega) hz).map (tame_nonNeg _ _ _)) fun h2 => ?_
  refine Eats.left ?_ (tame_nonNeg _ _ _) fun _ => Tame.pure _
  unfold decodeNonNegativeBinaryInteger
  rw [if_pos rfl]
  exact Eats.raise _

theorem eats_lenDet (lb ub : Option Int) : Eats (decodeLengthDeterminant false false lb ub) := by
  unfold decodeLengthDeterminant
  simp only [Bool.false_eq_true, if_false]
  exact Eats.right (Tame.next _ _) fun _ => (Eats.next false (by decide)).left (Tame.next _ _) fun _ => by tame

theorem eats_constrainedLen {l u : Int} (h : l ≠ u) : Eats (decodeLengthDeterminant false true (some l) (some u)) := by
  unfold decodeLengthDeterminant
  simp only [Bool.false_eq_true, if_false, if_true]
  exact eats_cwn h

theorem eats_needInt {α : Type} {f : Int → Dec α} : Eats (liftE (needInt none) >>= f) :=
  ⟨fun p a p' _ h => by obtain ⟨_, _, h, _⟩ := bind_eq_ok h; cases h⟩

theorem eats_constrainedLen' {l u : Option Int} (h : l ≠ u) : Eats (decodeLengthDeterminant false true l u) := by
  cases u with
  | none =>
    unfold decodeLengthDeterminant
    simp only [Bool.false_eq_true, if_false, if_true]
    unfold decodeConstrainedWholeNumber
    exact eats_needInt
  | some u =>
    cases l with
    | none =>
      unfold decodeLengthDeterminant
      simp only [Bool.false_eq_true, if_false, if_true]
      unfold decodeConstrainedWholeNumber
      exact Eats.right (Tame.liftE _) fun _ => eats_needInt
    | some l => exact eats_constrainedLen fun e => h (by rw [e])

theorem eats_fieldList {l u : Int} (h : l ≠ u) : Eats (decodeConstrainedFromFieldList (some l) (some u)) := by
  unfold decodeConstrainedFromFieldList
  refine Eats.rightP (P := fun x => x = u) (Tame.liftE _) (Ensures.liftE fun a e => by cases e; rfl) fun ub hub => ?_
  refine Eats.rightP (P := fun x => x = l) (Tame.liftE _) (Ensures.liftE fun a e => by cases e; rfl) fun lb hlb => ?_
  subst hub hlb
  unfold integerRange
  refine Eats.ite (fun _ => eats_cwn h) fun h1 => ?_
  dsimp only
  refine (eats_constrainedLen fun e => ?_).left (tame_lenDet _ _ _ _) fun _ => by tame
  have h3 := getRangeOctetLen_eq (r := ub - lb) (by omega) (by omega)
  have h4 : 16 ≤ (ub - lb).toNat.log2 := (Nat.le_log2 (by omega)).2 (by omega)
  omega

theorem eats_semi (l : Int) : Eats (decodeSemiConstrainedFromFieldList l) := by
  unfold decodeSemiConstrainedFromFieldList
  exact (eats_lenDet _ _).left (tame_lenDet _ _ _ _) fun _ => by tame

theorem eats_unconstrained : Eats decodeUnconstrainedWholeNumber := by
  unfold decodeUnconstrainedWholeNumber
  exact (Eats.next true (by decide)).left (Tame.next _ _) fun _ => by tame

theorem eats_bit {α : Type} {f : Nat → Dec α} (hf : ∀ a, Tame (f a)) : Eats (next ⟨0, 1⟩ false >>= f) :=
  (Eats.next false (by decide)).left (Tame.next _ _) hf

/-! ## numbers -/

theorem log2_add {l : Int} {v n : Nat} (h : v < 2 ^ n) : (l + v).natAbs.log2 ≤ l.natAbs.log2 + n := by
  by_cases h0 : (l + v).natAbs = 0
  · rw [h0]; simp
  have h1 : l.natAbs < 2 ^ (l.natAbs.log2 + 1) := Nat.lt_log2_self
  have h2 : (l + v).natAbs < 2 ^ (l.natAbs.log2 + n + 1) := by
    rw [show l.natAbs.log2 + n + 1 = l.natAbs.log2 + 1 + n by omega, Nat.pow_add]
    generalize hA : 2 ^ (l.natAbs.log2 + 1) = A at h1 ⊢
    generalize hB : 2 ^ n = B at h ⊢
    have ha : 2 ≤ A := by
      rw [← hA, Nat.pow_succ]
      have := Nat.two_pow_pos l.natAbs.log2
      omega
    have hb : 1 ≤ B := by omega
    have hle : (l + v).natAbs ≤ l.natAbs + v := by omega
    have : A + (B - 1) ≤ A * B := by
      obtain ⟨b, rfl⟩ : ∃ b, B = b + 1 := ⟨B - 1, by omega⟩
      rw [Nat.mul_add, Nat.mul_one]
      have := Nat.mul_le_mul_right b (show 1 ≤ A by omega)
      omega
    omega
  have := (Nat.log2_lt h0).2 h2
  omega

theorem room_le {n : Nat} (h : n ≤ 65536) : Spec.room n ≤ 65536 := by
  unfold Spec.room
  split
  · omega
  · split
    · have : 2 ^ (Nat.log2 (n - 1) + 1) ≤ 2 ^ 16 := Nat.pow_le_pow_right (by omega) (by
        by_cases h0 : n - 1 = 0
        · rw [h0]; decide
        · have := (Nat.log2_lt h0 (k := 16)).2 (by omega)
          omega)
      exact this
    · split <;> omega

/-- A small number. -/
theorem ensures_cwn_small {l u : Int} : Ensures (decodeConstrainedWholeNumber (some l) (some u))
    (fun z => z.natAbs.log2 ≤ l.natAbs.log2 + 16 ∧ z.toNat ≤ l.toNat + 65535) := by
  by_cases h : l = u
  · exact (ensures_cwn_range l u).mono fun z hz => by rw [hz.2 h]; simp
  · refine ⟨fun p a p' e => ?_⟩
    obtain ⟨h1, h2, h3⟩ := (ensures_cwn h).run p a p' e
    have h4 := ((ensures_cwn_range l u).run p a p' e).1
    have h5 := room_le (n := (u - l + 1).toNat) (by omega)
    have := log2_add (l := l) (v := (a - l).toNat) (n := 16) (by omega)
    rw [show l + ((a - l).toNat : Int) = a by omega] at this
    exact ⟨this, by omega⟩

/-- Adding a bound to what was read. -/
theorem bound_number (size : BitSize) (al : Bool) (l : Int) {x : Nat} (hx : size.octets * 8 + size.bits ≤ x) :
    Bound (next size al >>= fun v => (Pure.pure (l + (v : Int)) : Dec Int)) (fun z => z.natAbs.log2) ⟨l.natAbs.log2, 1, x⟩ := by
  have := Bound.bind (n1 := 0) (n2 := l.natAbs.log2) (s := fun z : Int => z.natAbs.log2) (f := fun v : Nat => (Pure.pure (l + (v : Int)) : Dec Int))
    (ensures_next size al) (Bound.next size al 0 x hx 1 (by omega))
    (fun v hv => Bound.pure (s := fun z : Int => z.natAbs.log2) (log2_add (l := l) hv) 1 x) (fun _ => Tame.pure _)
  simpa using this

theorem bound_cwnField (l u : Option Int) : Bound (decodeConstrainedFromFieldList l u) (fun z => z.natAbs.log2)
    ⟨16 + (l.getD 0).natAbs.log2, 1, 524288⟩ := by
  unfold decodeConstrainedFromFieldList
  refine Bound.afterP (P := fun x => u = some x) (Tame.liftE _) (Ensures.liftE fun a e => by cases u <;> cases e; rfl)
    (fun ub hub => ?_) (fun _ => by tame)
  refine Bound.afterP (P := fun x => l = some x) (Tame.liftE _) (Ensures.liftE fun a e => by cases l <;> cases e; rfl)
    (fun lb hlb => ?_) (fun _ => by tame)
  subst hub hlb
  refine Bound.ite (fun _ => ?_) fun _ => ?_
  · exact Bound.of_ensures (tame_cwn _ _) (ensures_cwn_small.mono fun z hz => by simp only [Option.getD_some]; omega) _ _
  · dsimp only
    refine Bound.afterP (P := fun n => n.toNat ≤ 65536) (tame_lenDet _ _ _ _) ?_ (fun n hn => ?_) (fun _ => by tame)
    · unfold decodeLengthDeterminant
      simp only [Bool.false_eq_true, if_false, if_true]
      exact ensures_cwn_small.mono fun z hz => by omega
    · refine (bound_number _ _ _ ?_).mono ⟨?_, Nat.le_refl _, Nat.le_refl _⟩ <;> dsimp only [Option.getD_some] <;> omega

theorem bound_semi (l : Int) : Bound (decodeSemiConstrainedFromFieldList l) (fun z => z.natAbs.log2)
    ⟨16 + l.natAbs.log2, 1, 524288⟩ := by
  unfold decodeSemiConstrainedFromFieldList
  refine Bound.afterP (tame_lenDet _ _ _ _) (ensures_lenDet _ _) (fun n hn => ?_) (fun _ => by tame)
  refine (bound_number _ _ _ (x := 524288) ?_).mono ⟨?_, Nat.le_refl _, Nat.le_refl _⟩ <;> dsimp only <;> omega

theorem bound_unconstrained (n : Nat) : Bound decodeUnconstrainedWholeNumber (fun z => z.natAbs.log2) ⟨n, 1, 524288⟩ := by
  unfold decodeUnconstrainedWholeNumber
  refine Bound.afterP (Tame.next _ _) (ensures_next _ _) (fun len hlen => ?_) (fun _ => by tame)
  have hlen : len < 256 := hlen
  have := Bound.bind (n1 := 0) (n2 := n) (s := fun z : Int => z.natAbs.log2) (f := fun v => liftE (twosComp v (8 * len)))
    (ensures_next ⟨len, 0⟩ false) (Bound.next ⟨len, 0⟩ false 0 524288 (by dsimp only; omega) 1 (by omega))
    (fun v hv => Bound.of_ensures (Tame.liftE _) (Ensures.liftE fun z hz => ?_) _ _) (fun _ => Tame.liftE _)
  · simpa using this
  · dsimp only at hv ⊢
    have hv : v < 2 ^ (len * 8) := hv
    unfold twosComp at hz
    split at hz
    · cases hz
    rename_i h0
    have key : z.natAbs ≤ 2 ^ (len * 8) := by
      split at hz
      · cases hz
        rw [Nat.one_shiftLeft, Nat.mul_comm 8 len]
        omega
      · cases hz
        omega
    by_cases hz0 : z.natAbs = 0
    · rw [hz0]; simp
    · have h1 : z.natAbs < 2 ^ (len * 8 + 1) := by rw [Nat.pow_succ]; have := Nat.two_pow_pos (len * 8); omega
      have := (Nat.log2_lt hz0).2 h1
      omega

theorem bound_mkInt {c : Constr} {m : Dec Int} {n b x : Nat} (h : Bound m (fun z => z.natAbs.log2) ⟨n, b, x⟩) :
    Bound (m >>= fun z => liftE (mkInt c z)) weight ⟨n + 2, b, x⟩ :=
  Bound.bind (Ensures.trivial m) h (fun z _ => Bound.of_ensures (Tame.liftE _) (Ensures.liftE fun v hv => by
    unfold mkInt at hv
    split at hv
    · cases hv
      simp only [weight]; omega
    · cases hv) _ _) fun _ => Tame.liftE _

theorem bound_integer (c : Constr) : Bound (decodeInteger c) weight (cost (.integer c)) := by
  have hc : ∀ n, n ≤ 16 + (c.lower.getD 0).natAbs.log2 → Cost.le ⟨n + 2, 1, 524288⟩ (cost (.integer c)) := fun n hn => by
    refine ⟨?_, ?_, ?_⟩ <;> simp only [cost] <;> omega
  have hm : ∀ z, z = c.lower.getD 0 → Bound (liftE (mkInt c z)) weight (cost (.integer c)) := fun z hz => by
    have h := bound_mkInt (c := c) (Bound.pure (s := fun z : Int => z.natAbs.log2) (a := z) (Nat.le_refl _) 1 524288)
    have h : Bound (liftE (mkInt c z)) weight _ := h
    exact h.mono (hc _ (by rw [hz]; omega))
  unfold decodeInteger
  refine Bound.ite (fun _ => ?_) fun _ => ?_
  · refine Bound.after (Tame.next _ _) fun _ => Bound.ite (fun _ => ?_) fun _ => ?_
    · exact (bound_mkInt (bound_unconstrained 0)).mono (hc _ (by omega))
    · exact (bound_mkInt (bound_cwnField _ _)).mono (hc _ (Nat.le_refl _))
  · split
    · rename_i lb ub h1 h2
      refine Bound.ite (fun _ => hm _ (by rw [h1]; rfl)) fun _ => ?_
      exact (bound_mkInt (bound_cwnField _ _)).mono (hc _ (Nat.le_refl _))
    · rename_i lb h1 h2
      exact (bound_mkInt (bound_semi _)).mono (hc _ (by rw [h1]; exact Nat.le_refl _))
    · exact (bound_mkInt (bound_unconstrained 0)).mono (hc _ (by omega))

theorem bound_enumerated (e : Bool) (r a : List (String × Int)) : Bound (decodeEnumerated e r a) weight ⟨1, 0, 0⟩ := by
  refine Bound.of_ensures (tame_enumerated _ _ _) ?_ _ _
  refine ⟨fun p v p' h => ?_⟩
  have hv : ∃ z, v = .enum z := by
    have := (ensures_enumerated e r a).run p v p' h
    cases v <;> simp [Spec.hasShape] at this
    exact ⟨_, rfl⟩
  obtain ⟨z, rfl⟩ := hv
  exact Nat.le_refl _

/-! ## strings -/

theorem bound_bits {c : SizeC} {n x : Nat} (al : Bool) (hn : n ≤ x) {g : Nat → Bits} (hg : ∀ v, v < 2 ^ n → (g v).length ≤ n + 1) :
    Bound (next ⟨0, n⟩ al >>= fun v => liftE (mkBits c (g v))) weight ⟨2, 1, x⟩ := by
  have := Bound.bind (n1 := 0) (n2 := 2) (s := weight) (f := fun v => liftE (mkBits c (g v)))
    (ensures_next ⟨0, n⟩ al) (Bound.next ⟨0, n⟩ al 0 x (by dsimp only; omega) 1 (by omega))
    (fun v hv => Bound.of_ensures (Tame.liftE _) (Ensures.liftE fun w hw => ?_) _ _) (fun _ => Tame.liftE _)
  · simpa using this
  · dsimp only at hv ⊢
    have := hg v (by simpa using hv)
    unfold mkBits at hw
    split at hw
    · cases hw
      simp only [weight]; omega
    · cases hw

theorem bound_octets {c : SizeC} {n x : Nat} (al : Bool) (hn : n * 8 ≤ x) {g : Nat → List UInt8}
    (hg : ∀ v, v < 2 ^ (n * 8) → (g v).length ≤ n + 1) :
    Bound (next ⟨n, 0⟩ al >>= fun v => liftE (mkOctets c (g v))) weight ⟨9, 1, x⟩ := by
  have := Bound.bind (n1 := 0) (n2 := 9) (s := weight) (f := fun v => liftE (mkOctets c (g v)))
    (ensures_next ⟨n, 0⟩ al) (Bound.next ⟨n, 0⟩ al 0 x (by dsimp only; omega) 1 (by omega))
    (fun v hv => Bound.of_ensures (Tame.liftE _) (Ensures.liftE fun w hw => ?_) _ _) (fun _ => Tame.liftE _)
  · simpa using this
  · dsimp only at hv ⊢
    have := hg v (by simpa using hv)
    unfold mkOctets at hw
    split at hw
    · cases hw
      simp only [weight]; omega
    · cases hw

theorem bound_mkBits (c : SizeC) (x : Nat) : Bound (liftE (mkBits c [])) weight ⟨2, 1, x⟩ :=
  Bound.of_ensures (Tame.liftE _) (Ensures.liftE fun w hw => by
    unfold mkBits at hw
    split at hw
    · cases hw; simp [weight]
    · cases hw) _ _

theorem bound_mkOctets (c : SizeC) (x : Nat) : Bound (liftE (mkOctets c [])) weight ⟨9, 1, x⟩ :=
  Bound.of_ensures (Tame.liftE _) (Ensures.liftE fun w hw => by
    unfold mkOctets at hw
    split at hw
    · cases hw; simp [weight]
    · cases hw) _ _

theorem ensures_constrained (c : SizeC) : Ensures (decodeLengthDeterminant false true c.lowerZ c.upperZ) (fun n => n.toNat ≤ longest c) := by
  unfold decodeLengthDeterminant
  simp only [Bool.false_eq_true, if_false, if_true]
  cases hl : c.lower with
  | none =>
    have e : c.lowerZ = none := by unfold SizeC.lowerZ; rw [hl]; rfl
    rw [e]
    refine ⟨fun p a p' h => ?_⟩
    unfold decodeConstrainedWholeNumber at h
    obtain ⟨_, _, _, h⟩ := bind_eq_ok h
    obtain ⟨_, _, h, _⟩ := bind_eq_ok h
    cases h
  | some l =>
    have e : c.lowerZ = some (l : Int) := by unfold SizeC.lowerZ; rw [hl]; rfl
    rw [e]
    cases hu : c.upperZ with
    | none =>
      refine ⟨fun p a p' h => ?_⟩
      unfold decodeConstrainedWholeNumber at h
      obtain ⟨_, _, h, _⟩ := bind_eq_ok h
      cases h
    | some u => exact ensures_cwn_small.mono fun z hz => by unfold longest; rw [hl]; simp only [Option.getD_some]; omega

theorem ensures_plain (c : SizeC) (l u : Option Int) : Ensures (decodeLengthDeterminant false false l u) (fun n => n.toNat ≤ longest c) :=
  (ensures_lenDet l u).mono fun z hz => by unfold longest; omega

theorem zfill_le {n v : Nat} (h : v < 2 ^ n) : (zfill n (pyBin v)).length ≤ n + 1 := by rw [zfill_pyBin_length h]; omega

theorem digits_le {n v : Nat} (h : v < 2 ^ (n * 8)) : (fromHexString (zfillHex (n * 2) (pyHex v))).length ≤ n + 1 := by
  rw [digits_length h]; omega

theorem short_digits_le {n v : Nat} (h : v < 2 ^ (n * 8)) : (fromHexString (pyHex v)).length ≤ n + 1 := by
  refine Nat.le_trans ?_ (digits_le h)
  rw [fromHexString_length, fromHexString_length]
  unfold zfillHex
  simp only [List.length_append, List.length_replicate]
  omega

theorem bound_bitstringRoot (c : SizeC) : Bound (decodeBitstringRoot c) weight ⟨2, 1, longest c⟩ := by
  unfold decodeBitstringRoot
  refine Bound.ite (fun _ => bound_mkBits c _) fun _ => Bound.ite (fun hlu => ?_) fun _ => ?_
  · dsimp only
    have hn : c.lower.getD 0 ≤ longest c := by unfold longest; omega
    refine Bound.ite (fun _ => bound_bits _ hn fun v hv => zfill_le hv) fun _ => Bound.ite (fun _ => ?_) fun _ => Bound.raise _
    refine Bound.after (Tame.next _ _) fun _ => bound_bits _ hn fun v hv => ?_
    rw [List.length_take]; omega
  · split
    · refine Bound.ite (fun _ => ?_) fun _ => ?_
      · exact Bound.afterP (tame_lenDet _ _ _ _) (ensures_constrained c) (fun n hn => bound_bits _ hn fun v hv => zfill_le hv) (fun _ => by tame)
      · exact Bound.afterP (tame_lenDet _ _ _ _) (ensures_plain c _ _) (fun n hn => bound_bits _ hn fun v hv => zfill_le hv) (fun _ => by tame)
    · exact Bound.afterP (tame_lenDet _ _ _ _) (ensures_plain c _ _) (fun n hn => bound_bits _ hn fun v hv => zfill_le hv) (fun _ => by tame)

theorem bound_bitstring (c : SizeC) : Bound (decodeBitstring c) weight ⟨2, 1, longest c⟩ := by
  unfold decodeBitstring
  refine Bound.ite (fun _ => ?_) fun _ => bound_bitstringRoot c
  refine Bound.after (Tame.next _ _) fun _ => Bound.ite (fun _ => bound_bitstringRoot c) fun _ => ?_
  refine Bound.after (Tame.next _ _) fun _ => ?_
  refine Bound.afterP (tame_lenDet _ _ _ _) (ensures_plain c _ _) (fun n hn => ?_) (fun _ => by tame)
  have := Bound.bind (n1 := 0) (n2 := 2) (s := weight)
    (f := fun v => next ⟨0, 0⟩ true >>= fun _ => liftE (mkBits c (zfill n.toNat (pyBin v))))
    (ensures_next ⟨0, n.toNat⟩ false) (Bound.next ⟨0, n.toNat⟩ false 0 (longest c) (by dsimp only; omega) 1 (by omega))
    (fun v hv => Bound.after (Tame.next _ _) fun _ => Bound.of_ensures (Tame.liftE _) (Ensures.liftE fun w hw => ?_) _ _) (fun _ => by tame)
  · simpa using this
  · have := zfill_le (n := n.toNat) (v := v) (by simpa using hv)
    unfold mkBits at hw
    split at hw
    · cases hw
      simp only [weight]; omega
    · cases hw

theorem bound_octetstringRoot (c : SizeC) : Bound (decodeOctetstringRoot c) weight ⟨9, 1, 8 * longest c⟩ := by
  have hn : c.lower.getD 0 * 8 ≤ 8 * longest c := by unfold longest; omega
  unfold decodeOctetstringRoot
  refine Bound.ite (fun _ => bound_mkOctets c _) fun _ => Bound.ite (fun hlu => ?_) fun _ => ?_
  · dsimp only
    refine Bound.ite (fun _ => bound_octets _ hn fun v hv => digits_le hv) fun _ => Bound.ite (fun _ => ?_) fun _ => Bound.raise _
    exact Bound.after (Tame.next _ _) fun _ => bound_octets _ hn fun v hv => digits_le hv
  · split
    · refine Bound.afterP (tame_lenDet _ _ _ _) (ensures_constrained c) (fun n hn => ?_) (fun _ => by tame)
      refine Bound.ite (fun _ => bound_mkOctets c _) fun _ => bound_octets _ (by omega) fun v hv => short_digits_le hv
    · refine Bound.after (Tame.next _ _) fun _ => ?_
      exact Bound.afterP (tame_lenDet _ _ _ _) (ensures_plain c _ _) (fun n hn => bound_octets _ (by omega) fun v hv => digits_le hv) (fun _ => by tame)

theorem bound_octetstring (c : SizeC) : Bound (decodeOctetstring c) weight ⟨9, 1, 8 * longest c⟩ := by
  unfold decodeOctetstring
  refine Bound.ite (fun _ => ?_) fun _ => bound_octetstringRoot c
  refine Bound.after (Tame.next _ _) fun _ => Bound.ite (fun _ => bound_octetstringRoot c) fun _ => ?_
  refine Bound.after (Tame.next _ _) fun _ => ?_
  refine Bound.afterP (tame_lenDet _ _ _ _) (ensures_plain c _ _) (fun n hn => ?_) (fun _ => by tame)
  exact Bound.ite (fun _ => bound_mkOctets c _) fun _ => bound_octets _ (by omega) fun v hv => digits_le hv

/-! ## open types -/

/-- `m` moves at least `k` bits forward. -/
structure Takes {α : Type} (k : Nat) (m : Dec α) : Prop where
  run : ∀ p a p', p.offset.currBits < 8 → m p = .ok (a, p') → p.pos + k ≤ p'.pos

theorem Takes.next (size : BitSize) (align : Bool) : Takes (size.octets * 8 + size.bits) (Verif.next size align) := by
  refine ⟨fun p a p' h8 e => ?_⟩
  obtain ⟨h1, h2, h3⟩ := next_run h8 e
  have h4 := le_alignPos align p.pos
  omega

theorem Takes.bind {α β : Type} {m : Dec α} {f : α → Dec β} {i j k : Nat} (hm : Takes i m) (ht : Tame m) (hf : ∀ a, Takes j (f a))
    (hk : k ≤ i + j) : Takes k (m >>= f) := by
  refine ⟨fun p b p' h8 e => ?_⟩
  obtain ⟨a, p1, e1, e2⟩ := bind_eq_ok e
  have h1 := hm.run p a p1 h8 e1
  have h2 := (hf a).run p1 b p' (ht.run p a p1 h8 e1).2.1 e2
  omega

theorem Tame.takes {α : Type} {m : Dec α} (h : Tame m) : Takes 0 m := ⟨fun p a p' h8 e => (h.run p a p' h8 e).2.2.1⟩

theorem takes_nonNeg (s : BitSize) (al : Bool) : Takes (s.octets * 8 + s.bits) (decodeNonNegativeBinaryInteger (some s) al false) := by
  unfold decodeNonNegativeBinaryInteger
  rw [if_neg (by decide)]
  refine ⟨fun p a p' h8 e => ?_⟩
  obtain ⟨z, p1, e1, e2⟩ := bind_eq_ok e
  cases e1
  exact ((Takes.next s false).bind (Tame.next _ _) (fun _ => Tame.takes (by tame)) (by omega)).run _ _ _ h8 e2

theorem takes_lenDet (l u : Option Int) : Takes 8 (decodeLengthDeterminant false false l u) := by
  unfold decodeLengthDeterminant
  simp only [Bool.false_eq_true, if_false]
  refine (Takes.next _ _).bind (j := 8) (Tame.next _ _) (fun _ => ?_) (by omega)
  refine (Takes.next _ _).bind (j := 7) (Tame.next _ _) (fun _ => ?_) (by decide)
  split
  · exact (takes_nonNeg _ _).bind (j := 0) (tame_nonNeg _ _ _) (fun _ => (Tame.pure _).takes) (by decide)
  · refine (Takes.next _ _).bind (j := 7) (Tame.next _ _) (fun _ => ?_) (by decide)
    split
    · exact (takes_nonNeg _ _).bind (j := 0) (tame_nonNeg _ _ _) (fun _ => (Tame.pure _).takes) (by decide)
    · exact ⟨fun _ _ _ _ h => by cases h⟩

theorem natToHex_digit : ∀ (w n d : Nat), d ∈ natToHex w n → d < 16
  | 0, _, _, h => by cases h
  | w + 1, n, d, h => by
    rcases List.mem_cons.1 h with rfl | h
    · exact Nat.mod_lt _ (by decide)
    · exact natToHex_digit w n d h

theorem inner_length {len v : Nat} {q : PerBytes} (hv : v < 2 ^ (len * 8)) (h : PerBytes.init (zfillHex (len * 2) (pyHex v)) = .ok q) :
    q.offset = Offset.init 0 0 ∧ q.binaryString.length ≤ max (len * 8) 4 := by
  have hne : (zfillHex (len * 2) (pyHex v)).length = max (len * 2) 1 := by
    by_cases h0 : len = 0
    · subst h0
      have : v = 0 := by simpa using hv
      subst this
      decide
    · have hl : (pyHex v).length ≤ len * 2 := pyHex_length_le (by omega) (by rw [pow16]; exact Nat.lt_of_lt_of_le hv (Nat.pow_le_pow_right (by omega) (by omega)))
      simp only [zfillHex, List.length_append, List.length_replicate]
      omega
  have hd : ∀ d ∈ zfillHex (len * 2) (pyHex v), d < 16 := by
    intro d hd
    rcases List.mem_append.1 hd with hd | hd
    · rw [(List.mem_replicate.1 hd).2]; decide
    · exact natToHex_digit _ _ _ hd
  have hlt := hexToNat_lt hd
  generalize zfillHex (len * 2) (pyHex v) = z at hne hlt h
  unfold PerBytes.init at h
  rw [pyInt16_of_ne (by rintro rfl; simp at hne; omega)] at h
  cases h
  refine ⟨rfl, ?_⟩
  rw [pow16] at hlt
  have := pyBin_length_le (w := 4 * z.length) (by omega) hlt
  show (zfill _ _).length ≤ _
  rw [zfill_length]
  omega

theorem bound_open {α : Type} {m : Dec α} {s : α → Nat} {k : Cost} (h : Bound m s k) : Bound (decodeOpenTypeField m) s k.opened := by
  refine ⟨tame_openType m, fun p a p' h8 e => ?_⟩
  unfold decodeOpenTypeField at e
  obtain ⟨len, p1, e1, e⟩ := bind_eq_ok e
  obtain ⟨v, p2, e2, e⟩ := bind_eq_ok e
  obtain ⟨q, p3, e3, e⟩ := bind_eq_ok e
  obtain ⟨r, p4, e4, e⟩ := bind_eq_ok e
  cases e
  have hlen := (ensures_lenDet none none).run _ _ _ e1
  have t1 := (takes_lenDet none none).run _ _ _ h8 e1
  have s1 := (eats_lenDet none none).run _ _ _ h8 e1
  obtain ⟨b1, c1, _, _⟩ := (tame_lenDet false false none none).run _ _ _ h8 e1
  have hv := (ensures_next ⟨len.toNat, 0⟩ true).run _ _ _ e2
  have t2 := (Takes.next ⟨len.toNat, 0⟩ true).run _ _ _ c1 e2
  obtain ⟨b2, c2, _, _⟩ := (Tame.next ⟨len.toNat, 0⟩ true).run _ _ _ c1 e2
  dsimp only at hv t2
  have e3' : PerBytes.init (zfillHex (len.toNat * 2) (pyHex v)) = .ok q ∧ p3 = p2 := by
    unfold liftE at e3
    cases hq : PerBytes.init (zfillHex (len.toNat * 2) (pyHex v)) with
    | error e => rw [hq] at e3; cases e3
    | ok q' => rw [hq] at e3; cases e3; exact ⟨rfl, rfl⟩
  have e4' : m q = .ok r ∧ p' = p3 := by
    unfold liftE at e4
    cases hq : m q with
    | error e => rw [hq] at e4; cases e4
    | ok q' => rw [hq] at e4; cases e4; exact ⟨rfl, rfl⟩
  obtain ⟨e3', rfl⟩ := e3'
  obtain ⟨e4', rfl⟩ := e4'
  obtain ⟨o1, o2⟩ := inner_length (len := len.toNat) (by simpa using hv) e3'
  have hin := h.bound q r.1 r.2 (by rw [o1]; decide) e4'
  obtain ⟨i1, _, _, _⟩ := h.run q r.1 r.2 (by rw [o1]; decide) e4'
  have hseen : r.2.seen - q.seen ≤ max (len.toNat * 8) 4 := by
    unfold PerBytes.seen; rw [i1]; omega
  have hin2 : s r.1 ≤ k.fixed + k.perBit * max (len.toNat * 8) 4 + k.short := by
    have := Nat.mul_le_mul_left k.perBit hseen
    split at hin <;> omega
  unfold Cost.opened
  dsimp only
  split
  · have := Nat.mul_le_mul_left k.perBit (show max (len.toNat * 8) 4 ≤ 131064 by omega)
    omega
  · rename_i hc
    have hs : max (len.toNat * 8) 4 ≤ p'.seen - p.seen := by
      unfold PerBytes.seen at s1 ⊢
      rw [b1] at s1
      rw [b2, b1]
      have : p.pos < p.binaryString.length := by omega
      omega
    have := Nat.mul_le_mul_left k.perBit hs
    omega

/-! ## lists -/

theorem bound_repeat {m : Dec Val} {k : Cost} (h : Bound m weight k) :
    ∀ n, Bound (repeatDec n m) weights ⟨n * k.fixed, k.perBit, k.short⟩
  | 0 => Bound.pure (by simp [weights]) _ _
  | n + 1 => by
    unfold repeatDec
    rw [Nat.add_mul, Nat.one_mul, Nat.add_comm]
    refine Bound.bind (Ensures.trivial m) h (fun v _ => ?_) fun _ => ?_
    · refine Bound.bind (s1 := weights) (Ensures.trivial _) (bound_repeat h n) (fun vs _ => ?_) fun _ => Tame.pure _
      exact Bound.pure (by simp [weights]) _ _
    · exact Tame.bind (tame_repeat h.toTame n) fun _ => Tame.pure _

theorem bound_repeat_bit {m : Dec Val} {k : Cost} (h : Bound m weight k) (he : Eats m) :
    ∀ n, Bound (repeatDec n m) weights ⟨0, k.fixed + k.perBit, k.short⟩ := fun n => by
  have : Bound m weight ⟨0, k.fixed + k.perBit, k.short⟩ := by
    refine ⟨h.toTame, fun p a p' h8 e => ?_⟩
    have h1 := h.bound p a p' h8 e
    have h2 := he.run p a p' h8 e
    have h3 := Nat.mul_le_mul_left k.fixed (show 1 ≤ p'.seen - p.seen by omega)
    dsimp only
    rw [Nat.add_mul]
    omega
  simpa using bound_repeat this n

theorem eats_repeat {m : Dec Val} (he : Eats m) (ht : Tame m) {n : Nat} (hn : 0 < n) : Eats (repeatDec n m) := by
  cases n with
  | zero => omega
  | succ n =>
    unfold repeatDec
    exact he.left ht fun _ => Tame.bind (tame_repeat ht n) fun _ => Tame.pure _

/-- Every element takes a bit. -/
theorem count_le {m : Dec Val} (he : Eats m) (ht : Tame m) : ∀ (n : Nat) (p : PerBytes) (vs : List Val) (p' : PerBytes),
    p.offset.currBits < 8 → repeatDec n m p = .ok (vs, p') → vs.length + p.seen ≤ p'.seen
  | 0, p, vs, p', _, e => by unfold repeatDec at e; cases e; simp
  | n + 1, p, vs, p', h8, e => by
    unfold repeatDec at e
    obtain ⟨v, p1, e1, e⟩ := bind_eq_ok e
    obtain ⟨ws, p2, e2, e⟩ := bind_eq_ok e
    cases e
    have h1 := he.run _ _ _ h8 e1
    obtain ⟨_, h8', _, _⟩ := ht.run _ _ _ h8 e1
    have := count_le he ht n p1 ws p' h8' e2
    simp only [List.length_cons]; omega

/-! ## types -/

theorem ensures_countLe (c : SizeC) : Ensures (decodeSequenceOfCount c) (fun n => n.toNat ≤ longest c) := by
  unfold decodeSequenceOfCount
  refine Ensures.ite (fun _ => ?_) fun _ => ?_
  · refine Ensures.bind' fun _ => Ensures.ite (fun _ => ensures_constrained c) fun _ => Ensures.bind' fun _ => ensures_plain c _ _
  · split
    · exact Ensures.raise _
    · rename_i l u hl hu
      refine Ensures.ite (fun _ => Ensures.pure ?_) fun _ => Ensures.ite (fun _ => ensures_constrained c) fun _ => ensures_plain c _ _
      unfold longest; rw [hl]; simp only [Option.getD_some, Int.toNat_natCast]; omega
    · exact ensures_plain c _ _
    · exact Ensures.ite (fun _ => ensures_constrained c) fun _ => ensures_plain c _ _

theorem eats_count {c : SizeC} (h : ∀ l u, c.lower = some l → c.upper = some u → l ≠ u) : Eats (decodeSequenceOfCount c) := by
  have hne : c.lower ≠ c.upper ∨ (c.lower = none ∧ c.upper = none) := by
    cases hl : c.lower with
    | none => cases hu : c.upper <;> simp
    | some l =>
      cases hu : c.upper with
      | none => simp
      | some u => left; simp [h l u hl hu]
  have hz : c.lower ≠ c.upper → c.lowerZ ≠ c.upperZ := fun h e => h (by
    unfold SizeC.lowerZ SizeC.upperZ at e
    cases hl : c.lower <;> cases hu : c.upper <;> simp_all
    omega)
  unfold decodeSequenceOfCount
  refine Eats.ite (fun _ => eats_bit fun _ => by tame) fun _ => ?_
  split
  · exact Eats.raise _
  · rename_i l u hl hu
    refine Eats.ite (fun e => absurd e.1 (h l u hl hu)) fun _ => Eats.ite (fun _ => eats_constrainedLen' (hz ?_)) fun _ => eats_lenDet _ _
    rw [hl, hu]; simp [h l u hl hu]
  · exact eats_lenDet _ _
  · rename_i u hl hu
    refine Eats.ite (fun _ => eats_constrainedLen' (hz ?_)) fun _ => eats_lenDet _ _
    rw [hl, hu]; simp

theorem eats_lowerZ {c : SizeC} (h : ¬ (c.lower ≠ none ∧ c.lower = c.upper)) (hu : c.upper ≠ none) : c.lowerZ ≠ c.upperZ := by
  intro e
  unfold SizeC.lowerZ SizeC.upperZ at e
  cases hl : c.lower <;> cases hu' : c.upper <;> simp_all
  omega

theorem eats_bitstringRoot {c : SizeC} (h : c.upper ≠ some 0) : Eats (decodeBitstringRoot c) := by
  unfold decodeBitstringRoot
  refine Eats.ite (fun e => absurd e h) fun _ => Eats.ite (fun hlu => ?_) fun hlu => ?_
  · dsimp only
    have hn : 0 < c.lower.getD 0 := by
      cases hl : c.lower with
      | none => exact absurd hl hlu.1
      | some l =>
        rw [Option.getD_some]
        rcases Nat.eq_zero_or_pos l with rfl | h0
        · rw [hl] at hlu; exact absurd hlu.2.symm h
        · exact h0
    refine Eats.ite (fun _ => (Eats.next _ (by dsimp only; omega)).left (Tame.next _ _) fun _ => Tame.liftE _) fun _ => Eats.ite (fun _ => ?_) fun _ => Eats.raise _
    exact Eats.right (Tame.next _ _) fun _ => (Eats.next _ (by dsimp only; omega)).left (Tame.next _ _) fun _ => Tame.liftE _
  · split
    · rename_i u hu
      refine Eats.ite (fun _ => ?_) fun _ => (eats_lenDet _ _).left (tame_lenDet _ _ _ _) fun _ => by tame
      exact (eats_constrainedLen' (eats_lowerZ hlu (by rw [hu]; simp))).left (tame_lenDet _ _ _ _) fun _ => by tame
    · exact (eats_lenDet _ _).left (tame_lenDet _ _ _ _) fun _ => by tame

theorem eats_octetstringRoot {c : SizeC} (h : c.upper ≠ some 0) : Eats (decodeOctetstringRoot c) := by
  unfold decodeOctetstringRoot
  refine Eats.ite (fun e => absurd e h) fun _ => Eats.ite (fun hlu => ?_) fun hlu => ?_
  · dsimp only
    have hn : 0 < c.lower.getD 0 := by
      cases hl : c.lower with
      | none => exact absurd hl hlu.1
      | some l =>
        rw [Option.getD_some]
        rcases Nat.eq_zero_or_pos l with rfl | h0
        · rw [hl] at hlu; exact absurd hlu.2.symm h
        · exact h0
    refine Eats.ite (fun _ => (Eats.next _ (by dsimp only; omega)).left (Tame.next _ _) fun _ => Tame.liftE _) fun _ => Eats.ite (fun _ => ?_) fun _ => Eats.raise _
    exact Eats.right (Tame.next _ _) fun _ => (Eats.next _ (by dsimp only; omega)).left (Tame.next _ _) fun _ => Tame.liftE _
  · split
    · rename_i u hu
      exact (eats_constrainedLen' (eats_lowerZ hlu (by rw [hu]; simp))).left (tame_lenDet _ _ _ _) fun _ => by tame
    · exact Eats.right (Tame.next _ _) fun _ => (eats_lenDet _ _).left (tame_lenDet _ _ _ _) fun _ => by tame

mutual
theorem eats_ty : ∀ t : Ty, needsBit t = true → Eats (decTy t)
  | .boolean, _ => by unfold decTy decodeBoolean; exact eats_bit fun _ => Tame.pure _
  | .integer c, h => by
    unfold decTy decodeInteger
    refine Eats.ite (fun _ => eats_bit fun _ => by tame) fun he => ?_
    simp only [needsBit, he, Bool.false_or] at h
    split
    · rename_i lb ub hl hu
      simp only [hl, hu, bne_iff_ne, ne_eq] at h
      refine Eats.ite (fun e => absurd e h) fun _ => ?_
      rw [hl, hu]
      exact (eats_fieldList h).left (tame_cwnField _ _) fun _ => by tame
    · exact (eats_semi _).left (tame_semi _) fun _ => by tame
    · exact eats_unconstrained.left tame_unconstrained fun _ => by tame
  | .enumerated ext root add, h => by
    unfold decTy decodeEnumerated
    refine Eats.ite (fun he => ?_) fun _ => eats_bit fun _ => by tame
    simp only [needsBit, Bool.or_eq_true, bne_iff_ne, ne_eq] at h
    have h := h.resolve_left (by simpa using he)
    exact (eats_cwn (by omega)).left (tame_cwn _ _) fun _ => by tame
  | .bitString c, h => by
    unfold decTy decodeBitstring
    refine Eats.ite (fun _ => eats_bit fun _ => by tame) fun he => eats_bitstringRoot ?_
    simpa [needsBit, he] using h
  | .octetString c, h => by
    unfold decTy decodeOctetstring
    refine Eats.ite (fun _ => eats_bit fun _ => by tame) fun he => eats_octetstringRoot ?_
    simpa [needsBit, he] using h
  | .seqOf c t, h => by
    have ht := tame_ty t
    have hr : ∀ n : Nat, Tame (repeatDec n (decTy t) >>= fun vs => (Pure.pure (Val.seqOf vs) : Dec Val)) :=
      fun n => Tame.bind (tame_repeat ht n) fun _ => Tame.pure _
    unfold decTy
    by_cases hx : c.ext = true
    · have : Eats (decodeSequenceOfCount c) := by
        unfold decodeSequenceOfCount
        rw [if_pos hx]
        exact eats_bit fun _ => by tame
      exact this.left (tame_seqOfCount c) fun n => hr n.toNat
    simp only [needsBit, hx, Bool.false_or] at h
    cases hl : c.lower with
    | none => exact (eats_count (fun l u e => by rw [hl] at e; cases e)).left (tame_seqOfCount c) fun n => hr n.toNat
    | some l =>
      cases hu : c.upper with
      | none => exact (eats_count (fun l u _ e => by rw [hu] at e; cases e)).left (tame_seqOfCount c) fun n => hr n.toNat
      | some u =>
        simp only [hl, hu] at h
        split at h
        · rename_i e
          subst e
          simp only [Bool.and_eq_true, decide_eq_true_eq] at h
          refine Eats.rightP (P := fun n => n = (l : Int)) (tame_seqOfCount c) ?_ fun n hn => ?_
          · unfold decodeSequenceOfCount
            rw [if_neg hx, hl, hu]
            dsimp only
            rw [if_pos ⟨rfl, h.1.2⟩]
            exact Ensures.pure rfl
          · subst hn
            exact (eats_repeat (eats_ty t h.2) ht (by simpa using h.1.1)).left (tame_repeat ht _) fun _ => Tame.pure _
        · rename_i e
          refine (eats_count (fun l' u' e1 e2 => ?_)).left (tame_seqOfCount c) fun n => hr n.toNat
          rw [hl] at e1; rw [hu] at e2; cases e1; cases e2; exact e
  | .choice ext r a g, h => by
    have hr := tame_alt r
    unfold decTy
    refine Eats.ite (fun he => ?_) fun _ => ?_
    · simp only [needsBit, Bool.or_eq_true] at h
      have h := h.resolve_left (by simpa using he)
      refine Eats.ite (fun h1 => (eats_only r h h1).left (hr _) fun _ => Tame.pure _) fun h1 => ?_
      exact (eats_fieldList (by omega)).left (tame_cwnField _ _) fun i =>
        Tame.bind (hr _) fun _ => Tame.pure _
    · refine eats_bit fun _ => ?_
      repeat' first | with_reducible exact hr _ | tame_step
  | .sequence ext r a g, h => by
    have hr := tame_root r
    have ha := tame_adds a
    have hg := tame_groups g
    unfold decTy
    by_cases hx : ext = true
    · subst hx
      simp only [if_true]
      refine eats_bit fun _ => ?_
      repeat' first
        | with_reducible exact hr _ | with_reducible exact ha _ | with_reducible exact hg _ | tame_step
    · simp only [needsBit, hx, Bool.false_or] at h
      have hx : ext = false := by simpa using hx
      subst hx
      refine Eats.right (by tame) fun e => ?_
      by_cases h0 : r.optionalCount = 0
      · refine Eats.right (tame_optionalBits _) fun o => ?_
        refine (eats_any r o h0 h).left (hr _) fun _ => ?_
        repeat' first
          | with_reducible exact hr _ | with_reducible exact ha _ | with_reducible exact hg _ | tame_step
      · have : Eats (decodeOptionalBits r.optionalCount) := by
          unfold decodeOptionalBits
          rw [if_neg h0]
          refine Eats.ite (fun _ => ?_) fun _ => Eats.raise _
          exact (Eats.next _ (by dsimp only; omega)).left (Tame.next _ _) fun _ => Tame.pure _
        refine this.left (tame_optionalBits _) fun _ => ?_
        repeat' first
          | with_reducible exact hr _ | with_reducible exact ha _ | with_reducible exact hg _ | tame_step
theorem eats_only : ∀ (r : Fields), bitAll r = true → r.length = 1 → Eats (decAlt r 0)
  | .nil, _, h => by simp [Fields.length] at h
  | .cons _ _ t .nil, h, _ => by
    unfold decAlt
    exact eats_ty t (by simpa [bitAll] using h)
  | .cons _ _ _ (.cons _ _ _ r), _, h => by simp [Fields.length] at h
theorem eats_any : ∀ (r : Fields) (o : Bits), r.optionalCount = 0 → bitAny r = true → Eats (decRoot r o)
  | .nil, _, _, h => by simp [bitAny] at h
  | .cons _ k t r, o, h0, h => by
    have ht := tame_ty t
    have hr := tame_root r
    simp only [Fields.optionalCount] at h0
    simp only [bitAny, Bool.or_eq_true] at h
    unfold decRoot
    cases k with
    | mandatory =>
      simp only [Kind.isOptional, Kind.isDefaulted, Bool.false_eq_true, false_or, Bool.or_self] at h h0
      dsimp only
      rcases h with h | h
      · exact (eats_ty t h).left ht fun _ => Tame.bind (hr _) fun _ => Tame.pure _
      · exact Eats.right ht fun _ => (eats_any r o (by simpa using h0) h).left (hr _) fun _ => Tame.pure _
    | optional => simp [Kind.isOptional] at h0
    | default d => simp [Kind.isDefaulted] at h0
end

end Verif
