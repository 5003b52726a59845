import Verif.SpecFaults
import Verif.Lemmas.Exact
/-!
# The exceptions of the decoder
-/
namespace Verif

open Spec

/-- All that `m` raises is in `P`. -/
structure Raises {α : Type} (m : Dec α) (P : Err → Prop) : Prop where
  run : ∀ p e, m p = .error e → P e

/-- The exceptions that every type can cause, and those in `P`. -/
def Plus (P : Err → Prop) (e : Err) : Prop := e = .valueError ∨ e = .notImplemented ∨ P e

variable {α β : Type} {P Q : Err → Prop}

theorem Raises.mono {m : Dec α} (h : Raises m P) (hpq : ∀ e, P e → Q e) : Raises m Q := ⟨fun p e he => hpq e (h.run p e he)⟩

theorem Plus.mono (h : ∀ e, P e → Q e) (e : Err) : Plus P e → Plus Q e := fun h' => h'.imp_right (Or.imp_right (h e))

theorem Raises.pure (a : α) : Raises (Pure.pure a : Dec α) P := ⟨fun _ _ h => by cases h⟩

theorem Raises.raise {e : Err} (h : P e) : Raises (Verif.raise e : Dec α) P := ⟨fun _ _ h' => by cases h'; exact h⟩

theorem Raises.liftE {x : Except Err α} (h : ∀ e, x = .error e → P e) : Raises (Verif.liftE x) P := by
  refine ⟨fun p e he => ?_⟩
  unfold Verif.liftE at he
  cases x with
  | error e' => cases he; exact h _ rfl
  | ok a => cases he

theorem Raises.bindP {m : Dec α} {f : α → Dec β} {R : α → Prop} (hm : Raises m P) (hr : Ensures m R) (hf : ∀ a, R a → Raises (f a) P) :
    Raises (m >>= f) P := by
  refine ⟨fun p e he => ?_⟩
  cases hd : m p with
  | error e' =>
    have : (m >>= f) p = .error e' := by show (m p >>= fun x => f x.1 x.2) = _; rw [hd]; rfl
    rw [this] at he; cases he
    exact hm.run p _ hd
  | ok r =>
    have : (m >>= f) p = f r.1 r.2 := by show (m p >>= fun x => f x.1 x.2) = _; rw [hd]; rfl
    rw [this] at he
    exact (hf r.1 (hr.run p r.1 r.2 hd)).run _ _ he

theorem Raises.bind {m : Dec α} {f : α → Dec β} (hm : Raises m P) (hf : ∀ a, Raises (f a) P) : Raises (m >>= f) P :=
  Raises.bindP hm (Ensures.trivial m) fun a _ => hf a

theorem Raises.ite {c : Prop} [Decidable c] {a b : Dec α} (ha : c → Raises a P) (hb : ¬ c → Raises b P) : Raises (if c then a else b) P := by
  by_cases h : c
  · rw [if_pos h]; exact ha h
  · rw [if_neg h]; exact hb h

theorem raises_next (s : BitSize) (al : Bool) : Raises (next s al) (Plus P) := by
  refine ⟨fun p e he => ?_⟩
  unfold next at he
  dsimp only at he
  generalize PerBytes.getItem _ = b at he
  unfold pyInt2 at he
  split at he
  · cases he; exact .inl rfl
  · cases he

theorem raises_nonNeg {s : BitSize} (al mn : Bool) : Raises (decodeNonNegativeBinaryInteger (some s) al mn) (Plus P) := by
  unfold decodeNonNegativeBinaryInteger
  refine Raises.ite (fun _ => Raises.raise (.inr (.inl rfl))) fun _ => ?_
  refine Raises.bind (Raises.liftE fun e h => by cases h) fun _ => Raises.bind (raises_next _ _) fun _ => ?_
  refine Raises.ite (fun _ => Raises.bind (raises_next _ _) fun _ => Raises.pure _) fun _ => ?_
  exact Raises.pure _

theorem getBitFieldSize_none {r : Int} (h : getBitFieldSize r = none) : r ≤ 0 := by
  apply Classical.byContradiction
  intro hr
  unfold getBitFieldSize at h
  have step : ∀ {c : Prop} [Decidable c] {a : BitSize} {b : Option BitSize}, (if c then some a else b) = none → b = none ∧ ¬ c := by
    intro c _ a b h
    by_cases hc : c
    · rw [if_pos hc] at h; cases h
    · rw [if_neg hc] at h; exact ⟨h, hc⟩
  obtain ⟨h, h1⟩ := step h
  obtain ⟨h, h2⟩ := step h
  obtain ⟨h, h3⟩ := step h
  obtain ⟨h, h4⟩ := step h
  obtain ⟨h, h5⟩ := step h
  obtain ⟨h, h6⟩ := step h
  obtain ⟨h, h7⟩ := step h
  obtain ⟨h, h8⟩ := step h
  obtain ⟨h, h9⟩ := step h
  obtain ⟨h, h10⟩ := step h
  obtain ⟨h, h11⟩ := step h
  obtain ⟨h, h12⟩ := step h
  omega

theorem raises_nonNeg' {s : Option BitSize} (al mn : Bool) (h : s = none → P .attributeError) :
    Raises (decodeNonNegativeBinaryInteger s al mn) (Plus P) := by
  cases s with
  | some s => exact raises_nonNeg al mn
  | none =>
    unfold decodeNonNegativeBinaryInteger
    refine Raises.ite (fun _ => Raises.raise (.inr (.inl rfl))) fun _ => ?_
    exact Raises.bind (Raises.liftE fun e h' => by cases h'; exact .inr (.inr (h rfl))) fun _ => Raises.bind (raises_next _ _) fun _ => by
      refine Raises.ite (fun _ => Raises.bind (raises_next _ _) fun _ => Raises.pure _) fun _ => ?_
      exact Raises.pure _

/-- Ranges that are used. -/
theorem raises_cwn (l u : Option Int) : Raises (decodeConstrainedWholeNumber l u) (Plus fun e => badRange e l u = true) := by
  unfold decodeConstrainedWholeNumber
  cases l with
  | none =>
    refine Raises.bind (Raises.liftE fun e h => ?_) fun _ => Raises.bindP (R := fun _ => False) (Raises.liftE fun e h => ?_) ?_ fun _ h => h.elim
    · cases u with
      | none => cases h; exact .inr (.inr rfl)
      | some _ => cases h
    · cases h; exact .inr (.inr (by cases u <;> rfl))
    · exact Ensures.liftE fun _ h => by cases h
  | some l =>
    cases u with
    | none => exact Raises.bindP (R := fun _ => False) (Raises.liftE fun e h => by cases h; exact .inr (.inr rfl))
                (Ensures.liftE fun _ h => by cases h) fun _ h => h.elim
    | some u =>
      refine Raises.bindP (R := fun x => x = u) (Raises.liftE fun e h => by cases h) (Ensures.liftE fun _ h => by cases h; rfl) fun _ h => ?_
      subst h
      refine Raises.bindP (R := fun x => x = l) (Raises.liftE fun e h => by cases h) (Ensures.liftE fun _ h => by cases h; rfl) fun _ h => ?_
      subst h
      rename_i u l
      dsimp only
      have hs : ∀ al mn, Raises (decodeNonNegativeBinaryInteger (getBitFieldSize (integerRange l u)) al mn)
          (Plus fun e => badRange e (some l) (some u) = true) := fun al mn => raises_nonNeg' al mn fun h => by
        have := getBitFieldSize_none h
        unfold integerRange at this
        simp only [badRange, BEq.rfl, Bool.true_and, decide_eq_true_eq]; omega
      refine Raises.ite (fun _ => Raises.pure _) fun _ => Raises.ite (fun _ => Raises.bind (hs _ _) fun _ => Raises.pure _) fun _ => ?_
      refine Raises.ite (fun _ => Raises.bind (raises_next _ _) fun _ => Raises.bind (hs _ _) fun _ => Raises.pure _) fun _ => ?_
      refine Raises.ite (fun _ => Raises.bind (raises_next _ _) fun _ => Raises.bind (hs _ _) fun _ => Raises.pure _) fun _ => ?_
      exact Raises.bind (hs _ _) fun _ => Raises.pure _

theorem raises_lenDet (l u : Option Int) : Raises (decodeLengthDeterminant false false l u) (Plus P) := by
  unfold decodeLengthDeterminant
  simp only [Bool.false_eq_true, if_false]
  refine Raises.bind (raises_next _ _) fun _ => Raises.bind (raises_next _ _) fun _ => Raises.ite (fun _ => ?_) fun _ => ?_
  · exact Raises.bind (raises_nonNeg _ _) fun _ => Raises.pure _
  · refine Raises.bind (raises_next _ _) fun _ => Raises.ite (fun _ => ?_) fun _ => Raises.raise (.inr (.inl rfl))
    exact Raises.bind (raises_nonNeg _ _) fun _ => Raises.pure _

theorem raises_constrainedLen (l u : Option Int) : Raises (decodeLengthDeterminant false true l u) (Plus fun e => badRange e l u = true) := by
  unfold decodeLengthDeterminant
  simp only [Bool.false_eq_true, if_false, if_true]
  exact raises_cwn l u

theorem raises_smallLen (l u : Option Int) : Raises (decodeLengthDeterminant true false l u) (Plus P) := by
  unfold decodeLengthDeterminant
  simp only [if_true]
  refine Raises.bind (raises_next _ _) fun _ => Raises.ite (fun _ => ?_) fun _ => Raises.raise (.inr (.inl rfl))
  exact Raises.bind (raises_nonNeg _ _) fun _ => Raises.pure _

theorem getRangeOctetLen_pos (n : Int) : (1 : Int) ≤ (getRangeOctetLen n : Int) := by
  have : ∀ (fuel m : Nat), m ≤ rangeOctetLenLoop fuel m n := by
    intro fuel
    induction fuel with
    | zero => intro m; simp [rangeOctetLenLoop]
    | succ k ih =>
      intro m
      unfold rangeOctetLenLoop
      split
      · omega
      · have := ih (m + 1); omega
  have := this (n.toNat.log2 + 1) 3
  unfold getRangeOctetLen
  omega

theorem raises_cwnField (l u : Option Int) : Raises (decodeConstrainedFromFieldList l u) (Plus fun e => badRange e l u = true) := by
  unfold decodeConstrainedFromFieldList
  cases l with
  | none =>
    refine Raises.bind (Raises.liftE fun e h => ?_) fun _ => Raises.bindP (R := fun _ => False) (Raises.liftE fun e h => ?_) ?_ fun _ h => h.elim
    · cases u with
      | none => cases h; exact .inr (.inr rfl)
      | some _ => cases h
    · cases h; exact .inr (.inr (by cases u <;> rfl))
    · exact Ensures.liftE fun _ h => by cases h
  | some l =>
    cases u with
    | none => exact Raises.bindP (R := fun _ => False) (Raises.liftE fun e h => by cases h; exact .inr (.inr rfl))
                (Ensures.liftE fun _ h => by cases h) fun _ h => h.elim
    | some u =>
      refine Raises.bind (Raises.liftE fun e h => by cases h) fun ub => Raises.bind (Raises.liftE fun e h => by cases h) fun lb => ?_
      refine Raises.ite (fun _ => raises_cwn _ _) fun _ => ?_
      dsimp only
      refine Raises.bind ((raises_constrainedLen _ _).mono (Plus.mono fun e h => ?_)) fun _ => Raises.bind (raises_next _ _) fun _ => Raises.pure _
      simp only [badRange, Bool.and_eq_true, decide_eq_true_eq] at h
      have := getRangeOctetLen_pos (ub - lb)
      omega

theorem raises_semi (l : Int) : Raises (decodeSemiConstrainedFromFieldList l) (Plus P) := by
  unfold decodeSemiConstrainedFromFieldList
  exact Raises.bind (raises_lenDet _ _) fun _ => Raises.bind (raises_next _ _) fun _ => Raises.pure _

theorem raises_small (l : Int) : Raises (decodeNormallySmall l) (Plus P) := by
  unfold decodeNormallySmall
  refine Raises.bind (raises_next _ _) fun _ => Raises.ite (fun _ => ?_) fun _ => ?_
  · exact Raises.bind (raises_nonNeg _ _) fun _ => Raises.pure _
  · exact Raises.bind (raises_next _ _) fun _ => raises_semi _

theorem raises_unconstrained : Raises decodeUnconstrainedWholeNumber (Plus P) := by
  unfold decodeUnconstrainedWholeNumber
  refine Raises.bind (raises_next _ _) fun _ => Raises.bind (raises_next _ _) fun _ => Raises.liftE fun e h => ?_
  unfold twosComp at h
  split at h
  · cases h; exact .inl rfl
  · split at h <;> cases h

theorem raises_open {m : Dec α} (h : Raises m (Plus P)) : Raises (decodeOpenTypeField m) (Plus P) := by
  unfold decodeOpenTypeField
  refine Raises.bind (raises_lenDet _ _) fun _ => Raises.bind (raises_next _ _) fun _ => Raises.bind (Raises.liftE fun e he => ?_) fun q =>
    Raises.bind (Raises.liftE fun e he => h.run q e he) fun _ => Raises.pure _
  unfold PerBytes.init pyInt16 at he
  split at he
  · cases he; exact .inl rfl
  · cases he

theorem raises_mkInt (c : Constr) (z : Int) : Raises (liftE (mkInt c z)) (Plus fun e => mayRaise e (.integer c) = true) := by
  refine Raises.liftE fun e h => .inr (.inr ?_)
  unfold mkInt at h
  split at h
  · cases h
  · rename_i ht
    cases h
    by_cases hx : c.ext = true
    · refine absurd ?_ ht
      cases c <;> simp_all [Constr.test, Constr.ext]
    · simp [mayRaise, hx]

theorem raises_mkBits (c : SizeC) (b : Bits) : Raises (liftE (mkBits c b)) (Plus fun e => mayRaise e (.bitString c) = true) := by
  refine Raises.liftE fun e h => .inr (.inr ?_)
  unfold mkBits at h
  split at h
  · cases h
  · rename_i ht
    cases h
    by_cases hx : c.ext = true
    · exact absurd (by simp [SizeC.test, hx]) ht
    · simp [mayRaise, hx]

theorem raises_mkOctets (c : SizeC) (b : List UInt8) : Raises (liftE (mkOctets c b)) (Plus fun e => mayRaise e (.octetString c) = true) := by
  refine Raises.liftE fun e h => .inr (.inr ?_)
  unfold mkOctets at h
  split at h
  · cases h
  · rename_i ht
    cases h
    by_cases hx : c.ext = true
    · exact absurd (by simp [SizeC.test, hx]) ht
    · simp [mayRaise, hx]

theorem raises_mkEnum (n : List (String × Int)) (z : Int) {r a : List (String × Int)} {x : Bool} :
    Raises (liftE (mkEnum n z)) (Plus fun e => mayRaise e (.enumerated x r a) = true) := by
  refine Raises.liftE fun e h => .inr (.inr ?_)
  unfold mkEnum at h
  split at h <;> cases h
  simp [mayRaise]

theorem raises_integer (c : Constr) : Raises (decodeInteger c) (Plus fun e => mayRaise e (.integer c) = true) := by
  unfold decodeInteger
  have hf : (c.ext = true ∨ (c.lower.isSome = true ∧ c.upper.isSome = true)) →
      Raises (decodeConstrainedFromFieldList c.lower c.upper) (Plus fun e => mayRaise e (.integer c) = true) := fun h =>
    (raises_cwnField _ _).mono (Plus.mono fun e he => by
      simp only [mayRaise, he, Bool.and_true, Bool.or_eq_true, Bool.and_eq_true]; exact .inr h)
  refine Raises.ite (fun hx => ?_) fun _ => ?_
  · refine Raises.bind (raises_next _ _) fun _ => Raises.ite (fun _ => ?_) fun _ => ?_
    · exact Raises.bind raises_unconstrained fun _ => raises_mkInt _ _
    · exact Raises.bind (hf (.inl hx)) fun _ => raises_mkInt _ _
  · split
    · rename_i hl hu
      exact Raises.ite (fun _ => raises_mkInt _ _) fun _ => Raises.bind (hf (.inr (by simp [hl, hu]))) fun _ => raises_mkInt _ _
    · exact Raises.bind (raises_semi _) fun _ => raises_mkInt _ _
    · exact Raises.bind raises_unconstrained fun _ => raises_mkInt _ _

theorem raises_enumerated (x : Bool) (r a : List (String × Int)) :
    Raises (decodeEnumerated x r a) (Plus fun e => mayRaise e (.enumerated x r a) = true) := by
  have hn : ∀ l : List (String × Int), (l = [] → r = []) → Raises (decodeConstrainedWholeNumber (some 0) (some ((l.length : Int) - 1)))
      (Plus fun e => mayRaise e (.enumerated x r a) = true) := fun l hl => (raises_cwn _ _).mono (Plus.mono fun e he => by
    simp only [badRange, Bool.and_eq_true, beq_iff_eq, decide_eq_true_eq] at he
    have : l = [] := by cases l with | nil => rfl | cons _ _ => simp at he; omega
    have hr := hl this
    simp [mayRaise, hr, he.1])
  unfold decodeEnumerated
  refine Raises.ite (fun _ => ?_) fun _ => ?_
  · exact Raises.bind (hn _ fun h => (List.append_eq_nil_iff.1 h).1) fun _ => raises_mkEnum _ _
  · refine Raises.bind (raises_next _ _) fun _ => Raises.ite (fun _ => ?_) fun _ => ?_
    · exact Raises.bind (hn _ id) fun _ => raises_mkEnum _ _
    · exact Raises.bind (raises_small _) fun _ => raises_mkEnum _ _

theorem badRange_Z {e : Err} {c : SizeC} : badRange e c.lowerZ c.upperZ = badRange e c.lower c.upper := by
  unfold SizeC.lowerZ SizeC.upperZ
  cases c.lower <;> cases c.upper <;> simp [badRange]

theorem raises_bitstringRoot (c : SizeC) : Raises (decodeBitstringRoot c) (Plus fun e => mayRaise e (.bitString c) = true) := by
  unfold decodeBitstringRoot
  refine Raises.ite (fun _ => raises_mkBits _ _) fun _ => Raises.ite (fun _ => ?_) fun _ => ?_
  · refine Raises.ite (fun _ => Raises.bind (raises_next _ _) fun _ => raises_mkBits _ _) fun _ => Raises.ite (fun _ => ?_) fun _ => Raises.raise (.inr (.inl rfl))
    exact Raises.bind (raises_next _ _) fun _ => Raises.bind (raises_next _ _) fun _ => raises_mkBits _ _
  · split
    · rename_i u hu
      refine Raises.ite (fun _ => ?_) fun _ => Raises.bind (raises_lenDet _ _) fun _ => Raises.bind (raises_next _ _) fun _ => raises_mkBits _ _
      refine Raises.bind ((raises_constrainedLen _ _).mono (Plus.mono fun e he => ?_)) fun _ => Raises.bind (raises_next _ _) fun _ => raises_mkBits _ _
      rw [badRange_Z] at he
      have hs : c.upper.isSome = true := by rw [hu]; rfl
      simp [mayRaise, he, hs]
    · exact Raises.bind (raises_lenDet _ _) fun _ => Raises.bind (raises_next _ _) fun _ => raises_mkBits _ _

theorem raises_bitstring (c : SizeC) : Raises (decodeBitstring c) (Plus fun e => mayRaise e (.bitString c) = true) := by
  unfold decodeBitstring
  refine Raises.ite (fun _ => ?_) fun _ => raises_bitstringRoot c
  refine Raises.bind (raises_next _ _) fun _ => Raises.ite (fun _ => raises_bitstringRoot c) fun _ => ?_
  exact Raises.bind (raises_next _ _) fun _ => Raises.bind (raises_lenDet _ _) fun _ => Raises.bind (raises_next _ _) fun _ =>
    Raises.bind (raises_next _ _) fun _ => raises_mkBits _ _

theorem raises_octetstringRoot (c : SizeC) : Raises (decodeOctetstringRoot c) (Plus fun e => mayRaise e (.octetString c) = true) := by
  unfold decodeOctetstringRoot
  refine Raises.ite (fun _ => raises_mkOctets _ _) fun _ => Raises.ite (fun _ => ?_) fun _ => ?_
  · refine Raises.ite (fun _ => Raises.bind (raises_next _ _) fun _ => raises_mkOctets _ _) fun _ => Raises.ite (fun _ => ?_) fun _ => Raises.raise (.inr (.inl rfl))
    exact Raises.bind (raises_next _ _) fun _ => Raises.bind (raises_next _ _) fun _ => raises_mkOctets _ _
  · split
    · rename_i u hu
      refine Raises.bind ((raises_constrainedLen _ _).mono (Plus.mono fun e he => ?_)) fun _ =>
        Raises.ite (fun _ => raises_mkOctets _ _) fun _ => Raises.bind (raises_next _ _) fun _ => raises_mkOctets _ _
      rw [badRange_Z] at he
      have hs : c.upper.isSome = true := by rw [hu]; rfl
      simp [mayRaise, he, hs]
    · exact Raises.bind (raises_next _ _) fun _ => Raises.bind (raises_lenDet _ _) fun _ => Raises.bind (raises_next _ _) fun _ => raises_mkOctets _ _

theorem raises_octetstring (c : SizeC) : Raises (decodeOctetstring c) (Plus fun e => mayRaise e (.octetString c) = true) := by
  unfold decodeOctetstring
  refine Raises.ite (fun _ => ?_) fun _ => raises_octetstringRoot c
  refine Raises.bind (raises_next _ _) fun _ => Raises.ite (fun _ => raises_octetstringRoot c) fun _ => ?_
  exact Raises.bind (raises_next _ _) fun _ => Raises.bind (raises_lenDet _ _) fun _ => Raises.ite (fun _ => raises_mkOctets _ _) fun _ =>
    Raises.bind (raises_next _ _) fun _ => raises_mkOctets _ _

theorem raises_repeat {m : Dec α} (h : Raises m P) : ∀ n, Raises (repeatDec n m) P
  | 0 => Raises.pure _
  | n + 1 => Raises.bind h fun _ => Raises.bind (raises_repeat h n) fun _ => Raises.pure _

theorem raises_count (c : SizeC) : Raises (decodeSequenceOfCount c)
    (Plus fun e => ((c.ext || c.upper.isSome || c.lower.isNone) && badRange e c.lower c.upper) = true) := by
  have hb : ∀ hx : (c.ext || c.upper.isSome || c.lower.isNone) = true, Raises (decodeLengthDeterminant false true c.lowerZ c.upperZ)
      (Plus fun e => ((c.ext || c.upper.isSome || c.lower.isNone) && badRange e c.lower c.upper) = true) := fun hx =>
    (raises_constrainedLen _ _).mono (Plus.mono fun e he => by rw [badRange_Z] at he; rw [hx, he]; rfl)
  unfold decodeSequenceOfCount
  refine Raises.ite (fun hx => ?_) fun _ => ?_
  · refine Raises.bind (raises_next _ _) fun _ => Raises.ite (fun _ => hb (by simp [hx])) fun _ => ?_
    exact Raises.bind (raises_next _ _) fun _ => raises_lenDet _ _
  · split
    · rename_i hl hu
      exact Raises.raise (.inr (.inr (by simp [hl, hu, badRange])))
    · rename_i hl hu
      exact Raises.ite (fun _ => Raises.pure _) fun _ => Raises.ite (fun _ => hb (by simp [hu])) fun _ => raises_lenDet _ _
    · exact raises_lenDet _ _
    · rename_i hl hu
      exact Raises.ite (fun _ => hb (by simp [hu])) fun _ => raises_lenDet _ _

theorem raises_optionalBits (n : Nat) : Raises (decodeOptionalBits n) (Plus P) := by
  unfold decodeOptionalBits
  refine Raises.ite (fun _ => Raises.pure _) fun _ => Raises.ite (fun _ => ?_) fun _ => Raises.raise (.inr (.inl rfl))
  exact Raises.bind (raises_next _ _) fun _ => Raises.pure _

theorem ensures_optionalBits (n : Nat) : Ensures (decodeOptionalBits n) (fun b => n ≤ b.length) := by
  unfold decodeOptionalBits
  refine Ensures.ite (fun h => Ensures.pure (by omega)) fun _ => Ensures.ite (fun _ => ?_) fun _ => Ensures.raise _
  exact Ensures.bind' fun v => Ensures.pure (by rw [zfill_length]; omega)

theorem raises_extensionBits (n : Nat) : Raises (decodeExtensionBits n) (Plus P) := by
  unfold decodeExtensionBits
  exact Raises.bind (raises_smallLen _ _) fun _ => Raises.bind (raises_next _ _) fun _ => Raises.bind (raises_next _ _) fun _ => Raises.pure _

mutual
theorem raises_ty : ∀ t : Ty, Raises (decTy t) (Plus fun e => mayRaise e t = true)
  | .boolean => by unfold decTy decodeBoolean; exact Raises.bind (raises_next _ _) fun _ => Raises.pure _
  | .integer c => by unfold decTy; exact raises_integer c
  | .enumerated x r a => by unfold decTy; exact raises_enumerated x r a
  | .bitString c => by unfold decTy; exact raises_bitstring c
  | .octetString c => by unfold decTy; exact raises_octetstring c
  | .seqOf c t => by
    have ht := (raises_ty t).mono (Q := Plus fun e => mayRaise e (.seqOf c t) = true) (Plus.mono fun e he => by simp [mayRaise, he])
    unfold decTy
    refine Raises.bind ((raises_count c).mono (Plus.mono fun e he => ?_)) fun n => Raises.bind (raises_repeat ht _) fun _ => Raises.pure _
    rw [mayRaise, he]; rfl
  | .choice x r a g => by
    have hr := fun i => (raises_alt r i).mono (Q := Plus fun e => mayRaise e (.choice x r a g) = true) (Plus.mono fun e he => by
      rcases he with rfl | he
      · simp [mayRaise]
      · simp [mayRaise, he])
    have ha := fun i => (raises_alt a i).mono (Q := Plus fun e => mayRaise e (.choice x r a g) = true) (Plus.mono fun e he => by
      rcases he with rfl | he
      · simp [mayRaise]
      · simp [mayRaise, he])
    have hg := fun i => (raises_altG g i).mono (Q := Plus fun e => mayRaise e (.choice x r a g) = true) (Plus.mono fun e he => by
      rcases he with rfl | he
      · simp [mayRaise]
      · simp [mayRaise, he])
    have hn : Raises (decodeConstrainedFromFieldList (some 0) (some ((r.length : Int) - 1))) (Plus fun e => mayRaise e (.choice x r a g) = true) :=
      (raises_cwnField _ _).mono (Plus.mono fun e he => by
        simp only [badRange, Bool.and_eq_true, beq_iff_eq, decide_eq_true_eq] at he
        cases r with
        | nil => simp [mayRaise, he.1]
        | cons _ _ _ r => simp [Fields.length] at he; omega)
    have root : ∀ (m : Dec Val), (m = if r.length = 1 then decAlt r 0 >>= fun v => Pure.pure (Val.choice 0 v) else
        decodeConstrainedFromFieldList (some 0) (some ((r.length : Int) - 1)) >>= fun i =>
          decAlt r i.toNat >>= fun v => Pure.pure (Val.choice i.toNat v)) →
        Raises m (Plus fun e => mayRaise e (.choice x r a g) = true) := by
      rintro m rfl
      exact Raises.ite (fun _ => Raises.bind (hr 0) fun _ => Raises.pure _) fun _ => Raises.bind hn fun _ =>
        Raises.bind (hr _) fun _ => Raises.pure _
    unfold decTy
    refine Raises.ite (fun _ => root _ rfl) fun _ => Raises.bind (raises_next _ _) fun _ => Raises.ite (fun _ => root _ rfl) fun _ => ?_
    refine Raises.bind (raises_small _) fun _ => Raises.ite (fun _ => Raises.raise (.inr (.inl rfl))) fun _ => ?_
    exact Raises.bind (raises_open (Raises.ite (fun _ => ha _) fun _ => hg _)) fun _ => Raises.pure _
  | .sequence x r a g => by
    have hr := fun o h => (raises_root r o h).mono (Q := Plus fun e => mayRaise e (.sequence x r a g) = true) (Plus.mono fun e he => by simp [mayRaise, he])
    have ha := fun o => (raises_adds a o).mono (Q := Plus fun e => mayRaise e (.sequence x r a g) = true) (Plus.mono fun e he => by simp [mayRaise, he])
    have hg := fun o => (raises_groups g o).mono (Q := Plus fun e => mayRaise e (.sequence x r a g) = true) (Plus.mono fun e he => by simp [mayRaise, he])
    unfold decTy
    dsimp only
    refine (fun key => Raises.ite (fun _ => Raises.bind (raises_next _ _) key) fun _ => Raises.bind (Raises.pure _) key) (fun e => ?_)
    refine Raises.bindP (raises_optionalBits _) (ensures_optionalBits _) fun o ho => Raises.bind (hr o ho) fun _ => Raises.ite (fun _ => ?_) fun _ => Raises.pure _
    exact Raises.bind (raises_extensionBits _) fun _ => Raises.bind (ha _) fun _ => Raises.bind (hg _) fun _ => Raises.pure _
theorem raises_alt : ∀ (r : Fields) (i : Nat), Raises (decAlt r i) (Plus fun e => e = .indexError ∨ mayRaiseAny e r = true)
  | .nil, _ => by unfold decAlt; exact Raises.raise (.inr (.inr (.inl rfl)))
  | .cons _ _ t _, 0 => by unfold decAlt; exact (raises_ty t).mono (Plus.mono fun e he => .inr (by simp [mayRaiseAny, he]))
  | .cons _ _ _ r, i + 1 => by
    unfold decAlt
    exact (raises_alt r i).mono (Plus.mono fun e he => he.imp_right fun he => by simp [mayRaiseAny, he])
theorem raises_altG : ∀ (g : Groups) (i : Nat), Raises (decAltG g i) (Plus fun e => e = .indexError ∨ mayRaiseGroups e g = true)
  | .nil, _ => by unfold decAltG; exact Raises.raise (.inr (.inr (.inl rfl)))
  | .cons f g, i => by
    unfold decAltG
    refine Raises.ite (fun _ => ?_) fun _ => ?_
    · exact (raises_alt f i).mono (Plus.mono fun e he => he.imp_right fun he => by simp [mayRaiseGroups, he])
    · exact (raises_altG g _).mono (Plus.mono fun e he => he.imp_right fun he => by simp [mayRaiseGroups, he])
theorem raises_root : ∀ (r : Fields) (o : Bits), r.optionalCount ≤ o.length → Raises (decRoot r o) (Plus fun e => mayRaiseAny e r = true)
  | .nil, _, _ => by unfold decRoot; exact Raises.pure _
  | .cons n k t r, o, h => by
    have ht := (raises_ty t).mono (Q := Plus fun e => mayRaiseAny e (.cons n k t r) = true) (Plus.mono fun e he => by simp [mayRaiseAny, he])
    have hr := fun o h => (raises_root r o h).mono (Q := Plus fun e => mayRaiseAny e (.cons n k t r) = true) (Plus.mono fun e he => by simp [mayRaiseAny, he])
    have hs : ∀ o, r.optionalCount ≤ o.length →
        Raises (decTy t >>= fun v => decRoot r o >>= fun vs => (Pure.pure (some v :: vs) : Dec (List (Option Val))))
          (Plus fun e => mayRaiseAny e (.cons n k t r) = true) := fun o h => Raises.bind ht fun _ => Raises.bind (hr o h) fun _ => Raises.pure _
    unfold decRoot
    unfold Fields.optionalCount at h
    split
    · exact hs o (by omega)
    · rename_i k' hk
      have hk' : (k.isOptional || k.isDefaulted) = true := by
        cases k with
        | mandatory => exact absurd rfl hk
        | optional => rfl
        | default _ => rfl
      rw [hk', if_pos rfl] at h
      split
      · simp at h
      · simp only [List.length_cons] at h
        exact Raises.ite (fun _ => hs _ (by omega)) fun _ => Raises.bind (hr _ (by omega)) fun _ => Raises.pure _
theorem raises_adds : ∀ (r : Fields) (o : Bits), Raises (decAdds r o) (Plus fun e => mayRaiseAny e r = true)
  | .nil, _ => by unfold decAdds; exact Raises.pure _
  | .cons n k t r, o => by
    have ht := (raises_ty t).mono (Q := Plus fun e => mayRaiseAny e (.cons n k t r) = true) (Plus.mono fun e he => by simp [mayRaiseAny, he])
    have hr := fun o => (raises_adds r o).mono (Q := Plus fun e => mayRaiseAny e (.cons n k t r) = true) (Plus.mono fun e he => by simp [mayRaiseAny, he])
    unfold decAdds
    split
    · exact Raises.bind (hr _) fun _ => Raises.pure _
    · exact Raises.ite (fun _ => Raises.bind (raises_open ht) fun _ => Raises.bind (hr _) fun _ => Raises.pure _) fun _ =>
        Raises.bind (hr _) fun _ => Raises.pure _
theorem raises_groups : ∀ (g : Groups) (o : Bits), Raises (decGroups g o) (Plus fun e => mayRaiseGroups e g = true)
  | .nil, _ => by unfold decGroups; exact Raises.pure _
  | .cons f g, o => by
    have hf := fun o h => (raises_root f o h).mono (Q := Plus fun e => mayRaiseGroups e (.cons f g) = true) (Plus.mono fun e he => by simp [mayRaiseGroups, he])
    have hr := fun o => (raises_groups g o).mono (Q := Plus fun e => mayRaiseGroups e (.cons f g) = true) (Plus.mono fun e he => by simp [mayRaiseGroups, he])
    unfold decGroups
    split
    · exact Raises.bind (hr _) fun _ => Raises.pure _
    · refine Raises.ite (fun _ => Raises.bind (raises_open ?_) fun _ => Raises.bind (hr _) fun _ => Raises.pure _) fun _ =>
        Raises.bind (hr _) fun _ => Raises.pure _
      exact Raises.bindP (raises_optionalBits _) (ensures_optionalBits _) fun o ho => hf o ho
end

/-! ## nothing at all -/

theorem zfill_ne_nil (w n : Nat) : zfill w (pyBin n) ≠ [] := by
  intro h
  have := congrArg List.length h
  simp [zfill, pyBin, natToBits_length] at this

private theorem some_bits {c : SizeC} {b : Bits} {Q : Prop} (h : b = [] → Q) :
    Ensures (liftE (mkBits c b)) (fun v => nothing v = true → Q) := by
  refine Ensures.liftE fun a ha hn => ?_
  unfold mkBits at ha
  split at ha <;> cases ha
  exact h (by simpa [nothing] using hn)

private theorem nothing_bits (c : SizeC) : Ensures (decodeBitstring c) (fun v => nothing v = true → c.upper = some 0) := by
  have z : ∀ w n, Ensures (liftE (mkBits c (zfill w (pyBin n)))) (fun v => nothing v = true → c.upper = some 0) :=
    fun w n => some_bits fun h => (zfill_ne_nil w n h).elim
  have hr : Ensures (decodeBitstringRoot c) (fun v => nothing v = true → c.upper = some 0) := by
    unfold decodeBitstringRoot
    refine Ensures.ite (fun hu => some_bits fun _ => hu) fun hu => Ensures.ite (fun hl => ?_) fun _ => ?_
    · refine Ensures.ite (fun _ => Ensures.bind' fun _ => z _ _) fun hn => Ensures.ite (fun _ => Ensures.bind' fun _ => Ensures.bind' fun _ => some_bits fun h => ?_) fun _ => Ensures.raise _
      have h1 := zfill_ne_nil (c.lower.getD 0)
      rw [List.take_eq_nil_iff] at h
      rcases h with h | h
      · omega
      · exact (h1 _ h).elim
    · split
      · exact Ensures.ite (fun _ => Ensures.bind' fun _ => Ensures.bind' fun _ => z _ _) fun _ => Ensures.bind' fun _ => Ensures.bind' fun _ => z _ _
      · exact Ensures.bind' fun _ => Ensures.bind' fun _ => z _ _
  unfold decodeBitstring
  exact Ensures.ite (fun _ => Ensures.bind' fun _ => Ensures.ite (fun _ => hr) fun _ =>
    Ensures.bind' fun _ => Ensures.bind' fun _ => Ensures.bind' fun _ => Ensures.bind' fun _ => z _ _) fun _ => hr

private theorem nothing_shape {t : Ty} (h : ∀ v, hasShape countReceived t v = true → nothing v = false) :
    Ensures (decTy t) (fun v => nothing v = true → canBeNothing t = true) :=
  (conforms_ty t).mono fun v hv hn => by rw [h v hv] at hn; cases hn

mutual
theorem nothing_ty : ∀ t : Ty, Ensures (decTy t) (fun v => nothing v = true → canBeNothing t = true)
  | .boolean => nothing_shape fun v h => by cases v <;> simp_all [hasShape, nothing]
  | .integer _ => nothing_shape fun v h => by cases v <;> simp_all [hasShape, nothing]
  | .enumerated _ _ _ => nothing_shape fun v h => by cases v <;> simp_all [hasShape, nothing]
  | .octetString _ => nothing_shape fun v h => by cases v <;> simp_all [hasShape, nothing]
  | .seqOf _ _ => nothing_shape fun v h => by cases v <;> simp_all [hasShape, nothing]
  | .sequence _ _ _ _ => nothing_shape fun v h => by cases v <;> simp_all [hasShape, nothing]
  | .bitString c => by
    unfold decTy
    exact (nothing_bits c).mono fun v h hn => by simp [canBeNothing, h hn]
  | .choice ext r a g => by
    have root : ∀ i, Ensures (decAlt r i >>= fun v => pure (Val.choice i v))
        (fun v => nothing v = true → canBeNothing (.choice ext r a g) = true) := fun i =>
      (nothing_fields r i).bind fun v hv => Ensures.pure fun hn => by
        simp only [canBeNothing, hv (by simpa [nothing] using hn), Bool.true_or]
    unfold decTy
    refine Ensures.ite (fun he => ?_) fun he => ?_
    · refine Ensures.ite (fun _ => ?_) fun _ => ?_
      · exact root 0
      · exact Ensures.bind' fun i => root i.toNat
    · refine Ensures.bind' fun e => Ensures.ite (fun _ => ?_) fun _ => ?_
      · refine Ensures.ite (fun _ => ?_) fun _ => ?_
        · exact root 0
        · exact Ensures.bind' fun i => root i.toNat
      · refine Ensures.bind' fun i => Ensures.ite (fun _ => Ensures.raise _) fun _ => ?_
        dsimp only
        by_cases hi : i.toNat < a.length
        · rw [if_pos hi]
          refine (ensures_openType (nothing_fields a i.toNat)).bind fun v hv => Ensures.pure fun hn => ?_
          simp only [canBeNothing, hv (by simpa [nothing] using hn), Bool.true_or, Bool.or_true]
        · rw [if_neg hi]
          refine (ensures_openType (nothing_groups g (i.toNat - a.length))).bind fun v hv => Ensures.pure fun hn => ?_
          simp only [canBeNothing, hv (by simpa [nothing] using hn), Bool.or_true]
theorem nothing_fields : ∀ (r : Fields) (i : Nat), Ensures (decAlt r i) (fun v => nothing v = true → anyNothing r = true)
  | .nil, _ => by unfold decAlt; exact Ensures.raise _
  | .cons _ _ t r, 0 => by
    unfold decAlt
    exact (nothing_ty t).mono fun v h hn => by simp only [anyNothing, h hn, Bool.true_or]
  | .cons _ _ t r, i + 1 => by
    unfold decAlt
    exact (nothing_fields r i).mono fun v h hn => by simp only [anyNothing, h hn, Bool.or_true]
theorem nothing_groups : ∀ (g : Groups) (i : Nat), Ensures (decAltG g i) (fun v => nothing v = true → groupsNothing g = true)
  | .nil, _ => by unfold decAltG; exact Ensures.raise _
  | .cons f g, i => by
    unfold decAltG
    refine Ensures.ite (fun _ => ?_) fun _ => ?_
    · exact (nothing_fields f i).mono fun v h hn => by simp only [groupsNothing, h hn, Bool.true_or]
    · exact (nothing_groups g _).mono fun v h hn => by simp only [groupsNothing, h hn, Bool.or_true]
end

/-- What is not returned although it was read. -/
theorem not_returnable (t : Ty) : Ensures (decTy t) (fun v => returnable v = false → choosesNothing t = true) := by
  constructor
  intro p v p' h hr
  have h1 := (conforms_ty t).run p v p' h
  have h2 := (nothing_ty t).run p v p' h
  cases v with
  | choice i v =>
    have hn : nothing (.choice i v) = true := by simpa [returnable, nothing] using hr
    cases t <;> simp [hasShape] at h1
    exact h2 hn
  | _ => simp [returnable] at hr

end Verif
