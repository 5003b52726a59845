import Verif.Props.Composition
import Verif.Lemmas.Moved
/-!
# C07: a CHOICE carries exactly what its alternative carries

The converse of `C07_alternative`, from C70: what an alternative is read as does not depend on what precedes it.
-/
namespace Verif

/-- What is written depends on the position only by the place within the octet. -/
theorem emit_moved : ∀ (fs : List BitField) {n k : Nat}, n % 8 = k % 8 → emit n fs = emit k fs
  | [], _, _, _ => rfl
  | f :: fs, n, k, h => by
    have hp : padTo f.octetAlign n = padTo f.octetAlign k := by
      cases f.octetAlign
      · rfl
      · simp only [padTo, padLen, h]
    rw [emit_cons, emit_cons, hp, emit_moved fs (k := k + (padTo f.octetAlign k ++ f.value).length) (by omega)]

/-- A reader that stands at `n` with `s` before it. -/
theorem reader_at (n : Nat) (s : Bits) : ∃ p, At p n s :=
  ⟨⟨⟨0, 0, n / 8, n % 8⟩, List.replicate n false ++ s⟩, by
    refine ⟨?_, ?_, ?_⟩
    · show n % 8 < 8
      omega
    · show n / 8 * 8 + n % 8 = n
      omega
    · show (List.replicate n false ++ s).drop n = s
      have h : (List.replicate n false).length = n := List.length_replicate
      conv => lhs; rw [show n = (List.replicate n false).length from h.symm]
      rw [h, List.drop_left' h]⟩

theorem at_unique {p : PerBytes} {n k : Nat} {s s' : Bits} (h : At p n s) (h' : At p k s') : n = k ∧ s = s' := by
  have e : n = k := by rw [← h.pos_eq, ← h'.pos_eq]
  subst e
  exact ⟨rfl, by rw [← h.rem_eq, ← h'.rem_eq]⟩

/-- A value arrives as one value only. -/
theorem carries_one {t : Ty} {v w w' : Val} (h : Spec.Carries t v w) (h' : Spec.Carries t v w') : w = w' := by
  obtain ⟨fs, e1, hd⟩ := reads_everywhere h
  obtain ⟨fs', e1', hd'⟩ := reads_everywhere h'
  rw [e1] at e1'
  cases e1'
  obtain ⟨p, hp⟩ := reader_at 0 (emit 0 fs ++ [])
  obtain ⟨p1, e2, _⟩ := hd 0 p [] hp
  obtain ⟨p2, e3, _⟩ := hd' 0 p [] hp
  rw [e2] at e3
  cases e3
  rfl

/-- What follows a first part is read as it is behind that part at any place with the same place within the octet. -/
theorem Reads.cancel {α β : Type} {m : Dec α} {f : α → Dec β} {pos k : Nat} {x y : Bits} {a : α} {b : β} (hf : Moved (f a))
    (h : Reads (m >>= f) pos (x ++ y) b) (hm : Reads m pos x a) (hk : (pos + x.length) % 8 = k % 8) : Reads (f a) k y b := by
  intro q rest hq
  obtain ⟨p, hp⟩ := reader_at pos (x ++ (y ++ rest))
  obtain ⟨p1, e1, a1⟩ := hm p _ hp
  obtain ⟨p2, e2, a2⟩ := h p rest (by rw [List.append_assoc]; exact hp)
  have e3 : f a p1 = .ok (b, p2) := by
    rw [← e2]
    show _ = StateT.bind m f p
    unfold StateT.bind
    rw [e1]
    rfl
  have hs := hf.run p1 q _ _ _ a1 hq hk
  rw [e3] at hs
  cases e4 : f a q with
  | error e => rw [e4] at hs; exact hs.elim
  | ok r =>
    rw [e4] at hs
    obtain ⟨c, q'⟩ := r
    obtain ⟨rfl, j, s, b1, b2⟩ := hs
    obtain ⟨h1, rfl⟩ := at_unique b1 a2
    rw [List.length_append] at h1
    refine ⟨q', rfl, ?_⟩
    have : k + y.length = k + j := by omega
    rw [this]
    exact b2

/-- The chosen alternative, from the CHOICE that is made of it. -/
theorem Reads.chosen {m : Dec Val} {pos i k : Nat} {x : Bits} {w : Val}
    (h : Reads (m >>= fun v => (Pure.pure (Val.choice i v) : Dec Val)) pos x (.choice k w)) : Reads m pos x w := by
  intro q rest hq
  obtain ⟨q', e, hq'⟩ := h q rest hq
  change StateT.bind m _ q = _ at e
  unfold StateT.bind at e
  cases e1 : m q with
  | error e2 => rw [e1] at e; cases e
  | ok r =>
    rw [e1] at e
    obtain ⟨v, q1⟩ := r
    cases e
    exact ⟨_, rfl, hq'⟩

/-- The index of a CHOICE of at most 255 alternatives is not aligned. -/
theorem choiceIndex_plain {pos n : Nat} (h : pos < n) (hn : n ≤ 255) :
    ∃ w, fieldListConstrained (pos : Int) (some 0) (some ((n : Int) - 1)) = .ok [⟨false, w⟩] := by
  obtain ⟨he, _⟩ := cwn_roundtrip (n := (pos : Int)) (lb := 0) (ub := (n : Int) - 1) (by omega) (by omega) (by omega)
  have hf : decide ((256 : Int) ≤ (n : Int) - 1 - 0 + 1) = false := by
    rw [decide_eq_false_iff_not]; omega
  rw [hf] at he
  refine ⟨natToBits (cwnWidth ((n : Int) - 1 - 0 + 1).toNat) ((pos : Int) - 0).toNat, ?_⟩
  unfold fieldListConstrained integerRange
  have hlift : ∀ z : Int, needInt (some z) = .ok z := fun _ => rfl
  simp only [hlift, he, bind, Except.bind]
  rw [if_pos (by omega)]
  rfl

end Verif

namespace Verif.Props
open Verif

/-- C07, exactly: a CHOICE of at most 255 alternatives, with or without the extension marker, arrives as an alternative of its root
with a value if and only if the value of the alternative arrives as that value. -/
theorem C07_alternative_exact {ext : Bool} {r a : Fields} {g : Groups} {pos : Nat} {v w : Val} {n : String} {k : Kind} {t : Ty}
    (hp : Spec.fieldAt r pos = some (n, k, t)) (hn : r.length ≤ 255) :
    Spec.Carries (.choice ext r a g) (.choice pos v) (.choice pos w) ↔ Spec.Carries t v w := by
  obtain ⟨hr, he, hdec⟩ := alt_at hp
  have hfit : Spec.unsignedFits 65536 r.length = true := by
    have h1 : r.length.log2 ≤ r.length := Nat.log2_le_self _
    simp only [Spec.unsignedFits, decide_eq_true_eq, Int.toNat_natCast]
    omega
  refine ⟨fun h => ?_, C07_alternative hp hfit⟩
  obtain ⟨fs, e0, hd⟩ := reads_everywhere h
  obtain ⟨ixw, i1⟩ := choiceIndex_plain hr hn
  obtain ⟨ixf, i1', i2⟩ := choiceIndex_rt hr hfit
  obtain rfl : [⟨false, ixw⟩] = ixf := by rw [i1] at i1'; exact Except.ok.inj i1'
  have i3 : ∀ q, Reads (decodeConstrainedFromFieldList (some 0) (some ((r.length : Int) - 1))) q ixw (pos : Int) := by
    intro q
    have := i2 q
    rwa [emit_single, padTo_false, List.nil_append] at this
  have hmv : ∀ i : Nat, Moved (decAlt r i >>= fun v => (Pure.pure (Val.choice i v) : Dec Val)) := fun i =>
    Moved.bind (moved_alt r i) fun _ => Moved.pure _
  -- what follows the extension bit
  have tail : ∀ fl : List BitField, (∀ q, Reads (if r.length = 1 then do
        let v ← decAlt r 0
        return Val.choice 0 v
      else do
        let i ← decodeConstrainedFromFieldList (some 0) (some ((r.length : Int) - 1))
        let v ← decAlt r i.toNat
        return Val.choice i.toNat v) q (emit q (if r.length = 1 then fl else [⟨false, ixw⟩] ++ fl)) (Val.choice pos w)) →
      ∀ q, Reads (decTy t) q (emit q fl) w := by
    intro fl hd q
    rw [← hdec]
    by_cases h1 : r.length = 1
    · simp only [h1, if_true] at hd
      have : pos = 0 := by omega
      subst this
      exact (hd q).chosen
    · simp only [h1, if_false] at hd
      have h2 := hd (q + 7 * ixw.length)
      rw [List.singleton_append, emit_cons] at h2
      simp only [padTo_false, List.nil_append] at h2
      have h3 := h2.cancel (k := q) (by simp only [Int.toNat_natCast]; exact hmv pos) (i3 _) (by omega)
      simp only [Int.toNat_natCast] at h3
      rw [emit_moved fl (k := q) (by omega)] at h3
      exact h3.chosen
  cases e1 : encTy t v with
  | error e =>
    simp only [encTy, hr, if_true, he, e1, bind, Except.bind] at e0
    cases e0
  | ok fl =>
    refine carries_of_reads e1 (tail fl ?_)
    cases ext with
    | false =>
      have ef : fs = if r.length = 1 then fl else [⟨false, ixw⟩] ++ fl := by
        simp only [encTy, hr, if_true, he, e1, bind, Except.bind, assembleChoice, Bool.not_false, i1, pure, Except.pure] at e0
        split at e0 <;> cases e0 <;> simp [*]
      subst ef
      intro q
      have := hd q
      rw [decTy] at this
      simpa only [Bool.not_false, if_true] using this
    | true =>
      have ef : fs = ⟨false, [false]⟩ :: (if r.length = 1 then fl else [⟨false, ixw⟩] ++ fl) := by
        simp only [encTy, hr, if_true, he, e1, bind, Except.bind, assembleChoice, Bool.not_true, Bool.false_eq_true, if_false, i1,
          pure, Except.pure] at e0
        split at e0 <;> cases e0 <;> simp [*]
      subst ef
      intro q
      have h2 := hd (q + 7)
      rw [decTy, emit_bit] at h2
      simp only [Bool.not_true, Bool.false_eq_true, if_false] at h2
      have h3 := h2.cancel (k := q) ?_ (Reads.bit (q + 7) false) (by simp only [List.length_singleton]; omega)
      · rw [emit_moved _ (k := q) (by omega)] at h3
        simpa only [Bool.false_eq_true, if_false, if_true] using h3
      · simp only [Bool.false_eq_true, if_false, if_true]
        split
        · exact hmv 0
        · exact Moved.bind (moved_cwnField _ _) fun i => hmv i.toNat

/-- The second of two alternatives does not arrive as it was, as the BIT STRING alone does not (F3). -/
example : ¬ Spec.Carries (.choice true (Fields.ofList [("a", .mandatory, .boolean), ("b", .mandatory, .bitString ⟨false, none, none⟩)])
      .nil .nil) (.choice 1 (.bits [])) (.choice 1 (.bits [])) := by
  rw [C07_alternative_exact (n := "b") (k := .mandatory) (t := .bitString ⟨false, none, none⟩) rfl (by decide +kernel)]
  intro h
  cases carries_one h empty_as_zero

end Verif.Props
