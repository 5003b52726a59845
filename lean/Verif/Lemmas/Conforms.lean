import Verif.Lemmas.Tame
import Verif.Lemmas.Number
import Verif.Spec
/-!
# Whatever the decoder returns has the shape of the schema
-/
namespace Verif

/-- Whatever `m` returns satisfies `P`. -/
structure Ensures {α : Type} (m : Dec α) (P : α → Prop) : Prop where
  run : ∀ p a p', m p = .ok (a, p') → P a

theorem Ensures.pure {α : Type} {P : α → Prop} {a : α} (h : P a) : Ensures (Pure.pure a : Dec α) P :=
  ⟨fun _ _ _ e => by cases e; exact h⟩

theorem Ensures.raise {α : Type} {P : α → Prop} (e : Err) : Ensures (Verif.raise e : Dec α) P :=
  ⟨fun _ _ _ e => by cases e⟩

theorem Ensures.liftE {α : Type} {P : α → Prop} {e : Except Err α} (h : ∀ a, e = .ok a → P a) :
    Ensures (Verif.liftE e) P := by
  constructor
  intro p a p' he
  unfold Verif.liftE at he
  cases e with
  | error e => cases he
  | ok b => cases he; exact h _ rfl

theorem Ensures.trivial {α : Type} (m : Dec α) : Ensures m (fun _ => True) := ⟨fun _ _ _ _ => True.intro⟩

theorem Ensures.bind {α β : Type} {m : Dec α} {f : α → Dec β} {P : α → Prop} {Q : β → Prop} (hm : Ensures m P)
    (hf : ∀ a, P a → Ensures (f a) Q) : Ensures (m >>= f) Q := by
  constructor
  intro p b p' h
  obtain ⟨a, p1, e1, e2⟩ := bind_eq_ok h
  exact (hf a (hm.run _ _ _ e1)).run _ _ _ e2

/-- `bind` when nothing is needed about the first result. -/
theorem Ensures.bind' {α β : Type} {m : Dec α} {f : α → Dec β} {Q : β → Prop}
    (hf : ∀ a, Ensures (f a) Q) : Ensures (m >>= f) Q := (Ensures.trivial m).bind fun a _ => hf a

theorem Ensures.ite {α : Type} {c : Prop} [Decidable c] {a b : Dec α} {P : α → Prop} (ha : c → Ensures a P)
    (hb : ¬ c → Ensures b P) : Ensures (if c then a else b) P := by
  split
  · exact ha ‹_›
  · exact hb ‹_›

theorem Ensures.mono {α : Type} {m : Dec α} {P Q : α → Prop} (h : Ensures m P) (hpq : ∀ a, P a → Q a) : Ensures m Q :=
  ⟨fun p a p' e => hpq a (h.run p a p' e)⟩

theorem ensures_mkInt (c : Constr) (z : Int) :
    Ensures (liftE (mkInt c z)) (fun v => Spec.hasShape Spec.countReceived (.integer c) v = true) := by
  refine Ensures.liftE fun a h => ?_
  unfold mkInt at h
  split at h
  · cases h; simpa [Spec.hasShape] using ‹c.test z = true›
  · cases h

theorem ensures_mkBits (c : SizeC) (b : Bits) :
    Ensures (liftE (mkBits c b)) (fun v => Spec.hasShape Spec.countReceived (.bitString c) v = true) := by
  refine Ensures.liftE fun a h => ?_
  unfold mkBits at h
  split at h
  · cases h; simpa [Spec.hasShape] using ‹c.test b.length = true›
  · cases h

theorem ensures_mkOctets (c : SizeC) (b : List UInt8) :
    Ensures (liftE (mkOctets c b)) (fun v => Spec.hasShape Spec.countReceived (.octetString c) v = true) := by
  refine Ensures.liftE fun a h => ?_
  unfold mkOctets at h
  split at h
  · cases h; simpa [Spec.hasShape] using ‹c.test b.length = true›
  · cases h

theorem ensures_mkEnum (e : Bool) (r a : List (String × Int)) (z : Int) :
    Ensures (liftE (mkEnum (r ++ a) z)) (fun v => Spec.hasShape Spec.countReceived (.enumerated e r a) v = true) := by
  refine Ensures.liftE fun v h => ?_
  unfold mkEnum at h
  split at h
  · cases h; simp only [Spec.hasShape]; assumption
  · cases h

/-- One step of `ensures`. -/
syntax "ensures_step" : tactic
macro_rules | `(tactic| ensures_step) => `(tactic| split)
macro_rules | `(tactic| ensures_step) => `(tactic| with_reducible refine Ensures.bind' ?_)
macro_rules | `(tactic| ensures_step) => `(tactic| with_reducible refine Ensures.ite ?_ ?_)
macro_rules | `(tactic| ensures_step) => `(tactic| with_reducible exact Ensures.raise _)
macro_rules | `(tactic| ensures_step) => `(tactic| with_reducible exact ensures_mkInt _ _)
macro_rules | `(tactic| ensures_step) => `(tactic| with_reducible exact ensures_mkBits _ _)
macro_rules | `(tactic| ensures_step) => `(tactic| with_reducible exact ensures_mkOctets _ _)
macro_rules | `(tactic| ensures_step) => `(tactic| with_reducible exact ensures_mkEnum _ _ _ _)
macro_rules | `(tactic| ensures_step) => `(tactic| intro _)

theorem ensures_integer (c : Constr) : Ensures (decodeInteger c) (fun v => Spec.hasShape Spec.countReceived (.integer c) v = true) := by
  unfold decodeInteger
  repeat' ensures_step

theorem ensures_enumerated (e : Bool) (r a : List (String × Int)) :
    Ensures (decodeEnumerated e r a) (fun v => Spec.hasShape Spec.countReceived (.enumerated e r a) v = true) := by
  unfold decodeEnumerated
  repeat' ensures_step

theorem ensures_bitstring (c : SizeC) : Ensures (decodeBitstring c) (fun v => Spec.hasShape Spec.countReceived (.bitString c) v = true) := by
  have hr : Ensures (decodeBitstringRoot c) (fun v => Spec.hasShape Spec.countReceived (.bitString c) v = true) := by
    unfold decodeBitstringRoot
    repeat' ensures_step
  unfold decodeBitstring
  repeat' first | with_reducible exact hr | ensures_step

theorem ensures_octetstring (c : SizeC) :
    Ensures (decodeOctetstring c) (fun v => Spec.hasShape Spec.countReceived (.octetString c) v = true) := by
  have hr : Ensures (decodeOctetstringRoot c) (fun v => Spec.hasShape Spec.countReceived (.octetString c) v = true) := by
    unfold decodeOctetstringRoot
    repeat' ensures_step
  unfold decodeOctetstring
  repeat' first | with_reducible exact hr | ensures_step

theorem ensures_next (s : BitSize) (al : Bool) : Ensures (next s al) (fun v => v < 2 ^ (s.octets * 8 + s.bits)) := by
  constructor
  intro p v p' h
  unfold next at h
  dsimp only at h
  have hlen : ∀ o : Offset, (PerBytes.getItem ⟨o.add s, p.binaryString⟩).length ≤ s.octets * 8 + s.bits ∨
      PerBytes.getItem ⟨o.add s, p.binaryString⟩ = [false] := by
    intro o
    have hp : (o.add s).prevOctets * 8 + (o.add s).prevBits = o.currOctets * 8 + o.currBits ∧
        (o.add s).currOctets * 8 + (o.add s).currBits =
          o.currOctets * 8 + o.currBits + (s.octets * 8 + s.bits) := by
      unfold Offset.add
      dsimp only
      split
      · dsimp only; exact ⟨rfl, by omega⟩
      · dsimp only; exact ⟨rfl, by omega⟩
    unfold PerBytes.getItem
    dsimp only
    rw [hp.1, hp.2]
    split
    · right; rfl
    · left
      simp only [List.length_drop, List.length_take]
      omega
  generalize (if al then p.offset.align else p.offset) = o at h
  unfold pyInt2 at h
  split at h
  · cases h
  · cases h
    rcases hlen o with hl | hl
    · exact Nat.lt_of_lt_of_le (bitsToNat_lt _) (Nat.pow_le_pow_right (by omega) hl)
    · rw [hl]
      show (0 : Nat) < _
      exact Nat.two_pow_pos _

theorem ensures_nonNeg (s : Option BitSize) (al : Bool) :
    Ensures (decodeNonNegativeBinaryInteger s al false) (fun v => ∃ z, s = some z ∧ v < 2 ^ (z.octets * 8 + z.bits)) := by
  unfold decodeNonNegativeBinaryInteger
  rw [if_neg (by decide)]
  refine Ensures.bind (P := fun z => s = some z) (Ensures.liftE fun a h => ?_) fun z hz => ?_
  · cases s <;> cases h; rfl
  · refine (ensures_next z false).bind fun v hv => ?_
    refine Ensures.ite (fun _ => Ensures.bind' fun _ => Ensures.pure ⟨z, hz, hv⟩) fun _ => Ensures.pure ⟨z, hz, hv⟩

theorem ensures_cwn {l u : Int} (h : l ≠ u) : Ensures (decodeConstrainedWholeNumber (some l) (some u))
    (fun n => l ≤ u ∧ l ≤ n ∧ n < l + Spec.room (u - l + 1).toNat) := by
  unfold decodeConstrainedWholeNumber
  refine Ensures.bind (P := fun x => x = u) (Ensures.liftE fun a e => by cases e; rfl) fun ub hub => ?_
  refine Ensures.bind (P := fun x => x = l) (Ensures.liftE fun a e => by cases e; rfl) fun lb hlb => ?_
  subst hub hlb
  dsimp only
  unfold integerRange
  refine Ensures.ite (fun h1 => ?_) fun h1 => ?_
  · omega
  · refine Ensures.ite (fun h2 => ?_) fun h2 => ?_
    · refine (ensures_nonNeg _ _).bind fun v hv => Ensures.pure ?_
      obtain ⟨z, hz, hv⟩ := hv
      by_cases h3 : 2 ≤ ub - lb + 1
      · obtain ⟨w, hw, w0, w1, w2⟩ := getBitFieldSize_small h3 h2
        rw [hw] at hz; cases hz
        have e : (2 : Int) ^ w = ((2 ^ w : Nat) : Int) := by simp
        have e' : (2 : Int) ^ (w - 1) = ((2 ^ (w - 1) : Nat) : Int) := by simp
        rw [e] at w1
        rw [e'] at w2
        have := log2_bounds (r := (ub - lb + 1).toNat) (w := w) (by omega) (by omega) (by omega)
        unfold Spec.room
        rw [if_neg (by omega), if_pos (by omega), this]
        simp only [Nat.zero_mul, Nat.zero_add] at hv
        exact ⟨by omega, by omega, by omega⟩
      · unfold getBitFieldSize at hz
        rw [if_neg (by omega), if_neg (by omega), if_neg (by omega), if_neg (by omega), if_neg (by omega),
          if_neg (by omega), if_neg (by omega), if_neg (by omega), if_neg (by omega), if_neg (by omega),
          if_neg (by omega), if_neg (by omega)] at hz
        cases hz
    · refine Ensures.ite (fun h3 => ?_) fun h3 => ?_
      · refine Ensures.bind' fun _ => (ensures_nonNeg _ _).bind fun v hv => Ensures.pure ?_
        obtain ⟨z, hz, hv⟩ := hv
        rw [h3, getBitFieldSize_256] at hz; cases hz
        unfold Spec.room
        rw [if_neg (by omega), if_neg (by omega), if_pos (by omega)]
        simp at hv
        exact ⟨by omega, by omega, by omega⟩
      · refine Ensures.ite (fun h4 => ?_) fun h4 => ?_
        · refine Ensures.bind' fun _ => (ensures_nonNeg _ _).bind fun v hv => Ensures.pure ?_
          obtain ⟨z, hz, hv⟩ := hv
          rw [getBitFieldSize_medium h4.1 h4.2] at hz; cases hz
          unfold Spec.room
          rw [if_neg (by omega), if_neg (by omega), if_neg (by omega)]
          simp at hv
          exact ⟨by omega, by omega, by omega⟩
        · refine Ensures.bind (P := fun _ => False) ?_ fun _ h => h.elim
          unfold decodeNonNegativeBinaryInteger
          rw [if_pos rfl]
          exact Ensures.raise _

theorem ensures_count (c : SizeC) : Ensures (decodeSequenceOfCount c) (fun n => Spec.countReceived c n.toNat = true) := by
  unfold Spec.countReceived
  cases he : c.ext with
  | true => exact (Ensures.trivial _).mono fun _ _ => rfl
  | false =>
    unfold decodeSequenceOfCount
    rw [if_neg (by rw [he]; decide)]
    cases hl : c.lower with
    | none => exact (Ensures.trivial _).mono fun _ _ => rfl
    | some l =>
      cases hu : c.upper with
      | none => exact (Ensures.trivial _).mono fun _ _ => rfl
      | some u =>
        dsimp only
        simp only [Bool.false_or]
        by_cases h1 : l = u ∧ u < 65536
        · rw [if_pos h1]
          exact Ensures.pure (by simp [h1])
        · rw [if_neg h1]
          simp only [h1, if_false]
          by_cases h2 : u = 0
          · exact (Ensures.trivial _).mono fun _ _ => by simp [h2]
          · rw [if_pos h2]
            by_cases h3 : l = u
            · exact (Ensures.trivial _).mono fun _ _ => by simp [h3]
            · unfold decodeLengthDeterminant
              simp only [Bool.false_eq_true, if_false, if_true, SizeC.lowerZ, SizeC.upperZ, hl, hu, Option.map_some]
              refine (ensures_cwn (l := Int.ofNat l) (u := Int.ofNat u)
                (fun h => h3 (Int.ofNat.inj h))).mono fun n hn => ?_
              obtain ⟨h4, h5, h6⟩ := hn
              have e : ((Int.ofNat u - Int.ofNat l + 1).toNat) = u - l + 1 := by
                simp only [Int.ofNat_eq_natCast] at h4 ⊢; omega
              rw [e] at h6
              simp only [Int.ofNat_eq_natCast] at h5 h6
              have a1 : l ≤ n.toNat := by omega
              have a2 : n.toNat < l + Spec.room (u - l + 1) := by omega
              simp [a1, a2]

theorem ensures_repeat {α : Type} {m : Dec α} {P : α → Prop} (h : Ensures m P) :
    ∀ n, Ensures (repeatDec n m) (fun vs => vs.length = n ∧ ∀ v ∈ vs, P v)
  | 0 => Ensures.pure ⟨rfl, by simp⟩
  | n + 1 => by
    unfold repeatDec
    refine h.bind fun a ha => (ensures_repeat h n).bind fun as has => Ensures.pure ⟨by simp [has.1], ?_⟩
    intro v hv
    rcases List.mem_cons.1 hv with rfl | hv
    · exact ha
    · exact has.2 v hv

theorem ensures_openType {α : Type} {m : Dec α} {P : α → Prop} (h : Ensures m P) : Ensures (decodeOpenTypeField m) P := by
  unfold decodeOpenTypeField
  refine Ensures.bind' fun _ => Ensures.bind' fun _ => Ensures.bind' fun inner => ?_
  exact Ensures.bind (P := fun r => P r.1) (Ensures.liftE fun a e => h.run _ _ _ e) fun r hr => Ensures.pure hr

theorem allNone_replicate (n : Nat) : Spec.allNone (List.replicate n none) = true := by
  simp [Spec.allNone]

/-- What is guaranteed about a decoded SEQUENCE root: for any components that follow. -/
def RootOk (r : Fields) (cs : List (Option Val)) : Prop :=
  cs.length = r.length ∧ ∀ rest, Spec.hasShapeRoot Spec.countReceived r (cs ++ rest) = true
def AddsOk (r : Fields) (cs : List (Option Val)) : Prop :=
  cs.length = r.length ∧ ∀ rest, Spec.hasShapeAdds Spec.countReceived r (cs ++ rest) = true
def GroupsOk (g : Groups) (cs : List (Option Val)) : Prop :=
  cs.length = g.size ∧ ∀ rest, Spec.hasShapeGroups Spec.countReceived g (cs ++ rest) = true

mutual
theorem conforms_ty : ∀ t : Ty, Ensures (decTy t) (fun v => Spec.hasShape Spec.countReceived t v = true)
  | .boolean => by
    unfold decTy decodeBoolean
    exact Ensures.bind' fun _ => Ensures.pure (by simp [Spec.hasShape])
  | .integer c => by unfold decTy; exact ensures_integer c
  | .enumerated e r a => by unfold decTy; exact ensures_enumerated e r a
  | .bitString c => by unfold decTy; exact ensures_bitstring c
  | .octetString c => by unfold decTy; exact ensures_octetstring c
  | .seqOf c t => by
    unfold decTy
    refine (ensures_count c).bind fun n hn => (ensures_repeat (conforms_ty t) _).bind fun vs hvs => Ensures.pure ?_
    simp only [Spec.hasShape, hvs.1, hn, Bool.true_and, List.all_eq_true]
    exact hvs.2
  | .choice ext r a g => by
    have root : ∀ i, Ensures (decAlt r i) (fun v => Spec.hasShape Spec.countReceived (.choice ext r a g) (.choice i v) = true) := by
      intro i
      refine (conforms_alt r i).mono fun v hv => ?_
      simp only [Spec.hasShape, if_pos hv.1]; exact hv.2
    unfold decTy
    refine Ensures.ite (fun he => ?_) fun he => ?_
    · refine Ensures.ite (fun _ => ?_) fun _ => ?_
      · exact (root 0).bind fun v hv => Ensures.pure hv
      · exact Ensures.bind' fun i => (root i.toNat).bind fun v hv => Ensures.pure hv
    · refine Ensures.bind' fun e => Ensures.ite (fun _ => ?_) fun _ => ?_
      · refine Ensures.ite (fun _ => ?_) fun _ => ?_
        · exact (root 0).bind fun v hv => Ensures.pure hv
        · exact Ensures.bind' fun i => (root i.toNat).bind fun v hv => Ensures.pure hv
      · refine Ensures.bind' fun i => Ensures.ite (fun _ => Ensures.raise _) fun _ => ?_
        dsimp only
        have he' : ext = true := by simpa using he
        subst he'
        have hnot : ¬ r.length + i.toNat < r.length := by omega
        by_cases hi : i.toNat < a.length
        · rw [if_pos hi]
          refine (ensures_openType (conforms_alt a i.toNat)).bind fun v hv => Ensures.pure ?_
          have h2 : r.length + i.toNat < r.length + a.length := by omega
          have h3 : r.length + i.toNat - r.length = i.toNat := by omega
          simp only [Spec.hasShape, if_neg hnot, if_pos h2, h3, hv.2, Bool.true_and]
        · rw [if_neg hi]
          refine (ensures_openType (conforms_altG g (i.toNat - a.length))).bind fun v hv => Ensures.pure ?_
          have h2 : ¬ r.length + i.toNat < r.length + a.length := by omega
          have h3 : r.length + i.toNat - (r.length + a.length) = i.toNat - a.length := by omega
          simp only [Spec.hasShape, if_neg hnot, if_neg h2, h3, hv, Bool.true_and]
  | .sequence ext r a g => by
    unfold decTy
    have body : ∀ e : Nat, (ext = false → e = 0) → Ensures (do
        let opt ← decodeOptionalBits r.optionalCount
        let rootVals ← decRoot r opt
        if e ≠ 0 then do
            let bits ← decodeExtensionBits (a.length + g.length)
            let addVals ← decAdds a (List.take a.length bits)
            let groupVals ← decGroups g (List.drop a.length bits)
            pure (Val.seq (rootVals ++ addVals ++ groupVals))
          else pure (Val.seq (rootVals ++ List.replicate (a.length + g.size) none)))
        (fun v => Spec.hasShape Spec.countReceived (Ty.sequence ext r a g) v = true) := by
      intro e he
      refine Ensures.bind' fun opt => (conforms_root r opt).bind fun rv hr => ?_
      refine Ensures.ite (fun h0 => ?_) fun h0 => ?_
      · have he' : ext = true := by
          cases ext
          · exact absurd (he rfl) h0
          · rfl
        subst he'
        refine Ensures.bind' fun bits => (conforms_adds a _).bind fun av ha => (conforms_groups g _).bind fun gv hg => Ensures.pure ?_
        simp only [Spec.hasShape, if_true, Bool.and_eq_true, beq_iff_eq, List.length_append, hr.1, ha.1, hg.1]
        refine ⟨⟨trivial, ?_⟩, ?_, ?_⟩
        · rw [List.append_assoc]; exact hr.2 _
        · rw [List.append_assoc, List.drop_left' hr.1]; exact ha.2 _
        · rw [List.drop_left' (by rw [List.length_append, hr.1, ha.1])]
          have := hg.2 []
          rwa [List.append_nil] at this
      · refine Ensures.pure ?_
        simp only [Spec.hasShape, Bool.and_eq_true, beq_iff_eq, List.length_append, hr.1, List.length_replicate]
        refine ⟨⟨by omega, hr.2 _⟩, ?_⟩
        rw [List.drop_left' hr.1]
        cases ext with
        | false => simpa using allNone_replicate _
        | true =>
          simp only [if_true, Bool.and_eq_true]
          refine ⟨adds_none a _, ?_⟩
          have : List.drop (r.length + a.length) (rv ++ List.replicate (a.length + g.size) none) =
              List.replicate g.size none := by
            rw [← List.drop_drop, List.drop_left' hr.1, List.drop_replicate]
            congr 1; omega
          rw [this]; exact groups_none g _
    refine Ensures.ite (fun h => Ensures.bind' fun e => body e fun h' => ?_) fun _ => ?_
    · rw [h'] at h; cases h
    · exact Ensures.bind (P := fun e => e = 0) (Ensures.pure rfl) fun e he => body e fun _ => he
theorem conforms_alt : ∀ (r : Fields) (i : Nat), Ensures (decAlt r i) (fun v => i < r.length ∧ Spec.hasShapeAlt Spec.countReceived r i v = true)
  | .nil, _ => by unfold decAlt; exact Ensures.raise _
  | .cons _ _ t _, 0 => by
    unfold decAlt
    exact (conforms_ty t).mono fun v hv => ⟨by simp [Fields.length], by simpa [Spec.hasShapeAlt] using hv⟩
  | .cons _ _ _ r, i + 1 => by
    unfold decAlt
    exact (conforms_alt r i).mono fun v hv => ⟨by simp [Fields.length, hv.1], by simpa [Spec.hasShapeAlt] using hv.2⟩
theorem conforms_altG : ∀ (g : Groups) (i : Nat), Ensures (decAltG g i) (fun v => Spec.hasShapeAltG Spec.countReceived g i v = true)
  | .nil, _ => by unfold decAltG; exact Ensures.raise _
  | .cons f g, i => by
    unfold decAltG
    refine Ensures.ite (fun h => ?_) fun h => ?_
    · exact (conforms_alt f i).mono fun v hv => by simp [Spec.hasShapeAltG, h, hv.2]
    · exact (conforms_altG g _).mono fun v hv => by simp [Spec.hasShapeAltG, h, hv]
theorem conforms_root : ∀ (r : Fields) (o : Bits), Ensures (decRoot r o) (RootOk r)
  | .nil, _ => by unfold decRoot; exact Ensures.pure ⟨rfl, fun _ => by simp [Spec.hasShapeRoot]⟩
  | .cons n k t r, o => by
    have step : ∀ o', Ensures (decTy t >>= fun v => decRoot r o' >>= fun vs => pure (some v :: vs)) (RootOk (.cons n k t r)) := by
      intro o'
      refine (conforms_ty t).bind fun v hv => (conforms_root r o').bind fun vs hvs => Ensures.pure ⟨by simp [Fields.length, hvs.1], fun rest => ?_⟩
      simp [Spec.hasShapeRoot, hv, hvs.2 rest]
    have skip : (∀ h : k = .mandatory, False) → ∀ o', Ensures (decRoot r o' >>= fun vs => pure (none :: vs)) (RootOk (.cons n k t r)) := by
      intro hk o'
      refine (conforms_root r o').bind fun vs hvs => Ensures.pure ⟨by simp [Fields.length, hvs.1], fun rest => ?_⟩
      cases k with
      | mandatory => exact (hk rfl).elim
      | optional => simp [Spec.hasShapeRoot, hvs.2 rest]
      | default d => simp [Spec.hasShapeRoot, hvs.2 rest]
    cases k with
    | mandatory => unfold decRoot; exact step o
    | optional =>
      unfold decRoot
      cases o with
      | nil => exact Ensures.raise _
      | cons b o => exact Ensures.ite (fun _ => step o) fun _ => skip (fun h => by cases h) o
    | default d =>
      unfold decRoot
      cases o with
      | nil => exact Ensures.raise _
      | cons b o => exact Ensures.ite (fun _ => step o) fun _ => skip (fun h => by cases h) o
theorem conforms_adds : ∀ (r : Fields) (o : Bits), Ensures (decAdds r o) (AddsOk r)
  | .nil, _ => by unfold decAdds; exact Ensures.pure ⟨rfl, fun _ => by simp [Spec.hasShapeAdds]⟩
  | .cons n k t r, o => by
    have skip : ∀ o', Ensures (decAdds r o' >>= fun vs => pure (none :: vs)) (AddsOk (.cons n k t r)) := by
      intro o'
      refine (conforms_adds r o').bind fun vs hvs => Ensures.pure ⟨by simp [Fields.length, hvs.1], fun rest => ?_⟩
      simp [Spec.hasShapeAdds, hvs.2 rest]
    unfold decAdds
    cases o with
    | nil => exact skip []
    | cons b o =>
      refine Ensures.ite (fun _ => ?_) fun _ => skip o
      refine (ensures_openType (conforms_ty t)).bind fun v hv => (conforms_adds r o).bind fun vs hvs =>
        Ensures.pure ⟨by simp [Fields.length, hvs.1], fun rest => ?_⟩
      simp [Spec.hasShapeAdds, hv, hvs.2 rest]
theorem conforms_groups : ∀ (r : Groups) (o : Bits), Ensures (decGroups r o) (GroupsOk r)
  | .nil, _ => by unfold decGroups; exact Ensures.pure ⟨rfl, fun _ => by simp [Spec.hasShapeGroups]⟩
  | .cons f g, o => by
    have skip : ∀ o', Ensures (decGroups g o' >>= fun vs => pure (List.replicate f.length none ++ vs)) (GroupsOk (.cons f g)) := by
      intro o'
      refine (conforms_groups g o').bind fun vs hvs => Ensures.pure ⟨by simp [Groups.size, hvs.1], fun rest => ?_⟩
      simp only [Spec.hasShapeGroups, List.append_assoc]
      rw [List.take_left' (by simp), List.drop_left' (by simp), allNone_replicate, hvs.2 rest]
      rfl
    unfold decGroups
    cases o with
    | nil => exact skip []
    | cons b o =>
      refine Ensures.ite (fun _ => ?_) fun _ => skip o
      refine (ensures_openType (P := RootOk f) (Ensures.bind' fun opt => conforms_root f opt)).bind fun cs hcs =>
        (conforms_groups g o).bind fun vs hvs => Ensures.pure ⟨by simp [Groups.size, hvs.1, hcs.1], fun rest => ?_⟩
      simp only [Spec.hasShapeGroups, List.append_assoc]
      rw [List.drop_left' hcs.1, hcs.2, hvs.2 rest, Bool.or_true]
      rfl
theorem adds_none : ∀ (r : Fields) (n : Nat), Spec.hasShapeAdds Spec.countReceived r (List.replicate n none) = true
  | .nil, _ => by simp [Spec.hasShapeAdds]
  | .cons _ _ t r, n => by
    have : (List.replicate n (none : Option Val)).tail = List.replicate (n - 1) none := by cases n <;> simp [List.replicate_succ]
    simp only [Spec.hasShapeAdds, this, adds_none r, Bool.and_true]
    cases n <;> simp [List.replicate_succ]
theorem groups_none : ∀ (g : Groups) (n : Nat), Spec.hasShapeGroups Spec.countReceived g (List.replicate n none) = true
  | .nil, _ => by simp [Spec.hasShapeGroups]
  | .cons f g, n => by
    simp only [Spec.hasShapeGroups, List.take_replicate, List.drop_replicate, allNone_replicate, groups_none g]
    rfl
end

/-! ## tight sizes -/

theorem tight_test {c : SizeC} {n : Nat} (ht : Spec.tight c = true) (h : Spec.countReceived c n = true) :
    c.test n = true := by
  unfold Spec.tight at ht
  unfold Spec.countReceived at h
  unfold SizeC.test
  cases he : c.ext with
  | true => rfl
  | false =>
    rw [he] at ht h
    simp only [Bool.false_or] at ht h ⊢
    cases hl : c.lower with
    | none =>
      cases hu : c.upper with
      | none => rfl
      | some u => rw [hl, hu] at ht; cases ht
    | some l =>
      cases hu : c.upper with
      | none =>
        rw [hl, hu] at ht
        have : l = 0 := by simpa using ht
        simp [this]
      | some u =>
        rw [hl, hu] at ht h
        dsimp only at ht h ⊢
        by_cases h1 : l = u ∧ u < 65536
        · rw [if_pos h1] at h
          have : n = l := by simpa using h
          simp [this, h1.1]
        · rw [if_neg h1] at h
          simp only [Bool.or_eq_true, Bool.and_eq_true, beq_iff_eq, decide_eq_true_eq] at ht h ⊢
          rcases ht with ht | ⟨h2, h3⟩
          · exact absurd ht h1
          · rw [h3] at h
            omega

mutual
theorem shape_ty {v : Val} : ∀ t : Ty, Spec.allTight t = true → Spec.hasShape Spec.countReceived t v = true →
    Spec.hasShape SizeC.test t v = true
  | .boolean, _, h => by cases v <;> simp [Spec.hasShape] at h ⊢
  | .integer c, _, h => by cases v <;> simp_all [Spec.hasShape]
  | .enumerated _ _ _, _, h => by cases v <;> simp_all [Spec.hasShape]
  | .bitString _, _, h => by cases v <;> simp_all [Spec.hasShape]
  | .octetString _, _, h => by cases v <;> simp_all [Spec.hasShape]
  | .seqOf c t, ht, h => by
    cases v with
    | seqOf vs =>
      simp only [Spec.allTight, Bool.and_eq_true] at ht
      simp only [Spec.hasShape, Bool.and_eq_true, List.all_eq_true] at h ⊢
      exact ⟨tight_test ht.1 h.1, fun v hv => shape_ty t ht.2 (h.2 v hv)⟩
    | _ => simp [Spec.hasShape] at h
  | .choice ext r a g, ht, h => by
    cases v with
    | choice pos v =>
      simp only [Spec.allTight, Bool.and_eq_true] at ht
      simp only [Spec.hasShape] at h ⊢
      split
      · rw [if_pos ‹_›] at h; exact shape_alt r _ ht.1.1 h
      · rw [if_neg ‹_›] at h
        simp only [Bool.and_eq_true] at h ⊢
        refine ⟨h.1, ?_⟩
        replace h := h.2
        split
        · rw [if_pos ‹_›] at h; exact shape_alt a _ ht.1.2 h
        · rw [if_neg ‹_›] at h; exact shape_altG g _ ht.2 h
    | _ => simp [Spec.hasShape] at h
  | .sequence ext r a g, ht, h => by
    cases v with
    | seq cs =>
      simp only [Spec.allTight, Bool.and_eq_true] at ht
      simp only [Spec.hasShape, Bool.and_eq_true] at h ⊢
      refine ⟨⟨h.1.1, shape_root r _ ht.1.1 h.1.2⟩, ?_⟩
      replace h := h.2
      split
      · rw [if_pos ‹_›] at h
        simp only [Bool.and_eq_true] at h ⊢
        exact ⟨shape_adds a _ ht.1.2 h.1, shape_groups g _ ht.2 h.2⟩
      · rw [if_neg ‹_›] at h; exact h
    | _ => simp [Spec.hasShape] at h
theorem shape_alt {v : Val} : ∀ (r : Fields) (i : Nat), Spec.allTightF r = true →
    Spec.hasShapeAlt Spec.countReceived r i v = true → Spec.hasShapeAlt SizeC.test r i v = true
  | .nil, _, _, h => by simp [Spec.hasShapeAlt] at h
  | .cons _ _ t r, 0, ht, h => by
    simp only [Spec.allTightF, Bool.and_eq_true] at ht
    simp only [Spec.hasShapeAlt] at h ⊢
    exact shape_ty t ht.1 h
  | .cons _ _ t r, i + 1, ht, h => by
    simp only [Spec.allTightF, Bool.and_eq_true] at ht
    simp only [Spec.hasShapeAlt] at h ⊢
    exact shape_alt r i ht.2 h
theorem shape_altG {v : Val} : ∀ (g : Groups) (i : Nat), Spec.allTightG g = true →
    Spec.hasShapeAltG Spec.countReceived g i v = true → Spec.hasShapeAltG SizeC.test g i v = true
  | .nil, _, _, h => by simp [Spec.hasShapeAltG] at h
  | .cons f g, i, ht, h => by
    simp only [Spec.allTightG, Bool.and_eq_true] at ht
    simp only [Spec.hasShapeAltG] at h ⊢
    split
    · rw [if_pos ‹_›] at h; exact shape_alt f _ ht.1 h
    · rw [if_neg ‹_›] at h; exact shape_altG g _ ht.2 h
theorem shape_root : ∀ (r : Fields) (cs : List (Option Val)), Spec.allTightF r = true →
    Spec.hasShapeRoot Spec.countReceived r cs = true → Spec.hasShapeRoot SizeC.test r cs = true
  | .nil, _, _, _ => by simp [Spec.hasShapeRoot]
  | .cons _ k t r, cs, ht, h => by
    simp only [Spec.allTightF, Bool.and_eq_true] at ht
    simp only [Spec.hasShapeRoot, Bool.and_eq_true] at h ⊢
    refine ⟨?_, shape_root r _ ht.2 h.2⟩
    replace h := h.1
    revert h
    cases cs.head?.getD none with
    | none => cases k <;> exact fun h => h
    | some v => exact fun h => shape_ty t ht.1 h
theorem shape_adds : ∀ (r : Fields) (cs : List (Option Val)), Spec.allTightF r = true →
    Spec.hasShapeAdds Spec.countReceived r cs = true → Spec.hasShapeAdds SizeC.test r cs = true
  | .nil, _, _, _ => by simp [Spec.hasShapeAdds]
  | .cons _ k t r, cs, ht, h => by
    simp only [Spec.allTightF, Bool.and_eq_true] at ht
    simp only [Spec.hasShapeAdds, Bool.and_eq_true] at h ⊢
    refine ⟨?_, shape_adds r _ ht.2 h.2⟩
    replace h := h.1
    revert h
    cases cs.head?.getD none with
    | none => exact fun h => h
    | some v => exact fun h => shape_ty t ht.1 h
theorem shape_groups : ∀ (g : Groups) (cs : List (Option Val)), Spec.allTightG g = true →
    Spec.hasShapeGroups Spec.countReceived g cs = true → Spec.hasShapeGroups SizeC.test g cs = true
  | .nil, _, _, _ => by simp [Spec.hasShapeGroups]
  | .cons f g, cs, ht, h => by
    simp only [Spec.allTightG, Bool.and_eq_true] at ht
    simp only [Spec.hasShapeGroups, Bool.and_eq_true, Bool.or_eq_true] at h ⊢
    exact ⟨h.1.imp id (shape_root f _ ht.1), shape_groups g _ ht.2 h.2⟩
end

end Verif
