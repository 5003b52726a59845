import Verif.SpecDomain
import Verif.Lemmas.Total
import Verif.Lemmas.Faults
/-!
# What the encoder takes
-/
namespace Verif

open Spec

/-- There is a result. -/
def Done {α : Type} (x : Except Err α) : Prop := ∃ a, x = .ok a

theorem done_ok {α : Type} (a : α) : Done (.ok a : Except Err α) := ⟨a, rfl⟩
theorem done_pure {α : Type} (a : α) : Done (pure a : Except Err α) := ⟨a, rfl⟩
theorem not_done {α : Type} (e : Err) : ¬ Done (.error e : Except Err α) := fun ⟨_, h⟩ => by cases h

theorem done_bind {α β : Type} {x : Except Err α} {f : α → Except Err β} {P : Prop}
    (h : ∀ a, x = .ok a → (Done (f a) ↔ P)) : Done (x >>= f) ↔ Done x ∧ P := by
  cases x with
  | error e => exact ⟨fun hd => (not_done e hd).elim, fun hd => (not_done e hd.1).elim⟩
  | ok a => exact ⟨fun hd => ⟨done_ok a, (h a rfl).1 hd⟩, fun hd => (h a rfl).2 hd.2⟩

theorem done_map {α β : Type} {x : Except Err α} {f : α → Except Err β} (h : ∀ a, Done (f a)) : Done (x >>= f) ↔ Done x := by
  rw [done_bind (P := True) fun a _ => iff_true_intro (h a)]
  exact ⟨fun h => h.1, fun h => ⟨h, trivial⟩⟩

theorem iff_false_of {α : Type} {e : Err} {b : Bool} (h : b = false) : Done (.error e : Except Err α) ↔ b = true :=
  ⟨fun hd => (not_done e hd).elim, fun hb => by rw [h] at hb; cases hb⟩

theorem iff_true_of {α : Type} {a : α} {b : Bool} (h : b = true) : Done (.ok a : Except Err α) ↔ b = true :=
  ⟨fun _ => h, fun _ => done_ok a⟩

/-! ## numbers -/

theorem nonNeg_done {z : Int} {s : Option BitSize} {al m : Bool} :
    Done (encodeNonNegativeBinaryInteger z s al m) ↔ 0 ≤ z ∧ (m = true ∨ s ≠ none) := by
  unfold encodeNonNegativeBinaryInteger
  split
  · exact ⟨fun h => (not_done _ h).elim, fun h => by omega⟩
  · rename_i hz
    cases m with
    | true => exact ⟨fun _ => ⟨by omega, .inl rfl⟩, fun _ => done_ok _⟩
    | false =>
      cases s with
      | none => exact ⟨fun h => (not_done _ h).elim, fun h => by simp at h⟩
      | some s => exact ⟨fun _ => ⟨by omega, .inr (by simp)⟩, fun _ => done_ok _⟩

theorem takesRange_iff {l u z : Int} : takesRange l u z = true ↔ l = u ∨ (l < u ∧ l ≤ z) := by
  simp [takesRange]

theorem cwn_done {z l u : Int} : Done (encodeConstrainedWholeNumber z (some l) (some u)) ↔ takesRange l u z = true := by
  rw [takesRange_iff]
  show Done (if u - l + 1 = 1 then _ else _) ↔ _
  have hs : getBitFieldSize (u - l + 1) ≠ none ↔ l ≤ u := by
    constructor
    · intro h
      apply Classical.byContradiction
      intro hlt
      refine h ?_
      unfold getBitFieldSize
      simp only [show ¬ (u - l + 1 = 1) by omega, show ¬ (u - l + 1 = 2) by omega, show ¬ (3 ≤ u - l + 1) by omega,
        show ¬ (5 ≤ u - l + 1) by omega, show ¬ (9 ≤ u - l + 1) by omega, show ¬ (17 ≤ u - l + 1) by omega,
        show ¬ (33 ≤ u - l + 1) by omega, show ¬ (65 ≤ u - l + 1) by omega, show ¬ (129 ≤ u - l + 1) by omega,
        show ¬ (u - l + 1 = 256) by omega, show ¬ (256 < u - l + 1) by omega, show ¬ (u - l + 1 > 65536) by omega,
        false_and, if_false]
    · intro h hn
      have := getBitFieldSize_none hn
      omega
  split
  · exact ⟨fun _ => .inl (by omega), fun _ => done_pure _⟩
  rename_i h1
  split
  · rw [nonNeg_done, hs]; simp; omega
  split
  · rw [nonNeg_done, hs]; simp; omega
  split
  · rw [nonNeg_done, hs]; simp; omega
  · rw [nonNeg_done]; simp; omega

theorem cwn_length {z l u : Int} {f : BitField} (hr : 65536 < u - l + 1)
    (h : encodeConstrainedWholeNumber z (some l) (some u) = .ok f) : 8 ≤ f.value.length := by
  replace h : (if u - l + 1 = 1 then pure ⟨false, []⟩ else _ : Except Err BitField) = .ok f := h
  rw [if_neg (by omega), if_neg (by omega), if_neg (by omega), if_neg (by omega)] at h
  unfold encodeNonNegativeBinaryInteger at h
  split at h
  · cases h
  simp only [if_true, Except.ok.injEq] at h
  subst h
  dsimp only
  have : 0 < (pyBin (z - l).toNat).length := by simp [pyBin, natToBits_length]
  split
  · rename_i h8
    rw [List.length_append, padBits, List.length_replicate]
    omega
  · omega

theorem fieldList_done {z l u : Int} : Done (fieldListConstrained z (some l) (some u)) ↔ takesRange l u z = true := by
  unfold fieldListConstrained
  rw [done_bind (P := True), cwn_done]
  · simp
  intro f hf
  refine iff_true_intro ?_
  show Done (if integerRange l u ≤ 65536 then _ else _)
  split
  · exact done_pure _
  rename_i hr
  have h8 := cwn_length (by unfold integerRange at hr; omega) hf
  obtain ⟨_, h3, _⟩ := getRangeOctetLen_spec (r := u - l) (by unfold integerRange at hr; omega)
  rw [done_map fun _ => done_pure _]
  unfold encodeLengthDeterminant
  simp only [Bool.false_eq_true, if_false, if_true]
  rw [done_map fun _ => done_pure _, cwn_done, takesRange_iff]
  right
  omega

theorem length_done {n : Int} (h : 0 ≤ n) (l u : Option Int) : Done (encodeLengthDeterminant false false n l u) ↔ n ≤ 16384 := by
  unfold encodeLengthDeterminant
  simp only [Bool.false_eq_true, if_false]
  split
  · rw [done_map fun _ => done_pure _, nonNeg_done]; simp; omega
  split
  · rw [done_map fun _ => done_pure _, nonNeg_done]; simp; omega
  · exact ⟨fun h => (not_done _ h).elim, fun h => by omega⟩

theorem small_done {n : Int} (h : 1 ≤ n) (l u : Option Int) : Done (encodeLengthDeterminant true false n l u) ↔ n ≤ 64 := by
  unfold encodeLengthDeterminant
  simp only [if_true]
  split
  · rw [done_map fun _ => done_pure _, nonNeg_done]; simp; omega
  · exact ⟨fun h => (not_done _ h).elim, fun h => by omega⟩

/-- The least number of octets. -/
theorem minimum_length {z : Int} {s : Option BitSize} {al : Bool} {f : BitField}
    (h : encodeNonNegativeBinaryInteger z s al true = .ok f) : (f.value.length / 8 ≤ 16384 ↔ unsignedFits 16384 z = true) := by
  unfold encodeNonNegativeBinaryInteger at h
  split at h
  · cases h
  simp only [if_true, Except.ok.injEq] at h
  subst h
  dsimp only
  have hl : (pyBin z.toNat).length = z.toNat.log2 + 1 := by simp [pyBin, natToBits_length]
  simp only [unsignedFits, decide_eq_true_eq]
  split
  · rename_i h8
    rw [List.length_append, padBits, List.length_replicate]
    omega
  · omega

theorem semi_done {z l : Int} {g : BitField → Except Err (List BitField)} (u : Option Int) (hg : ∀ f, g f =
      (encodeLengthDeterminant false false ((f.value.length / 8 : Nat) : Int) (some 1) u >>= fun ld => pure (ld ++ [f]))) :
    Done (encodeSemiConstrainedWholeNumber z l >>= g) ↔ l ≤ z ∧ unsignedFits 16384 (z - l) = true := by
  unfold encodeSemiConstrainedWholeNumber
  rw [done_bind (P := unsignedFits 16384 (z - l) = true), nonNeg_done]
  · simp
  · intro f hf
    rw [hg, done_map fun _ => done_pure _, length_done (by omega), ← minimum_length hf]
    omega

theorem normallySmall_done (n : Nat) : Done (encodeNormallySmall (n : Int) 0) ↔ unsignedFits 16384 (n : Int) = true := by
  unfold encodeNormallySmall
  split
  · rename_i h
    rw [done_map fun _ => done_pure _, nonNeg_done]
    simp only [ne_eq, reduceCtorEq, not_false_eq_true, or_true, and_true, unsignedFits, decide_eq_true_eq, Int.toNat_natCast]
    refine ⟨fun _ => ?_, fun _ => by omega⟩
    by_cases h0 : n = 0
    · subst h0; decide
    · have : n.log2 < 7 := (Nat.log2_lt h0).2 (by omega)
      omega
  · unfold encodeSemiConstrainedWholeNumber
    rw [done_bind (P := unsignedFits 16384 (n : Int) = true), nonNeg_done]
    · simp
    · intro f hf
      rw [done_map fun _ => done_pure _, length_done (by omega)]
      rw [Int.sub_zero] at hf
      rw [← minimum_length hf]
      omega

/-! ## simple types -/

theorem int_done (c : Constr) (z : Int) : Done (encodeInteger c z) ↔ takesInt c z = true := by
  unfold encodeInteger takesInt
  cases hl : c.lower with
  | none =>
    cases hx : c.ext with
    | true => exact iff_false_of rfl
    | false => exact iff_true_of rfl
  | some l =>
    cases hu : c.upper with
    | none =>
      cases hx : c.ext with
      | true =>
        simp only [if_true, chainLe, needInt]
        show Done ((if l ≤ z then _ else _) >>= _) ↔ _
        split
        · rename_i h
          exact iff_false_of (by simp; omega)
        · rename_i h
          exact iff_true_of (by simp; omega)
      | false =>
        simp only [Bool.false_eq_true, if_false]
        rw [semi_done none fun f => rfl]
        simp
    | some u =>
      cases hx : c.ext with
      | true =>
        simp only [if_true, Bool.true_or, iff_true]
        show Done ((if l ≤ z then _ else _) >>= _)
        split
        · show Done (if decide (z ≤ u) = true then _ else _)
          split
          · rename_i h1 h2
            rw [done_map fun _ => done_pure _, fieldList_done, takesRange_iff]
            simp at h2; omega
          · exact done_pure _
        · exact done_pure _
      | false =>
        simp only [Bool.false_eq_true, if_false, Bool.false_or]
        exact fieldList_done

theorem findIdx?_idxOf (l : List Int) (z : Int) :
    l.findIdx? (· == z) = if l.contains z then some (l.idxOf z) else none := by
  induction l with
  | nil => rfl
  | cons a l ih =>
    rw [List.findIdx?_cons, ih, List.idxOf_cons, List.contains_cons]
    by_cases h : a = z
    · subst h; simp
    · have h1 : (a == z) = false := by simpa using h
      have h2 : (z == a) = false := by simpa using fun h' => h h'.symm
      rw [h1, h2]
      simp only [Bool.false_or, cond_false, Bool.false_eq_true, if_false]
      split <;> simp

theorem enum_done (ext : Bool) (root add : List (String × Int)) (z : Int) :
    Done (encodeEnumerated ext root add z) ↔ takesEnum ext root add z = true := by
  unfold encodeEnumerated takesEnum
  cases ext with
  | false =>
    simp only [Bool.not_false, if_true]
    exact fieldList_done
  | true =>
    simp only [Bool.not_true, Bool.false_eq_true, if_false]
    split
    · rw [done_map fun _ => done_pure _]; exact fieldList_done
    · rw [findIdx?_idxOf]
      split
      · rename_i h
        split at h
        · cases h
        · rename_i hc
          exact iff_false_of (by rw [Bool.not_eq_true] at hc; rw [hc]; rfl)
      · rename_i n h
        split at h
        · rename_i hc
          cases h
          rw [done_map fun _ => done_pure _, hc, Bool.true_and]
          exact normallySmall_done _
        · cases h

theorem chain_done {c : SizeC} {n : Nat} {l u : Nat} (hl : c.lower = some l) (hu : c.upper = some u) {α : Type} (a b : Except Err α) :
    (chainLe c.lowerZ c.upperZ n >>= fun x => if x = true then a else b) = if l ≤ n ∧ n ≤ u then a else b := by
  have : chainLe c.lowerZ c.upperZ (n : Int) = .ok (decide (l ≤ n ∧ n ≤ u)) := by
    simp only [chainLe, SizeC.lowerZ, SizeC.upperZ, hl, hu, Option.map_some, needInt]
    show (if (l : Int) ≤ n then pure (decide ((n : Int) ≤ u)) else pure false : Except Err Bool) = _
    split
    · show Except.ok _ = _
      congr 1
      rw [decide_eq_decide]
      omega
    · show Except.ok _ = _
      congr 1
      symm
      rw [decide_eq_false_iff_not]
      omega
  rw [this]
  show (if decide _ = true then a else b) = _
  by_cases h : l ≤ n ∧ n ≤ u <;> simp [h]

/-- One that is missing. -/
theorem chain_open {c : SizeC} {n : Nat} {l : Nat} (hl : c.lower = some l) (hu : c.upper = none) {α : Type} (a b : Except Err α) :
    (chainLe c.lowerZ c.upperZ n >>= fun x => if x = true then a else b) = if n < l then b else .error .typeError := by
  simp only [chainLe, SizeC.lowerZ, SizeC.upperZ, hl, hu, Option.map_some, Option.map_none, needInt]
  show ((if (l : Int) ≤ n then _ else _) >>= _) = _
  by_cases h : n < l
  · rw [if_neg (by omega), if_pos h]; rfl
  · rw [if_pos (by omega), if_neg h]; rfl

theorem chain_none {c : SizeC} {n : Nat} (hl : c.lower = none) {α : Type} (a b : Except Err α) :
    (chainLe c.lowerZ c.upperZ n >>= fun x => if x = true then a else b) = .error .typeError := by
  simp only [chainLe, SizeC.lowerZ, hl, Option.map_none, needInt]
  rfl

theorem takesLength_iff {n : Nat} : takesLength n = true ↔ (n : Int) ≤ 16384 := by
  simp only [takesLength, decide_eq_true_eq]
  omega

/-- Of a string. -/
theorem size_done {wide : Bool} {c : SizeC} {n : Nat} {a b : Except Err (List BitField)}
    (ha : Done a ↔ takesSizeRoot wide c n = true) (hb : Done b ↔ takesLength n = true) :
    Done (if c.ext = true then chainLe c.lowerZ c.upperZ n >>= fun x => if x = true then a else b else a) ↔ takesSize wide c n = true := by
  unfold takesSize
  cases hx : c.ext with
  | false => simpa using ha
  | true =>
    simp only [if_true, Bool.not_true, Bool.false_eq_true, if_false]
    cases hl : c.lower with
    | none => rw [chain_none hl]; exact iff_false_of rfl
    | some l =>
      cases hu : c.upper with
      | none =>
        rw [chain_open hl hu]
        split
        · rename_i h; simpa [h] using hb
        · rename_i h; exact iff_false_of (by simp [h])
      | some u =>
        rw [chain_done hl hu]
        dsimp only
        split
        · exact ha
        · exact hb

theorem constrainedLength_done (c : SizeC) (n : Nat) {u : Nat} (hu : c.upper = some u) :
    Done (encodeLengthDeterminant false true n c.lowerZ c.upperZ) ↔ (match c.lower with | none => false | some l => takesRange l u n) = true := by
  unfold encodeLengthDeterminant
  simp only [Bool.false_eq_true, if_false, if_true]
  rw [done_map fun _ => done_pure _]
  simp only [SizeC.lowerZ, SizeC.upperZ, hu, Option.map_some]
  cases hl : c.lower with
  | none => exact iff_false_of rfl
  | some l => exact cwn_done

theorem bits_done (c : SizeC) (b : Bits) : Done (encodeBitstring c b) ↔ takesBits c b = true := by
  have hn : (asBinary b).length = max 1 b.length := by
    cases b with
    | nil => rfl
    | cons x b => simp [asBinary]
  have root : ∀ e, Done (encodeBitstringRoot c (asBinary b) e) ↔ takesSizeRoot true c (asBinary b).length = true := by
    intro e
    unfold encodeBitstringRoot takesSizeRoot
    dsimp only
    split
    · exact iff_true_of rfl
    split
    · split
      · exact iff_true_of (by rw [decide_eq_true_eq]; omega)
      · split
        · rename_i h; exact iff_true_of (by simpa using h)
        · rename_i h; exact iff_false_of (by simpa using h)
    · cases hu : c.upper with
      | none => dsimp only; rw [done_map fun _ => done_pure _, length_done (by omega), takesLength_iff]
      | some u =>
        dsimp only
        by_cases h : u < 65536
        · rw [if_pos h, if_neg (by omega), done_map fun _ => done_pure _]
          exact constrainedLength_done c _ hu
        · rw [if_neg h, if_pos ⟨rfl, by omega⟩, done_map fun _ => done_pure _, length_done (by omega), takesLength_iff]
  unfold takesBits
  rw [← hn]
  refine Iff.trans (Eq.to_iff (congrArg Done ?_)) (size_done (wide := true) (c := c) (n := (asBinary b).length)
    (a := if c.ext then encodeBitstringRoot c (asBinary b) (some ⟨false, [false]⟩) else encodeBitstringRoot c (asBinary b) none)
    (b := encodeLengthDeterminant false false (asBinary b).length (some 0) none >>= fun ld => pure ([⟨false, [true]⟩] ++ ld ++ [⟨true, asBinary b⟩])) ?_ ?_)
  · unfold encodeBitstring
    cases c.ext <;> rfl
  · split <;> exact root _
  · rw [done_map fun _ => done_pure _, length_done (by omega), takesLength_iff]

theorem octets_done (c : SizeC) (o : List UInt8) : Done (encodeOctetstring c o) ↔ takesOctets c o = true := by
  have hn : (octetBits o).length / 8 = o.length := by
    unfold octetBits
    rw [octetBits_eq, bytesToBits_length]; omega
  have root : ∀ e, Done (encodeOctetstringRoot c (octetBits o) e) ↔ takesSizeRoot false c o.length = true := by
    intro e
    unfold encodeOctetstringRoot takesSizeRoot
    dsimp only
    rw [hn]
    split
    · exact iff_true_of rfl
    split
    · split
      · exact iff_true_of (by rw [decide_eq_true_eq]; omega)
      · split
        · rename_i h; exact iff_true_of (by simpa using h)
        · rename_i h; exact iff_false_of (by simpa using h)
    · cases hu : c.upper with
      | none => dsimp only; rw [done_map fun _ => done_pure _, length_done (by omega), takesLength_iff]
      | some u =>
        dsimp only
        rw [if_neg (by simp), done_map fun _ => done_pure _]
        exact constrainedLength_done c _ hu
  unfold takesOctets
  refine Iff.trans (Eq.to_iff (congrArg Done ?_)) (size_done (wide := false) (c := c) (n := o.length)
    (a := if c.ext then encodeOctetstringRoot c (octetBits o) (some ⟨false, [false]⟩) else encodeOctetstringRoot c (octetBits o) none)
    (b := encodeLengthDeterminant false false o.length c.lowerZ none >>= fun ld => pure ([⟨false, [true]⟩] ++ ld ++ [⟨false, octetBits o⟩])) ?_ ?_)
  · unfold encodeOctetstring
    dsimp only
    rw [hn]
    cases c.ext <;> rfl
  · split <;> exact root _
  · rw [done_map fun _ => done_pure _, length_done (by omega), takesLength_iff]

theorem count_done (c : SizeC) (n : Nat) (fl : List BitField) : Done (encodeSequenceOf c n fl) ↔ takesCount c n = true := by
  unfold encodeSequenceOf takesCount
  have plain : ∀ l, ∀ pre : List BitField → List BitField, Done (encodeLengthDeterminant false false n l none >>= fun ld => pure (pre ld)) ↔ takesLength n = true := by
    intro l pre
    rw [done_map fun _ => done_pure _, length_done (by omega), takesLength_iff]
  cases hl : c.lower with
  | none =>
    cases hx : c.ext with
    | true => simp only [if_true]; rw [chain_none hl]; exact iff_false_of rfl
    | false => exact iff_false_of rfl
  | some l =>
    cases hu : c.upper with
    | none =>
      cases hx : c.ext with
      | true =>
        simp only [if_true]
        rw [chain_open hl hu]
        split
        · rename_i h
          simp only [h, decide_true, decide_false, Bool.true_and, Bool.false_or]; exact plain (some 0) fun ld => [⟨false, [true]⟩] ++ ld ++ fl
        · rename_i h; exact iff_false_of (by simp [h])
      | false =>
        simp only [Bool.false_eq_true, if_false]
        split
        · rename_i h; exact iff_false_of (by simp; intro; omega)
        · rename_i h
          have h' : l ≤ n := by omega
          simpa [h'] using plain c.lowerZ fun ld => ld ++ fl
    | some u =>
      cases hx : c.ext with
      | true =>
        simp only [if_true]
        rw [chain_done hl hu]
        split
        · rename_i h
          rw [done_map fun _ => done_pure _, constrainedLength_done c n hu, hl]
          simp only [takesRange_iff, h, and_self, decide_true, Bool.true_or, iff_true]
          omega
        · rename_i h
          simp only [h, decide_true, decide_false, Bool.true_and, Bool.false_or]; exact plain (some 0) fun ld => [⟨false, [true]⟩] ++ ld ++ fl
      | false =>
        simp only [Bool.false_eq_true, if_false]
        by_cases h : n < l
        · rw [if_pos h]; exact iff_false_of (by simp; omega)
        rw [if_neg h]
        have h' : l ≤ n := by omega
        simp only [h', decide_true, Bool.true_and]
        by_cases hu0 : u = 0
        · subst hu0
          simp only [ne_eq, not_true, false_and, if_false, if_true]
          split
          · rename_i h0; exact iff_true_of (by simp [h0.1])
          · rename_i h0
            have : (l == 0) = false := by simp; omega
            rw [this, Bool.false_or]
            exact plain c.lowerZ fun ld => ld ++ fl
        · simp only [ne_eq, hu0, not_false_eq_true, true_and, if_true, if_false]
          split
          · rename_i h0; exact iff_false_of (by simp; omega)
          · rename_i h0
            rw [decide_eq_true (by omega : n ≤ u)]
            simp only [iff_true]
            split
            · exact done_pure _
            · rw [done_map fun _ => done_pure _, constrainedLength_done c n hu, hl]
              simp only [takesRange_iff]
              omega

/-! ## open types -/

/-- The length of the fields on their own can be written. -/
def Fits (fl : List BitField) : Prop := (produceCompleteEncoding fl).length / 8 ≤ 16384

theorem openType_done (fl : List BitField) : Done (encodeOpenTypeField fl) ↔ Fits fl := by
  unfold encodeOpenTypeField Fits
  dsimp only
  rw [done_map fun _ => done_pure _, length_done (by omega)]
  omega

theorem short_iff (t : Ty) (v : Val) : short t v = true ↔ ∃ fl, encTy t v = .ok fl ∧ Fits fl := by
  unfold short Fits
  cases he : encode t v with
  | error e =>
    refine ⟨fun h => (nomatch h), fun ⟨fl, h, _⟩ => ?_⟩
    obtain ⟨bs, hb⟩ := encode_of_encTy h
    rw [he] at hb; cases hb
  | ok bs =>
    obtain ⟨fl, h1, h2⟩ := (encode_eq t v bs).1 he
    simp only [takesLength, decide_eq_true_eq]
    have : (produceCompleteEncoding fl).length / 8 = bs.length := by rw [← h2, bytesToBits_length]; omega
    constructor
    · exact fun h => ⟨fl, h1, by omega⟩
    · rintro ⟨fl', h, h3⟩
      rw [h1] at h; cases h
      omega

theorem done_bind' {α β : Type} {x : Except Err α} {f : α → Except Err β} : Done (x >>= f) ↔ ∃ a, x = .ok a ∧ Done (f a) := by
  cases x with
  | error e => exact ⟨fun hd => (not_done e hd).elim, fun ⟨a, h, _⟩ => nomatch h⟩
  | ok a => exact ⟨fun hd => ⟨a, rfl, hd⟩, fun ⟨b, h, hd⟩ => by cases h; exact hd⟩

theorem mapM_done {f : Val → Except Err (List BitField)} : ∀ {vs : List Val}, Done (vs.mapM f) ↔ ∀ v ∈ vs, Done (f v)
  | [] => ⟨fun _ _ h => (nomatch h), fun _ => ⟨[], rfl⟩⟩
  | v :: vs => by
    rw [List.mapM_cons, done_bind (P := ∀ v ∈ vs, Done (f v)), List.forall_mem_cons]
    intro a _
    rw [done_map fun _ => done_pure _, mapM_done]

/-! ## CHOICE -/

theorem choice_done {ext none : Bool} {n pos : Nat} {fl : List BitField} (hn : n ≤ pos → none = false) :
    Done (assembleChoice ext n none pos fl) ↔ (pos < n ∨ ext = false ∨ (unsignedFits 16384 (pos - n : Nat) = true ∧ Fits fl)) := by
  unfold assembleChoice
  have ix : pos < n → Done (fieldListConstrained pos (some 0) (some ((n : Int) - 1))) := fun h => by
    rw [fieldList_done, takesRange_iff]; omega
  cases ext with
  | false =>
    simp only [Bool.not_false, if_true, true_or, or_true, iff_true]
    split
    · exact done_pure _
    split
    · rename_i h
      rw [done_map fun _ => done_pure _]
      exact ix h
    · exact done_pure _
  | true =>
    simp only [Bool.not_true, Bool.false_eq_true, if_false]
    by_cases h : pos < n
    · simp only [h, if_true, true_or, iff_true]
      split
      · exact done_pure _
      · rw [done_map fun _ => done_pure _]
        exact ix h
    · simp only [h, if_false, hn (by omega), Bool.false_eq_true, false_or, reduceCtorEq]
      rw [done_bind (P := Fits fl), normallySmall_done]
      intro a _
      rw [done_map fun _ => done_pure _, openType_done]

/-! ## SEQUENCE -/

theorem comparable_done (d v : Val) : Done (pyValueNe d v) ↔ comparable d v = true := by
  cases d <;> cases v <;> first | exact iff_true_of rfl | exact iff_false_of rfl

theorem optionalBits_done (opt : Bits) (fl : List BitField) : Done (withOptionalBits opt fl) ↔ opt.length < 65536 := by
  unfold withOptionalBits
  split
  · rename_i h
    refine ⟨fun _ => ?_, fun _ => done_ok _⟩
    rw [List.isEmpty_iff] at h
    subst h
    decide
  · split
    · rename_i h; exact ⟨fun _ => h, fun _ => done_ok _⟩
    · rename_i h; exact ⟨fun hd => (not_done _ hd).elim, fun hl => (h hl).elim⟩

theorem bitsToNat_any (b : Bits) : 0 < bitsToNat b ↔ b.any id = true := by
  have key : ∀ (b : Bits) (n : Nat), 0 < b.foldl (fun a x => 2 * a + x.toNat) n ↔ 0 < n ∨ b.any id = true := by
    intro b
    induction b with
    | nil => simp
    | cons x b ih =>
      intro n
      rw [List.foldl_cons, ih, List.any_cons]
      cases x <;> simp
  unfold bitsToNat
  rw [key]
  simp

theorem assemble_done {rf fl : List BitField} {bits : Bits} (h : bits ≠ []) :
    Done (assembleSequence rf bits fl) ↔ (bits.length ≤ 64 ∨ bits.any id = false) := by
  unfold assembleSequence
  rw [pyInt2_of_ne h]
  show Done (if bitsToNat bits > 0 then _ else _) ↔ _
  have hl := List.length_pos_iff.2 h
  split
  · rename_i hp
    rw [done_map fun _ => done_pure _, small_done (by omega), (bitsToNat_any bits).1 hp]
    simp only [Bool.true_eq_false, or_false]
    omega
  · rename_i hp
    refine ⟨fun _ => .inr ?_, fun _ => done_pure _⟩
    rw [← Bool.not_eq_true, ← bitsToNat_any]; exact hp

theorem component_done {enc : Val → Except Err (List BitField)} {e : Val → Bool} (he : ∀ v, Done (enc v) ↔ e v = true) (k : Kind) (t : Ty)
    (c : Option Val) : Done (rootComponent enc k t c) ↔
      ((match k with
        | .mandatory => (sent k t c).isSome
        | .optional => true
        | .default d => comparable d (c.getD d)) &&
       (match sent k t c with
        | some v => e v
        | none => true)) = true := by
  unfold rootComponent
  have one : ∀ b v, Done (enc v >>= fun fl => (pure (b, fl) : Except Err (Bits × List BitField))) ↔ e v = true := fun b v => by
    rw [done_map fun _ => done_pure _]; exact he v
  cases k with
  | mandatory =>
    cases c with
    | some v => simpa [sent] using one [] v
    | none =>
      simp only [sent, untouched_eq]
      cases hv : emptyVal t with
      | none => exact iff_false_of rfl
      | some v => simpa using one [] v
  | optional =>
    simp only [sent, Bool.true_and, present_eq]
    split
    · rename_i h
      cases c with
      | none => cases h
      | some v => exact one [true] v
    · exact iff_true_of rfl
  | default d =>
    have two : ∀ v, Done (pyValueNe d v >>= fun ne => if ne = true then enc v >>= fun fl => pure ([true], fl) else pure ([false], [])) ↔
        (comparable d v && (sameAsDefault d v || e v)) = true := fun v => by
      rw [done_bind (P := (sameAsDefault d v || e v) = true), comparable_done, Bool.and_eq_true]
      intro ne hne
      have := pyValueNe_eq hne
      cases hs : sameAsDefault d v with
      | true =>
        rw [hs] at this; subst this
        exact iff_true_of rfl
      | false =>
        rw [hs] at this; subst this
        simpa using one [true] v
    cases c with
    | some v =>
      simp only [sent]
      rw [two v]
      cases hs : sameAsDefault d v <;> simp
    | none =>
      simp only [sent, Option.getD_none, Bool.and_true]
      rw [two d]
      have : sameAsDefault d d = true := by cases d <;> simp [sameAsDefault]
      simp [this]

theorem addition_done {enc : Val → Except Err (List BitField)} {e : Val → Bool} (he : ∀ v, (∃ fl, enc v = .ok fl ∧ Fits fl) ↔ e v = true)
    (t : Ty) (prev : Option Prev) (c : Option Val) : Done (additionComponent enc t prev c) ↔
      (!(Prev.gap prev && c.any (valued t)) && (match c with
        | some v => !substantial t (some v) || e v
        | none => true)) = true := by
  unfold additionComponent
  cases c with
  | none => exact iff_true_of (by simp)
  | some v =>
    simp only [Option.any_some, valued_eq, ← present_eq, present]
    by_cases hv : isValue t v = true
    · rw [if_pos hv, hv]
      cases hg : Prev.gap prev with
      | true => exact iff_false_of rfl
      | false =>
        simp only [Bool.false_eq_true, if_false, Bool.false_and, Bool.not_false, Bool.true_and]
        by_cases hc : hasContent v = true
        · rw [if_pos hc, hc, done_bind']
          simp only [Bool.not_true, Bool.false_or]
          rw [← he]
          refine exists_congr fun fl => and_congr_right fun _ => ?_
          rw [done_map fun _ => done_pure _, openType_done]
        · rw [if_neg hc]
          exact iff_true_of (by simp [hc])
    · rw [if_neg hv]
      exact iff_true_of (by simp [hv])

theorem addition_bit {enc : Val → Except Err (List BitField)} {t : Ty} {prev : Option Prev} {c : Option Val} {b : Bool} {fl : List BitField}
    (h : additionComponent enc t prev c = .ok (b, fl)) : b = substantial t c := by
  unfold additionComponent at h
  rw [← present_eq]
  cases c with
  | none => cases h; rfl
  | some v =>
    simp only [present] at h ⊢
    by_cases hv : isValue t v = true
    · rw [if_pos hv] at h
      split at h
      · cases h
      · split at h
        · rename_i hc
          obtain ⟨x, _, h⟩ := Except.bind_eq_ok h
          obtain ⟨y, _, h⟩ := Except.bind_eq_ok h
          cases h
          rw [hv, hc]; rfl
        · rename_i hc
          cases h
          rw [hv]; simp [hc]
    · rw [if_neg hv] at h
      cases h
      simp [hv]

theorem adds_bits : ∀ {a : Fields} {cs : List (Option Val)} {prev : Option Prev} {bits : Bits} {fl : List BitField},
    encAdds a cs prev = .ok (bits, fl) → bits.length = a.length ∧ bits.any id = anySubstantial a cs
  | .nil, _, _, _, _, h => by simp only [encAdds, Except.ok.injEq, Prod.mk.injEq] at h; rw [← h.1]; exact ⟨rfl, rfl⟩
  | .cons n k t r, cs, prev, bits, fl, h => by
    simp only [encAdds] at h
    obtain ⟨⟨b, fl1⟩, e1, h⟩ := Except.bind_eq_ok h
    obtain ⟨⟨bs, fl2⟩, e2, h⟩ := Except.bind_eq_ok h
    cases h
    obtain ⟨h1, h2⟩ := adds_bits e2
    refine ⟨by simp [Fields.length, h1]; try omega, ?_⟩
    rw [List.any_cons, h2, addition_bit e1, anySubstantial, held_eq]
    rfl

theorem group_bit {enc : Unit → Except Err (Bits × List BitField)} {prev : Option (List Prev)} {infos : List Prev} {b : Bool} {fl : List BitField}
    (h : groupComponent enc prev infos = .ok (b, fl)) : b = infos.any (·.present) := by
  unfold groupComponent at h
  split at h
  · rename_i hn
    cases h
    simpa using hn
  · rename_i hn
    obtain ⟨_, _, h⟩ := Except.bind_eq_ok h
    obtain ⟨⟨_, _⟩, _, h⟩ := Except.bind_eq_ok h
    obtain ⟨_, _, h⟩ := Except.bind_eq_ok h
    obtain ⟨_, _, h⟩ := Except.bind_eq_ok h
    cases h
    simpa using hn

theorem groups_bits : ∀ {g : Groups} {cs : List (Option Val)} {prev : Option (List Prev)} {bits : Bits} {fl : List BitField},
    encGroups g cs prev = .ok (bits, fl) → bits.length = g.length ∧ bits.any id = anyGroup g cs
  | .nil, _, _, _, _, h => by simp only [encGroups, Except.ok.injEq, Prod.mk.injEq] at h; rw [← h.1]; exact ⟨rfl, rfl⟩
  | .cons f g, cs, prev, bits, fl, h => by
    simp only [encGroups] at h
    obtain ⟨infos, e0, h⟩ := Except.bind_eq_ok h
    obtain ⟨⟨b, fl1⟩, e1, h⟩ := Except.bind_eq_ok h
    obtain ⟨⟨bs, fl2⟩, e2, h⟩ := Except.bind_eq_ok h
    cases h
    obtain ⟨h1, h2⟩ := groups_bits e2
    refine ⟨by simp [Groups.length, h1]; try omega, ?_⟩
    rw [List.any_cons, h2, group_bit e1, scanGroup_any e0, anyGroup]
    rfl

theorem scan_done : ∀ (f : Fields) (cs : List (Option Val)) (prev : Option Prev),
    Done (scanGroup f cs prev) ↔ gapless (Prev.gap prev) f cs = true
  | .nil, _, _ => iff_true_of rfl
  | .cons n k t r, cs, prev => by
    unfold scanGroup gapless
    simp only [held_eq, isOpt_eq, any_valued]
    split
    · rename_i h
      exact iff_false_of (by rw [Bool.and_comm (Prev.gap prev), h]; rfl)
    · rename_i h
      rw [Bool.not_eq_true] at h
      rw [done_map fun _ => done_pure _, scan_done, Bool.and_comm (Prev.gap prev), h]
      simp [Prev.gap, present_eq]

theorem scan_any {f : Fields} {cs : List (Option Val)} {infos : List Prev} (h : scanGroup f cs none = .ok infos) :
    infos.any (fun p => p.present || p.optional) = (anySubstantial f cs || hasOptional f) := by
  obtain ⟨i, e1, e2⟩ := scanGroup_ok f cs none ((scan_done f cs none).1 ⟨infos, h⟩)
  rw [h] at e1; cases e1
  exact e2

/-- The previous group lets this one be present. -/
def mayFollow : Option (List Prev) → Bool
  | none => true
  | some infos => infos.any fun p => p.present || p.optional

theorem previous_done (prev : Option (List Prev)) : Done (checkPreviousGroup prev) ↔ mayFollow prev = true := by
  unfold checkPreviousGroup mayFollow
  cases prev with
  | none => exact iff_true_of rfl
  | some infos =>
    dsimp only
    split
    · rename_i h; exact iff_true_of h
    · rename_i h
      rw [Bool.not_eq_true] at h
      split
      · exact iff_false_of h
      · exact iff_false_of h

mutual
theorem done_ty : ∀ (t : Ty) (v : Val), Done (encTy t v) ↔ encodable t v = true
  | .boolean, v => by
    cases v with
    | bool b => simp only [encTy, encodable, iff_true]; exact done_ok _
    | _ => simp only [encTy, encodable]; exact iff_false_of rfl
  | .integer c, v => by
    cases v with
    | int z => simp only [encTy, encodable]; exact int_done c z
    | _ => simp only [encTy, encodable]; exact iff_false_of rfl
  | .enumerated ext root add, v => by
    cases v with
    | enum z => simp only [encTy, encodable]; exact enum_done ext root add z
    | _ => simp only [encTy, encodable]; exact iff_false_of rfl
  | .bitString c, v => by
    cases v with
    | bits b => simp only [encTy, encodable]; exact bits_done c b
    | _ => simp only [encTy, encodable]; exact iff_false_of rfl
  | .octetString c, v => by
    cases v with
    | octets o => simp only [encTy, encodable]; exact octets_done c o
    | _ => simp only [encTy, encodable]; exact iff_false_of rfl
  | .seqOf c t, v => by
    cases v with
    | seqOf vs =>
      simp only [encTy, encodable]
      rw [done_bind (P := takesCount c vs.length = true) fun fls _ => count_done c _ _, mapM_done, Bool.and_eq_true, List.all_eq_true]
      exact and_congr_left fun _ => forall_congr' fun v => imp_congr_right fun _ => done_ty t v
    | _ => simp only [encTy, encodable]; exact iff_false_of rfl
  | .choice ext r a g, v => by
    cases v with
    | choice pos v =>
      simp only [encTy, encodable]
      by_cases hr : pos < r.length
      · simp only [hr, if_true]
        rw [done_map fun fl => (choice_done fun h => by omega).2 (.inl hr), ← done_alt false r pos v]
        simp [Done]
      · simp only [hr, if_false]
        have key : ∀ (x : Except Err (List BitField)) (b : Bool), (x ≠ .ok [] ∨ True) → (Done x → ¬ (a.length = 0 ∧ g.length = 0)) →
            ((∃ fl, x = .ok fl ∧ (ext = true → Fits fl)) ↔ b = true) →
            (Done (x >>= assembleChoice ext r.length (a.length = 0 ∧ g.length = 0) pos) ↔
              ((!ext || unsignedFits 16384 (pos - r.length : Nat)) && b) = true) := by
          intro x b _ hx hb
          rw [done_bind', Bool.and_eq_true, ← hb]
          constructor
          · rintro ⟨fl, h1, h2⟩
            rw [choice_done fun _ => decide_eq_false (hx ⟨fl, h1⟩)] at h2
            rcases h2 with h2 | h2 | h2
            · exact (hr h2).elim
            · subst h2; exact ⟨rfl, fl, h1, fun h => by cases h⟩
            · exact ⟨by rw [h2.1, Bool.or_true], fl, h1, fun _ => h2.2⟩
          · rintro ⟨h2, fl, h1, h3⟩
            refine ⟨fl, h1, ?_⟩
            rw [choice_done fun _ => decide_eq_false (hx ⟨fl, h1⟩)]
            cases ext with
            | false => exact .inr (.inl rfl)
            | true => exact .inr (.inr ⟨by simpa using h2, h3 rfl⟩)
        by_cases ha : pos < r.length + a.length
        · simp only [ha, if_true]
          exact key _ _ (.inr trivial) (fun _ => by omega) (done_alt ext a _ v)
        · simp only [ha, if_false]
          refine key _ _ (.inr trivial) (fun hd => ?_) (done_altG ext g _ v)
          cases g with
          | nil => simp only [encAltG] at hd; exact (not_done _ hd).elim
          | cons f g => simp [Groups.length]
    | _ => simp only [encTy, encodable]; exact iff_false_of rfl
  | .sequence ext r a g, v => by
    cases v with
    | seq cs =>
      simp only [encTy, encodable]
      rw [Bool.and_assoc, Bool.and_eq_true, ← done_root r cs]
      refine done_bind fun ⟨opt, fl⟩ h1 => ?_
      rw [Bool.and_eq_true, decide_eq_true_eq, ← encRoot_bits_length r cs h1, ← optionalBits_done opt fl]
      refine done_bind fun rf _ => ?_
      cases ext with
      | false => exact iff_true_of rfl
      | true =>
        simp only [if_true, Bool.not_true, Bool.false_or]
        by_cases hno : a.length = 0 ∧ g.length = 0
        · rw [if_pos hno]
          have ha : a = .nil := by cases a with | nil => rfl | cons _ _ _ _ => simp [Fields.length] at hno
          have hg : g = .nil := by cases g with | nil => rfl | cons _ _ => simp [Groups.length] at hno
          subst ha hg
          exact iff_true_of (by simp [encodableAdds, gapless, encodableGroups, Fields.length, Groups.length])
        · have hd := done_adds a (cs.drop r.length) none
          simp only [Prev.gap] at hd
          rw [if_neg hno, Bool.and_eq_true, Bool.and_eq_true, Bool.and_eq_true, ← hd, and_assoc]
          refine done_bind fun ⟨abits, afl⟩ h3 => ?_
          have hd := done_groups g (cs.drop (r.length + a.length)) none
          simp only [mayFollow] at hd
          rw [← hd]
          refine done_bind fun ⟨gbits, gfl⟩ h4 => ?_
          obtain ⟨a1, a2⟩ := adds_bits h3
          obtain ⟨g1, g2⟩ := groups_bits h4
          rw [assemble_done]
          · rw [List.length_append, a1, g1, List.any_append, a2, g2]
            simp
          · intro h0
            have := congrArg List.length h0
            rw [List.length_append, a1, g1] at this
            simp at this
            omega
    | _ => simp only [encTy, encodable]; exact iff_false_of rfl
theorem done_alt (open_ : Bool) : ∀ (r : Fields) (p : Nat) (v : Val),
    (∃ fl, encAlt r p v = .ok fl ∧ (open_ = true → Fits fl)) ↔ encodableAlt open_ r p v = true
  | .nil, _, _ => by simp [encAlt, encodableAlt]
  | .cons _ _ t _, 0, v => by
    simp only [encAlt, encodableAlt, Bool.and_eq_true]
    rw [← done_ty t v]
    cases open_ with
    | false => simp [Done]
    | true =>
      simp only [Bool.not_true, Bool.false_or, short_iff, true_implies]
      exact ⟨fun ⟨fl, h⟩ => ⟨⟨fl, h.1⟩, fl, h⟩, fun h => h.2⟩
  | .cons _ _ _ r, p + 1, v => by
    simp only [encAlt, encodableAlt]
    exact done_alt open_ r p v
theorem done_altG (open_ : Bool) : ∀ (g : Groups) (p : Nat) (v : Val),
    (∃ fl, encAltG g p v = .ok fl ∧ (open_ = true → Fits fl)) ↔ encodableAltG open_ g p v = true
  | .nil, _, _ => by simp [encAltG, encodableAltG]
  | .cons f g, p, v => by
    simp only [encAltG, encodableAltG]
    split
    · exact done_alt open_ f p v
    · exact done_altG open_ g _ v
theorem done_root : ∀ (r : Fields) (cs : List (Option Val)), Done (encRoot r cs) ↔ encodableRoot r cs = true
  | .nil, _ => by simp only [encRoot, encodableRoot, iff_true]; exact done_ok _
  | .cons n k t r, cs => by
    simp only [encRoot, encodableRoot]
    refine Iff.trans (done_bind (P := encodableRoot r cs.tail = true) ?_) (by
      rw [component_done (e := encodable t) (done_ty t), ← Bool.and_eq_true]
      cases k <;> exact Iff.rfl)
    rintro ⟨b, fl⟩ _
    dsimp only
    rw [done_map fun _ => done_pure _]
    exact done_root r cs.tail
theorem done_adds : ∀ (a : Fields) (cs : List (Option Val)) (prev : Option Prev),
    Done (encAdds a cs prev) ↔ (encodableAdds a cs = true ∧ gapless (Prev.gap prev) a cs = true)
  | .nil, _, _ => by simp only [encAdds, encodableAdds, gapless, and_self, iff_true]; exact done_ok _
  | .cons n k t r, cs, prev => by
    have he : ∀ v, (∃ fl, encTy t v = .ok fl ∧ Fits fl) ↔ (encodable t v && short t v) = true := by
      intro v
      rw [Bool.and_eq_true, ← done_ty t v, short_iff]
      exact ⟨fun ⟨fl, h⟩ => ⟨⟨fl, h.1⟩, fl, h⟩, fun h => h.2⟩
    simp only [encAdds, encodableAdds, gapless]
    rw [done_bind (P := encodableAdds r cs.tail = true ∧
      gapless (!substantial t (held k (cs.head?.getD none)) && !isOpt k) r cs.tail = true), addition_done he, held_eq]
    · simp only [Bool.and_eq_true]
      exact ⟨fun h => ⟨⟨h.1.2, h.2.1⟩, h.1.1, h.2.2⟩, fun h => ⟨⟨h.2.1, h.1.1⟩, h.1.2, h.2.2⟩⟩
    · rintro ⟨b, fl⟩ h1
      dsimp only
      rw [done_map fun _ => done_pure _, done_adds r cs.tail, addition_bit h1, held_eq, isOpt_eq]
      exact Iff.rfl
theorem done_groups : ∀ (g : Groups) (cs : List (Option Val)) (prev : Option (List Prev)),
    Done (encGroups g cs prev) ↔ encodableGroups (mayFollow prev) g cs = true
  | .nil, _, _ => by simp only [encGroups, encodableGroups, iff_true]; exact done_ok _
  | .cons f g, cs, prev => by
    simp only [encGroups, encodableGroups]
    have hd := scan_done f cs none
    simp only [Prev.gap] at hd
    rw [Bool.and_assoc, Bool.and_eq_true, ← hd]
    refine done_bind fun infos h0 => ?_
    rw [Bool.and_eq_true]
    rw [done_bind (P := encodableGroups (anySubstantial f cs || hasOptional f) g (cs.drop f.length) = true)]
    · refine and_congr_left fun _ => ?_
      unfold groupComponent
      rw [scanGroup_any h0]
      cases hs : anySubstantial f cs with
      | false => exact iff_true_of rfl
      | true =>
        simp only [Bool.not_true, Bool.false_eq_true, if_false, Bool.false_or]
        rw [Bool.and_assoc, Bool.and_assoc, Bool.and_eq_true, ← previous_done prev]
        refine done_bind fun _ _ => ?_
        rw [Bool.and_eq_true, Bool.and_eq_true, decide_eq_true_eq, short_iff, ← done_root f cs]
        simp only [encTy]
        constructor
        · intro h
          obtain ⟨⟨opt, fl⟩, e1, h⟩ := done_bind'.1 h
          obtain ⟨rf, e2, h⟩ := done_bind'.1 h
          rw [done_map fun _ => done_pure _, openType_done] at h
          refine ⟨⟨_, e1⟩, ?_, rf, ?_, h⟩
          · rw [← encRoot_bits_length f cs e1]
            exact (optionalBits_done opt fl).1 ⟨rf, e2⟩
          · rw [e1]
            show (withOptionalBits opt fl >>= _) = _
            rw [e2]; rfl
        · rintro ⟨_, _, fl', h, hf⟩
          obtain ⟨⟨opt, fl⟩, e1, h⟩ := Except.bind_eq_ok h
          obtain ⟨rf, e2, h⟩ := Except.bind_eq_ok h
          cases h
          rw [done_bind']
          refine ⟨_, e1, ?_⟩
          rw [done_bind']
          refine ⟨_, e2, ?_⟩
          rw [done_map fun _ => done_pure _, openType_done]
          exact hf
    · rintro ⟨b, fl⟩ _
      dsimp only
      rw [done_map fun _ => done_pure _, done_groups g _ (some infos)]
      simp only [mayFollow, scan_any h0]
end

end Verif
