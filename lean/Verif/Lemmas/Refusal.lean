import Verif.Lemmas.Domain
/-!
# The exceptions of the encoder
-/
namespace Verif

open Spec

/-- All that is raised is in `P`. -/
def Fails {α : Type} (P : Err → Prop) (x : Except Err α) : Prop := ∀ e, x = .error e → P e

variable {α β : Type} {P : Err → Prop}

theorem fails_done {x : Except Err α} (h : Done x) : Fails P x := fun e he => by
  obtain ⟨a, ha⟩ := h; rw [ha] at he; cases he

theorem fails_ok (a : α) : Fails P (.ok a : Except Err α) := fails_done (done_ok a)
theorem fails_pure (a : α) : Fails P (pure a : Except Err α) := fails_done (done_pure a)
theorem fails_error {e : Err} (h : P e) : Fails P (.error e : Except Err α) := fun e' he => by cases he; exact h

theorem fails_bind {x : Except Err α} {f : α → Except Err β} (hx : Fails P x) (hf : ∀ a, x = .ok a → Fails P (f a)) :
    Fails P (x >>= f) := fun e he => by
  cases hd : x with
  | error e' => rw [hd] at he; cases he; exact hx _ hd
  | ok a => rw [hd] at he; exact hf a hd e he

theorem fails_ite {c : Prop} [Decidable c] {a b : Except Err α} (ha : c → Fails P a) (hb : ¬ c → Fails P b) :
    Fails P (if c then a else b) := by
  by_cases h : c
  · rw [if_pos h]; exact ha h
  · rw [if_neg h]; exact hb h

theorem fails_length (hP : P .notImplemented) {n : Int} (h : 0 ≤ n) (l u : Option Int) : Fails P (encodeLengthDeterminant false false n l u) := by
  by_cases hn : n ≤ 16384
  · exact fails_done ((length_done h l u).2 hn)
  · unfold encodeLengthDeterminant
    simp only [Bool.false_eq_true, if_false]
    rw [if_neg (by omega), if_neg hn]
    exact fails_error hP

theorem fails_small (hP : P .notImplemented) {n : Int} (h : 1 ≤ n) (l u : Option Int) : Fails P (encodeLengthDeterminant true false n l u) := by
  by_cases hn : n ≤ 64
  · exact fails_done ((small_done h l u).2 hn)
  · unfold encodeLengthDeterminant
    simp only [if_true]
    rw [if_neg hn]
    exact fails_error hP

theorem fails_semi {z l : Int} (h : l ≤ z) : Fails P (encodeSemiConstrainedWholeNumber z l) := by
  refine fails_done ?_
  unfold encodeSemiConstrainedWholeNumber
  exact nonNeg_done.2 ⟨by omega, .inl rfl⟩

theorem fails_normallySmall (hP : P .notImplemented) (n : Nat) : Fails P (encodeNormallySmall (n : Int) 0) := by
  unfold encodeNormallySmall
  refine fails_ite (fun _ => ?_) fun _ => ?_
  · exact fails_bind (fails_done (nonNeg_done.2 ⟨by omega, .inr (by simp)⟩)) fun _ _ => fails_pure _
  · exact fails_bind (fails_semi (by omega)) fun _ _ => fails_bind (fails_length hP (by omega) _ _) fun _ _ => fails_pure _

theorem fails_open (hP : P .notImplemented) (fl : List BitField) : Fails P (encodeOpenTypeField fl) := by
  unfold encodeOpenTypeField
  exact fails_bind (fails_length hP (by omega) _ _) fun _ _ => fails_pure _

theorem fails_int (hP : P .notImplemented) {c : Constr} {z : Int} (h : fairInt c z = true) : Fails P (encodeInteger c z) := by
  simp only [fairInt, Bool.and_eq_true, Bool.or_eq_true, Bool.not_eq_true'] at h
  obtain ⟨⟨hp, ht⟩, hx⟩ := h
  cases he : c.ext with
  | true =>
    rw [he] at hx
    obtain ⟨h1, h2⟩ := hx.resolve_left (by simp)
    obtain ⟨l, hl⟩ := Option.isSome_iff_exists.1 h1
    obtain ⟨u, hu⟩ := Option.isSome_iff_exists.1 h2
    refine fails_done ((int_done c z).2 ?_)
    simp only [takesInt, hl, hu, he, Bool.true_or]
  | false =>
    obtain ⟨h1, h2⟩ := lower_upper_cover hp he ht
    cases hl : c.lower with
    | none => exact fails_done ((int_done c z).2 (by simp only [takesInt, hl, he, Bool.not_false]))
    | some l =>
      rw [hl] at h1
      replace h1 : l ≤ z := by simpa [leLo] using h1
      cases hu : c.upper with
      | some u =>
        rw [hu] at h2
        replace h2 : z ≤ u := by simpa [leHi] using h2
        refine fails_done ((int_done c z).2 ?_)
        simp only [takesInt, hl, hu, he, Bool.false_or]
        rw [takesRange_iff]; omega
      | none =>
        unfold encodeInteger
        simp only [he, hl, hu, Bool.false_eq_true, if_false]
        exact fails_bind (fails_semi h1) fun _ _ => fails_bind (fails_length hP (by omega) _ _) fun _ _ => fails_pure _

theorem fails_enum (hP : P .notImplemented) {ext : Bool} {root add : List (String × Int)} {z : Int} (h : fairEnum root add z = true) :
    Fails P (encodeEnumerated ext root add z) := by
  simp only [fairEnum, Bool.and_eq_true, List.any_eq_true, List.all_eq_true, beq_iff_eq, decide_eq_true_eq] at h
  obtain ⟨⟨p, hm, hz⟩, ha⟩ := h
  have h0 : 0 ≤ z := hz ▸ ha p hm
  have range : ∀ (l : List (String × Int)), l ≠ [] → Done (fieldListConstrained z (some 0) (some ((l.length : Int) - 1))) := by
    intro l hl
    rw [fieldList_done, takesRange_iff]
    have := List.length_pos_iff.2 hl
    omega
  unfold encodeEnumerated
  cases ext with
  | false => exact fails_done (range _ (List.ne_nil_of_mem hm))
  | true =>
    simp only [Bool.not_true, Bool.false_eq_true, if_false]
    refine fails_ite (fun hc => ?_) fun hc => ?_
    · refine fails_bind (fails_done (range root ?_)) fun _ _ => fails_pure _
      intro h; subst h; simp at hc
    · rw [findIdx?_idxOf]
      have : (add.map (·.2)).contains z = true := by
        rcases List.mem_append.1 hm with h | h
        · refine absurd ?_ hc
          rw [List.contains_iff_mem]
          exact List.mem_map.2 ⟨p, h, hz⟩
        · rw [List.contains_iff_mem]
          exact List.mem_map.2 ⟨p, h, hz⟩
      rw [if_pos this]
      exact fails_bind (fails_normallySmall hP _) fun _ _ => fails_pure _

theorem fair_ends {c : SizeC} {n : Nat} (h : fairSize c n = true) :
    (c.lower = none → c.ext = false ∧ c.upper = none) ∧ (c.ext = true → ∃ l u, c.lower = some l ∧ c.upper = some u) ∧ c.test n = true := by
  simp only [fairSize, Bool.and_eq_true, Bool.or_eq_true, Bool.not_eq_true', Option.isNone_iff_eq_none] at h
  obtain ⟨⟨h1, h2⟩, h3⟩ := h
  refine ⟨fun hl => ?_, fun hx => ?_, h1⟩
  · rw [hl] at h2
    simpa using h2
  · rw [hx] at h3 h2
    obtain ⟨u, hu⟩ := Option.isSome_iff_exists.1 (h3.resolve_left (by simp))
    obtain ⟨l, hl⟩ := Option.isSome_iff_exists.1 (h2.resolve_right (by simp))
    exact ⟨l, u, hl, hu⟩

theorem fails_constrainedLength (hP : P .notImplemented) {c : SizeC} {n l u : Nat} (hl : c.lower = some l) (hu : c.upper = some u)
    (h : l = u ∨ (l < u ∧ l ≤ n)) : Fails P (encodeLengthDeterminant false true n c.lowerZ c.upperZ) := by
  refine fails_done ((constrainedLength_done c n hu).2 ?_)
  rw [hl]
  show takesRange l u n = true
  rw [takesRange_iff]
  omega

/-- Of a string, after the test of the extension. -/
theorem fails_size {c : SizeC} {n : Nat} {a b : Except Err (List BitField)}
    (hc : c.ext = true → ∃ l u, c.lower = some l ∧ c.upper = some u)
    (ha : (c.ext = false ∨ ∃ l u, c.lower = some l ∧ c.upper = some u ∧ l ≤ n ∧ n ≤ u) → Fails P a) (hb : Fails P b) :
    Fails P (if c.ext = true then chainLe c.lowerZ c.upperZ n >>= fun x => if x = true then a else b else a) := by
  refine fails_ite (fun hx => ?_) fun hx => ha (.inl (by simpa using hx))
  obtain ⟨l, u, hl, hu⟩ := hc hx
  rw [chain_done hl hu]
  exact fails_ite (fun h => ha (.inr ⟨l, u, hl, hu, h⟩)) fun _ => hb

/-- What is left to show about a SIZE in range. -/
theorem fair_range {c : SizeC} {n m : Nat} (h : fairSize c n = true) (hm : m = n ∨ (n = 0 ∧ m = 1))
    (hr : c.ext = false ∨ ∃ l u, c.lower = some l ∧ c.upper = some u ∧ l ≤ m ∧ m ≤ u) {u : Nat} (hu : c.upper = some u) :
    ∃ l, c.lower = some l ∧ (l = u ∨ (l < u ∧ l ≤ m)) := by
  obtain ⟨h1, _, h3⟩ := fair_ends h
  rcases hr with hr | ⟨l, u', hl, hu', h5, h6⟩
  · cases hl : c.lower with
    | none => rw [(h1 hl).2] at hu; cases hu
    | some l =>
      refine ⟨l, rfl, ?_⟩
      simp [SizeC.test, hr, hl, hu] at h3
      omega
  · rw [hu] at hu'; cases hu'
    exact ⟨l, hl, by omega⟩

theorem fails_bits (hP : P .notImplemented) {c : SizeC} {b : Bits} (h : fairSize c b.length = true) : Fails P (encodeBitstring c b) := by
  have hn : (asBinary b).length = b.length ∨ (b.length = 0 ∧ (asBinary b).length = 1) := by
    cases b with
    | nil => exact .inr ⟨rfl, rfl⟩
    | cons x b => exact .inl (by simp [asBinary])
  unfold encodeBitstring
  dsimp only
  refine fails_ite (fun hx => ?_) fun hx => ?_
  all_goals
    have root : ∀ e, (c.ext = false ∨ ∃ l u, c.lower = some l ∧ c.upper = some u ∧ l ≤ (asBinary b).length ∧ (asBinary b).length ≤ u) →
        Fails P (encodeBitstringRoot c (asBinary b) e) := by
      intro e hr
      unfold encodeBitstringRoot
      refine fails_ite (fun _ => fails_ok _) fun _ => fails_ite (fun _ => ?_) fun _ => ?_
      · exact fails_ite (fun _ => fails_ok _) fun _ => fails_ite (fun _ => fails_ok _) fun _ => fails_error hP
      · split
        · rename_i u hu
          obtain ⟨l, hl, h2⟩ := fair_range h hn hr hu
          refine fails_ite (fun _ => ?_) fun _ => ?_
          · exact fails_bind (fails_constrainedLength hP hl hu h2) fun _ _ => fails_pure _
          · exact fails_bind (fails_length hP (by omega) _ _) fun _ _ => fails_pure _
        · exact fails_bind (fails_length hP (by omega) _ _) fun _ _ => fails_pure _
  · obtain ⟨l, u, hl, hu⟩ := (fair_ends h).2.1 hx
    rw [chain_done hl hu]
    refine fails_ite (fun h => root _ (.inr ⟨l, u, hl, hu, h⟩)) fun _ => ?_
    exact fails_bind (fails_length hP (by omega) _ _) fun _ _ => fails_pure _
  · exact root _ (.inl (by simpa using hx))

theorem fails_octets (hP : P .notImplemented) {c : SizeC} {o : List UInt8} (h : fairSize c o.length = true) : Fails P (encodeOctetstring c o) := by
  have hn : (octetBits o).length / 8 = o.length := by
    unfold octetBits
    rw [octetBits_eq, bytesToBits_length]; omega
  have root : ∀ e, (c.ext = false ∨ ∃ l u, c.lower = some l ∧ c.upper = some u ∧ l ≤ o.length ∧ o.length ≤ u) →
      Fails P (encodeOctetstringRoot c (octetBits o) e) := by
    intro e hr
    unfold encodeOctetstringRoot
    simp only [hn]
    refine fails_ite (fun _ => fails_ok _) fun _ => fails_ite (fun _ => ?_) fun _ => ?_
    · exact fails_ite (fun _ => fails_ok _) fun _ => fails_ite (fun _ => fails_ok _) fun _ => fails_error hP
    · split
      · rename_i u hu
        obtain ⟨l, hl, h2⟩ := fair_range h (.inl rfl) hr hu
        exact fails_bind (fails_constrainedLength hP hl hu h2) fun _ _ => fails_pure _
      · exact fails_bind (fails_length hP (by omega) _ _) fun _ _ => fails_pure _
  unfold encodeOctetstring
  dsimp only
  simp only [hn]
  refine fails_ite (fun hx => ?_) fun hx => ?_
  · obtain ⟨l, u, hl, hu⟩ := (fair_ends h).2.1 hx
    rw [chain_done hl hu]
    refine fails_ite (fun h => root _ (.inr ⟨l, u, hl, hu, h⟩)) fun _ => ?_
    exact fails_bind (fails_length hP (by omega) _ _) fun _ _ => fails_pure _
  · exact root _ (.inl (by simpa using hx))

/-! ## constructed types -/

/-- The exception is a refusal. -/
def Refusal (counts complete : Bool) (e : Err) : Prop := refusal counts complete e = true

variable {counts complete : Bool}

theorem refuse_ni : Refusal counts complete .notImplemented := rfl
theorem refuse_addition : Refusal counts complete .mandatoryExtensionFieldNotPresent := rfl
theorem refuse_inGroup : Refusal counts complete .mandatoryFieldNotPresentInGroup := rfl

theorem fails_count {c : SizeC} {n : Nat} (fl : List BitField) (h : fairCount counts c n = true) :
    Fails (Refusal counts complete) (encodeSequenceOf c n fl) := by
  simp only [fairCount, Bool.and_eq_true, Bool.or_eq_true, Bool.not_eq_true'] at h
  obtain ⟨⟨h1, h2⟩, h3⟩ := h
  obtain ⟨l, hl⟩ := Option.isSome_iff_exists.1 h2
  have hP : Refusal counts complete .notImplemented := rfl
  unfold encodeSequenceOf
  refine fails_ite (fun hx => ?_) fun hx => ?_
  · obtain ⟨u, hu⟩ := Option.isSome_iff_exists.1 (h3.resolve_left (by simp [hx]))
    rw [chain_done hl hu]
    refine fails_ite (fun h => ?_) fun _ => ?_
    · exact fails_bind (fails_constrainedLength hP hl hu (by omega)) fun _ _ => fails_pure _
    · exact fails_bind (fails_length hP (by omega) _ _) fun _ _ => fails_pure _
  · replace hx : c.ext = false := by simpa using hx
    simp only [hl]
    refine fails_ite (fun hn => fails_error ?_) fun hn => ?_
    · rcases h1 with h1 | h1
      · show (!counts) = true; rw [h1]; rfl
      · simp [SizeC.test, hx, hl] at h1; omega
    · cases hu : c.upper with
      | none => exact fails_bind (fails_length hP (by omega) _ _) fun _ _ => fails_pure _
      | some u =>
        dsimp only
        refine fails_ite (fun hn => fails_error ?_) fun hn => fails_ite (fun _ => fails_pure _) fun _ => fails_ite (fun h0 => ?_) fun _ => ?_
        · rcases h1 with h1 | h1
          · show (!counts) = true; rw [h1]; rfl
          · simp [SizeC.test, hx, hl, hu] at h1; omega
        · exact fails_bind (fails_constrainedLength hP hl hu (by omega)) fun _ _ => fails_pure _
        · exact fails_bind (fails_length hP (by omega) _ _) fun _ _ => fails_pure _

theorem fails_mapM {f : Val → Except Err (List BitField)} : ∀ {vs : List Val}, (∀ v ∈ vs, Fails P (f v)) → Fails P (vs.mapM f)
  | [], _ => fails_pure _
  | v :: vs, h => by
    rw [List.mapM_cons]
    exact fails_bind (h v List.mem_cons_self) fun _ _ =>
      fails_bind (fails_mapM fun w hw => h w (List.mem_cons_of_mem _ hw)) fun _ _ => fails_pure _

theorem fails_choice (hP : P .notImplemented) {ext none : Bool} {n pos : Nat} {fl : List BitField} (hn : n ≤ pos → none = false) :
    Fails P (assembleChoice ext n none pos fl) := by
  have ix : pos < n → Fails P (fieldListConstrained pos (some 0) (some ((n : Int) - 1))) := fun h => by
    refine fails_done ?_
    rw [fieldList_done, takesRange_iff]; omega
  unfold assembleChoice
  refine fails_ite (fun _ => ?_) fun _ => ?_
  · refine fails_ite (fun _ => fails_pure _) fun _ => fails_ite (fun h => ?_) fun _ => fails_pure _
    exact fails_bind (ix h) fun _ _ => fails_pure _
  · refine fails_ite (fun h => fails_ite (fun _ => fails_pure _) fun _ => ?_) fun h => ?_
    · exact fails_bind (ix h) fun _ _ => fails_pure _
    · rw [hn (by omega)]
      simp only [Bool.false_eq_true, if_false]
      exact fails_bind (fails_normallySmall hP _) fun _ _ => fails_bind (fails_open hP _) fun _ _ => fails_pure _

theorem fails_optionalBits (hP : P .notImplemented) (opt : Bits) (fl : List BitField) : Fails P (withOptionalBits opt fl) := by
  unfold withOptionalBits
  exact fails_ite (fun _ => fails_ok _) fun _ => fails_ite (fun _ => fails_ok _) fun _ => fails_error hP

theorem fails_assemble (hP : P .notImplemented) {rf fl : List BitField} {bits : Bits} (h : bits ≠ []) :
    Fails P (assembleSequence rf bits fl) := by
  unfold assembleSequence
  rw [pyInt2_of_ne h]
  show Fails P (if bitsToNat bits > 0 then _ else _)
  refine fails_ite (fun _ => ?_) fun _ => fails_pure _
  have := List.length_pos_iff.2 h
  exact fails_bind (fails_small hP (by omega) _ _) fun _ _ => fails_pure _

theorem fails_component {enc : Val → Except Err (List BitField)} {e : Val → Bool} (he : ∀ v, e v = true → Fails P (enc v)) {k : Kind} {t : Ty}
    {c : Option Val} (hno : complete = false → P .noValue)
    (hk : (match k with
      | .mandatory => !complete || (sent k t c).isSome
      | .optional => true
      | .default d => comparable d (c.getD d)) = true)
    (h : (match sent k t c with
      | some v => e v
      | none => true) = true) : Fails P (rootComponent enc k t c) := by
  unfold rootComponent
  have one : ∀ b v, e v = true → Fails P (enc v >>= fun fl => (pure (b, fl) : Except Err (Bits × List BitField))) := fun b v hv =>
    fails_bind (he v hv) fun _ _ => fails_pure _
  cases k with
  | mandatory =>
    cases c with
    | some v => exact one [] v h
    | none =>
      simp only [sent, untouched_eq] at hk h
      dsimp only
      cases hv : emptyVal t with
      | none =>
        rw [hv] at hk
        exact fails_error (hno (by simpa using hk))
      | some v => rw [hv] at h; exact one [] v h
  | optional =>
    simp only [sent] at h
    dsimp only
    rw [present_eq]
    split
    · rename_i hp
      rw [if_pos hp] at h
      cases c with
      | none => cases hp
      | some v => exact one [true] v h
    · exact fails_pure _
  | default d =>
    have two : ∀ v, comparable d v = true → (sameAsDefault d v = false → e v = true) →
        Fails P (pyValueNe d v >>= fun ne => if ne = true then enc v >>= fun fl => pure ([true], fl) else pure ([false], [])) := by
      intro v hc hs
      refine fails_bind (fails_done ((comparable_done d v).2 hc)) fun ne hne => ?_
      have := pyValueNe_eq hne
      refine fails_ite (fun hn => one [true] v (hs ?_)) fun _ => fails_pure _
      rw [hn] at this
      simpa using this
    cases c with
    | some v =>
      simp only [sent] at h
      refine two v hk fun hs => ?_
      rw [hs] at h
      simpa using h
    | none =>
      refine two d hk fun hs => ?_
      have : sameAsDefault d d = true := by cases d <;> simp [sameAsDefault]
      rw [this] at hs; cases hs

theorem fails_addition {enc : Val → Except Err (List BitField)} {e : Val → Bool} (he : ∀ v, e v = true → Fails P (enc v))
    (hP : P .notImplemented) (hm : P .mandatoryExtensionFieldNotPresent) {t : Ty} {prev : Option Prev} {c : Option Val}
    (h : (match c with
      | some v => !substantial t (some v) || e v
      | none => true) = true) : Fails P (additionComponent enc t prev c) := by
  unfold additionComponent
  cases c with
  | none => exact fails_pure _
  | some v =>
    dsimp only at h ⊢
    refine fails_ite (fun hv => fails_ite (fun _ => fails_error hm) fun _ => fails_ite (fun hc => ?_) fun _ => fails_pure _) fun _ => fails_pure _
    rw [← present_eq, present, hv, hc] at h
    exact fails_bind (he v (by simpa using h)) fun _ _ => fails_bind (fails_open hP _) fun _ _ => fails_pure _

theorem fails_scan (hm : P .mandatoryFieldNotPresentInGroup) : ∀ (f : Fields) (cs : List (Option Val)) (prev : Option Prev),
    Fails P (scanGroup f cs prev)
  | .nil, _, _ => fails_ok _
  | .cons _ k t r, cs, prev => by
    unfold scanGroup
    exact fails_ite (fun _ => fails_error hm) fun _ => fails_bind (fails_scan hm r _ _) fun _ _ => fails_pure _

theorem scan_length : ∀ {f : Fields} {cs : List (Option Val)} {prev : Option Prev} {infos : List Prev},
    scanGroup f cs prev = .ok infos → infos.length = f.length
  | .nil, _, _, _, h => by cases h; rfl
  | .cons _ k t r, cs, prev, infos, h => by
    unfold scanGroup at h
    dsimp only at h
    split at h
    · cases h
    · obtain ⟨rest, h1, h⟩ := Except.bind_eq_ok h
      cases h
      simp [Fields.length, scan_length h1]

theorem fails_previous (hm : P .mandatoryExtensionFieldNotPresent) {prev : Option (List Prev)} (h : prev ≠ some []) :
    Fails P (checkPreviousGroup prev) := by
  unfold checkPreviousGroup
  cases prev with
  | none => exact fails_ok _
  | some infos =>
    dsimp only
    refine fails_ite (fun _ => fails_ok _) fun _ => fails_ite (fun he => ?_) fun _ => fails_error hm
    rw [List.isEmpty_iff] at he
    exact absurd (congrArg some he) h

mutual
theorem fails_ty : ∀ (t : Ty) (v : Val), fair counts complete t v = true → Fails (Refusal counts complete) (encTy t v)
  | .boolean, v, h => by
    cases v with
    | bool b => exact fails_ok _
    | _ => simp [fair] at h
  | .integer c, v, h => by
    cases v with
    | int z => simp only [fair] at h; simp only [encTy]; exact fails_int refuse_ni h
    | _ => simp [fair] at h
  | .enumerated x r a, v, h => by
    cases v with
    | enum z => simp only [fair] at h; simp only [encTy]; exact fails_enum refuse_ni h
    | _ => simp [fair] at h
  | .bitString c, v, h => by
    cases v with
    | bits b => simp only [fair] at h; simp only [encTy]; exact fails_bits refuse_ni h
    | _ => simp [fair] at h
  | .octetString c, v, h => by
    cases v with
    | octets b => simp only [fair] at h; simp only [encTy]; exact fails_octets refuse_ni h
    | _ => simp [fair] at h
  | .seqOf c t, v, h => by
    cases v with
    | seqOf vs =>
      simp only [fair, Bool.and_eq_true, List.all_eq_true] at h
      simp only [encTy]
      exact fails_bind (fails_mapM fun v hv => fails_ty t v (h.1 v hv)) fun _ _ => fails_count _ h.2
    | _ => simp [fair] at h
  | .choice x r a g, v, h => by
    cases v with
    | choice pos v =>
      simp only [fair] at h
      simp only [encTy]
      by_cases hr : pos < r.length
      · simp only [hr, if_true] at h ⊢
        exact fails_bind (fails_alt r pos v h) fun _ _ => fails_choice refuse_ni fun _ => by omega
      · by_cases ha : pos < r.length + a.length
        · simp only [hr, ha, if_true, if_false] at h ⊢
          exact fails_bind (fails_alt a _ v h) fun _ _ => fails_choice refuse_ni fun _ => decide_eq_false (by omega)
        · simp only [hr, ha, if_false] at h ⊢
          refine fails_bind (fails_altG g _ v h) fun _ _ => fails_choice refuse_ni fun _ => decide_eq_false ?_
          cases g with
          | nil => simp [fairAltG] at h
          | cons f g => simp [Groups.length]
    | _ => simp [fair] at h
  | .sequence x r a g, v, h => by
    cases v with
    | seq cs =>
      simp only [fair, Bool.and_eq_true, Bool.or_eq_true, Bool.not_eq_true'] at h
      simp only [encTy]
      refine fails_bind (fails_root r cs h.1) fun ⟨opt, fl⟩ _ => fails_bind (fails_optionalBits refuse_ni _ _) fun rf _ => ?_
      refine fails_ite (fun hx => fails_ite (fun _ => fails_pure _) fun hno => ?_) fun _ => fails_pure _
      obtain ⟨ha, hg⟩ := h.2.resolve_left (by simp [hx])
      refine fails_bind (fails_adds a _ none ha) fun ⟨abits, afl⟩ h3 => fails_bind (fails_groups g _ none hg (by simp)) fun ⟨gbits, gfl⟩ h4 => ?_
      refine fails_assemble refuse_ni fun h0 => ?_
      have := congrArg List.length h0
      rw [List.length_append, (adds_bits h3).1, (groups_bits h4).1] at this
      simp at this
      omega
    | _ => simp [fair] at h
theorem fails_alt : ∀ (r : Fields) (p : Nat) (v : Val), fairAlt counts complete r p v = true → Fails (Refusal counts complete) (encAlt r p v)
  | .nil, _, _, h => by simp [fairAlt] at h
  | .cons _ _ t _, 0, v, h => by simp only [fairAlt] at h; simp only [encAlt]; exact fails_ty t v h
  | .cons _ _ _ r, p + 1, v, h => by simp only [fairAlt] at h; simp only [encAlt]; exact fails_alt r p v h
theorem fails_altG : ∀ (g : Groups) (p : Nat) (v : Val), fairAltG counts complete g p v = true →
    Fails (Refusal counts complete) (encAltG g p v)
  | .nil, _, _, h => by simp [fairAltG] at h
  | .cons f g, p, v, h => by
    simp only [fairAltG] at h
    simp only [encAltG]
    split at h
    · rename_i hp; rw [if_pos hp]; exact fails_alt f p v h
    · rename_i hp; rw [if_neg hp]; exact fails_altG g _ v h
theorem fails_root : ∀ (r : Fields) (cs : List (Option Val)), fairRoot counts complete r cs = true →
    Fails (Refusal counts complete) (encRoot r cs)
  | .nil, _, _ => by simp only [encRoot]; exact fails_ok _
  | .cons n k t r, cs, h => by
    simp only [fairRoot] at h
    rw [Bool.and_eq_true, Bool.and_eq_true] at h
    simp only [encRoot]
    refine fails_bind (fails_component (complete := complete) (e := fair counts complete t) (fails_ty t) (fun h => ?_)
      (by cases k <;> exact h.1.1) h.1.2) fun ⟨b, fl⟩ _ => fails_bind (fails_root r cs.tail h.2) fun ⟨bs, fls⟩ _ => fails_pure _
    show (!complete) = true
    rw [h]; rfl
theorem fails_adds : ∀ (a : Fields) (cs : List (Option Val)) (prev : Option Prev), fairAdds counts complete a cs = true →
    Fails (Refusal counts complete) (encAdds a cs prev)
  | .nil, _, _, _ => by simp only [encAdds]; exact fails_ok _
  | .cons n k t r, cs, prev, h => by
    simp only [fairAdds] at h
    rw [Bool.and_eq_true] at h
    simp only [encAdds]
    refine fails_bind (fails_addition (e := fair counts complete t) (fails_ty t) refuse_ni refuse_addition (by rw [← held_eq]; exact h.1)) fun ⟨b, fl⟩ _ =>
      fails_bind (fails_adds r cs.tail _ h.2) fun ⟨bs, fls⟩ _ => fails_pure _
theorem fails_groups : ∀ (g : Groups) (cs : List (Option Val)) (prev : Option (List Prev)), fairGroups counts complete g cs = true →
    prev ≠ some [] → Fails (Refusal counts complete) (encGroups g cs prev)
  | .nil, _, _, _, _ => by simp only [encGroups]; exact fails_ok _
  | .cons f g, cs, prev, h, hprev => by
    simp only [fairGroups, Bool.and_eq_true, Bool.or_eq_true, Bool.not_eq_true'] at h
    obtain ⟨⟨h1, h2⟩, h3⟩ := h
    simp only [encGroups]
    refine fails_bind (fails_scan refuse_inGroup f cs none) fun infos h0 => ?_
    have hne : some infos ≠ some [] := by
      intro h
      cases h
      have := scan_length h0
      simp at h1 this
      omega
    refine fails_bind ?_ fun ⟨b, fl⟩ _ => fails_bind (fails_groups g _ _ h3 hne) fun ⟨bs, fls⟩ _ => fails_pure _
    unfold groupComponent
    rw [scanGroup_any h0]
    refine fails_ite (fun _ => fails_pure _) fun hs => ?_
    have hs : anySubstantial f cs = true := by simpa using hs
    refine fails_bind (fails_previous refuse_addition hprev) fun _ _ => fails_bind (fails_root f cs (h2.resolve_left (by simp [hs]))) fun ⟨opt, fl⟩ _ => ?_
    exact fails_bind (fails_optionalBits refuse_ni _ _) fun _ _ => fails_bind (fails_open refuse_ni _) fun _ _ => fails_pure _
end

end Verif
