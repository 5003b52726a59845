import Verif.Lemmas.Sequence
/-!
# Values the encoder refuses
-/
namespace Verif

theorem Except.bind_error {α β : Type} {x : Except Err α} {f : α → Except Err β} {e : Err}
    (h : x = .error e) : (x >>= f) = .error e := by rw [h]; rfl

/-- A step that fails whatever the first part yields. -/
theorem Except.bind_fails {α β : Type} {x : Except Err α} {f : α → Except Err β}
    (h : ∀ a, x = .ok a → ∃ e, f a = .error e) : ∃ e, (x >>= f) = .error e := by
  cases hx : x with
  | error e => exact ⟨e, rfl⟩
  | ok a => exact h a hx

theorem mapM_fails {f : Val → Except Err (List BitField)} : ∀ {vs : List Val} {v : Val}, v ∈ vs →
    (∃ e, f v = .error e) → ∃ e, vs.mapM f = .error e
  | [], v, h, _ => by cases h
  | w :: vs, v, h, hf => by
    rw [List.mapM_cons]
    rcases List.mem_cons.1 h with rfl | h
    · obtain ⟨e, he⟩ := hf
      exact ⟨e, Except.bind_error he⟩
    · refine Except.bind_fails fun a _ => ?_
      obtain ⟨e, he⟩ := mapM_fails h hf
      exact ⟨e, Except.bind_error he⟩

theorem head_allNone {cs : List (Option Val)} (h : Spec.allNone cs = true) : cs.head?.getD none = none := by
  cases cs with
  | nil => rfl
  | cons c cs => cases c with
    | none => rfl
    | some v => simp [Spec.allNone] at h

theorem tail_allNone {cs : List (Option Val)} (h : Spec.allNone cs = true) : Spec.allNone cs.tail = true := by
  cases cs with
  | nil => rfl
  | cons c cs =>
    simp only [Spec.allNone, List.all_cons, Bool.and_eq_true] at h
    exact h.2

theorem allNone_replicate (n : Nat) : Spec.allNone (List.replicate n none) = true := by
  simp [Spec.allNone]

mutual
theorem needs_ty : ∀ (t : Ty), Spec.needsValue t = true → ∀ v, emptyVal t = some v → ∃ e, encTy t v = .error e
  | .boolean, _, _, hv => by simp [emptyVal] at hv
  | .integer _, _, _, hv => by simp [emptyVal] at hv
  | .enumerated _ _ _, _, _, hv => by simp [emptyVal] at hv
  | .bitString _, _, _, hv => by simp [emptyVal] at hv
  | .octetString _, _, _, hv => by simp [emptyVal] at hv
  | .choice _ _ _ _, _, _, hv => by simp [emptyVal] at hv
  | .seqOf c t, h, v, hv => by
    simp only [emptyVal, Option.some.injEq] at hv
    subst hv
    simp only [Spec.needsValue, Bool.and_eq_true, Bool.not_eq_true'] at h
    obtain ⟨hx, hl⟩ := h
    cases hc : c.lower with
    | none => rw [hc] at hl; cases hl
    | some l =>
      rw [hc] at hl
      have hl : 0 < l := of_decide_eq_true hl
      exact ⟨.sizeConstrainViolated, by simp [encTy, encodeSequenceOf, hx, hc, hl, bind, Except.bind, pure, Except.pure]⟩
  | .sequence ext r a g, h, v, hv => by
    simp only [emptyVal, Option.some.injEq] at hv
    subst hv
    simp only [Spec.needsValue] at h
    obtain ⟨e, he⟩ := needs_root r h _ (allNone_replicate (r.length + a.length + g.size))
    exact ⟨e, by simp only [encTy]; exact Except.bind_error he⟩
theorem needs_root : ∀ (r : Fields), Spec.needsValueRoot r = true → ∀ cs, Spec.allNone cs = true →
    ∃ e, encRoot r cs = .error e
  | .nil, h, _, _ => by simp [Spec.needsValueRoot] at h
  | .cons n k t r, h, cs, hcs => by
    simp only [Spec.needsValueRoot, Bool.or_eq_true] at h
    simp only [encRoot]
    rcases h with h | h
    · cases k with
      | mandatory =>
        rw [head_allNone hcs]
        unfold rootComponent
        dsimp only at h ⊢
        cases hev : emptyVal t with
        | none => exact ⟨.noValue, rfl⟩
        | some v =>
          obtain ⟨e, he⟩ := needs_ty t h v hev
          exact ⟨e, by rw [Except.bind_error (e := e)]; exact Except.bind_error he⟩
      | optional => cases h
      | default d => cases h
    · refine Except.bind_fails fun a _ => ?_
      obtain ⟨e, he⟩ := needs_root r h cs.tail (tail_allNone hcs)
      exact ⟨e, Except.bind_error he⟩
end

theorem incomplete_component {enc : Val → Except Err (List BitField)} {inc : Val → Bool} {k : Kind} {t : Ty} {c : Option Val}
    (henc : ∀ v, inc v = true → ∃ e, enc v = .error e)
    (hem : Spec.needsValue t = true → ∀ v, emptyVal t = some v → ∃ e, enc v = .error e)
    (h : (match k, c with
     | .mandatory, none => Spec.needsValue t
     | .mandatory, some v => inc v
     | .optional, some v => Spec.substantial t (some v) && inc v
     | .default d, some v => !Spec.sameAsDefault d v && inc v
     | _, none => false) = true) : ∃ e, rootComponent enc k t c = .error e := by
  unfold rootComponent
  cases k with
  | mandatory =>
    cases c with
    | none =>
      dsimp only at h ⊢
      cases hev : emptyVal t with
      | none => exact ⟨_, rfl⟩
      | some v =>
        obtain ⟨e, he⟩ := hem h v hev
        exact ⟨e, Except.bind_error he⟩
    | some v =>
      obtain ⟨e, he⟩ := henc v h
      exact ⟨e, Except.bind_error he⟩
  | optional =>
    cases c with
    | none => cases h
    | some v =>
      simp only [Bool.and_eq_true] at h
      obtain ⟨e, he⟩ := henc v h.2
      refine ⟨e, ?_⟩
      dsimp only
      rw [present_eq, if_pos h.1]
      exact Except.bind_error he
  | default d =>
    cases c with
    | none => cases h
    | some v =>
      simp only [Bool.and_eq_true, Bool.not_eq_true'] at h
      obtain ⟨e, he⟩ := henc v h.2
      refine Except.bind_fails fun b hb => ?_
      have := pyValueNe_eq hb
      rw [h.1] at this
      subst this
      exact ⟨e, Except.bind_error he⟩

theorem Except.bind_fails_left {α β : Type} {x : Except Err α} {f : α → Except Err β}
    (h : ∃ e, x = .error e) : ∃ e, (x >>= f) = .error e := by
  obtain ⟨e, he⟩ := h
  exact ⟨e, Except.bind_error he⟩

mutual
theorem incomplete_ty : ∀ (t : Ty) (v : Val), Spec.incomplete t v = true → ∃ e, encTy t v = .error e
  | .boolean, v, h => by cases v <;> simp [Spec.incomplete] at h
  | .integer _, v, h => by cases v <;> simp [Spec.incomplete] at h
  | .enumerated _ _ _, v, h => by cases v <;> simp [Spec.incomplete] at h
  | .bitString _, v, h => by cases v <;> simp [Spec.incomplete] at h
  | .octetString _, v, h => by cases v <;> simp [Spec.incomplete] at h
  | .seqOf c t, v, h => by
    cases v with
    | seqOf vs =>
      simp only [Spec.incomplete, List.any_eq_true] at h
      obtain ⟨w, hw, h⟩ := h
      obtain ⟨e, he⟩ := mapM_fails hw (incomplete_ty t w h)
      exact ⟨e, by simp only [encTy]; exact Except.bind_error he⟩
    | _ => simp [Spec.incomplete] at h
  | .choice ext r a g, v, h => by
    cases v with
    | choice pos v =>
      simp only [Spec.incomplete] at h
      simp only [encTy]
      refine Except.bind_fails_left ?_
      by_cases h1 : pos < r.length
      · rw [if_pos h1] at h ⊢
        exact incomplete_alt r pos v h
      · rw [if_neg h1] at h ⊢
        by_cases h2 : pos < r.length + a.length
        · rw [if_pos h2] at h ⊢
          exact incomplete_alt a _ v h
        · rw [if_neg h2] at h ⊢
          exact incomplete_altG g _ v h
    | _ => simp [Spec.incomplete] at h
  | .sequence ext r a g, v, h => by
    cases v with
    | seq cs =>
      simp only [Spec.incomplete, Bool.or_eq_true, Bool.and_eq_true] at h
      simp only [encTy]
      rcases h with h | ⟨hx, h⟩
      · obtain ⟨e, he⟩ := incomplete_root r cs h
        exact ⟨e, Except.bind_error he⟩
      · subst hx
        refine Except.bind_fails fun rt _ => Except.bind_fails fun rf _ => ?_
        rw [if_pos rfl]
        have hz : ¬ (a.length = 0 ∧ g.length = 0) := by
          rintro ⟨ha, hg⟩
          cases a with
          | nil => cases g with
            | nil => simp [Spec.incompleteAdds, Spec.incompleteGroups] at h
            | cons => simp [Groups.length] at hg
          | cons => simp [Fields.length] at ha
        rw [if_neg hz]
        rcases h with h | h
        · obtain ⟨e, he⟩ := incomplete_adds a _ none h
          exact ⟨e, Except.bind_error he⟩
        · refine Except.bind_fails fun af _ => ?_
          obtain ⟨e, he⟩ := incomplete_groups g _ none h
          exact ⟨e, Except.bind_error he⟩
    | _ => simp [Spec.incomplete] at h
theorem incomplete_alt : ∀ (r : Fields) (p : Nat) (v : Val), Spec.incompleteAlt r p v = true →
    ∃ e, encAlt r p v = .error e
  | .nil, _, _, h => by simp [Spec.incompleteAlt] at h
  | .cons _ _ t _, 0, v, h => by
    simp only [Spec.incompleteAlt] at h
    simp only [encAlt]
    exact incomplete_ty t v h
  | .cons _ _ _ r, p + 1, v, h => by
    simp only [Spec.incompleteAlt] at h
    simp only [encAlt]
    exact incomplete_alt r p v h
theorem incomplete_altG : ∀ (g : Groups) (p : Nat) (v : Val), Spec.incompleteAltG g p v = true →
    ∃ e, encAltG g p v = .error e
  | .nil, _, _, h => by simp [Spec.incompleteAltG] at h
  | .cons f g, p, v, h => by
    simp only [Spec.incompleteAltG] at h
    simp only [encAltG]
    by_cases hp : p < f.length
    · rw [if_pos hp] at h ⊢
      exact incomplete_alt f p v h
    · rw [if_neg hp] at h ⊢
      exact incomplete_altG g _ v h
theorem incomplete_root : ∀ (r : Fields) (cs : List (Option Val)), Spec.incompleteRoot r cs = true →
    ∃ e, encRoot r cs = .error e
  | .nil, _, h => by simp [Spec.incompleteRoot] at h
  | .cons n k t r, cs, h => by
    simp only [Spec.incompleteRoot, Bool.or_eq_true, held_eq, untouched_eq, valued_eq, isOpt_eq, hasDefault_eq] at h
    simp only [encRoot]
    rcases h with h | h
    · obtain ⟨e, he⟩ := incomplete_component (enc := encTy t) (inc := Spec.incomplete t) (k := k) (t := t)
        (c := cs.head?.getD none)
        (fun v hv => incomplete_ty t v hv) (fun hn v hv => needs_ty t hn v hv) h
      exact ⟨e, Except.bind_error he⟩
    · refine Except.bind_fails fun a _ => ?_
      obtain ⟨e, he⟩ := incomplete_root r cs.tail h
      exact ⟨e, Except.bind_error he⟩
theorem incomplete_adds : ∀ (r : Fields) (cs : List (Option Val)) (prev : Option Prev),
    Spec.incompleteAdds r cs = true → ∃ e, encAdds r cs prev = .error e
  | .nil, _, _, h => by simp [Spec.incompleteAdds] at h
  | .cons n k t r, cs, prev, h => by
    simp only [Spec.incompleteAdds, Bool.or_eq_true, held_eq, untouched_eq, valued_eq, isOpt_eq, hasDefault_eq] at h
    simp only [encAdds]
    rcases h with h | h
    · cases hc : effective k (cs.head?.getD none) with
      | none => rw [hc] at h; cases h
      | some v =>
        rw [hc] at h
        simp only [Bool.and_eq_true] at h
        obtain ⟨hs, hi⟩ := h
        rw [← present_eq, present, Bool.and_eq_true] at hs
        obtain ⟨e, he⟩ := incomplete_ty t v hi
        unfold additionComponent
        simp only [hs.1, hs.2, if_true]
        split
        · exact ⟨_, rfl⟩
        · exact ⟨e, Except.bind_error (Except.bind_error he)⟩
    · refine Except.bind_fails fun a _ => ?_
      obtain ⟨e, he⟩ := incomplete_adds r cs.tail (some ⟨a.1, k.isOptional⟩) h
      exact ⟨e, Except.bind_error he⟩
theorem incomplete_groups : ∀ (g : Groups) (cs : List (Option Val)) (prev : Option (List Prev)),
    Spec.incompleteGroups g cs = true → ∃ e, encGroups g cs prev = .error e
  | .nil, _, _, h => by simp [Spec.incompleteGroups] at h
  | .cons f g, cs, prev, h => by
    simp only [Spec.incompleteGroups, Bool.or_eq_true, Bool.and_eq_true] at h
    simp only [encGroups]
    refine Except.bind_fails fun infos hi => ?_
    rcases h with ⟨hs, h⟩ | h
    · obtain ⟨e, he⟩ := incomplete_root f cs h
      refine Except.bind_fails_left ?_
      unfold groupComponent
      rw [scanGroup_any hi, hs]
      simp only [Bool.not_true, Bool.false_eq_true, if_false]
      refine Except.bind_fails fun _ _ => ?_
      exact ⟨e, Except.bind_error he⟩
    · refine Except.bind_fails fun a _ => ?_
      obtain ⟨e, he⟩ := incomplete_groups g _ (some infos) h
      exact ⟨e, Except.bind_error he⟩
end

/-! ## gaps -/

theorem given_zero {n : String} {k : Kind} {t : Ty} {r : Fields} {cs : List (Option Val)} :
    Spec.given (.cons n k t r) cs 0 = Spec.substantial t (effective k (cs.head?.getD none)) := by
  simp [Spec.given, Spec.fieldAt, List.head?_eq_getElem?]

theorem given_succ {n : String} {k : Kind} {t : Ty} {r : Fields} {cs : List (Option Val)} {i : Nat} :
    Spec.given (.cons n k t r) cs (i + 1) = Spec.given r cs.tail i := by
  simp only [Spec.given, Spec.fieldAt, List.getElem?_tail, held_eq, untouched_eq, valued_eq, isOpt_eq, hasDefault_eq]

theorem optionalAt_succ {n : String} {k : Kind} {t : Ty} {r : Fields} {i : Nat} :
    Spec.optionalAt (.cons n k t r) (i + 1) = Spec.optionalAt r i := rfl

/-- The presence bit of an addition, and the check made when it is set. -/
theorem additionComponent_shape {enc : Val → Except Err (List BitField)} {t : Ty} {prev : Option Prev}
    {c : Option Val} {b : Bool} {fl : List BitField} (h : additionComponent enc t prev c = .ok (b, fl)) :
    b = Spec.substantial t c ∧ (b = true → Prev.gap prev = false) := by
  unfold additionComponent at h
  rw [← present_eq]
  cases c with
  | none => cases h; exact ⟨rfl, fun h => (by cases h)⟩
  | some v =>
    dsimp only at h
    by_cases hv : isValue t v = true
    · rw [if_pos hv] at h
      cases hg : Prev.gap prev with
      | true => rw [hg] at h; cases h
      | false =>
        rw [hg] at h
        simp only [Bool.false_eq_true, if_false] at h
        by_cases hc : hasContent v = true
        · rw [if_pos hc] at h
          obtain ⟨_, _, h⟩ := Except.bind_eq_ok h
          obtain ⟨_, _, h⟩ := Except.bind_eq_ok h
          cases h
          exact ⟨by simp [present, hv, hc], fun _ => rfl⟩
        · rw [if_neg hc] at h
          cases h
          exact ⟨by simp [present, hc], fun _ => rfl⟩
    · rw [if_neg hv] at h
      cases h
      exact ⟨by simp [present, hv], fun h => (by cases h)⟩

/-- Behind a gap, nothing may be given before the next OPTIONAL addition. -/
theorem encAdds_behind_gap : ∀ (a : Fields) (cs : List (Option Val)) (prev : Option Prev) (j : Nat),
    Prev.gap prev = true → Spec.given a cs j = true → (∀ m < j, Spec.optionalAt a m = false) →
    ∃ e, encAdds a cs prev = .error e
  | .nil, _, _, _, _, h, _ => by simp [Spec.given, Spec.fieldAt] at h
  | .cons n k t r, cs, prev, j, hp, h, hm => by
    simp only [encAdds]
    refine Except.bind_fails fun ⟨b, fl⟩ hb => ?_
    obtain ⟨h1, h2⟩ := additionComponent_shape hb
    have hb0 : b = false := by
      cases b with
      | false => rfl
      | true => rw [h2 rfl] at hp; cases hp
    cases j with
    | zero => rw [given_zero, ← h1, hb0] at h; cases h
    | succ j =>
      rw [given_succ] at h
      have hk : k.isOptional = false := hm 0 (by omega)
      obtain ⟨e, he⟩ := encAdds_behind_gap r cs.tail (some ⟨b, k.isOptional⟩) j
        (by simp [Prev.gap, hb0, hk]) h (fun m hmj => by
          have := hm (m + 1) (by omega)
          rwa [optionalAt_succ] at this)
      exact ⟨e, Except.bind_error he⟩

theorem encAdds_gap : ∀ (a : Fields) (cs : List (Option Val)) (prev : Option Prev) (i j : Nat),
    i < a.length → Spec.given a cs i = false → i < j → Spec.given a cs j = true →
    (∀ m, i ≤ m → m < j → Spec.optionalAt a m = false) → ∃ e, encAdds a cs prev = .error e
  | .nil, _, _, i, _, hi, _, _, _, _ => by simp [Fields.length] at hi
  | .cons n k t r, cs, prev, i, j, hi, h, hij, hj, hm => by
    cases j with
    | zero => omega
    | succ j =>
      simp only [encAdds]
      refine Except.bind_fails fun ⟨b, fl⟩ hb => ?_
      obtain ⟨h1, h2⟩ := additionComponent_shape hb
      rw [given_succ] at hj
      have hm' : ∀ m, m + 1 < j + 1 → i ≤ m + 1 → Spec.optionalAt r m = false := fun m h1 h2 => by
        have := hm (m + 1) h2 h1
        rwa [optionalAt_succ] at this
      cases i with
      | zero =>
        rw [given_zero, ← h1] at h
        have hk : k.isOptional = false := hm 0 (by omega) (by omega)
        obtain ⟨e, he⟩ := encAdds_behind_gap r cs.tail (some ⟨b, k.isOptional⟩) j
          (by simp [Prev.gap, h, hk]) hj (fun m hmj => hm' m (by omega) (by omega))
        exact ⟨e, Except.bind_error he⟩
      | succ i =>
        rw [given_succ] at h
        obtain ⟨e, he⟩ := encAdds_gap r cs.tail (some ⟨b, k.isOptional⟩) i j
          (by simp [Fields.length] at hi; omega) h (by omega) hj (fun m h1 h2 => hm' m (by omega) (by omega))
        exact ⟨e, Except.bind_error he⟩

/-- If every addition by itself can be sent, the only error is the one about gaps. -/
theorem encAdds_error : ∀ (a : Fields) (cs : List (Option Val)) (prev : Option Prev) {e : Err},
    (∀ m n k t v, Spec.fieldAt a m = some (n, k, t) → effective k (cs[m]?.getD none) = some v →
      Spec.given a cs m = true → Spec.fitsOpenType t v = true) →
    encAdds a cs prev = .error e → e = .mandatoryExtensionFieldNotPresent
  | .nil, _, _, e, _, h => by simp [encAdds] at h
  | .cons n k t r, cs, prev, e, hf, h => by
    simp only [encAdds] at h
    cases hc : additionComponent (encTy t) t prev (effective k (cs.head?.getD none)) with
    | error e' =>
      rw [hc] at h
      cases h
      unfold additionComponent at hc
      cases hv : effective k (cs.head?.getD none) with
      | none => rw [hv] at hc; cases hc
      | some v =>
        rw [hv] at hc
        dsimp only at hc
        split at hc
        · split at hc
          · cases hc; rfl
          · rename_i hval _
            split at hc
            · rename_i hcont
              have hg : Spec.given (.cons n k t r) cs 0 = true := by
                rw [given_zero, hv, ← present_eq, present, hval, hcont]; rfl
              have := hf 0 n k t v rfl (by rw [← List.head?_eq_getElem?]; exact hv) hg
              obtain ⟨fs, e1, e2⟩ := fitsOpenType_ok this
              obtain ⟨ofl, e3⟩ := openType_ok e2
              rw [e1] at hc
              simp only [bind, Except.bind] at hc
              rw [e3] at hc
              cases hc
            · cases hc
        · cases hc
    | ok x =>
      rw [hc] at h
      simp only [bind, Except.bind] at h
      cases hr : encAdds r cs.tail (some ⟨x.1, k.isOptional⟩) with
      | ok y => rw [hr] at h; cases h
      | error e' =>
        rw [hr] at h
        cases h
        refine encAdds_error r cs.tail _ (fun m n k t v h1 h2 h3 => ?_) hr
        rw [List.getElem?_tail] at h2
        exact hf (m + 1) n k t v h1 h2 (by rw [given_succ]; exact h3)

/-! ## groups -/

theorem scanGroup_optional : ∀ {f : Fields} {cs : List (Option Val)} {prev : Option Prev} {infos : List Prev},
    scanGroup f cs prev = .ok infos →
    infos.any (fun p => p.present || p.optional) = (Spec.anySubstantial f cs || Spec.hasOptional f)
  | .nil, _, _, _, h => by simp only [scanGroup, Except.ok.injEq] at h; subst h; rfl
  | .cons n k t r, cs, prev, infos, h => by
    unfold scanGroup at h
    dsimp only at h
    split at h
    · cases h
    · obtain ⟨rest, e, h⟩ := Except.bind_eq_ok h
      cases h
      rw [List.any_cons, scanGroup_optional e, Spec.anySubstantial, Spec.hasOptional, held_eq, isOpt_eq, present_eq]
      dsimp only
      generalize Spec.substantial t _ = x
      cases x <;> cases k.isOptional <;> cases Spec.anySubstantial r cs.tail <;> rfl

theorem encGroups_behind : ∀ (f : Fields) (g : Groups) (cs : List (Option Val)) (infos : List Prev),
    infos.any (fun p => p.present || p.optional) = false → Spec.anySubstantial f cs = true →
    ∃ e, encGroups (.cons f g) cs (some infos) = .error e := by
  intro f g cs infos hi hs
  simp only [encGroups]
  refine Except.bind_fails fun infos' h' => Except.bind_fails_left ?_
  unfold groupComponent
  rw [scanGroup_any h', hs]
  simp only [Bool.not_true, Bool.false_eq_true, if_false]
  refine Except.bind_fails_left ?_
  unfold checkPreviousGroup
  simp only [hi, Bool.false_eq_true, if_false]
  split <;> exact ⟨_, rfl⟩

theorem encGroups_gap : ∀ (g : Groups) (cs : List (Option Val)) (prev : Option (List Prev)) (i : Nat)
    (f f' : Fields) (o o' : Nat), Spec.groupAt g i = some (f, o) → Spec.groupAt g (i + 1) = some (f', o') →
    Spec.anySubstantial f (cs.drop o) = false → Spec.hasOptional f = false →
    Spec.anySubstantial f' (cs.drop o') = true → ∃ e, encGroups g cs prev = .error e
  | .nil, _, _, _, _, _, _, _, h, _, _, _, _ => by simp [Spec.groupAt] at h
  | .cons f0 .nil, _, _, 0, _, _, _, _, _, h, _, _, _ => by simp [Spec.groupAt] at h
  | .cons f0 (.cons f1 g), cs, prev, 0, f, f', o, o', h, h', h1, h2, h3 => by
    simp only [Spec.groupAt, Option.some.injEq, Prod.mk.injEq, Option.map_some] at h h'
    obtain ⟨rfl, rfl⟩ := h
    obtain ⟨rfl, rfl⟩ := h'
    rw [Nat.add_zero] at h3
    rw [encGroups]
    refine Except.bind_fails fun infos hi => Except.bind_fails fun ⟨b, fl⟩ _ => Except.bind_fails_left ?_
    exact encGroups_behind f1 g _ infos (by rw [scanGroup_optional hi]; simpa using ⟨h1, h2⟩) h3
  | .cons f0 g, cs, prev, i + 1, f, f', o, o', h, h', h1, h2, h3 => by
    simp only [Spec.groupAt, Option.map_eq_some_iff, Prod.mk.injEq] at h h'
    obtain ⟨⟨x, p⟩, h, rfl, rfl⟩ := h
    obtain ⟨⟨x', p'⟩, h', rfl, rfl⟩ := h'
    rw [← List.drop_drop] at h1 h3
    rw [encGroups]
    refine Except.bind_fails fun infos hi => Except.bind_fails fun ⟨b, fl⟩ _ => Except.bind_fails_left ?_
    exact encGroups_gap g _ (some infos) i x x' p p' h h' h1 h2 h3

/-! ## unused extensions -/

theorem encAdds_unset : ∀ (a : Fields) (cs : List (Option Val)) (prev : Option Prev), Spec.unset a cs = true →
    encAdds a cs prev = .ok (List.replicate a.length false, [])
  | .nil, _, _, _ => rfl
  | .cons n k t r, cs, prev, h => by
    simp only [Spec.unset, Bool.and_eq_true, Option.isNone_iff_eq_none, held_eq, untouched_eq, valued_eq, isOpt_eq, hasDefault_eq] at h
    simp only [encAdds, h.1, additionComponent, bind, Except.bind, pure, Except.pure]
    rw [encAdds_unset r cs.tail _ h.2]
    rfl

theorem scanGroup_unset : ∀ (f : Fields) (cs : List (Option Val)) (prev : Option Prev), Spec.unset f cs = true →
    ∃ infos, scanGroup f cs prev = .ok infos
  | .nil, _, _, _ => ⟨[], rfl⟩
  | .cons n k t r, cs, prev, h => by
    simp only [Spec.unset, Bool.and_eq_true, Option.isNone_iff_eq_none, held_eq, untouched_eq, valued_eq, isOpt_eq, hasDefault_eq] at h
    unfold scanGroup
    dsimp only
    rw [h.1]
    obtain ⟨infos, e⟩ := scanGroup_unset r cs.tail (some ⟨present t none, k.isOptional⟩) h.2
    simp only [isValueOpt, Bool.false_and, Bool.false_eq_true, if_false]
    exact ⟨_, by rw [e]; rfl⟩

theorem encGroups_unset : ∀ (g : Groups) (cs : List (Option Val)) (prev : Option (List Prev)),
    Spec.unsetGroups g cs = true → encGroups g cs prev = .ok (List.replicate g.length false, [])
  | .nil, _, _, _ => rfl
  | .cons f g, cs, prev, h => by
    simp only [Spec.unsetGroups, Bool.and_eq_true] at h
    obtain ⟨infos, e⟩ := scanGroup_unset f cs none h.1
    have hany := scanGroup_any e
    rw [anySubstantial_unset h.1] at hany
    simp only [encGroups, e, bind, Except.bind, groupComponent, hany]
    rw [encGroups_unset g _ (some infos) h.2]
    rfl

/-- The root loop looks at its own components only. -/
theorem encRoot_take : ∀ (r : Fields) (cs : List (Option Val)), encRoot r (cs.take r.length) = encRoot r cs
  | .nil, _ => by simp [encRoot]
  | .cons n k t r, cs => by
    simp only [encRoot, Fields.length]
    cases cs with
    | nil => rfl
    | cons c cs =>
      simp only [List.take_succ_cons, List.head?_cons, List.tail_cons]
      rw [encRoot_take r cs]

end Verif
