import Verif.Lemmas.LookingSame
/-!
# `to_dict` of a newly built object is that of its value
-/
namespace Verif

open Spec

/-- The components of a newly built SEQUENCE. -/
def builtSlots (r a : Fields) (g : Groups) (cs : List (Option Val)) : List (Option Obj) :=
  ofSlots r cs ++ (ofSlots a (cs.drop r.length) ++ ofSlotsG g (cs.drop (r.length + a.length)))

theorem slot_built (e : Bool) (r a : Fields) (g : Groups) (cs : List (Option Val)) (n i : Nat) :
    ∃ s, ofVal (.sequence e r a g) (.seq cs) = .seq s ∧ slot (slotsOf n s) i = slot (builtSlots r a g cs) i := by
  refine ⟨_, by simp only [ofVal]; rfl, ?_⟩
  rw [slot_slotsOf]
  cases c : cs.any Option.isSome with
  | true => simp only [if_true, Option.getD_some, builtSlots]
  | false =>
    simp only [Bool.false_eq_true, if_false, Option.getD_none, builtSlots, ofSlots_none r cs c,
      ofSlots_none a _ (none_drop c _), ofSlotsG_none g _ (none_drop c _), List.replicate_append_replicate]
    simp only [slot, List.getElem?_replicate]
    split <;> rfl

theorem slot_built_root {r a : Fields} {g : Groups} {cs : List (Option Val)} {i : Nat} (h : i < r.length) :
    slot (builtSlots r a g cs) i = slot (ofSlots r cs) i := by
  unfold builtSlots
  exact slot_left _ (by rw [ofSlots_length]; exact h)

theorem slot_built_add {r a : Fields} {g : Groups} {cs : List (Option Val)} {i : Nat} (h : i < a.length) :
    slot (builtSlots r a g cs) (r.length + i) = slot (ofSlots a (cs.drop r.length)) i := by
  unfold builtSlots
  have e := slot_right (xs := ofSlots r cs) (ofSlots a (cs.drop r.length) ++ ofSlotsG g (cs.drop (r.length + a.length))) i
  rw [ofSlots_length] at e
  rw [e]
  exact slot_left _ (by rw [ofSlots_length]; exact h)

theorem slot_built_group {r a : Fields} {g : Groups} {cs : List (Option Val)} (i : Nat) :
    slot (builtSlots r a g cs) (r.length + a.length + i) = slot (ofSlotsG g (cs.drop (r.length + a.length))) i := by
  unfold builtSlots
  have e := slot_right (xs := ofSlots r cs) (ofSlots a (cs.drop r.length) ++ ofSlotsG g (cs.drop (r.length + a.length)))
    (a.length + i)
  have e' := slot_right (xs := ofSlots a (cs.drop r.length)) (ofSlotsG g (cs.drop (r.length + a.length))) i
  rw [ofSlots_length] at e e'
  rw [Nat.add_assoc, e, e']

theorem overList_dict {t : Ty} (h : ∀ v, steady t v = true → (dictObj t false (ofVal t v)).1 = toDict t false v) :
    ∀ (vs : List Val), vs.all (steady t) = true →
    (overList (dictObj t false) (vs.map (ofVal t))).1 = vs.mapM (toDict t false)
  | [], _ => rfl
  | v :: vs, hs => by
    rw [List.all_cons, Bool.and_eq_true] at hs
    have i := h v hs.1
    have j := overList_dict h vs hs.2
    rw [List.mapM_cons, ← i, ← j, List.map_cons, overList_cons]
    rcases dictObj t false (ofVal t v) with ⟨p, p'⟩
    rcases overList (dictObj t false) (vs.map (ofVal t)) with ⟨q, q'⟩
    cases p <;> cases q <;> rfl

theorem blank_empty {t : Ty} {v : Val} (h : emptyVal t = some v) : ofVal t v = blank t := by
  cases t <;> simp only [emptyVal, reduceCtorEq, Option.some.injEq] at h <;> subst h
  · rfl
  · simp only [ofVal, blank]
    rw [if_neg (by simp)]

/-- The entry of one component. -/
def dictOne (t : Ty) (c : Option Val) : Except Err (Option Dict) :=
  match c with
  | some v => if isValue t v || isConstructed t then toDict t false v else .ok none
  | none =>
    match emptyVal t with
    | some v => toDict t false v
    | none => .ok (toDictUnset t)

theorem dictFields_one (n : String) (k : Kind) (t : Ty) (r : Fields) (cs : List (Option Val)) :
    toDictFields (.cons n k t r) cs = dictOne t (effective k (cs.head?.getD none)) >>= fun d =>
      toDictFields r cs.tail >>= fun es =>
        match d with
        | some d => return (n, d) :: es
        | none => return es := by
  simp only [toDictFields, dictOne]
  cases effective k (cs.head?.getD none) <;> cases emptyVal t <;> rfl

mutual
theorem dict_fresh : ∀ (t : Ty) (b : Bool) (v : Val), steady t v = true → (dictObj t b (ofVal t v)).1 = toDict t b v
  | .boolean, _, v, h => by cases v <;> first | rfl | cases h
  | .integer _, _, v, h => by cases v <;> first | rfl | cases h
  | .enumerated _ _ _, _, v, h => by cases v <;> first | rfl | cases h
  | .bitString _, _, v, h => by cases v <;> first | rfl | cases h
  | .octetString _, _, v, h => by cases v <;> first | rfl | cases h
  | .seqOf _ t, b, v, h => by
    cases v with
    | seqOf vs =>
      simp only [steady] at h
      have i := overList_dict (fun v h => dict_fresh t false v h) vs h
      have e : ((if vs.isEmpty then none else some (vs.map (ofVal t)) : Option (List Obj)).getD []) = vs.map (ofVal t) := by
        cases vs <;> rfl
      simp only [ofVal, dictObj, toDict, e, i]
      cases vs.mapM (toDict t false) <;> rfl
    | _ => cases h
  | .choice _ r a g, b, v, h => by
    cases v with
    | choice pos v =>
      simp only [steady] at h
      simp only [ofVal, dictObj, toDict]
      by_cases c : pos < r.length
      · simp only [if_pos c] at h ⊢; exact dict_freshAlt r pos v h
      · simp only [if_neg c] at h ⊢
        by_cases d : pos < r.length + a.length
        · simp only [if_pos d] at h ⊢; exact dict_freshAlt a _ v h
        · simp only [if_neg d] at h ⊢; exact dict_freshAltG g _ v h
    | _ => cases h
  | .sequence e r a g, b, v, h => by
    cases v with
    | seq cs =>
      simp only [steady, Bool.and_eq_true] at h
      obtain ⟨s, hs⟩ : ∃ s, ofVal (.sequence e r a g) (.seq cs) = .seq s := ⟨_, by simp only [ofVal]; rfl⟩
      have sl : ∀ i, slot (slotsOf (r.length + a.length + g.size) s) i = slot (builtSlots r a g cs) i := by
        intro i
        obtain ⟨s', e1, e2⟩ := slot_built e r a g cs (r.length + a.length + g.size) i
        rw [hs] at e1
        cases e1
        exact e2
      have x := dict_freshFields r ((slotsOf (r.length + a.length + g.size) s).take r.length) cs h.1.1.2
        (fun i hi => by rw [slot_take _ hi, sl, slot_built_root hi])
      have y := dict_freshFields a (((slotsOf (r.length + a.length + g.size) s).drop r.length).take a.length)
        (cs.drop r.length) h.1.2 (fun i hi => by rw [slot_take _ hi, slot_drop, sl, slot_built_add hi])
      have z := dict_freshGroups g ((slotsOf (r.length + a.length + g.size) s).drop (r.length + a.length))
        (cs.drop (r.length + a.length)) h.2 (fun i _ => by rw [slot_drop, sl, slot_built_group])
      rw [hs]
      simp only [dictObj, toDict]
      rw [x]
      cases toDictFields r cs with
      | error _ => rfl
      | ok es =>
        simp only [bind, Except.bind]
        rw [y]
        cases toDictFields a (cs.drop r.length) with
        | error _ => rfl
        | ok es' =>
          simp only [z]
          cases toDictGroups g (cs.drop (r.length + a.length)) <;> rfl
    | _ => cases h
theorem dict_freshAlt : ∀ (f : Fields) (p : Nat) (v : Val), steadyAlt f p v = true →
    (dictObjAlt f p (ofAlt f p v)).1 = toDictAlt f p v
  | .nil, _, _, h => by cases h
  | .cons _ _ t _, 0, v, h => by
    simp only [steadyAlt] at h
    simp only [dictObjAlt, ofAlt, toDictAlt, fresh_value t v h]
    split
    · simp only [dict_fresh t false v h]
      rcases toDict t false v with _ | (_ | _) <;> rfl
    · rfl
  | .cons _ _ _ r, p + 1, v, h => dict_freshAlt r p v h
theorem dict_freshAltG : ∀ (g : Groups) (p : Nat) (v : Val), steadyAltG g p v = true →
    (dictObjAltG g p (ofAltG g p v)).1 = toDictAltG g p v
  | .nil, _, _, h => by cases h
  | .cons f g, p, v, h => by
    simp only [steadyAltG] at h
    simp only [dictObjAltG, ofAltG, toDictAltG]
    by_cases c : p < f.length
    · simp only [if_pos c] at h ⊢; exact dict_freshAlt f p v h
    · simp only [if_neg c] at h ⊢; exact dict_freshAltG g _ v h
theorem dict_freshFields : ∀ (f : Fields) (ss : List (Option Obj)) (cs : List (Option Val)), steadyFields f cs = true →
    (∀ i, i < f.length → slot ss i = slot (ofSlots f cs) i) → (dictObjFields f ss).1 = toDictFields f cs
  | .nil, _, _, _, _ => rfl
  | .cons n k t r, ss, cs, h, e => by
    have e0 := e 0 (by simp [Fields.length])
    rw [slot_zero, slot_zero] at e0
    simp only [ofSlots, List.head?_cons, Option.getD_some] at e0
    have y := dict_freshFields r ss.tail cs.tail (steadyFields_tail h) (fun i hi => by
      rw [slot_tail, e (i + 1) (by simp [Fields.length]; omega), ← slot_tail]; rfl)
    have x : (if objValue t (instantiate k t (ss.head?.getD none)) || isConstructed t then
          dictObj t false (instantiate k t (ss.head?.getD none))
        else ((.ok none, instantiate k t (ss.head?.getD none)) : Step Obj (Option Dict))).1 =
        dictOne t (effective k (cs.head?.getD none)) := by
      rw [e0]
      unfold dictOne
      cases hc : effective k (cs.head?.getD none) with
      | some v =>
        have hv := steadyFields_held h hc
        have i : instantiate k t ((cs.head?.getD none).map (ofVal t)) = ofVal t v := by
          cases hd : cs.head?.getD none with
          | some w => rw [hd] at hc; cases k <;> cases hc <;> rfl
          | none => rw [hd] at hc; cases k <;> cases hc; rfl
        rw [i, fresh_value t v hv]
        dsimp only
        split
        · exact dict_fresh t false v hv
        · rfl
      | none =>
        have i : instantiate k t ((cs.head?.getD none).map (ofVal t)) = blank t := by
          cases hd : cs.head?.getD none with
          | some w => rw [hd] at hc; cases k <;> cases hc
          | none => rw [hd] at hc; cases k <;> first | rfl | cases hc
        rw [i, blank_value, Bool.false_or]
        cases he : emptyVal t with
        | some v =>
          have hv := steadyFields_empty h hc he
          have d := dict_fresh t false v hv
          rw [blank_empty he] at d
          have : isConstructed t = true := by cases t <;> first | rfl | cases he
          simp only [this, if_true, d]
        | none => cases t <;> first | rfl | cases he
    rw [dictFields_one]
    simp only [dictObjFields]
    rw [x]
    cases dictOne t (effective k (cs.head?.getD none)) with
    | error _ => rfl
    | ok d =>
      simp only [y]
      simp only [bind, Except.bind]
      cases toDictFields r cs.tail <;> cases d <;> rfl
theorem dict_freshGroups : ∀ (g : Groups) (ss : List (Option Obj)) (cs : List (Option Val)), steadyGroups g cs = true →
    (∀ i, i < g.size → slot ss i = slot (ofSlotsG g cs) i) → (dictObjGroups g ss).1 = toDictGroups g cs
  | .nil, _, _, _, _ => rfl
  | .cons f g, ss, cs, h, e => by
    simp only [steadyGroups, Bool.and_eq_true] at h
    simp only [Groups.size] at e
    have x := dict_freshFields f (ss.take f.length) cs h.1.1 (fun i hi => by
      rw [slot_take _ hi, e i (by omega)]
      exact slot_left _ (by rw [ofSlots_length]; exact hi))
    have y := dict_freshGroups g (ss.drop f.length) (cs.drop f.length) h.2 (fun i hi => by
      rw [slot_drop, e _ (by omega)]
      have := slot_right (xs := ofSlots f cs) (ofSlotsG g (cs.drop f.length)) i
      rw [ofSlots_length] at this
      exact this)
    simp only [dictObjGroups, toDictGroups]
    rw [x]
    cases toDictFields f cs with
    | error _ => rfl
    | ok es =>
      simp only [y, bind, Except.bind]
      cases toDictGroups g (cs.drop f.length) <;> rfl
end

end Verif
