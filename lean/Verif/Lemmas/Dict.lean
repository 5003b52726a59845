import Verif.SpecDict
import Verif.Lemmas.Bits
import Verif.Lemmas.RoundTrip
/-!
# Lemmas about `to_dict`
-/
namespace Verif

theorem Except.bind_eq_ok_iff {α β : Type} {x : Except Err α} {f : α → Except Err β} {b : β} :
    x >>= f = .ok b ↔ ∃ a, x = .ok a ∧ f a = .ok b := by
  cases x <;> simp [bind, Except.bind]

/-- The dictionary of a component, as in `toDictFields`. -/
def componentDict (t : Ty) (c : Option Val) : Except Err (Option Dict) :=
  match c with
  | some v => if isValue t v || isConstructed t then toDict t false v else .ok none
  | none =>
    match emptyVal t with
    | some v => toDict t false v
    | none => .ok (toDictUnset t)

theorem value_or_constructed (t : Ty) (v : Val) : (isValue t v || isConstructed t) = true := by
  cases t <;> simp [isValue, isConstructed]

theorem componentDict_some (t : Ty) (v : Val) : componentDict t (some v) = toDict t false v := by
  simp only [componentDict, value_or_constructed, if_true]

theorem toDictFields_cons (n : String) (k : Kind) (t : Ty) (r : Fields) (cs : List (Option Val)) :
    toDictFields (.cons n k t r) cs = (do
      let d ← componentDict t (effective k (cs.head?.getD none))
      let es ← toDictFields r cs.tail
      match d with
      | some d => return (n, d) :: es
      | none => return es) := by
  rw [toDictFields]; rfl

/-! ## no entry twice -/

theorem dictSet_new {es : List (String × Dict)} {n : String} {d : Dict} (h : n ∉ es.map Prod.fst) :
    dictSet es n d = es ++ [(n, d)] := by
  have : es.any (fun e => e.1 == n) = false := by
    rw [List.any_eq_false]
    intro e he hn
    exact h (List.mem_map.2 ⟨e, he, by simpa using hn⟩)
  simp [dictSet, this]

theorem foldl_dictSet : ∀ (es acc : List (String × Dict)), (acc ++ es).map Prod.fst |>.Nodup →
    es.foldl (fun d e => dictSet d e.1 e.2) acc = acc ++ es
  | [], acc, _ => by simp
  | (n, d) :: es, acc, h => by
    have hn : n ∉ acc.map Prod.fst := by
      simp only [List.map_append, List.map_cons, List.nodup_append] at h
      intro hm
      exact h.2.2 n hm n (by simp) rfl
    rw [List.foldl_cons, dictSet_new hn, foldl_dictSet es (acc ++ [(n, d)]) (by simpa using h)]
    simp

theorem foldl_dictSet_isEmpty (es : List (String × Dict)) (acc : List (String × Dict)) :
    (es.foldl (fun d e => dictSet d e.1 e.2) acc).isEmpty = (acc.isEmpty && es.isEmpty) := by
  induction es generalizing acc with
  | nil => simp
  | cons e es ih =>
    rw [List.foldl_cons, ih]
    have : (dictSet acc e.1 e.2).isEmpty = false := by
      unfold dictSet
      split
      · cases acc <;> simp_all
      · simp
    simp [this]

/-! ## what is left out leaves no trace -/

theorem head_none {cs : List (Option Val)} (h : Spec.allNone cs = true) : cs.head?.getD none = none := by
  cases cs with
  | nil => rfl
  | cons c cs => simp only [Spec.allNone, List.all_cons, Bool.and_eq_true] at h; cases c <;> simp_all

theorem tail_none {cs : List (Option Val)} (h : Spec.allNone cs = true) : Spec.allNone cs.tail = true := by
  cases cs with
  | nil => rfl
  | cons c cs => simp only [Spec.allNone, List.all_cons, Bool.and_eq_true] at h; exact h.2

theorem drop_none {cs : List (Option Val)} (h : Spec.allNone cs = true) (n : Nat) :
    Spec.allNone (cs.drop n) = true := by
  simp only [Spec.allNone, List.all_eq_true] at h ⊢
  exact fun c hc => h c (List.mem_of_mem_drop hc)

theorem replicate_none (n : Nat) : Spec.allNone (List.replicate n none) = true := by
  simp [Spec.allNone]

mutual
theorem traceless_ty : ∀ t : Ty, Spec.traceless t = true → componentDict t none = .ok none
  | .boolean, _ => rfl
  | .integer _, _ => rfl
  | .enumerated _ _ _, _ => rfl
  | .bitString _, _ => rfl
  | .octetString _, _ => rfl
  | .seqOf _ _, _ => by simp [componentDict, emptyVal, toDict, orNoValue, pure, Except.pure, bind, Except.bind]
  | .choice _ _ _ _, h => by simp [Spec.traceless] at h
  | .sequence _ r a g, h => by
    simp only [Spec.traceless, Bool.and_eq_true] at h
    have hn := replicate_none (r.length + a.length + g.size)
    simp only [componentDict, emptyVal, toDict]
    rw [traceless_fields r h.1.1 _ hn, traceless_fields a h.1.2 _ (drop_none hn _),
      traceless_groups g h.2 _ (drop_none hn _)]
    simp [orNoValue, pure, Except.pure, bind, Except.bind]
theorem traceless_fields : ∀ f : Fields, Spec.tracelessF f = true → ∀ cs, Spec.allNone cs = true →
    toDictFields f cs = .ok []
  | .nil, _, _, _ => by simp [toDictFields]
  | .cons n k t r, h, cs, hc => by
    simp only [Spec.tracelessF, Bool.and_eq_true, held_eq, untouched_eq, valued_eq, isOpt_eq, hasDefault_eq] at h
    rw [toDictFields_cons, head_none hc, traceless_fields r h.2 _ (tail_none hc)]
    have : effective k none = none := by cases k <;> simp_all [effective, Kind.isDefaulted]
    rw [this, traceless_ty t h.1.2]
    rfl
theorem traceless_groups : ∀ g : Groups, Spec.tracelessG g = true → ∀ cs, Spec.allNone cs = true →
    toDictGroups g cs = .ok []
  | .nil, _, _, _ => by simp [toDictGroups]
  | .cons f g, h, cs, hc => by
    simp only [Spec.tracelessG, Bool.and_eq_true] at h
    rw [toDictGroups, traceless_fields f h.1 _ hc, traceless_groups g h.2 _ (drop_none hc _)]
    rfl
end

/-! ## something to show -/

theorem Entries_append : ∀ {f f' : Fields} {cs : List (Option Val)} {es es' : List (String × Dict)},
    Spec.Entries f cs es → Spec.Entries f' (cs.drop f.length) es' →
    Spec.Entries (Spec.appendFields f f') cs (es ++ es')
  | .nil, _, _, _, _, h, h' => by cases h; simpa [Spec.appendFields, Fields.length] using h'
  | .cons n k t r, f', cs, es, es', h, h' => by
    have hd : cs.drop (r.length + 1) = cs.tail.drop r.length := by cases cs <;> simp
    simp only [Fields.length] at h'
    rw [hd] at h'
    cases h with
    | shown h1 h2 h3 h4 => exact .shown h1 h2 h3 (Entries_append h4 h')
    | hidden h1 h2 => exact .hidden h1 (Entries_append h2 h')

theorem filled_list {t : Ty} (ih : ∀ v x, Spec.explicit t v = true → toDict t false v = .ok x →
    x.isSome = Spec.filled t v) : ∀ (vs : List Val) (ds : List (Option Dict)),
    vs.all (Spec.explicit t) = true → vs.mapM (toDict t false) = .ok ds →
    (!(ds.filterMap id).isEmpty) = vs.any (Spec.filled t)
  | [], ds, _, h => by simp [pure, Except.pure] at h; simp [h]
  | v :: vs, ds, he, h => by
    simp only [List.mapM_cons, Except.bind_eq_ok_iff] at h
    obtain ⟨x, h1, xs, h2, h3⟩ := h
    simp only [pure, Except.pure, Except.ok.injEq] at h3
    subst h3
    simp only [List.all_cons, Bool.and_eq_true] at he
    have a1 := ih v x he.1 h1
    have a2 := filled_list ih vs xs he.2 h2
    rw [List.any_cons, ← a1, ← a2]
    cases x <;> simp

mutual
theorem filled_ty : ∀ (t : Ty) (v : Val) (x : Option Dict), Spec.explicit t v = true →
    toDict t false v = .ok x → x.isSome = Spec.filled t v
  | .boolean, v, x, _, h => by cases v <;> simp_all [toDict, Spec.filled]; simp [← h]
  | .integer _, v, x, _, h => by cases v <;> simp_all [toDict, Spec.filled]; simp [← h]
  | .enumerated _ root add, v, x, _, h => by
    cases v <;> simp only [toDict, reduceCtorEq] at h
    split at h
    · simp only [Except.ok.injEq] at h; simp [← h, Spec.filled]
    · simp at h
  | .bitString _, v, x, _, h => by cases v <;> simp_all [toDict, Spec.filled]; simp [← h]
  | .octetString _, v, x, _, h => by cases v <;> simp_all [toDict, Spec.filled]; simp [← h]
  | .seqOf _ t, v, x, he, h => by
    cases v <;> simp only [toDict, reduceCtorEq] at h
    rename_i vs
    rw [Except.bind_eq_ok_iff] at h
    obtain ⟨ds, h1, h2⟩ := h
    simp only [Spec.explicit] at he
    have := filled_list (filled_ty t) vs ds he h1
    simp only [orNoValue, Bool.false_eq_true, if_false, pure, Except.pure, Except.ok.injEq] at h2
    simp only [Spec.filled]
    rw [← this, ← h2]
    cases (List.filterMap id ds).isEmpty <;> simp
  | .choice _ r a g, v, x, he, h => by
    cases v <;> simp only [toDict, reduceCtorEq] at h
    rename_i pos v
    have alt : ∀ (f : Fields) (i : Nat), toDictAlt f i v = .ok x → x.isSome = true := fun f i h =>
      altSome f i v x h
    simp only [Spec.filled]
    split at h
    · exact alt _ _ h
    · split at h
      · exact alt _ _ h
      · exact altSomeG _ _ v x h
  | .sequence _ r a g, v, x, he, h => by
    cases v <;> simp only [toDict, reduceCtorEq] at h
    rename_i cs
    simp only [Except.bind_eq_ok_iff] at h
    obtain ⟨e1, h1, e2, h2, e3, h3, h4⟩ := h
    simp only [Spec.explicit, Bool.and_eq_true] at he
    have a1 := (filled_fields r cs e1 he.1.1 h1).2
    have a2 := (filled_fields a _ e2 he.1.2 h2).2
    have a3 := (filled_groups g _ e3 he.2 h3).2
    simp only [orNoValue, Bool.false_eq_true, if_false, pure, Except.pure, Except.ok.injEq,
      foldl_dictSet_isEmpty, List.isEmpty_nil, Bool.true_and] at h4
    have : (e1 ++ e2 ++ e3).isEmpty = (e1.isEmpty && e2.isEmpty && e3.isEmpty) := by
      cases e1 <;> cases e2 <;> simp
    rw [this, a1, a2, a3] at h4
    simp only [Spec.filled]
    rw [← h4]
    cases Spec.filledAny r cs <;> cases Spec.filledAny a (cs.drop r.length) <;>
      cases Spec.filledAnyG g (cs.drop (r.length + a.length)) <;> simp
theorem altSome : ∀ (f : Fields) (i : Nat) (v : Val) (x : Option Dict), toDictAlt f i v = .ok x →
    x.isSome = true
  | .nil, _, _, _, h => by simp [toDictAlt] at h
  | .cons n _ t _, 0, v, x, h => by
    simp only [toDictAlt] at h
    split at h
    · rw [Except.bind_eq_ok_iff] at h
      obtain ⟨d, _, h⟩ := h
      cases d <;> simp only [pure, Except.pure, Except.ok.injEq] at h <;> simp [← h]
    · simp only [pure, Except.pure, Except.ok.injEq] at h; simp [← h]
  | .cons _ _ _ r, i + 1, v, x, h => by
    simp only [toDictAlt] at h
    exact altSome r i v x h
theorem altSomeG : ∀ (g : Groups) (i : Nat) (v : Val) (x : Option Dict), toDictAltG g i v = .ok x →
    x.isSome = true
  | .nil, _, _, _, h => by simp [toDictAltG] at h
  | .cons f g, i, v, x, h => by
    simp only [toDictAltG] at h
    split at h
    · exact altSome f i v x h
    · exact altSomeG g _ v x h
theorem filled_fields : ∀ (f : Fields) (cs : List (Option Val)) (es : List (String × Dict)),
    Spec.explicitFields f cs = true → toDictFields f cs = .ok es →
    Spec.Entries f cs es ∧ es.isEmpty = !Spec.filledAny f cs
  | .nil, cs, es, _, h => by simp [toDictFields] at h; subst h; exact ⟨.nil, by simp [Spec.filledAny]⟩
  | .cons n k t r, cs, es, he, h => by
    rw [toDictFields_cons] at h
    simp only [Except.bind_eq_ok_iff] at h
    obtain ⟨x, h1, es', h2, h3⟩ := h
    simp only [Spec.explicitFields, Bool.and_eq_true, held_eq, untouched_eq, valued_eq, isOpt_eq, hasDefault_eq] at he
    obtain ⟨i1, i2⟩ := filled_fields r cs.tail es' he.2 h2
    simp only [Spec.filledAny, held_eq, untouched_eq, valued_eq, isOpt_eq, hasDefault_eq]
    cases hv : effective k (cs.head?.getD none) with
    | none =>
      simp only [hv] at he h1
      rw [traceless_ty t he.1] at h1
      cases h1
      simp only [pure, Except.pure, Except.ok.injEq] at h3
      subst h3
      exact ⟨.hidden (by simp [Spec.filledComponent, hv]) i1, by simp [i2]⟩
    | some v =>
      simp only [hv] at he h1
      rw [componentDict_some] at h1
      have hf := filled_ty t v x he.1 h1
      cases x with
      | none =>
        simp only [pure, Except.pure, Except.ok.injEq] at h3
        subst h3
        simp only [Option.isSome_none] at hf
        exact ⟨.hidden (by simp [Spec.filledComponent, hv, ← hf]) i1, by simp [i2, ← hf]⟩
      | some d =>
        simp only [pure, Except.pure, Except.ok.injEq] at h3
        subst h3
        simp only [Option.isSome_some] at hf
        exact ⟨.shown ((held_eq _ _).trans hv) hf.symm h1 i1, by simp [← hf]⟩
theorem filled_groups : ∀ (g : Groups) (cs : List (Option Val)) (es : List (String × Dict)),
    Spec.explicitGroups g cs = true → toDictGroups g cs = .ok es →
    Spec.Entries (Spec.flatten g) cs es ∧ es.isEmpty = !Spec.filledAnyG g cs
  | .nil, cs, es, _, h => by simp [toDictGroups] at h; subst h; exact ⟨.nil, by simp [Spec.filledAnyG]⟩
  | .cons f g, cs, es, he, h => by
    simp only [toDictGroups, Except.bind_eq_ok_iff] at h
    obtain ⟨e1, h1, e2, h2, h3⟩ := h
    simp only [pure, Except.pure, Except.ok.injEq] at h3
    subst h3
    simp only [Spec.explicitGroups, Bool.and_eq_true] at he
    obtain ⟨i1, i2⟩ := filled_fields f cs e1 he.1 h1
    obtain ⟨j1, j2⟩ := filled_groups g _ e2 he.2 h2
    refine ⟨Entries_append i1 j1, ?_⟩
    simp only [Spec.filledAnyG, Bool.not_or, ← i2, ← j2]
    cases e1 <;> simp
end

/-! ## `to_dict` does not raise -/

theorem mapM_total {α β : Type} {f : α → Except Err β} : ∀ {l : List α}, (∀ a ∈ l, ∃ b, f a = .ok b) →
    ∃ bs, l.mapM f = .ok bs
  | [], _ => ⟨[], rfl⟩
  | a :: l, h => by
    obtain ⟨b, hb⟩ := h a (by simp)
    obtain ⟨bs, hbs⟩ := mapM_total (fun a ha => h a (List.mem_cons_of_mem _ ha))
    exact ⟨b :: bs, by simp [List.mapM_cons, hb, hbs, bind, Except.bind, pure, Except.pure]⟩

mutual
theorem typed_ty : ∀ (t : Ty) (b : Bool) (v : Val), Spec.typed t v = true →
    ∃ x, toDict t b v = .ok x ∧ (b = true → x.isSome = true)
  | .boolean, b, v, h => by cases v <;> simp_all [Spec.typed, toDict]
  | .integer _, b, v, h => by cases v <;> simp_all [Spec.typed, toDict]
  | .enumerated _ root add, b, v, h => by
    cases v <;> simp only [Spec.typed, reduceCtorEq] at h
    rename_i z
    simp only [toDict]
    cases hf : (root ++ add).find? (fun p => p.2 == z) with
    | none =>
      rw [List.find?_eq_none] at hf
      rw [List.any_eq_true] at h
      obtain ⟨p, hp, hz⟩ := h
      exact absurd hz (hf p hp)
    | some p => exact ⟨_, rfl, fun _ => rfl⟩
  | .bitString _, b, v, h => by cases v <;> simp_all [Spec.typed, toDict]
  | .octetString _, b, v, h => by cases v <;> simp_all [Spec.typed, toDict]
  | .seqOf _ t, b, v, h => by
    cases v <;> simp only [Spec.typed, reduceCtorEq] at h
    rename_i vs
    rw [List.all_eq_true] at h
    obtain ⟨ds, hd⟩ := mapM_total (f := toDict t false) (l := vs) fun v hv =>
      let ⟨x, hx, _⟩ := typed_ty t false v (h v hv); ⟨x, hx⟩
    simp only [toDict, hd, bind, Except.bind, pure, Except.pure]
    exact ⟨_, rfl, fun hb => by simp [orNoValue, hb]⟩
  | .choice _ r a g, b, v, h => by
    cases v <;> simp only [Spec.typed, reduceCtorEq] at h
    rename_i pos v
    simp only [toDict]
    split at h
    · obtain ⟨x, hx⟩ := typed_alt r pos v h
      rw [if_pos (by assumption)]
      exact ⟨x, hx, fun _ => altSome _ _ _ _ hx⟩
    · rw [if_neg (by assumption)]
      split at h
      · obtain ⟨x, hx⟩ := typed_alt a _ v h
        rw [if_pos (by assumption)]
        exact ⟨x, hx, fun _ => altSome _ _ _ _ hx⟩
      · obtain ⟨x, hx⟩ := typed_altG g _ v h
        rw [if_neg (by assumption)]
        exact ⟨x, hx, fun _ => altSomeG _ _ _ _ hx⟩
  | .sequence _ r a g, b, v, h => by
    cases v <;> simp only [Spec.typed, reduceCtorEq] at h
    rename_i cs
    simp only [Bool.and_eq_true] at h
    obtain ⟨e1, h1⟩ := typed_fields r cs h.1.1
    obtain ⟨e2, h2⟩ := typed_fields a _ h.1.2
    obtain ⟨e3, h3⟩ := typed_groups g _ h.2
    simp only [toDict, h1, h2, h3, bind, Except.bind, pure, Except.pure]
    exact ⟨_, rfl, fun hb => by simp [orNoValue, hb]⟩
theorem typed_alt : ∀ (f : Fields) (i : Nat) (v : Val), Spec.typedAlt f i v = true →
    ∃ x, toDictAlt f i v = .ok x
  | .nil, _, _, h => by simp [Spec.typedAlt] at h
  | .cons n _ t _, 0, v, h => by
    simp only [Spec.typedAlt] at h
    obtain ⟨x, hx, _⟩ := typed_ty t false v h
    simp only [toDictAlt, hx, bind, Except.bind, pure, Except.pure]
    cases isValue t v <;> cases x <;> simp
  | .cons _ _ _ r, i + 1, v, h => by
    simp only [Spec.typedAlt] at h
    simp only [toDictAlt]
    exact typed_alt r i v h
theorem typed_altG : ∀ (g : Groups) (i : Nat) (v : Val), Spec.typedAltG g i v = true →
    ∃ x, toDictAltG g i v = .ok x
  | .nil, _, _, h => by simp [Spec.typedAltG] at h
  | .cons f g, i, v, h => by
    simp only [Spec.typedAltG] at h
    simp only [toDictAltG]
    split at h
    · rw [if_pos (by assumption)]; exact typed_alt f i v h
    · rw [if_neg (by assumption)]; exact typed_altG g _ v h
theorem typed_fields : ∀ (f : Fields) (cs : List (Option Val)), Spec.typedFields f cs = true →
    ∃ es, toDictFields f cs = .ok es
  | .nil, _, _ => ⟨[], by simp [toDictFields]⟩
  | .cons n k t r, cs, h => by
    simp only [Spec.typedFields, Bool.and_eq_true, held_eq, untouched_eq, valued_eq, isOpt_eq, hasDefault_eq] at h
    obtain ⟨es, hes⟩ := typed_fields r cs.tail h.2
    have : ∃ x, componentDict t (effective k (cs.head?.getD none)) = .ok x := by
      cases hv : effective k (cs.head?.getD none) with
      | some v =>
        simp only [hv] at h
        obtain ⟨x, hx, _⟩ := typed_ty t false v h.1
        exact ⟨x, by rw [componentDict_some, hx]⟩
      | none =>
        simp only [hv] at h
        simp only [componentDict]
        cases hw : emptyVal t with
        | none => exact ⟨_, rfl⟩
        | some w =>
          simp only [hw] at h
          obtain ⟨x, hx, _⟩ := typed_ty t false w h.1
          exact ⟨x, hx⟩
    obtain ⟨x, hx⟩ := this
    rw [toDictFields_cons, hx, hes]
    cases x
    · exact ⟨_, rfl⟩
    · exact ⟨_, rfl⟩
theorem typed_groups : ∀ (g : Groups) (cs : List (Option Val)), Spec.typedGroups g cs = true →
    ∃ es, toDictGroups g cs = .ok es
  | .nil, _, _ => ⟨[], by simp [toDictGroups]⟩
  | .cons f g, cs, h => by
    simp only [Spec.typedGroups, Bool.and_eq_true] at h
    obtain ⟨e1, h1⟩ := typed_fields f cs h.1
    obtain ⟨e2, h2⟩ := typed_groups g _ h.2
    exact ⟨e1 ++ e2, by simp only [toDictGroups, h1, h2]; rfl⟩
end

/-! ## keys -/

theorem uniqueKeysL_iff : ∀ {l : List Dict}, Spec.uniqueKeysL l ↔ ∀ d ∈ l, Spec.uniqueKeys d
  | [] => by simp [Spec.uniqueKeysL]
  | d :: l => by simp [Spec.uniqueKeysL, uniqueKeysL_iff (l := l)]

theorem uniqueKeysE_iff : ∀ {l : List (String × Dict)}, Spec.uniqueKeysE l ↔ ∀ e ∈ l, Spec.uniqueKeys e.2
  | [] => by simp [Spec.uniqueKeysE]
  | (n, d) :: l => by simp only [Spec.uniqueKeysE, uniqueKeysE_iff (l := l), List.forall_mem_cons]

theorem dictSet_keys {es : List (String × Dict)} {n : String} {d : Dict} (h : (es.map Prod.fst).Nodup) :
    ((dictSet es n d).map Prod.fst).Nodup := by
  unfold dictSet
  split
  · have : (es.map (fun e => if e.1 == n then (n, d) else e)).map Prod.fst = es.map Prod.fst := by
      rw [List.map_map]
      refine List.map_congr_left fun e _ => ?_
      simp only [Function.comp_apply]
      split
      · rename_i he; exact (beq_iff_eq.1 he).symm
      · rfl
    rwa [this]
  · rename_i hn
    rw [List.map_append, List.nodup_append]
    refine ⟨h, by simp, ?_⟩
    intro a ha b hb hab
    simp only [List.map_cons, List.map_nil, List.mem_singleton] at hb
    obtain ⟨e, he, rfl⟩ := List.mem_map.1 ha
    exact hn (List.any_eq_true.2 ⟨e, he, by simp [hab, hb]⟩)

theorem dictSet_values {es : List (String × Dict)} {n : String} {d : Dict} (h : Spec.uniqueKeysE es)
    (hd : Spec.uniqueKeys d) : Spec.uniqueKeysE (dictSet es n d) := by
  rw [uniqueKeysE_iff] at h ⊢
  intro e he
  unfold dictSet at he
  split at he
  · obtain ⟨e', h', rfl⟩ := List.mem_map.1 he
    split
    · exact hd
    · exact h e' h'
  · rcases List.mem_append.1 he with h' | h'
    · exact h e h'
    · rw [List.mem_singleton.1 h']; exact hd

theorem foldl_dictSet_unique : ∀ (es acc : List (String × Dict)), Spec.uniqueKeysE es →
    (acc.map Prod.fst).Nodup → Spec.uniqueKeysE acc →
    Spec.uniqueKeys (.dict (es.foldl (fun d e => dictSet d e.1 e.2) acc))
  | [], acc, _, h1, h2 => by simp only [Spec.uniqueKeys, List.foldl_nil]; exact ⟨h1, h2⟩
  | (n, d) :: es, acc, h, h1, h2 => by
    rw [List.foldl_cons]
    exact foldl_dictSet_unique es _ h.2 (dictSet_keys h1) (dictSet_values h2 h.1)

theorem mapM_keys {t : Ty} (ih : ∀ v d, toDict t false v = .ok (some d) → Spec.uniqueKeys d) :
    ∀ (vs : List Val) (ds : List (Option Dict)), vs.mapM (toDict t false) = .ok ds →
      Spec.uniqueKeysL (ds.filterMap id)
  | [], ds, h => by
    simp only [List.mapM_nil, pure, Except.pure, Except.ok.injEq] at h
    subst h; trivial
  | v :: vs, ds, h => by
    simp only [List.mapM_cons, Except.bind_eq_ok_iff, pure, Except.pure, Except.ok.injEq] at h
    obtain ⟨x, hx, xs, hxs, rfl⟩ := h
    cases x with
    | none => simpa using mapM_keys ih vs xs hxs
    | some d => simpa [Spec.uniqueKeysL] using ⟨ih v d hx, mapM_keys ih vs xs hxs⟩

mutual
theorem keys_ty : ∀ (t : Ty) (b : Bool) (v : Val) (d : Dict), toDict t b v = .ok (some d) → Spec.uniqueKeys d
  | .boolean, b, v, d, h => by
    cases v <;> simp only [toDict, Except.ok.injEq, Option.some.injEq, reduceCtorEq] at h
    subst h; trivial
  | .integer _, b, v, d, h => by
    cases v <;> simp only [toDict, Except.ok.injEq, Option.some.injEq, reduceCtorEq] at h
    subst h; trivial
  | .enumerated _ root add, b, v, d, h => by
    cases v <;> simp only [toDict, reduceCtorEq] at h
    split at h
    · simp only [Except.ok.injEq, Option.some.injEq] at h
      subst h; trivial
    · exact absurd h (by simp)
  | .bitString _, b, v, d, h => by
    cases v <;> simp only [toDict, Except.ok.injEq, Option.some.injEq, reduceCtorEq] at h
    subst h; trivial
  | .octetString _, b, v, d, h => by
    cases v <;> simp only [toDict, Except.ok.injEq, Option.some.injEq, reduceCtorEq] at h
    subst h; trivial
  | .seqOf _ t, b, v, d, h => by
    cases v <;> simp only [toDict, reduceCtorEq, Except.bind_eq_ok_iff, pure, Except.pure, Except.ok.injEq] at h
    obtain ⟨ds, hds, h⟩ := h
    have := mapM_keys (fun v d => keys_ty t false v d) _ _ hds
    unfold orNoValue at h
    split at h
    · obtain rfl := Option.some.inj h; exact this
    · split at h
      · exact absurd h (by simp)
      · obtain rfl := Option.some.inj h; exact this
  | .choice _ r a g, b, v, d, h => by
    cases v <;> simp only [toDict, reduceCtorEq] at h
    split at h
    · exact keys_alt r _ _ _ h
    · split at h
      · exact keys_alt a _ _ _ h
      · exact keys_altG g _ _ _ h
  | .sequence _ r a g, b, v, d, h => by
    cases v <;> simp only [toDict, reduceCtorEq, Except.bind_eq_ok_iff, pure, Except.pure, Except.ok.injEq] at h
    obtain ⟨e1, h1, e2, h2, e3, h3, h⟩ := h
    have k1 := keys_fields r _ _ h1
    have k2 := keys_fields a _ _ h2
    have k3 := keys_groups g _ _ h3
    have : Spec.uniqueKeysE (e1 ++ e2 ++ e3) := by
      rw [uniqueKeysE_iff] at *
      intro e he
      simp only [List.mem_append] at he
      rcases he with (he | he) | he
      · exact k1 e he
      · exact k2 e he
      · exact k3 e he
    have := foldl_dictSet_unique _ [] this List.nodup_nil trivial
    unfold orNoValue at h
    split at h
    · obtain rfl := Option.some.inj h; exact this
    · split at h
      · exact absurd h (by simp)
      · obtain rfl := Option.some.inj h; exact this
theorem keys_alt : ∀ (f : Fields) (p : Nat) (v : Val) (d : Dict), toDictAlt f p v = .ok (some d) → Spec.uniqueKeys d
  | .nil, _, _, _, h => by simp [toDictAlt] at h
  | .cons n _ t _, 0, v, d, h => by
    simp only [toDictAlt] at h
    split at h
    · simp only [Except.bind_eq_ok_iff] at h
      obtain ⟨x, hx, h⟩ := h
      cases x with
      | none =>
        simp only [pure, Except.pure, Except.ok.injEq, Option.some.injEq] at h
        subst h; simp [Spec.uniqueKeys, Spec.uniqueKeysE]
      | some e =>
        simp only [pure, Except.pure, Except.ok.injEq, Option.some.injEq] at h
        subst h
        simpa [Spec.uniqueKeys, Spec.uniqueKeysE] using keys_ty t false v e hx
    · simp only [pure, Except.pure, Except.ok.injEq, Option.some.injEq] at h
      subst h; trivial
  | .cons _ _ _ r, p + 1, v, d, h => by
    simp only [toDictAlt] at h
    exact keys_alt r p v d h
theorem keys_altG : ∀ (g : Groups) (p : Nat) (v : Val) (d : Dict), toDictAltG g p v = .ok (some d) → Spec.uniqueKeys d
  | .nil, _, _, _, h => by simp [toDictAltG] at h
  | .cons f g, p, v, d, h => by
    simp only [toDictAltG] at h
    split at h
    · exact keys_alt f _ _ _ h
    · exact keys_altG g _ _ _ h
theorem keys_fields : ∀ (f : Fields) (cs : List (Option Val)) (es : List (String × Dict)),
    toDictFields f cs = .ok es → Spec.uniqueKeysE es
  | .nil, _, es, h => by
    simp only [toDictFields, Except.ok.injEq] at h
    subst h; trivial
  | .cons n k t r, cs, es, h => by
    simp only [toDictFields, Except.bind_eq_ok_iff] at h
    obtain ⟨x, hx, es', hes, h⟩ := h
    have ih := keys_fields r _ _ hes
    cases x with
    | none =>
      simp only [pure, Except.pure, Except.ok.injEq] at h
      exact h ▸ ih
    | some d =>
      simp only [pure, Except.pure, Except.ok.injEq] at h
      subst h
      refine ⟨?_, ih⟩
      split at hx
      · split at hx
        · exact keys_ty t false _ d hx
        · exact absurd hx (by simp)
      · split at hx
        · exact keys_ty t false _ d hx
        · unfold toDictUnset at hx
          split at hx
          · simp only [Except.ok.injEq, Option.some.injEq] at hx
            subst hx; trivial
          · exact absurd hx (by simp)
theorem keys_groups : ∀ (g : Groups) (cs : List (Option Val)) (es : List (String × Dict)),
    toDictGroups g cs = .ok es → Spec.uniqueKeysE es
  | .nil, _, es, h => by
    simp only [toDictGroups, Except.ok.injEq] at h
    subst h; trivial
  | .cons f g, cs, es, h => by
    simp only [toDictGroups, Except.bind_eq_ok_iff, pure, Except.pure, Except.ok.injEq] at h
    obtain ⟨e1, h1, e2, h2, rfl⟩ := h
    have k1 := keys_fields f _ _ h1
    have k2 := keys_groups g _ _ h2
    rw [uniqueKeysE_iff] at *
    intro e he
    rcases List.mem_append.1 he with he | he
    · exact k1 e he
    · exact k2 e he
end

end Verif
