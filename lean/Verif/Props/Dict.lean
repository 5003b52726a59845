import Verif.Lemmas.DictWire
import Verif.Props.Compound
/-!
# What `to_dict` shows (C28-C30)
-/
namespace Verif.Props

/-! ## C28 the components that are present -/

/-- `to_dict` of a value of the type does not raise, and its result is never `noValue`. -/
theorem C28_total {t : Ty} {v : Val} (h : Spec.typed t v = true) : ∃ d, toDict t true v = .ok (some d) := by
  obtain ⟨x, hx, hs⟩ := typed_ty t true v h
  cases x with
  | none => simp at hs
  | some d => exact ⟨d, hx⟩

/-- A key stands for one value: no dictionary in the result, at any depth, has a key twice.  The component names
of the type need not be distinct. -/
theorem C28_keys {t : Ty} {b : Bool} {v : Val} {d : Dict} (h : toDict t b v = .ok (some d)) : Spec.uniqueKeys d :=
  keys_ty t b v d h

/-- Two components with one name, the second of them a SEQUENCE with a key of that name: the place of the first,
the value of the second. -/
example : toDict (.sequence false (Fields.ofList [("a", .mandatory, .boolean), ("b", .mandatory, .boolean),
      ("a", .mandatory, .sequence false (Fields.ofList [("a", .mandatory, .boolean)]) .nil .nil)]) .nil .nil) true
      (.seq [some (.bool true), some (.bool true), some (.seq [some (.bool false)])]) =
    .ok (some (.dict [("a", .dict [("a", .bool false)]), ("b", .bool true)])) := by decide +kernel

theorem Entries_names : ∀ {f : Fields} {cs : List (Option Val)} {es : List (String × Dict)},
    Spec.Entries f cs es → (es.map Prod.fst).Sublist f.names
  | _, _, _, .nil => List.nil_sublist _
  | _, _, _, .shown _ _ _ h => List.Sublist.cons_cons _ (Entries_names h)
  | _, _, _, .hidden _ h => List.Sublist.cons _ (Entries_names h)

/-- The dictionary of a SEQUENCE has one entry per component that carries a value or DEFAULT, and no other; the
entries are in declaration order. -/
theorem C28_sequence_partial {ext : Bool} {r a : Fields} {g : Groups} {cs : List (Option Val)}
    (hn : (Spec.components r a g).names.Nodup) (ht : Spec.typed (.sequence ext r a g) (.seq cs) = true)
    (he : Spec.explicit (.sequence ext r a g) (.seq cs) = true) :
    ∃ es, toDict (.sequence ext r a g) true (.seq cs) = .ok (some (.dict es)) ∧
      Spec.Entries (Spec.components r a g) cs es := by
  obtain ⟨x, hx, _⟩ := typed_ty _ true _ ht
  simp only [toDict, Except.bind_eq_ok_iff] at hx
  obtain ⟨e1, h1, e2, h2, e3, h3, _⟩ := hx
  simp only [Spec.explicit, Bool.and_eq_true] at he
  have a1 := (filled_fields r cs e1 he.1.1 h1).1
  have a2 := (filled_fields a _ e2 he.1.2 h2).1
  have a3 := (filled_groups g _ e3 he.2 h3).1
  have ha : Spec.Entries (Spec.components r a g) cs (e1 ++ e2 ++ e3) := by
    rw [List.append_assoc]
    exact Entries_append a1 (Entries_append a2 (by rwa [List.drop_drop]))
  refine ⟨e1 ++ e2 ++ e3, ?_, ha⟩
  have hf := foldl_dictSet (e1 ++ e2 ++ e3) [] (by simpa using (Entries_names ha).nodup hn)
  simp only [toDict, h1, h2, h3, bind, Except.bind, pure, Except.pure, hf]
  rfl

/-- The dictionaries of the elements are in the list, in order. -/
theorem C28_sequence_of_partial {c : SizeC} {t : Ty} {vs : List Val}
    (ht : Spec.typed (.seqOf c t) (.seqOf vs) = true) (he : Spec.explicit (.seqOf c t) (.seqOf vs) = true)
    (hf : ∀ v ∈ vs, Spec.filled t v = true) :
    ∃ ds, toDict (.seqOf c t) true (.seqOf vs) = .ok (some (.list ds)) ∧ ds.length = vs.length ∧
      ∀ p ∈ vs.zip ds, toDict t false p.1 = .ok (some p.2) := by
  have : ∃ ds : List Dict, vs.mapM (toDict t false) = .ok (ds.map some) ∧
      ds.length = vs.length ∧ ∀ p ∈ vs.zip ds, toDict t false p.1 = .ok (some p.2) := by
    simp only [Spec.typed, Spec.explicit] at ht he
    clear c
    induction vs with
    | nil => exact ⟨[], rfl, rfl, by simp⟩
    | cons v vs ih =>
      simp only [List.all_cons, Bool.and_eq_true] at ht he
      obtain ⟨ds, h1, h2, h3⟩ := ih ht.2 he.2 (fun v hv => hf v (List.mem_cons_of_mem _ hv))
      obtain ⟨x, hx, _⟩ := typed_ty t false v ht.1
      have := filled_ty t v x he.1 hx
      rw [hf v (by simp)] at this
      obtain ⟨d, rfl⟩ := Option.isSome_iff_exists.1 this
      refine ⟨d :: ds, by simp [List.mapM_cons, hx, h1, bind, Except.bind, pure, Except.pure], by simp [h2], ?_⟩
      intro p hp
      rw [List.zip_cons_cons, List.mem_cons] at hp
      rcases hp with rfl | hp
      · exact hx
      · exact h3 p hp
  obtain ⟨ds, h1, h2⟩ := this
  refine ⟨ds, ?_, h2⟩
  simp [toDict, h1, orNoValue, bind, Except.bind, pure, Except.pure]

theorem fieldAt_append : ∀ (f f' : Fields) (i : Nat), Spec.fieldAt (Spec.appendFields f f') i =
    if i < f.length then Spec.fieldAt f i else Spec.fieldAt f' (i - f.length)
  | .nil, f', i => by simp [Spec.appendFields, Fields.length]
  | .cons n k t r, f', 0 => by simp [Spec.appendFields, Spec.fieldAt, Fields.length]
  | .cons n k t r, f', i + 1 => by
    simp only [Spec.appendFields, Spec.fieldAt, Fields.length, fieldAt_append r f' i, Nat.add_lt_add_iff_right,
      Nat.add_sub_add_right]

theorem toDictAlt_at : ∀ {f : Fields} {i : Nat} {n : String} {k : Kind} {t : Ty} (v : Val),
    Spec.fieldAt f i = some (n, k, t) → toDictAlt f i v = toDictAlt (.cons n k t .nil) 0 v
  | .nil, _, _, _, _, _, h => by simp [Spec.fieldAt] at h
  | .cons n' k' t' r, 0, n, k, t, v, h => by
    simp only [Spec.fieldAt, Option.some.injEq, Prod.mk.injEq] at h
    obtain ⟨rfl, rfl, rfl⟩ := h
    simp only [toDictAlt]
  | .cons n' k' t' r, i + 1, n, k, t, v, h => by
    simp only [Spec.fieldAt] at h
    rw [show toDictAlt (.cons n' k' t' r) (i + 1) v = toDictAlt r i v by rw [toDictAlt]]
    exact toDictAlt_at v h

theorem toDictAltG_at : ∀ {g : Groups} {i : Nat} {n : String} {k : Kind} {t : Ty} (v : Val),
    Spec.fieldAt (Spec.flatten g) i = some (n, k, t) → toDictAltG g i v = toDictAlt (.cons n k t .nil) 0 v
  | .nil, _, _, _, _, _, h => by simp [Spec.flatten, Spec.fieldAt] at h
  | .cons f g, i, n, k, t, v, h => by
    rw [toDictAltG]
    rw [Spec.flatten, fieldAt_append] at h
    by_cases hi : i < f.length
    · simp only [hi, if_true] at h ⊢; exact toDictAlt_at v h
    · simp only [hi, if_false] at h ⊢; exact toDictAltG_at v h

/-- The dictionary of a CHOICE holds the chosen alternative and nothing else. -/
theorem C28_choice_partial {ext b : Bool} {r a : Fields} {g : Groups} {pos : Nat} {v : Val} {n : String} {k : Kind}
    {t : Ty} (hp : Spec.fieldAt (Spec.components r a g) pos = some (n, k, t)) (ht : Spec.typed t v = true)
    (he : Spec.explicit t v = true) (hv : Spec.valued t v = true) (hf : Spec.filled t v = true) :
    ∃ d, toDict (.choice ext r a g) b (.choice pos v) = .ok (some (.dict [(n, d)])) ∧
      toDict t false v = .ok (some d) := by
  rw [valued_eq] at hv
  obtain ⟨x, hx, _⟩ := typed_ty t false v ht
  have := filled_ty t v x he hx
  rw [hf] at this
  obtain ⟨d, rfl⟩ := Option.isSome_iff_exists.1 this
  refine ⟨d, ?_, hx⟩
  have hd : toDict (.choice ext r a g) b (.choice pos v) = toDictAlt (.cons n k t .nil) 0 v := by
    rw [Spec.components, fieldAt_append] at hp
    rw [toDict]
    by_cases h1 : pos < r.length
    · simp only [h1, if_true] at hp ⊢; exact toDictAlt_at v hp
    · simp only [h1, if_false, fieldAt_append] at hp ⊢
      by_cases h2 : pos - r.length < a.length
      · have h3 : pos < r.length + a.length := by omega
        simp only [h2, h3, if_true] at hp ⊢; exact toDictAlt_at v hp
      · have h3 : ¬ pos < r.length + a.length := by omega
        simp only [h2, h3, if_false] at hp ⊢
        rw [Nat.sub_sub] at hp
        exact toDictAltG_at v hp
  rw [hd, toDictAlt]
  simp [hv, hx, bind, Except.bind, pure, Except.pure]

/-- Root components of every kind, an addition, a group; a nested SEQUENCE and a SEQUENCE OF. -/
def sampleShown : Ty :=
  .sequence true (Fields.ofList
      [("id", .mandatory, .integer .noConstraint), ("flag", .optional, .boolean),
       ("level", .default (.int 5), .integer .noConstraint),
       ("list", .optional, .seqOf ⟨false, none, none⟩ .boolean)])
    (Fields.ofList [("more", .optional, .octetString ⟨false, none, none⟩)])
    (Groups.ofList [[("inner", .mandatory, .sequence false (Fields.ofList [("x", .optional, .boolean)]) .nil .nil)]])

example :
    let v : Val := .seq [some (.int 3), none, none, some (.seqOf [.bool true]), some (.octets [0xab]), none]
    (Spec.components (Fields.ofList [("id", .mandatory, .boolean)]) (Fields.ofList [("more", .optional, .boolean)])
        .nil).names.Nodup ∧
      Spec.typed sampleShown v = true ∧ Spec.explicit sampleShown v = true ∧
      toDict sampleShown true v = .ok (some (.dict
        [("id", .int 3), ("level", .int 5), ("list", .list [.bool true]), ("more", .str "ab")])) := by
  decide +kernel

example : Spec.typed (.seqOf ⟨false, none, none⟩ (.integer .noConstraint)) (.seqOf [.int 3, .int 4]) = true ∧
    Spec.explicit (.seqOf ⟨false, none, none⟩ (.integer .noConstraint)) (.seqOf [.int 3, .int 4]) = true ∧
    ∀ v ∈ [Val.int 3, .int 4], Spec.filled (.integer .noConstraint) v = true := by decide +kernel

example : Spec.fieldAt (Spec.components (Fields.ofList [("a", .mandatory, .boolean)])
      (Fields.ofList [("b", .mandatory, .boolean)]) (Groups.ofList [[("c", .mandatory, .seqOf ⟨false, none, none⟩ .boolean)]])) 2 =
      some ("c", .mandatory, .seqOf ⟨false, none, none⟩ .boolean) ∧
    Spec.typed (.seqOf ⟨false, none, none⟩ .boolean) (.seqOf [.bool true]) = true ∧
    Spec.explicit (.seqOf ⟨false, none, none⟩ .boolean) (.seqOf [.bool true]) = true ∧
    Spec.valued (.seqOf ⟨false, none, none⟩ .boolean) (.seqOf [.bool true]) = true ∧
    Spec.filled (.seqOf ⟨false, none, none⟩ .boolean) (.seqOf [.bool true]) = true := by
  refine ⟨rfl, ?_⟩
  decide +kernel

/-! ## C29 nothing is lost -/

theorem C29_integer {c : Constr} {b b' : Bool} {x y : Int}
    (h : toDict (.integer c) b (.int x) = toDict (.integer c) b' (.int y)) : x = y := by
  simpa [toDict] using h

example : toDict (.integer .noConstraint) true (.int (-7)) = .ok (some (.int (-7))) := by decide +kernel

theorem C29_boolean {b b' : Bool} {x y : Bool} (h : toDict .boolean b (.bool x) = toDict .boolean b' (.bool y)) :
    x = y := by
  simpa [toDict] using h

example : toDict .boolean true (.bool true) ≠ toDict .boolean true (.bool false) := by decide +kernel

theorem inj_of_nodup {α β : Type} {f : α → β} : ∀ {l : List α} {a b : α}, (l.map f).Nodup → a ∈ l → b ∈ l →
    f a = f b → a = b
  | [], _, _, _, ha, _, _ => by simp at ha
  | c :: l, a, b, hn, ha, hb, h => by
    simp only [List.map_cons, List.nodup_cons, List.mem_map, not_exists, not_and] at hn
    rcases List.mem_cons.1 ha with rfl | ha' <;> rcases List.mem_cons.1 hb with rfl | hb'
    · rfl
    · exact absurd h.symm (hn.1 b hb')
    · exact absurd h (hn.1 a ha')
    · exact inj_of_nodup hn.2 ha' hb' h

/-- ENUMERATED: given that no two items have the same name. -/
theorem C29_enumerated {ext : Bool} {root add : List (String × Int)} {b b' : Bool} {x y : Int}
    (hn : ((root ++ add).map Prod.fst).Nodup) (hx : x ∈ (root ++ add).map Prod.snd)
    (hy : y ∈ (root ++ add).map Prod.snd)
    (h : toDict (.enumerated ext root add) b (.enum x) = toDict (.enumerated ext root add) b' (.enum y)) :
    x = y := by
  have known : ∀ z ∈ (root ++ add).map Prod.snd, ∃ p, (root ++ add).find? (fun p => p.2 == z) = some p := by
    intro z hz
    obtain ⟨q, hq, rfl⟩ := List.mem_map.1 hz
    cases hf : (root ++ add).find? (fun p => p.2 == q.2) with
    | none => rw [List.find?_eq_none] at hf; exact absurd (beq_self_eq_true q.2) (hf q hq)
    | some p => exact ⟨p, rfl⟩
  obtain ⟨p, hp⟩ := known x hx
  obtain ⟨q, hq⟩ := known y hy
  simp only [toDict, hp, hq, Except.ok.injEq, Option.some.injEq, Dict.str.injEq] at h
  have hpq : p = q := inj_of_nodup hn (List.mem_of_find?_eq_some hp) (List.mem_of_find?_eq_some hq) h
  have h1 := List.find?_some hp
  have h2 := List.find?_some hq
  simp only [beq_iff_eq] at h1 h2
  rw [← h1, ← h2, hpq]

example : ((([("a", 0), ("b", 4)] ++ [("c", 2)] : List (String × Int))).map Prod.fst).Nodup ∧
    (4 : Int) ∈ ([("a", 0), ("b", 4)] ++ [("c", 2)] : List (String × Int)).map Prod.snd ∧
    toDict (.enumerated true [("a", 0), ("b", 4)] [("c", 2)]) true (.enum 4) = .ok (some (.str "b")) := by
  decide +kernel

theorem hexChar_inj : ∀ {a b : Nat}, a < 16 → b < 16 → hexChar a = hexChar b → a = b := by
  have : ∀ a : Fin 16, ∀ b : Fin 16, hexChar a = hexChar b → a = b := by decide +kernel
  intro a b ha hb h
  exact congrArg Fin.val (this ⟨a, ha⟩ ⟨b, hb⟩ h)

theorem hexDigits_inj : ∀ {o o' : List UInt8},
    (o.flatMap fun b => [hexChar (b.toNat / 16), hexChar (b.toNat % 16)]) =
      (o'.flatMap fun b => [hexChar (b.toNat / 16), hexChar (b.toNat % 16)]) → o = o'
  | [], [], _ => rfl
  | [], _ :: _, h => by simp at h
  | _ :: _, [], h => by simp at h
  | a :: o, b :: o', h => by
    simp only [List.flatMap_cons, List.cons_append, List.nil_append, List.cons.injEq] at h
    have ha := a.toNat_lt
    have hb := b.toNat_lt
    have h1 := hexChar_inj (by omega) (by omega) h.1
    have h2 := hexChar_inj (Nat.mod_lt _ (by omega)) (Nat.mod_lt _ (by omega)) h.2.1
    have : a.toNat = b.toNat := by omega
    rw [UInt8.toNat_inj.1 this, hexDigits_inj h.2.2]

theorem C29_octet_string {c c' : SizeC} {b b' : Bool} {x y : List UInt8}
    (h : toDict (.octetString c) b (.octets x) = toDict (.octetString c') b' (.octets y)) : x = y := by
  simp only [toDict, Except.ok.injEq, Option.some.injEq, Dict.str.injEq, hexString, String.ofList_inj] at h
  exact hexDigits_inj h

/-- An OCTET STRING of n octets is shown as 2n lowercase hex digits: two per octet, the higher half first. -/
theorem C29_octet_string_digits (c : SizeC) (b : Bool) (o : List UInt8) :
    ∃ s : String, toDict (.octetString c) b (.octets o) = .ok (some (.str s)) ∧ s.length = 2 * o.length ∧
      (∀ ch ∈ s.toList, ch ∈ "0123456789abcdef".toList) ∧
      ∀ i (hi : i < o.length), s.toList[2 * i]? = "0123456789abcdef".toList[o[i].toNat / 16]? ∧
        s.toList[2 * i + 1]? = "0123456789abcdef".toList[o[i].toNat % 16]? := by
  have hd : ∀ n : Fin 16, some (hexChar n) = "0123456789abcdef".toList[n.val]? := by decide +kernel
  have hm : ∀ n : Fin 16, hexChar n ∈ "0123456789abcdef".toList := by decide +kernel
  refine ⟨hexString o, rfl, ?_, ?_, ?_⟩
  · rw [hexString, String.length_ofList]
    induction o with
    | nil => rfl
    | cons a o ih => simp only [List.flatMap_cons, List.length_append, ih, List.length_cons]; simp; omega
  · intro ch hch
    rw [hexString, String.toList_ofList, List.mem_flatMap] at hch
    obtain ⟨a, _, ha⟩ := hch
    have hl := a.toNat_lt
    simp only [List.mem_cons, List.not_mem_nil, or_false] at ha
    rcases ha with rfl | rfl
    · exact hm ⟨a.toNat / 16, by omega⟩
    · exact hm ⟨a.toNat % 16, by omega⟩
  · rw [hexString, String.toList_ofList]
    induction o with
    | nil => intro i hi; simp at hi
    | cons a o ih =>
      intro i hi
      have hl := a.toNat_lt
      cases i with
      | zero =>
        simp only [List.flatMap_cons, List.getElem_cons_zero, List.cons_append, List.nil_append, Nat.mul_zero,
          List.getElem?_cons_zero, Nat.zero_add, List.getElem?_cons_succ]
        exact ⟨hd ⟨a.toNat / 16, by omega⟩, hd ⟨a.toNat % 16, by omega⟩⟩
      | succ i =>
        have := ih i (by simpa using hi)
        simp only [List.flatMap_cons, List.getElem_cons_succ, List.cons_append, List.nil_append]
        rw [show 2 * (i + 1) = 2 * i + 1 + 1 by omega, List.getElem?_cons_succ, List.getElem?_cons_succ,
          show 2 * i + 1 + 1 + 1 = (2 * i + 1) + 1 + 1 by omega, List.getElem?_cons_succ, List.getElem?_cons_succ]
        exact this

example : toDict (.octetString ⟨false, none, none⟩) true (.octets [0, 0xa5]) = .ok (some (.str "00a5")) := by
  decide +kernel

/-- BIT STRINGs of one length (F26: the length is not shown). -/
theorem C29_bit_string_partial {c : SizeC} {b b' : Bool} {x y : Bits} (hl : x.length = y.length)
    (h : toDict (.bitString c) b (.bits x) = toDict (.bitString c) b' (.bits y)) : x = y := by
  simp only [toDict, Except.ok.injEq, Option.some.injEq, Dict.int.injEq, Int.natCast_inj] at h
  exact bitsToNat_inj hl h

example : toDict (.bitString ⟨false, none, none⟩) true (.bits [true, false, true]) = .ok (some (.int 5)) := by
  decide +kernel

/-! ## C30 the dictionary of what arrives -/

/-- Decoding the encoding of a value gives a value with the same dictionary. -/
theorem C30_wire_partial {t : Ty} {v : Val} {bs : List UInt8} (hn : Spec.returnable v = true) (h : Spec.safe t v = true)
    (ht : Spec.tidy t v = true) (he : encode t v = .ok bs) (extra : List UInt8) (b : Bool) :
    ∃ w, decode t (bs ++ extra) = .ok w ∧ toDict t b w = toDict t b v :=
  ⟨_, C10_accepted_partial hn h he extra, wire_ty t b v ht⟩

example :
    let v : Val := .seq [some (.int 3), some (.octets [7]), none, some (.seqOf [.choice 2 (.octets [1, 2])])]
    Spec.safe sampleSequence v = true ∧ Spec.tidy sampleSequence v = true ∧ (encode sampleSequence v).isOk = true := by
  decide +kernel

example :
    let v : Val := .seq [some (.bool true), some (.int 5), some (.bool false), none, some (.bits [true, false, true]), none]
    Spec.safe sampleExtended v = true ∧ Spec.tidy sampleExtended v = true ∧ (encode sampleExtended v).isOk = true := by
  decide +kernel

end Verif.Props
