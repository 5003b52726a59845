import Verif.Lemmas.Sequence
/-!
# The encoding depends on nothing but what is received

Two objects that are received as the same value are encoded alike.
-/
namespace Verif

theorem receivedRoot_length : ∀ (r : Fields) (cs : List (Option Val)), (Spec.receivedRoot r cs).length = r.length
  | .nil, _ => rfl
  | .cons _ _ _ r, cs => by simp [Spec.receivedRoot, Fields.length, receivedRoot_length r]

theorem receivedAdds_length : ∀ (r : Fields) (cs : List (Option Val)), (Spec.receivedAdds r cs).length = r.length
  | .nil, _ => rfl
  | .cons _ _ _ r, cs => by simp [Spec.receivedAdds, Fields.length, receivedAdds_length r]

/-- A root component arrives if it is sent. -/
theorem receivedComponent_eq (recv : Val → Val) (k : Kind) (t : Ty) (c : Option Val) :
    Spec.receivedComponent recv k t c = (Spec.sent k t c).map recv := by
  cases k with
  | mandatory => cases c <;> rfl
  | optional => simp only [Spec.receivedComponent, Spec.sent]; split <;> rfl
  | default d =>
    cases c with
    | none => rfl
    | some v => simp only [Spec.receivedComponent, Spec.sent]; split <;> rfl

/-! ## objects of a type -/

theorem nones_head {ds : List (Option Val)} (h : ∀ c ∈ ds, c = none) : ds.head?.getD none = none := by
  cases ds with
  | nil => rfl
  | cons c ds => simpa using h c (by simp)

theorem nones_tail {ds : List (Option Val)} (h : ∀ c ∈ ds, c = none) : ∀ c ∈ ds.tail, c = none :=
  fun c hc => h c (List.mem_of_mem_tail hc)

mutual
/-- The untouched object of a type is an object of the type. -/
theorem ofType_untouched : ∀ (t : Ty) (v u : Val), Spec.ofType t v = true → Spec.untouched t = some u →
    Spec.ofType t u = true
  | .boolean, _, _, _, hu => by cases hu
  | .integer _, _, _, _, hu => by cases hu
  | .enumerated _ _ _, _, _, _, hu => by cases hu
  | .bitString _, _, _, _, hu => by cases hu
  | .octetString _, _, _, _, hu => by cases hu
  | .choice _ _ _ _, _, _, _, hu => by cases hu
  | .seqOf c t, v, u, _, hu => by cases hu; rfl
  | .sequence ext r a g, v, u, h, hu => by
    cases hu
    cases v with
    | seq cs =>
      simp only [Spec.ofType, Bool.and_eq_true] at h ⊢
      have hn : ∀ c ∈ List.replicate (Spec.components r a g).length (none : Option Val), c = none :=
        fun c hc => (List.mem_replicate.1 hc).2
      exact ⟨⟨ofTypeFields_none r _ _ h.1.1 hn, ofTypeFields_none a _ _ h.1.2 (fun c hc => hn c (List.mem_of_mem_drop hc))⟩,
        ofTypeGroups_none g _ _ h.2 (fun c hc => hn c (List.mem_of_mem_drop hc))⟩
    | _ => simp [Spec.ofType] at h
theorem ofTypeFields_none : ∀ (r : Fields) (cs ds : List (Option Val)), Spec.ofTypeFields r cs = true →
    (∀ c ∈ ds, c = none) → Spec.ofTypeFields r ds = true
  | .nil, _, _, _, _ => rfl
  | .cons n k t r, cs, ds, h, hn => by
    simp only [Spec.ofTypeFields, Bool.and_eq_true, nones_head hn] at h ⊢
    refine ⟨⟨h.1.1, ?_⟩, ofTypeFields_none r cs.tail ds.tail h.2 (nones_tail hn)⟩
    have h1 := h.1.2
    cases hu : Spec.untouched t with
    | none => rfl
    | some u =>
      cases hc : cs.head?.getD none with
      | none => rw [hc, hu] at h1; exact h1
      | some v => rw [hc] at h1; exact ofType_untouched t v u h1 hu
theorem ofTypeGroups_none : ∀ (g : Groups) (cs ds : List (Option Val)), Spec.ofTypeGroups g cs = true →
    (∀ c ∈ ds, c = none) → Spec.ofTypeGroups g ds = true
  | .nil, _, _, _, _ => rfl
  | .cons f g, cs, ds, h, hn => by
    simp only [Spec.ofTypeGroups, Bool.and_eq_true] at h ⊢
    exact ⟨ofTypeFields_none f _ _ h.1 hn,
      ofTypeGroups_none g _ _ h.2 (fun c hc => hn c (List.mem_of_mem_drop hc))⟩
end

theorem ofTypeFields_append : ∀ (f : Fields) (cs X : List (Option Val)), Spec.ofTypeFields f cs = true →
    cs.length = f.length → Spec.ofTypeFields f (cs ++ X) = true
  | .nil, _, _, _, _ => rfl
  | .cons n k t r, [], X, _, hl => by simp [Fields.length] at hl
  | .cons n k t r, c :: cs, X, h, hl => by
    simp only [Spec.ofTypeFields, Bool.and_eq_true, List.cons_append, List.head?_cons, Option.getD_some,
      List.tail_cons] at h ⊢
    exact ⟨h.1, ofTypeFields_append r cs X h.2 (by simpa [Fields.length] using hl)⟩

/-- The condition of `Spec.ofTypeFields` on one component. -/
def ofTypeComponent (t : Ty) : Option Val → Bool
  | some v => Spec.ofType t v
  | none =>
    match Spec.untouched t with
    | some v => Spec.ofType t v
    | none => true

/-- What is sent of a component is an object of its type. -/
theorem ofType_sent {k : Kind} {t : Ty} {c : Option Val} {v : Val} (h : ofTypeComponent t c = true)
    (hs : Spec.sent k t c = some v) : Spec.ofType t v = true := by
  cases k with
  | mandatory =>
    cases c with
    | some w => cases hs; exact h
    | none => simp only [Spec.sent] at hs; rw [ofTypeComponent, hs] at h; exact h
  | optional =>
    simp only [Spec.sent] at hs
    split at hs
    · subst hs; exact h
    · cases hs
  | default d =>
    cases c with
    | none => cases hs
    | some w =>
      simp only [Spec.sent] at hs
      split at hs
      · cases hs
      · cases hs; exact h

/-- What an extension addition holds is an object of its type. -/
theorem ofType_effective {k : Kind} {t : Ty} {c : Option Val} (v : Val)
    (hk : (match k with | .default d => Spec.ofType t d | _ => true) = true) (hc : ofTypeComponent t c = true)
    (he : effective k c = some v) : Spec.ofType t v = true := by
  cases c with
  | some w => cases k <;> (cases he; exact hc)
  | none => cases k <;> simp only [effective, reduceCtorEq, Option.some.injEq] at he; subst he; exact hk

/-! ## groups -/

/-- Any object of a type that a default can be compared in holds something. -/
theorem simple_substantial {t : Ty} {d c v : Val} {b : Bool} (hd : Spec.ofType t d = true)
    (hc : pyValueNe d c = .ok b) (hv : Spec.ofType t v = true) : Spec.substantial t (some v) = true := by
  cases d <;> cases c <;> simp [pyValueNe] at hc <;>
    (cases t <;> simp [Spec.ofType] at hd <;> cases v <;> simp [Spec.ofType] at hv <;> rfl)

/-- A group that is sent though nothing of it is received holds a DEFAULT component, which no object can
do without. -/
theorem group_stays : ∀ (f : Fields) (cs cs' : List (Option Val)) (bits : Bits) (fl : List BitField),
    Spec.ofTypeFields f cs = true → Spec.ofTypeFields f cs' = true → encRoot f cs = .ok (bits, fl) →
    Spec.anySubstantial f cs = true → Spec.receivedRoot f cs = List.replicate f.length none →
    Spec.anySubstantial f cs' = true
  | .nil, _, _, _, _, _, _, _, h, _ => by simp [Spec.anySubstantial] at h
  | .cons n k t r, cs, cs', bits, fl, ht, ht', he, hs, hr => by
    simp only [encRoot] at he
    obtain ⟨⟨b, fl1⟩, e1, he⟩ := Except.bind_eq_ok he
    obtain ⟨⟨bs, fls⟩, e2, he⟩ := Except.bind_eq_ok he
    simp only [Spec.ofTypeFields, Bool.and_eq_true] at ht ht'
    simp only [Spec.receivedRoot, Fields.length, List.replicate_succ, List.cons.injEq, receivedComponent_eq,
      Option.map_eq_none_iff] at hr
    simp only [Spec.anySubstantial, Bool.or_eq_true] at hs ⊢
    rcases hs with hs | hs
    · left
      have hsent := hr.1
      generalize cs.head?.getD none = c at *
      cases k with
      | mandatory =>
        cases c with
        | some v => cases hsent
        | none => simp [Spec.held, Spec.substantial] at hs
      | optional =>
        cases c with
        | none => simp [Spec.held, Spec.substantial] at hs
        | some v =>
          simp only [Spec.held] at hs
          simp [Spec.sent, hs] at hsent
      | default d =>
        have hd := ht.1.1
        have hd' := ht'.1.1
        have hcmp : ∃ c b, pyValueNe d c = .ok b := by
          unfold rootComponent at e1
          cases c with
          | none => obtain ⟨ne, e0, _⟩ := Except.bind_eq_ok e1; exact ⟨_, _, e0⟩
          | some v => obtain ⟨ne, e0, _⟩ := Except.bind_eq_ok e1; exact ⟨_, _, e0⟩
        obtain ⟨c0, b0, e0⟩ := hcmp
        have h2 := ht'.1.2
        generalize cs'.head?.getD none = c' at *
        cases c' with
        | none => exact simple_substantial hd e0 hd
        | some v => exact simple_substantial hd e0 h2
    · exact .inr (group_stays r cs.tail cs'.tail bs fls ht.2 ht'.2 e2 hs hr.2)

/-! ## the encoder -/

/-- The shape of an extension addition. -/
theorem additionComponent_sent {enc : Val → Except Err (List BitField)} {t : Ty} {prev : Option Prev}
    {c : Option Val} {b : Bool} {fl : List BitField} (h : additionComponent enc t prev c = .ok (b, fl)) :
    b = Spec.substantial t c ∧
      ((∃ v fs, Spec.substantial t c = true ∧ c = some v ∧ enc v = .ok fs ∧ encodeOpenTypeField fs = .ok fl) ∨
       (Spec.substantial t c = false ∧ fl = [])) := by
  unfold additionComponent at h
  cases c with
  | none => cases h; exact ⟨rfl, .inr ⟨rfl, rfl⟩⟩
  | some v =>
    rw [← present_eq]
    dsimp only at h
    by_cases hv : isValue t v = true
    · rw [if_pos hv] at h
      by_cases hg : Prev.gap prev = true
      · rw [if_pos hg] at h; cases h
      · rw [if_neg hg] at h
        by_cases hc : hasContent v = true
        · rw [if_pos hc] at h
          obtain ⟨fl', e3, h⟩ := Except.bind_eq_ok h
          obtain ⟨ofl, e4, h⟩ := Except.bind_eq_ok h
          cases h
          have : present t (some v) = true := by simp [present, hv, hc]
          exact ⟨this.symm, .inl ⟨v, fl', this, rfl, e3, e4⟩⟩
        · rw [if_neg hc] at h
          cases h
          have : present t (some v) = false := by simp [present, hc]
          exact ⟨this.symm, .inr ⟨this, rfl⟩⟩
    · rw [if_neg hv] at h
      cases h
      have : present t (some v) = false := by simp [present, hv]
      exact ⟨this.symm, .inr ⟨this, rfl⟩⟩

mutual
/-- Objects received alike are encoded alike. -/
theorem same_ty : ∀ (t : Ty) (v v' : Val) (fs fs' : List BitField), Spec.ofType t v = true →
    Spec.ofType t v' = true → Spec.received t v = Spec.received t v' → encTy t v = .ok fs →
    encTy t v' = .ok fs' → fs = fs'
  | .boolean, v, v', fs, fs', h, h', hr, e, e' => by
    simp only [Spec.received] at hr; subst hr; exact Except.ok.inj (e.symm.trans e')
  | .integer _, v, v', fs, fs', h, h', hr, e, e' => by
    simp only [Spec.received] at hr; subst hr; exact Except.ok.inj (e.symm.trans e')
  | .enumerated _ _ _, v, v', fs, fs', h, h', hr, e, e' => by
    simp only [Spec.received] at hr; subst hr; exact Except.ok.inj (e.symm.trans e')
  | .bitString _, v, v', fs, fs', h, h', hr, e, e' => by
    simp only [Spec.received] at hr; subst hr; exact Except.ok.inj (e.symm.trans e')
  | .octetString _, v, v', fs, fs', h, h', hr, e, e' => by
    simp only [Spec.received] at hr; subst hr; exact Except.ok.inj (e.symm.trans e')
  | .seqOf c t, v, v', fs, fs', h, h', hr, e, e' => by
    cases v <;> simp [Spec.ofType] at h
    cases v' <;> simp [Spec.ofType] at h'
    rename_i vs vs'
    simp only [Spec.received, Val.seqOf.injEq] at hr
    simp only [encTy] at e e'
    obtain ⟨fls, e1, e⟩ := Except.bind_eq_ok e
    obtain ⟨fls', e1', e'⟩ := Except.bind_eq_ok e'
    have hlen : vs.length = vs'.length := by simpa using congrArg List.length hr
    have key : ∀ (vs vs' : List Val) (fls fls' : List (List BitField)), (∀ v ∈ vs, Spec.ofType t v = true) →
        (∀ v ∈ vs', Spec.ofType t v = true) → vs.map (Spec.received t) = vs'.map (Spec.received t) →
        vs.mapM (encTy t) = .ok fls → vs'.mapM (encTy t) = .ok fls' → fls = fls' := by
      intro vs
      induction vs with
      | nil =>
        intro vs' fls fls' _ _ hm e e'
        cases vs' with
        | nil => exact Except.ok.inj (e.symm.trans e')
        | cons _ _ => cases hm
      | cons v vs ih =>
        intro vs' fls fls' h h' hm e e'
        cases vs' with
        | nil => cases hm
        | cons v' vs' =>
          rw [List.mapM_cons] at e e'
          simp only [List.map_cons, List.cons.injEq] at hm
          obtain ⟨f, e1, e⟩ := Except.bind_eq_ok e
          obtain ⟨fl, e2, e⟩ := Except.bind_eq_ok e
          obtain ⟨f', e1', e'⟩ := Except.bind_eq_ok e'
          obtain ⟨fl', e2', e'⟩ := Except.bind_eq_ok e'
          cases e; cases e'
          rw [same_ty t v v' f f' (h v List.mem_cons_self) (h' v' List.mem_cons_self) hm.1 e1 e1',
            ih vs' fl fl' (fun w hw => h w (List.mem_cons_of_mem _ hw)) (fun w hw => h' w (List.mem_cons_of_mem _ hw))
              hm.2 e2 e2']
    rw [key vs vs' fls fls' h h' hr e1 e1', hlen] at e
    exact Except.ok.inj (e.symm.trans e')
  | .choice ext r a g, v, v', fs, fs', h, h', hr, e, e' => by
    cases v <;> simp only [Spec.ofType, Bool.false_eq_true] at h
    cases v' <;> simp only [Spec.ofType, Bool.false_eq_true] at h'
    rename_i pos v pos' v'
    simp only [Spec.received, Val.choice.injEq] at hr
    obtain ⟨rfl, hr⟩ := hr
    simp only [encTy] at e e'
    obtain ⟨fl, e1, e⟩ := Except.bind_eq_ok e
    obtain ⟨fl', e1', e'⟩ := Except.bind_eq_ok e'
    have : fl = fl' := by
      by_cases h1 : pos < r.length
      · simp only [h1, if_true] at h h' hr e1 e1'
        exact same_alt r pos v v' fl fl' h h' hr e1 e1'
      · by_cases h2 : pos < r.length + a.length
        · simp only [h1, h2, if_true, if_false] at h h' hr e1 e1'
          exact same_alt a _ v v' fl fl' h h' hr e1 e1'
        · simp only [h1, h2, if_false] at h h' hr e1 e1'
          exact same_altG g _ v v' fl fl' h h' hr e1 e1'
    subst this
    exact Except.ok.inj (e.symm.trans e')
  | .sequence ext r a g, v, v', fs, fs', h, h', hr, e, e' => by
    cases v <;> simp only [Spec.ofType, Bool.false_eq_true] at h
    cases v' <;> simp only [Spec.ofType, Bool.false_eq_true] at h'
    rename_i cs cs'
    simp only [Bool.and_eq_true] at h h'
    simp only [Spec.received, Val.seq.injEq] at hr
    obtain ⟨hr1, hr2⟩ := List.append_inj hr (by rw [receivedRoot_length, receivedRoot_length])
    simp only [encTy] at e e'
    obtain ⟨⟨opt, fl⟩, e1, e⟩ := Except.bind_eq_ok e
    obtain ⟨rf, e2, e⟩ := Except.bind_eq_ok e
    obtain ⟨⟨opt', fl'⟩, e1', e'⟩ := Except.bind_eq_ok e'
    obtain ⟨rf', e2', e'⟩ := Except.bind_eq_ok e'
    obtain ⟨rfl, rfl⟩ := same_root r cs cs' opt opt' fl fl' h.1.1 h'.1.1 hr1 e1 e1'
    have hrf : rf = rf' := Except.ok.inj (e2.symm.trans e2')
    subst hrf
    cases ext with
    | false => simp only [Bool.false_eq_true, if_false] at e e'; exact Except.ok.inj (e.symm.trans e')
    | true =>
      simp only [if_true] at e e' hr2
      by_cases h0 : a.length = 0 ∧ g.length = 0
      · rw [if_pos h0] at e e'; exact Except.ok.inj (e.symm.trans e')
      · rw [if_neg h0] at e e'
        obtain ⟨⟨ab, afl⟩, e3, e⟩ := Except.bind_eq_ok e
        obtain ⟨⟨gb, gfl⟩, e4, e⟩ := Except.bind_eq_ok e
        obtain ⟨⟨ab', afl'⟩, e3', e'⟩ := Except.bind_eq_ok e'
        obtain ⟨⟨gb', gfl'⟩, e4', e'⟩ := Except.bind_eq_ok e'
        obtain ⟨hra, hrg⟩ := List.append_inj hr2 (by rw [receivedAdds_length, receivedAdds_length])
        obtain ⟨rfl, rfl⟩ := same_adds a _ _ none none ab ab' afl afl' h.1.2 h'.1.2 hra e3 e3'
        obtain ⟨rfl, rfl⟩ := same_groups g _ _ none none gb gb' gfl gfl' h.2 h'.2 hrg e4 e4'
        exact Except.ok.inj (e.symm.trans e')
theorem same_alt : ∀ (r : Fields) (p : Nat) (v v' : Val) (fs fs' : List BitField), Spec.ofTypeAlt r p v = true →
    Spec.ofTypeAlt r p v' = true → Spec.receivedAlt r p v = Spec.receivedAlt r p v' → encAlt r p v = .ok fs →
    encAlt r p v' = .ok fs' → fs = fs'
  | .nil, _, _, _, _, _, h, _, _, _, _ => by simp [Spec.ofTypeAlt] at h
  | .cons _ _ t _, 0, v, v', fs, fs', h, h', hr, e, e' => same_ty t v v' fs fs' h h' hr e e'
  | .cons _ _ _ r, p + 1, v, v', fs, fs', h, h', hr, e, e' => same_alt r p v v' fs fs' h h' hr e e'
theorem same_altG : ∀ (g : Groups) (p : Nat) (v v' : Val) (fs fs' : List BitField), Spec.ofTypeAltG g p v = true →
    Spec.ofTypeAltG g p v' = true → Spec.receivedAltG g p v = Spec.receivedAltG g p v' → encAltG g p v = .ok fs →
    encAltG g p v' = .ok fs' → fs = fs'
  | .nil, _, _, _, _, _, h, _, _, _, _ => by simp [Spec.ofTypeAltG] at h
  | .cons f g, p, v, v', fs, fs', h, h', hr, e, e' => by
    simp only [Spec.ofTypeAltG, Spec.receivedAltG, encAltG] at h h' hr e e'
    by_cases hp : p < f.length
    · simp only [hp, if_true] at h h' hr e e'; exact same_alt f p v v' fs fs' h h' hr e e'
    · simp only [hp, if_false] at h h' hr e e'; exact same_altG g _ v v' fs fs' h h' hr e e'
theorem same_root : ∀ (r : Fields) (cs cs' : List (Option Val)) (b b' : Bits) (fs fs' : List BitField),
    Spec.ofTypeFields r cs = true → Spec.ofTypeFields r cs' = true →
    Spec.receivedRoot r cs = Spec.receivedRoot r cs' → encRoot r cs = .ok (b, fs) → encRoot r cs' = .ok (b', fs') →
    b = b' ∧ fs = fs'
  | .nil, _, _, b, b', fs, fs', _, _, _, e, e' => by
    simp only [encRoot, Except.ok.injEq, Prod.mk.injEq] at e e'
    exact ⟨e.1.symm.trans e'.1, e.2.symm.trans e'.2⟩
  | .cons n k t r, cs, cs', b, b', fs, fs', h, h', hr, e, e' => by
    simp only [encRoot] at e e'
    simp only [Spec.ofTypeFields, Bool.and_eq_true] at h h'
    simp only [Spec.receivedRoot, List.cons.injEq, receivedComponent_eq] at hr
    obtain ⟨⟨b1, fl1⟩, e1, e⟩ := Except.bind_eq_ok e
    obtain ⟨⟨b2, fl2⟩, e2, e⟩ := Except.bind_eq_ok e
    obtain ⟨⟨b1', fl1'⟩, e1', e'⟩ := Except.bind_eq_ok e'
    obtain ⟨⟨b2', fl2'⟩, e2', e'⟩ := Except.bind_eq_ok e'
    cases e; cases e'
    obtain ⟨rfl, rfl⟩ := same_root r cs.tail cs'.tail b2 b2' fl2 fl2' h.2 h'.2 hr.2 e2 e2'
    obtain ⟨s1, s2, s3⟩ := rootComponent_shape e1
    obtain ⟨s1', s2', s3'⟩ := rootComponent_shape e1'
    have hsent := hr.1
    have hb : b1 = b1' := by
      by_cases hk : k = .mandatory
      · rw [s1 hk, s1' hk]
      · rw [s2 hk, s2' hk]
        have := congrArg Option.isSome hsent
        simpa using this
    have hf : fl1 = fl1' := by
      rcases s3 with ⟨v, hv, ev⟩ | ⟨_, hv, rfl⟩ <;> rcases s3' with ⟨v', hv', ev'⟩ | ⟨_, hv', rfl⟩ <;>
        rw [hv, hv'] at hsent
      · exact same_ty t v v' fl1 fl1' (ofType_sent h.1.2 hv) (ofType_sent h'.1.2 hv') (by simpa using hsent) ev ev'
      · simp at hsent
      · simp at hsent
    rw [hb, hf]; exact ⟨rfl, rfl⟩
theorem same_adds : ∀ (a : Fields) (cs cs' : List (Option Val)) (p p' : Option Prev) (b b' : Bits)
    (fs fs' : List BitField), Spec.ofTypeFields a cs = true → Spec.ofTypeFields a cs' = true →
    Spec.receivedAdds a cs = Spec.receivedAdds a cs' → encAdds a cs p = .ok (b, fs) →
    encAdds a cs' p' = .ok (b', fs') → b = b' ∧ fs = fs'
  | .nil, _, _, _, _, b, b', fs, fs', _, _, _, e, e' => by
    simp only [encAdds, Except.ok.injEq, Prod.mk.injEq] at e e'
    exact ⟨e.1.symm.trans e'.1, e.2.symm.trans e'.2⟩
  | .cons n k t r, cs, cs', p, p', b, b', fs, fs', h, h', hr, e, e' => by
    simp only [encAdds] at e e'
    simp only [Spec.ofTypeFields, Bool.and_eq_true] at h h'
    simp only [Spec.receivedAdds, List.cons.injEq, held_eq] at hr
    obtain ⟨⟨b1, fl1⟩, e1, e⟩ := Except.bind_eq_ok e
    obtain ⟨⟨b2, fl2⟩, e2, e⟩ := Except.bind_eq_ok e
    obtain ⟨⟨b1', fl1'⟩, e1', e'⟩ := Except.bind_eq_ok e'
    obtain ⟨⟨b2', fl2'⟩, e2', e'⟩ := Except.bind_eq_ok e'
    cases e; cases e'
    obtain ⟨rfl, rfl⟩ := same_adds r cs.tail cs'.tail _ _ b2 b2' fl2 fl2' h.2 h'.2 hr.2 e2 e2'
    obtain ⟨s1, s2⟩ := additionComponent_sent e1
    obtain ⟨s1', s2'⟩ := additionComponent_sent e1'
    have hrc := hr.1
    have : fl1 = fl1' ∧ b1 = b1' := by
      rcases s2 with ⟨v, f, hs, hv, ev, eo⟩ | ⟨hs, rfl⟩ <;> rcases s2' with ⟨v', f', hs', hv', ev', eo'⟩ | ⟨hs', rfl⟩
      · rw [if_pos hs, if_pos hs', hv, hv'] at hrc
        have := same_ty t v v' f f' (ofType_effective v h.1.1 h.1.2 hv) (ofType_effective v' h'.1.1 h'.1.2 hv')
          (by simpa using hrc) ev ev'
        subst this
        exact ⟨Except.ok.inj (eo.symm.trans eo'), by rw [s1, s1', hs, hs']⟩
      · rw [if_pos hs, if_neg (by simp [hs']), hv] at hrc; simp at hrc
      · rw [if_neg (by simp [hs]), if_pos hs', hv'] at hrc; simp at hrc
      · exact ⟨rfl, by rw [s1, s1', hs, hs']⟩
    rw [this.1, this.2]; exact ⟨rfl, rfl⟩
theorem same_groups : ∀ (g : Groups) (cs cs' : List (Option Val)) (p p' : Option (List Prev)) (b b' : Bits)
    (fs fs' : List BitField), Spec.ofTypeGroups g cs = true → Spec.ofTypeGroups g cs' = true →
    Spec.receivedGroups g cs = Spec.receivedGroups g cs' → encGroups g cs p = .ok (b, fs) →
    encGroups g cs' p' = .ok (b', fs') → b = b' ∧ fs = fs'
  | .nil, _, _, _, _, b, b', fs, fs', _, _, _, e, e' => by
    simp only [encGroups, Except.ok.injEq, Prod.mk.injEq] at e e'
    exact ⟨e.1.symm.trans e'.1, e.2.symm.trans e'.2⟩
  | .cons f g, cs, cs', p, p', b, b', fs, fs', h, h', hr, e, e' => by
    simp only [encGroups] at e e'
    simp only [Spec.ofTypeGroups, Bool.and_eq_true] at h h'
    simp only [Spec.receivedGroups] at hr
    obtain ⟨hr1, hr2⟩ := List.append_inj hr (by
      split <;> split <;> simp [receivedRoot_length])
    obtain ⟨infos, e0, e⟩ := Except.bind_eq_ok e
    obtain ⟨⟨b1, fl1⟩, e1, e⟩ := Except.bind_eq_ok e
    obtain ⟨⟨b2, fl2⟩, e2, e⟩ := Except.bind_eq_ok e
    obtain ⟨infos', e0', e'⟩ := Except.bind_eq_ok e'
    obtain ⟨⟨b1', fl1'⟩, e1', e'⟩ := Except.bind_eq_ok e'
    obtain ⟨⟨b2', fl2'⟩, e2', e'⟩ := Except.bind_eq_ok e'
    cases e; cases e'
    obtain ⟨rfl, rfl⟩ := same_groups g _ _ _ _ b2 b2' fl2 fl2' h.2 h'.2 hr2 e2 e2'
    unfold groupComponent at e1 e1'
    rw [scanGroup_any e0] at e1
    rw [scanGroup_any e0'] at e1'
    have : fl1 = fl1' ∧ b1 = b1' := by
      cases hs : Spec.anySubstantial f cs <;> cases hs' : Spec.anySubstantial f cs' <;>
        simp only [hs, hs', Bool.not_true, Bool.not_false, if_true, Bool.false_eq_true, if_false] at e1 e1' hr1
      · cases e1; cases e1'; exact ⟨rfl, rfl⟩
      · exfalso
        obtain ⟨_, _, e1'⟩ := Except.bind_eq_ok e1'
        obtain ⟨⟨opt, fl⟩, e3, _⟩ := Except.bind_eq_ok e1'
        have := group_stays f cs' cs opt fl h'.1 h.1 e3 hs' hr1.symm
        rw [hs] at this; cases this
      · exfalso
        obtain ⟨_, _, e1⟩ := Except.bind_eq_ok e1
        obtain ⟨⟨opt, fl⟩, e3, _⟩ := Except.bind_eq_ok e1
        have := group_stays f cs cs' opt fl h.1 h'.1 e3 hs hr1
        rw [hs'] at this; cases this
      · obtain ⟨_, _, e1⟩ := Except.bind_eq_ok e1
        obtain ⟨⟨opt, fl⟩, e3, e1⟩ := Except.bind_eq_ok e1
        obtain ⟨rf, e4, e1⟩ := Except.bind_eq_ok e1
        obtain ⟨ofl, e5, e1⟩ := Except.bind_eq_ok e1
        obtain ⟨_, _, e1'⟩ := Except.bind_eq_ok e1'
        obtain ⟨⟨opt', fl'⟩, e3', e1'⟩ := Except.bind_eq_ok e1'
        obtain ⟨rf', e4', e1'⟩ := Except.bind_eq_ok e1'
        obtain ⟨ofl', e5', e1'⟩ := Except.bind_eq_ok e1'
        obtain ⟨rfl, rfl⟩ := same_root f cs cs' opt opt' fl fl' h.1 h'.1 hr1 e3 e3'
        have h4 : rf = rf' := Except.ok.inj (e4.symm.trans e4')
        subst h4
        have h5 : ofl = ofl' := Except.ok.inj (e5.symm.trans e5')
        subst h5
        cases e1; cases e1'
        exact ⟨rfl, rfl⟩
    rw [this.1, this.2]; exact ⟨rfl, rfl⟩
end

/-! ## what is received is of the type -/

theorem receivedGroups_length : ∀ (g : Groups) (cs : List (Option Val)), (Spec.receivedGroups g cs).length = g.size
  | .nil, _ => rfl
  | .cons f g, cs => by
    rw [Spec.receivedGroups, List.length_append, receivedGroups_length g]
    split <;> simp [receivedRoot_length, Groups.size]

theorem ofTypeComponent_none {t : Ty} {c : Option Val} (h : ofTypeComponent t c = true) :
    ofTypeComponent t none = true := by
  cases c with
  | none => exact h
  | some v =>
    rw [ofTypeComponent]
    cases hu : Spec.untouched t with
    | none => rfl
    | some u => exact ofType_untouched t v u h hu

mutual
theorem ofType_received : ∀ (t : Ty) (v : Val), Spec.ofType t v = true → Spec.ofType t (Spec.received t v) = true
  | .boolean, v, h => by simpa only [Spec.received] using h
  | .integer _, v, h => by simpa only [Spec.received] using h
  | .enumerated _ _ _, v, h => by simpa only [Spec.received] using h
  | .bitString _, v, h => by simpa only [Spec.received] using h
  | .octetString _, v, h => by simpa only [Spec.received] using h
  | .seqOf c t, v, h => by
    cases v <;> simp only [Spec.ofType, Bool.false_eq_true] at h
    simp only [Spec.received, Spec.ofType, List.all_eq_true, List.mem_map, forall_exists_index, and_imp,
      forall_apply_eq_imp_iff₂] at h ⊢
    exact fun v hv => ofType_received t v (h v hv)
  | .choice ext r a g, v, h => by
    cases v <;> simp only [Spec.ofType, Bool.false_eq_true] at h
    rename_i pos v
    simp only [Spec.received, Spec.ofType]
    by_cases h1 : pos < r.length
    · simp only [h1, if_true] at h ⊢; exact ofType_receivedAlt r pos v h
    · by_cases h2 : pos < r.length + a.length
      · simp only [h1, h2, if_true, if_false] at h ⊢; exact ofType_receivedAlt a _ v h
      · simp only [h1, h2, if_false] at h ⊢; exact ofType_receivedAltG g _ v h
  | .sequence ext r a g, v, h => by
    cases v <;> simp only [Spec.ofType, Bool.false_eq_true] at h
    rename_i cs
    simp only [Bool.and_eq_true] at h
    simp only [Spec.received, Spec.ofType, Bool.and_eq_true]
    have hd : ∀ X : List (Option Val), (Spec.receivedRoot r cs ++ X).drop r.length = X := fun X =>
      List.drop_left' (receivedRoot_length r cs)
    refine ⟨⟨ofType_receivedRoot r cs _ h.1.1, ?_⟩, ?_⟩
    · rw [hd]
      cases ext with
      | true => exact ofType_receivedAdds a _ _ h.1.2
      | false => exact ofTypeFields_none a _ _ h.1.2 (fun c hc => (List.mem_replicate.1 hc).2)
    · rw [← List.drop_drop, hd]
      cases ext with
      | true =>
        simp only [if_true]
        rw [List.drop_left' (receivedAdds_length a _)]
        simpa using ofType_receivedGroups g _ h.2
      | false =>
        exact ofTypeGroups_none g _ _ h.2 (fun c hc => (List.mem_replicate.1 (List.mem_of_mem_drop hc)).2)
theorem ofType_receivedAlt : ∀ (r : Fields) (p : Nat) (v : Val), Spec.ofTypeAlt r p v = true →
    Spec.ofTypeAlt r p (Spec.receivedAlt r p v) = true
  | .nil, _, _, h => by simp [Spec.ofTypeAlt] at h
  | .cons _ _ t _, 0, v, h => ofType_received t v h
  | .cons _ _ _ r, p + 1, v, h => ofType_receivedAlt r p v h
theorem ofType_receivedAltG : ∀ (g : Groups) (p : Nat) (v : Val), Spec.ofTypeAltG g p v = true →
    Spec.ofTypeAltG g p (Spec.receivedAltG g p v) = true
  | .nil, _, _, h => by simp [Spec.ofTypeAltG] at h
  | .cons f g, p, v, h => by
    simp only [Spec.ofTypeAltG, Spec.receivedAltG] at h ⊢
    by_cases hp : p < f.length
    · simp only [hp, if_true] at h ⊢; exact ofType_receivedAlt f p v h
    · simp only [hp, if_false] at h ⊢; exact ofType_receivedAltG g _ v h
theorem ofType_receivedRoot : ∀ (r : Fields) (cs X : List (Option Val)), Spec.ofTypeFields r cs = true →
    Spec.ofTypeFields r (Spec.receivedRoot r cs ++ X) = true
  | .nil, _, _, _ => rfl
  | .cons n k t r, cs, X, h => by
    simp only [Spec.ofTypeFields, Bool.and_eq_true, Spec.receivedRoot, List.cons_append, List.head?_cons,
      Option.getD_some, List.tail_cons] at h ⊢
    refine ⟨⟨h.1.1, ?_⟩, ofType_receivedRoot r cs.tail X h.2⟩
    have hc : ofTypeComponent t (cs.head?.getD none) = true := h.1.2
    rw [receivedComponent_eq]
    cases hs : Spec.sent k t (cs.head?.getD none) with
    | none => exact ofTypeComponent_none hc
    | some v => exact ofType_received t v (ofType_sent hc hs)
theorem ofType_receivedAdds : ∀ (r : Fields) (cs X : List (Option Val)), Spec.ofTypeFields r cs = true →
    Spec.ofTypeFields r (Spec.receivedAdds r cs ++ X) = true
  | .nil, _, _, _ => rfl
  | .cons n k t r, cs, X, h => by
    simp only [Spec.ofTypeFields, Bool.and_eq_true, Spec.receivedAdds, List.cons_append, List.head?_cons,
      Option.getD_some, List.tail_cons, held_eq] at h ⊢
    refine ⟨⟨h.1.1, ?_⟩, ofType_receivedAdds r cs.tail X h.2⟩
    have hc : ofTypeComponent t (cs.head?.getD none) = true := h.1.2
    show ofTypeComponent t _ = true
    split
    · cases hs : effective k (cs.head?.getD none) with
      | none => exact ofTypeComponent_none hc
      | some v => exact ofType_received t v (ofType_effective v h.1.1 hc hs)
    · exact ofTypeComponent_none hc
theorem ofType_receivedGroups : ∀ (g : Groups) (cs : List (Option Val)), Spec.ofTypeGroups g cs = true →
    Spec.ofTypeGroups g (Spec.receivedGroups g cs) = true
  | .nil, _, _ => rfl
  | .cons f g, cs, h => by
    simp only [Spec.ofTypeGroups, Bool.and_eq_true, Spec.receivedGroups] at h ⊢
    cases Spec.anySubstantial f cs with
    | true =>
      simp only [if_true]
      rw [List.drop_left' (receivedRoot_length f cs)]
      exact ⟨ofType_receivedRoot f cs _ h.1, ofType_receivedGroups g _ h.2⟩
    | false =>
      simp only [Bool.false_eq_true, if_false]
      rw [List.drop_left' (by simp)]
      refine ⟨?_, ofType_receivedGroups g _ h.2⟩
      have := ofTypeFields_none f cs (List.replicate f.length none) h.1 (fun c hc => (List.mem_replicate.1 hc).2)
      exact ofTypeFields_append f _ _ this (by simp)
end

end Verif
