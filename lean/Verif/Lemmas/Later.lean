import Verif.Lemmas.Conforms
import Verif.SpecVersions
/-!
# Readers of two versions of a type
-/
namespace Verif

/-- `m` returns exactly those results of `m'` that satisfy `S`, and leaves the same behind. -/
def Below {α : Type} (m m' : Dec α) (S : α → Prop) : Prop :=
  ∀ p a p', m p = .ok (a, p') ↔ m' p = .ok (a, p') ∧ S a

theorem Below.refl {α : Type} (m : Dec α) : Below m m (fun _ => True) := fun _ _ _ => by simp

theorem Below.pure {α : Type} {a : α} {S : α → Prop} (h : S a) : Below (Pure.pure a : Dec α) (Pure.pure a) S := by
  intro p b p'
  constructor
  · intro e; cases e; exact ⟨rfl, h⟩
  · exact fun e => e.1

theorem Below.none {α : Type} {m' : Dec α} {S : α → Prop} (e : Err) (h : ∀ a, ¬ S a) : Below (Verif.raise e) m' S := by
  intro p b p'
  constructor
  · intro e; cases e
  · exact fun e => absurd e.2 (h _)

theorem Below.none' {α : Type} {m' : Dec α} {S : α → Prop} (e : Err) (h : Ensures m' (fun a => ¬ S a)) :
    Below (Verif.raise e) m' S := by
  intro p b p'
  constructor
  · intro e; cases e
  · exact fun e => absurd e.2 (h.run _ _ _ e.1)

theorem Below.bind {α β : Type} {m m' : Dec α} {f f' : α → Dec β} {S Q : α → Prop} {T : β → Prop}
    (hm : Below m m' S) (hQ : Ensures m' Q) (hf : ∀ a, Q a → S a → Below (f a) (f' a) T)
    (hS : ∀ a, Q a → Ensures (f' a) (fun b => T b → S a)) : Below (m >>= f) (m' >>= f') T := by
  intro p b p'
  constructor
  · intro h
    obtain ⟨a, p1, e1, e2⟩ := bind_eq_ok h
    obtain ⟨i1, i2⟩ := (hm _ _ _).1 e1
    obtain ⟨j1, j2⟩ := (hf a (hQ.run _ _ _ i1) i2 _ _ _).1 e2
    exact ⟨bind_of_ok i1 j1, j2⟩
  · rintro ⟨h, ht⟩
    obtain ⟨a, p1, e1, e2⟩ := bind_eq_ok h
    have q := hQ.run _ _ _ e1
    have s := (hS a q).run _ _ _ e2 ht
    exact bind_of_ok ((hm _ _ _).2 ⟨e1, s⟩) ((hf a q s _ _ _).2 ⟨e2, ht⟩)

theorem Below.raise {α : Type} {S : α → Prop} (e : Err) : Below (Verif.raise e) (Verif.raise e) S := by
  intro p b p'
  constructor
  · intro e; cases e
  · intro e; cases e.1

theorem Below.ite {α : Type} {c : Prop} [Decidable c] {a b a' b' : Dec α} {S : α → Prop} (ha : c → Below a a' S)
    (hb : ¬ c → Below b b' S) : Below (if c then a else b) (if c then a' else b') S := by
  split
  · exact ha ‹_›
  · exact hb ‹_›

/-- The same first step. -/
theorem Below.bind' {α β : Type} {m : Dec α} {f f' : α → Dec β} {T : β → Prop}
    (hf : ∀ a, Below (f a) (f' a) T) : Below (m >>= f) (m >>= f') T :=
  Below.bind (Q := fun _ => True) (Below.refl m) (Ensures.trivial m) (fun a _ _ => hf a)
    fun _ _ => ⟨fun _ _ _ _ _ => True.intro⟩

/-- The same last step, which keeps apart what is to be kept apart. -/
theorem Below.map {α β : Type} {m m' : Dec α} {f : α → β} {S : α → Prop} {T : β → Prop}
    (hm : Below m m' S) (hT : ∀ a, T (f a) ↔ S a) : Below (m >>= fun a => Pure.pure (f a)) (m' >>= fun a => Pure.pure (f a)) T :=
  Below.bind (Q := fun _ => True) hm (Ensures.trivial m') (fun a _ hs => Below.pure ((hT a).2 hs))
    fun a _ => Ensures.pure (hT a).1

theorem Below.mono {α : Type} {m m' : Dec α} {S T : α → Prop} (h : Below m m' S) (hT : ∀ a, T a ↔ S a) :
    Below m m' T := fun p a p' => by rw [hT]; exact h p a p'

theorem Below.repeat {α : Type} {m m' : Dec α} {S : α → Prop} (h : Below m m' S) :
    ∀ n, Below (repeatDec n m) (repeatDec n m') (fun vs => ∀ v ∈ vs, S v)
  | 0 => Below.pure (by simp)
  | n + 1 => by
    unfold repeatDec
    refine Below.bind (Q := fun _ => True) h (Ensures.trivial m') (fun a _ ha => ?_) fun a _ => ?_
    · exact (Below.repeat h n).map fun as => by simp [ha]
    · exact Ensures.bind' fun as => Ensures.pure fun h => h a (by simp)

theorem Below.openType {α : Type} {m m' : Dec α} {S : α → Prop} (h : Below m m' S) :
    Below (decodeOpenTypeField m) (decodeOpenTypeField m') S := by
  unfold decodeOpenTypeField
  refine Below.bind' fun _ => Below.bind' fun _ => Below.bind' fun inner => ?_
  refine Below.map (S := fun r => S r.1) ?_ fun _ => Iff.rfl
  intro p a p'
  have := h inner a.1 a.2
  unfold liftE
  cases hm : m inner with
  | error e =>
    simp only [Except.map]
    constructor
    · intro h; cases h
    · rintro ⟨h, hs⟩
      cases hm' : m' inner with
      | error e => rw [hm'] at h; cases h
      | ok r =>
        rw [hm'] at h; cases h
        exact absurd (this.2 ⟨hm', hs⟩) (by rw [hm]; simp)
  | ok r =>
    constructor
    · intro h; cases h
      obtain ⟨i, j⟩ := this.1 hm
      exact ⟨by rw [i]; rfl, j⟩
    · rintro ⟨h, hs⟩
      cases hm' : m' inner with
      | error e => rw [hm'] at h; cases h
      | ok r' =>
        rw [hm'] at h; cases h
        have e := this.2 ⟨hm', hs⟩
        rw [hm] at e; cases e; rfl

theorem laterAll_length : ∀ {f f' : Fields}, Spec.LaterAll f f' → f'.length = f.length
  | .nil, _, h => by rw [Spec.LaterAll] at h; rw [h]
  | .cons n k t r, _, h => by
    rw [Spec.LaterAll] at h
    obtain ⟨t', r', rfl, _, h⟩ := h
    simp only [Fields.length, laterAll_length h]

theorem laterAll_optional : ∀ {f f' : Fields}, Spec.LaterAll f f' → f'.optionalCount = f.optionalCount
  | .nil, _, h => by rw [Spec.LaterAll] at h; rw [h]
  | .cons n k t r, _, h => by
    rw [Spec.LaterAll] at h
    obtain ⟨t', r', rfl, _, h⟩ := h
    cases k <;> simp only [Fields.optionalCount, laterAll_optional h]

theorem laterSome_length : ∀ {f f' : Fields}, Spec.LaterSome f f' → f.length ≤ f'.length
  | .nil, _, _ => Nat.zero_le _
  | .cons n k t r, _, h => by
    rw [Spec.LaterSome] at h
    obtain ⟨t', r', rfl, _, h⟩ := h
    simpa only [Fields.length, Nat.add_le_add_iff_right] using laterSome_length h

theorem laterGroups_length : ∀ {g g' : Groups}, Spec.LaterGroups g g' → g'.length = g.length ∧ g'.size = g.size
  | .nil, _, h => by rw [Spec.LaterGroups] at h; rw [h]; exact ⟨rfl, rfl⟩
  | .cons f g, _, h => by
    rw [Spec.LaterGroups] at h
    obtain ⟨f', g', rfl, h1, h⟩ := h
    simp only [Groups.length, Groups.size, laterGroups_length h, laterAll_length h1, and_self]

theorem laterMore_length : ∀ {g g' : Groups}, Spec.LaterMore g g' → g.length ≤ g'.length
  | .nil, _, _ => Nat.zero_le _
  | .cons f g, _, h => by
    rw [Spec.LaterMore] at h
    obtain ⟨f', g', rfl, _, h⟩ := h
    simpa only [Groups.length, Nat.add_le_add_iff_right] using laterMore_length h

theorem knownAlt_beyond : ∀ (f : Fields) (i : Nat) (v : Val), f.length ≤ i → Spec.knownAlt f i v = false
  | .nil, _, _, _ => rfl
  | .cons _ _ _ _, 0, _, h => by simp [Fields.length] at h
  | .cons _ _ _ r, i + 1, v, h => by
    rw [Spec.knownAlt]; exact knownAlt_beyond r i v (by simpa [Fields.length] using h)

theorem knownAll_append : ∀ (f : Fields) (cs ds : List (Option Val)), f.length ≤ cs.length →
    Spec.knownAll f (cs ++ ds) = Spec.knownAll f cs
  | .nil, _, _, _ => by simp only [Spec.knownAll]
  | .cons _ _ _ r, [], _, h => by simp [Fields.length] at h
  | .cons _ _ t r, c :: cs, ds, h => by
    simp only [Spec.knownAll, List.cons_append, List.head?_cons, List.tail_cons]
    rw [knownAll_append r cs ds (by simpa [Fields.length] using h)]

theorem knownAll_none : ∀ (f : Fields) (n : Nat), Spec.knownAll f (List.replicate n none) = true
  | .nil, _ => rfl
  | .cons _ _ t r, 0 => by
    have := knownAll_none r 0
    simpa [Spec.knownAll] using this
  | .cons _ _ t r, n + 1 => by
    have := knownAll_none r n
    simpa [Spec.knownAll, List.replicate_succ] using this

theorem knownAllG_none : ∀ (g : Groups) (n : Nat), Spec.knownAllG g (List.replicate n none) = true
  | .nil, _ => rfl
  | .cons f g, n => by
    simp only [Spec.knownAllG, knownAll_none, List.drop_replicate, knownAllG_none, Bool.and_self]

theorem below_mkEnum {named more : List (String × Int)} (z : Int) :
    Below (liftE (mkEnum named z)) (liftE (mkEnum (named ++ more) z))
      (fun v => ∃ z, v = .enum z ∧ named.any (fun p => p.2 == z) = true) := by
  intro p a p'
  unfold liftE mkEnum
  rw [List.any_append]
  by_cases h : named.any (fun p => p.2 == z) = true
  · simp only [h, Bool.true_or, if_true]
    constructor
    · intro e; cases e; exact ⟨rfl, z, rfl, h⟩
    · exact fun e => e.1
  · simp only [h, Bool.false_or]
    constructor
    · intro e; cases e
    · rintro ⟨e, z', rfl, h'⟩
      split at e
      · cases e; exact absurd h' h
      · cases e

theorem known_enum {ext : Bool} {root add : List (String × Int)} {m : Dec Val}
    {m' : Dec Val} (h : Below m m' (fun v => ∃ z, v = .enum z ∧ (root ++ add).any (fun p => p.2 == z) = true))
    (he : Ensures m' (fun v => ∃ z, v = .enum z)) :
    Below m m' (fun v => Spec.known (.enumerated ext root add) v = true) := by
  intro p a p'
  rw [h p a p']
  constructor
  · rintro ⟨e, z, rfl, hz⟩
    exact ⟨e, by simpa [Spec.known] using hz⟩
  · rintro ⟨e, hz⟩
    obtain ⟨z, rfl⟩ := he.run _ _ _ e
    exact ⟨e, z, rfl, by simpa [Spec.known] using hz⟩

theorem ensures_enum (named : List (String × Int)) (z : Int) :
    Ensures (liftE (mkEnum named z)) (fun v => ∃ z, v = .enum z) := by
  refine Ensures.liftE fun a h => ?_
  unfold mkEnum at h
  split at h
  · cases h; exact ⟨_, rfl⟩
  · cases h

theorem below_enumerated {ext : Bool} {root add more : List (String × Int)} (h : ext = true ∨ more = []) :
    Below (decodeEnumerated ext root add) (decodeEnumerated ext root (add ++ more))
      (fun v => Spec.known (.enumerated ext root add) v = true) := by
  refine known_enum ?_ ?_
  · unfold decodeEnumerated
    rw [← List.append_assoc]
    cases ext with
    | false =>
      obtain rfl : more = [] := by simpa using h
      simp only [Bool.not_false, if_true]
      rw [List.append_nil]
      refine Below.bind' fun i => ?_
      simpa using below_mkEnum (named := root ++ add) (more := []) i
    | true =>
      simp only [Bool.not_true, Bool.false_eq_true, if_false]
      refine Below.bind' fun e => ?_
      split
      · exact Below.bind' fun i => below_mkEnum i
      · exact Below.bind' fun i => below_mkEnum _
  · unfold decodeEnumerated
    split
    · exact Ensures.bind' fun i => ensures_enum _ _
    · refine Ensures.bind' fun i => ?_
      split
      · exact Ensures.bind' fun i => ensures_enum _ _
      · exact Ensures.bind' fun i => ensures_enum _ _

/-- A leaf that is the same in both versions. -/
theorem Below.same {α : Type} {m : Dec α} {S : α → Prop} (h : ∀ a, S a) : Below m m S :=
  (Below.refl m).mono fun a => by simp [h a]

theorem length_root (f : Fields) (o : Bits) : Ensures (decRoot f o) (fun cs => cs.length = f.length) :=
  (conforms_root f o).mono fun _ h => h.1
theorem length_adds (f : Fields) (o : Bits) : Ensures (decAdds f o) (fun cs => cs.length = f.length) :=
  (conforms_adds f o).mono fun _ h => h.1
theorem length_groups (g : Groups) (o : Bits) : Ensures (decGroups g o) (fun cs => cs.length = g.size) :=
  (conforms_groups g o).mono fun _ h => h.1

theorem known_choice_root {ext : Bool} {r a : Fields} {g : Groups} {i : Nat} {v : Val} (h : i < r.length) :
    Spec.known (.choice ext r a g) (.choice i v) = Spec.knownAlt r i v := by
  rw [Spec.known, if_pos h]

/-- The alternative found by an index into the root. -/
theorem below_rootAlt {ext : Bool} {r r' a : Fields} {g : Groups} {i : Nat}
    (h : Below (decAlt r i) (decAlt r' i) (fun v => Spec.knownAlt r i v = true)) (hl : r'.length = r.length)
    (hb : ∀ i, r'.length ≤ i → decAlt r' i = raise .indexError) :
    Below (decAlt r i >>= fun v => Pure.pure (Val.choice i v)) (decAlt r' i >>= fun v => Pure.pure (Val.choice i v))
      (fun w => Spec.known (.choice ext r a g) w = true) := by
  by_cases hi : i < r.length
  · exact h.map fun v => by rw [known_choice_root hi]
  · rw [hb i (by omega)]
    have : ∀ p a p', ¬ decAlt r i p = .ok (a, p') := by
      intro p a p' e
      have : Spec.knownAlt r i a = true := ((h p a p').1 e).2
      rw [knownAlt_beyond r i a (by omega)] at this
      cases this
    intro p w p'
    constructor
    · intro e
      obtain ⟨a, p1, e1, _⟩ := bind_eq_ok e
      exact absurd e1 (this _ _ _)
    · rintro ⟨e, _⟩
      obtain ⟨a, p1, e1, _⟩ := bind_eq_ok e
      cases e1

theorem decAlt_past : ∀ (f : Fields) (i : Nat), f.length ≤ i → decAlt f i = raise .indexError
  | .nil, _, _ => by rw [decAlt]
  | .cons _ _ _ _, 0, h => by simp [Fields.length] at h
  | .cons _ _ _ r, i + 1, h => by
    rw [decAlt]; exact decAlt_past r i (by simpa [Fields.length] using h)

mutual
theorem below_ty : ∀ (t : Ty) {t' : Ty}, Spec.Later t t' → Below (decTy t) (decTy t') (fun v => Spec.known t v = true)
  | .boolean, t', h => by
    rw [Spec.Later] at h; rw [h]
    exact Below.same fun v => by cases v <;> simp [Spec.known]
  | .integer c, t', h => by
    rw [Spec.Later] at h; rw [h]
    exact Below.same fun v => by cases v <;> simp [Spec.known]
  | .bitString c, t', h => by
    rw [Spec.Later] at h; rw [h]
    exact Below.same fun v => by cases v <;> simp [Spec.known]
  | .octetString c, t', h => by
    rw [Spec.Later] at h; rw [h]
    exact Below.same fun v => by cases v <;> simp [Spec.known]
  | .enumerated ext root add, t', h => by
    rw [Spec.Later] at h
    obtain ⟨more, rfl, h⟩ := h
    rw [decTy, decTy]
    exact below_enumerated h
  | .seqOf c t, t', h => by
    rw [Spec.Later] at h
    obtain ⟨t', rfl, h⟩ := h
    rw [decTy, decTy]
    refine Below.bind' fun n => ?_
    exact ((below_ty t h).repeat _).map fun vs => by rw [Spec.known, List.all_eq_true]
  | .choice ext r a g, t', h => by
    rw [Spec.Later] at h
    obtain ⟨r', a', g', rfl, hr, hx⟩ := h
    have hl := laterAll_length hr
    rw [decTy, decTy, hl]
    have root := fun i => below_rootAlt (ext := ext) (a := a) (g := g) (below_alt r hr i) hl (decAlt_past r')
    refine Below.ite (fun _ => ?_) fun _ => ?_
    · exact Below.ite (fun _ => root 0) fun _ => Below.bind' fun i => root _
    · refine Below.bind' fun e => Below.ite (fun _ => ?_) fun _ => ?_
      · exact Below.ite (fun _ => root 0) fun _ => Below.bind' fun i => root _
      · refine Below.bind' fun i => ?_
        have alt : Below (if i.toNat < a.length then decAlt a i.toNat else decAltG g (i.toNat - a.length))
            (if i.toNat < a'.length then decAlt a' i.toNat else decAltG g' (i.toNat - a'.length))
            (fun v => Spec.known (.choice ext r a g) (.choice (r.length + i.toNat) v) = true) := by
          have k0 : ¬ r.length + i.toNat < r.length := by omega
          have k1 : ∀ v, Spec.known (.choice ext r a g) (.choice (r.length + i.toNat) v) =
              if i.toNat < a.length then Spec.knownAlt a i.toNat v else Spec.knownAltG g (i.toNat - a.length) v := by
            intro v
            rw [Spec.known, if_neg k0, Nat.add_sub_cancel_left, Nat.add_sub_add_left]
            by_cases c : i.toNat < a.length
            · rw [if_pos c, if_pos (by omega)]
            · rw [if_neg c, if_neg (by omega)]
          rcases hx with ⟨rfl, ha⟩ | ⟨ha, hg⟩
          · have := laterSome_length ha
            by_cases c : i.toNat < a.length
            · rw [if_pos c, if_pos (by omega)]
              exact (below_altSome a ha _).mono fun v => by rw [k1, if_pos c]
            · rw [if_neg c, decAltG]
              exact Below.none _ fun v => by rw [k1, if_neg c, Spec.knownAltG]; simp
          · rw [laterAll_length ha]
            refine Below.ite (fun c => ?_) fun c => ?_
            · exact (below_alt a ha _).mono fun v => by rw [k1, if_pos c]
            · exact (below_altG g hg _).mono fun v => by rw [k1, if_neg c]
        by_cases c : a.length = 0 ∧ g.length = 0
        · rw [if_pos c]
          refine Below.none' _ (Ensures.ite (fun _ => Ensures.raise _) fun _ => Ensures.bind' fun v => Ensures.pure ?_)
          have hg : g = .nil := by
            cases g with
            | nil => rfl
            | cons => simp [Groups.length] at c
          have k0 : ¬ r.length + i.toNat < r.length := by omega
          have k1 : ¬ r.length + i.toNat < r.length + a.length := by omega
          rw [Spec.known, if_neg k0, if_neg k1, hg, Spec.knownAltG]
          simp
        · have c' : ¬ (a'.length = 0 ∧ g'.length = 0) := by
            rcases hx with ⟨rfl, ha⟩ | ⟨ha, hg⟩
            · have := laterSome_length ha
              have h0 : Groups.nil.length = 0 := rfl
              omega
            · have := laterAll_length ha
              have := laterMore_length hg
              omega
          rw [if_neg c, if_neg c']
          exact alt.openType.map fun v => Iff.rfl
  | .sequence ext r a g, t', h => by
    rw [Spec.Later] at h
    obtain ⟨r', a', g', rfl, hr, ha, hg⟩ := h
    rw [decTy, decTy, laterAll_length ha, (laterGroups_length hg).1, (laterGroups_length hg).2, laterAll_optional hr]
    have hroot : ∀ vs rest, vs.length = r.length → Spec.known (.sequence ext r a g) (.seq (vs ++ rest)) =
        (Spec.knownAll r vs && (Spec.knownAll a rest && Spec.knownAllG g (rest.drop a.length))) := by
      intro vs rest h
      rw [Spec.known, knownAll_append _ _ _ (by omega), ← List.drop_drop, ← h, List.drop_left, Bool.and_assoc]
    have body : ∀ e : Nat, Below
        (decodeOptionalBits r.optionalCount >>= fun opt => decRoot r opt >>= fun vs =>
          if e ≠ 0 then decodeExtensionBits (a.length + g.length) >>= fun bits =>
            decAdds a (bits.take a.length) >>= fun xs => decGroups g (bits.drop a.length) >>= fun ys =>
              Pure.pure (Val.seq (vs ++ xs ++ ys))
          else Pure.pure (Val.seq (vs ++ List.replicate (a.length + g.size) none)))
        (decodeOptionalBits r.optionalCount >>= fun opt => decRoot r' opt >>= fun vs =>
          if e ≠ 0 then decodeExtensionBits (a.length + g.length) >>= fun bits =>
            decAdds a' (bits.take a.length) >>= fun xs => decGroups g' (bits.drop a.length) >>= fun ys =>
              Pure.pure (Val.seq (vs ++ xs ++ ys))
          else Pure.pure (Val.seq (vs ++ List.replicate (a.length + g.size) none)))
        (fun w => Spec.known (.sequence ext r a g) w = true) := by
      intro e
      refine Below.bind' fun opt => ?_
      refine Below.bind (Q := fun cs => cs.length = r.length) (below_root r hr opt)
        ((length_root r' opt).mono fun _ h => h.trans (laterAll_length hr)) (fun vs hq hs => ?_) fun vs hq => ?_
      · refine Below.ite (fun _ => Below.bind' fun bits => ?_) fun _ => ?_
        · refine Below.bind (Q := fun cs => cs.length = a.length) (below_adds a ha _)
            ((length_adds a' _).mono fun _ h => h.trans (laterAll_length ha)) (fun xs hq' hs' => ?_) fun xs hq' => ?_
          · exact (below_groups g hg _).map fun ys => by
              rw [List.append_assoc, hroot _ _ hq, knownAll_append _ _ _ (by omega), ← hq', List.drop_left, hs, hs']
              simp
          · exact Ensures.bind' fun ys => Ensures.pure fun h => by
              rw [List.append_assoc, hroot _ _ hq, knownAll_append _ _ _ (by omega)] at h
              simp at h; exact h.2.1
        · exact Below.pure (by
            rw [hroot _ _ hq, hs, knownAll_none, List.drop_replicate, knownAllG_none]; rfl)
      · refine Ensures.ite (fun _ => Ensures.bind' fun bits => Ensures.bind' fun xs => Ensures.bind' fun ys =>
          Ensures.pure fun h => ?_) fun _ => Ensures.pure fun h => ?_
        · rw [List.append_assoc, hroot _ _ hq] at h
          simp at h; exact h.1
        · rw [hroot _ _ hq] at h
          simp at h; exact h.1
    exact Below.ite (fun _ => Below.bind' body) fun _ => Below.bind' body
theorem below_alt : ∀ (f : Fields) {f' : Fields}, Spec.LaterAll f f' → ∀ i,
    Below (decAlt f i) (decAlt f' i) (fun v => Spec.knownAlt f i v = true)
  | .nil, f', h, i => by
    rw [decAlt]; exact Below.none _ fun v => by simp [Spec.knownAlt]
  | .cons n k t r, f', h, i => by
    rw [Spec.LaterAll] at h
    obtain ⟨t', r', rfl, h1, h2⟩ := h
    cases i with
    | zero =>
      rw [decAlt, decAlt]
      exact (below_ty t h1).mono fun v => by rw [Spec.knownAlt]
    | succ i =>
      rw [decAlt, decAlt]
      exact (below_alt r h2 i).mono fun v => by rw [Spec.knownAlt]
theorem below_altSome : ∀ (f : Fields) {f' : Fields}, Spec.LaterSome f f' → ∀ i,
    Below (decAlt f i) (decAlt f' i) (fun v => Spec.knownAlt f i v = true)
  | .nil, f', h, i => by
    rw [decAlt]; exact Below.none _ fun v => by simp [Spec.knownAlt]
  | .cons n k t r, f', h, i => by
    rw [Spec.LaterSome] at h
    obtain ⟨t', r', rfl, h1, h2⟩ := h
    cases i with
    | zero =>
      rw [decAlt, decAlt]
      exact (below_ty t h1).mono fun v => by rw [Spec.knownAlt]
    | succ i =>
      rw [decAlt, decAlt]
      exact (below_altSome r h2 i).mono fun v => by rw [Spec.knownAlt]
theorem below_altG : ∀ (g : Groups) {g' : Groups}, Spec.LaterMore g g' → ∀ i,
    Below (decAltG g i) (decAltG g' i) (fun v => Spec.knownAltG g i v = true)
  | .nil, g', h, i => by
    rw [decAltG]; exact Below.none _ fun v => by simp [Spec.knownAltG]
  | .cons f g, g', h, i => by
    rw [Spec.LaterMore] at h
    obtain ⟨f', g', rfl, h1, h2⟩ := h
    rw [decAltG, decAltG, laterAll_length h1]
    refine Below.ite (fun c => ?_) fun c => ?_
    · exact (below_alt f h1 i).mono fun v => by rw [Spec.knownAltG, if_pos c]
    · exact (below_altG g h2 _).mono fun v => by rw [Spec.knownAltG, if_neg c]
theorem below_root : ∀ (f : Fields) {f' : Fields}, Spec.LaterAll f f' → ∀ o,
    Below (decRoot f o) (decRoot f' o) (fun cs => Spec.knownAll f cs = true)
  | .nil, f', h, o => by
    rw [Spec.LaterAll] at h; rw [h, decRoot]; exact Below.pure rfl
  | .cons n k t r, f', h, o => by
    rw [Spec.LaterAll] at h
    obtain ⟨t', r', rfl, h1, h2⟩ := h
    have some_ : ∀ o', Below (decTy t >>= fun v => decRoot r o' >>= fun vs => Pure.pure (some v :: vs))
        (decTy t' >>= fun v => decRoot r' o' >>= fun vs => Pure.pure (some v :: vs))
        (fun cs => Spec.knownAll (.cons n k t r) cs = true) := by
      intro o'
      refine Below.bind (Q := fun _ => True) (below_ty t h1) (Ensures.trivial _) (fun v _ hv => ?_) fun v _ => ?_
      · exact (below_root r h2 o').map fun vs => by simp [Spec.knownAll, hv]
      · exact Ensures.bind' fun vs => Ensures.pure fun h => by
          simp [Spec.knownAll] at h; exact h.1
    have none_ : ∀ o', Below (decRoot r o' >>= fun vs => Pure.pure (none :: vs))
        (decRoot r' o' >>= fun vs => Pure.pure (none :: vs))
        (fun cs => Spec.knownAll (.cons n k t r) cs = true) := fun o' =>
      (below_root r h2 o').map fun vs => by simp [Spec.knownAll]
    have opt : ∀ o' : Bits, Below
        (match o' with
          | [] => raise .indexError
          | b :: o' => if b then (decTy t >>= fun v => decRoot r o' >>= fun vs => Pure.pure (some v :: vs))
            else (decRoot r o' >>= fun vs => Pure.pure (none :: vs)))
        (match o' with
          | [] => raise .indexError
          | b :: o' => if b then (decTy t' >>= fun v => decRoot r' o' >>= fun vs => Pure.pure (some v :: vs))
            else (decRoot r' o' >>= fun vs => Pure.pure (none :: vs)))
        (fun cs => Spec.knownAll (.cons n k t r) cs = true) := by
      intro o'
      cases o' with
      | nil => exact Below.raise _
      | cons b o' => exact Below.ite (fun _ => some_ o') fun _ => none_ o'
    unfold decRoot
    cases k with
    | mandatory => exact some_ o
    | optional => exact opt o
    | default d => exact opt o
theorem below_adds : ∀ (f : Fields) {f' : Fields}, Spec.LaterAll f f' → ∀ o,
    Below (decAdds f o) (decAdds f' o) (fun cs => Spec.knownAll f cs = true)
  | .nil, f', h, o => by
    rw [Spec.LaterAll] at h; rw [h, decAdds]; exact Below.pure rfl
  | .cons n k t r, f', h, o => by
    rw [Spec.LaterAll] at h
    obtain ⟨t', r', rfl, h1, h2⟩ := h
    have none_ : ∀ o', Below (decAdds r o' >>= fun vs => Pure.pure (none :: vs))
        (decAdds r' o' >>= fun vs => Pure.pure (none :: vs))
        (fun cs => Spec.knownAll (.cons n k t r) cs = true) := fun o' =>
      (below_adds r h2 o').map fun vs => by simp [Spec.knownAll]
    unfold decAdds
    cases o with
    | nil => exact none_ []
    | cons b o =>
      refine Below.ite (fun _ => ?_) fun _ => none_ o
      refine Below.bind (Q := fun _ => True) (below_ty t h1).openType (Ensures.trivial _) (fun v _ hv => ?_) fun v _ => ?_
      · exact (below_adds r h2 o).map fun vs => by simp [Spec.knownAll, hv]
      · exact Ensures.bind' fun vs => Ensures.pure fun h => by
          simp [Spec.knownAll] at h; exact h.1
theorem below_groups : ∀ (g : Groups) {g' : Groups}, Spec.LaterGroups g g' → ∀ o,
    Below (decGroups g o) (decGroups g' o) (fun cs => Spec.knownAllG g cs = true)
  | .nil, g', h, o => by
    rw [Spec.LaterGroups] at h; rw [h, decGroups]; exact Below.pure rfl
  | .cons f g, g', h, o => by
    rw [Spec.LaterGroups] at h
    obtain ⟨f', g', rfl, h1, h2⟩ := h
    have hl := laterAll_length h1
    have none_ : ∀ o', Below (decGroups g o' >>= fun vs => Pure.pure (List.replicate f.length none ++ vs))
        (decGroups g' o' >>= fun vs => Pure.pure (List.replicate f.length none ++ vs))
        (fun cs => Spec.knownAllG (.cons f g) cs = true) := fun o' =>
      (below_groups g h2 o').map fun vs => by
        rw [Spec.knownAllG, knownAll_append _ _ _ (by simp), knownAll_none]; simp
    unfold decGroups
    rw [hl, laterAll_optional h1]
    cases o with
    | nil => exact none_ []
    | cons b o =>
      refine Below.ite (fun _ => ?_) fun _ => none_ o
      refine Below.bind (Q := fun cs => cs.length = f.length)
        (Below.openType (Below.bind' fun opt => below_root f h1 opt))
        (ensures_openType (Ensures.bind' fun opt => (length_root f' opt).mono fun _ h => h.trans hl))
        (fun cs hq hs => ?_) fun cs hq => ?_
      · exact (below_groups g h2 o).map fun vs => by
          rw [Spec.knownAllG, knownAll_append _ _ _ (by omega), hs, ← hq, List.drop_left]; simp
      · exact Ensures.bind' fun vs => Ensures.pure fun h => by
          rw [Spec.knownAllG, knownAll_append _ _ _ (by omega)] at h
          simp at h; exact h.1
end

/-! ## Senders -/

theorem all_same {α : Type} {f g : α → Bool} : ∀ {l : List α}, (∀ a ∈ l, f a = g a) → l.all f = l.all g
  | [], _ => rfl
  | a :: l, h => by
    rw [List.all_cons, List.all_cons, h a (by simp), all_same fun b hb => h b (by simp [hb])]

theorem mapM_same {α β : Type} {f g : α → Except Err β} : ∀ {l : List α}, (∀ a ∈ l, f a = g a) → l.mapM f = l.mapM g
  | [], _ => rfl
  | a :: l, h => by
    rw [List.mapM_cons, List.mapM_cons, h a (by simp), mapM_same fun b hb => h b (by simp [hb])]

mutual
theorem isValue_later : ∀ (t : Ty) {t' : Ty}, Spec.Later t t' → ∀ v, Spec.known t v = true → isValue t' v = isValue t v
  | .boolean, t', h, v, _ => by rw [Spec.Later] at h; rw [h]
  | .integer c, t', h, v, _ => by rw [Spec.Later] at h; rw [h]
  | .bitString c, t', h, v, _ => by rw [Spec.Later] at h; rw [h]
  | .octetString c, t', h, v, _ => by rw [Spec.Later] at h; rw [h]
  | .enumerated ext root add, t', h, v, _ => by
    rw [Spec.Later] at h
    obtain ⟨more, rfl, h⟩ := h
    rw [isValue, isValue]
  | .seqOf c t, t', h, v, hk => by
    rw [Spec.Later] at h
    obtain ⟨t', rfl, h⟩ := h
    cases v with
    | seqOf vs =>
      rw [isValue, isValue]
      rw [Spec.known, List.all_eq_true] at hk
      congr 1
      exact all_same fun v hv => isValue_later t h v (hk v hv)
    | _ => simp [isValue]
  | .choice ext r a g, t', h, v, hk => by
    rw [Spec.Later] at h
    obtain ⟨r', a', g', rfl, hr, hx⟩ := h
    have hl := laterAll_length hr
    cases v with
    | choice pos v =>
      rw [isValue, isValue, hl]
      rw [Spec.known] at hk
      by_cases c : pos < r.length
      · rw [if_pos c] at hk ⊢
        rw [if_pos c, isValue_alt r hr _ _ hk]
      · rw [if_neg c] at hk ⊢
        rw [if_neg c]
        rcases hx with ⟨rfl, ha⟩ | ⟨ha, hg⟩
        · have := laterSome_length ha
          by_cases c' : pos < r.length + a.length
          · rw [if_pos c'] at hk ⊢
            rw [if_pos (by omega), isValue_altSome a ha _ _ hk]
          · rw [if_neg c', Spec.knownAltG] at hk; cases hk
        · rw [laterAll_length ha]
          by_cases c' : pos < r.length + a.length
          · rw [if_pos c'] at hk ⊢
            rw [if_pos c', isValue_alt a ha _ _ hk]
          · rw [if_neg c'] at hk ⊢
            rw [if_neg c', isValue_altG g hg _ _ hk]
    | _ => simp [isValue]
  | .sequence ext r a g, t', h, v, hk => by
    rw [Spec.Later] at h
    obtain ⟨r', a', g', rfl, hr, ha, hg⟩ := h
    cases v with
    | seq cs =>
      rw [isValue, isValue, laterAll_length hr, laterAll_length ha]
      rw [Spec.known, Bool.and_eq_true, Bool.and_eq_true] at hk
      obtain ⟨⟨k1, k2⟩, k3⟩ := hk
      rw [(isValue_all r hr _ k1).1, (isValue_all r hr _ k1).2, (isValue_all a ha _ k2).1, (isValue_all a ha _ k2).2,
        (isValue_allG g hg _ k3).1, (isValue_allG g hg _ k3).2]
    | _ => simp [isValue]
theorem isValue_alt : ∀ (f : Fields) {f' : Fields}, Spec.LaterAll f f' → ∀ i v, Spec.knownAlt f i v = true →
    isValueAlt f' i v = isValueAlt f i v
  | .nil, f', h, i, v, hk => by rw [Spec.knownAlt] at hk; cases hk
  | .cons n k t r, f', h, i, v, hk => by
    rw [Spec.LaterAll] at h
    obtain ⟨t', r', rfl, h1, h2⟩ := h
    cases i with
    | zero => rw [Spec.knownAlt] at hk; rw [isValueAlt, isValueAlt, isValue_later t h1 v hk]
    | succ i => rw [Spec.knownAlt] at hk; rw [isValueAlt, isValueAlt, isValue_alt r h2 i v hk]
theorem isValue_altSome : ∀ (f : Fields) {f' : Fields}, Spec.LaterSome f f' → ∀ i v, Spec.knownAlt f i v = true →
    isValueAlt f' i v = isValueAlt f i v
  | .nil, f', h, i, v, hk => by rw [Spec.knownAlt] at hk; cases hk
  | .cons n k t r, f', h, i, v, hk => by
    rw [Spec.LaterSome] at h
    obtain ⟨t', r', rfl, h1, h2⟩ := h
    cases i with
    | zero => rw [Spec.knownAlt] at hk; rw [isValueAlt, isValueAlt, isValue_later t h1 v hk]
    | succ i => rw [Spec.knownAlt] at hk; rw [isValueAlt, isValueAlt, isValue_altSome r h2 i v hk]
theorem isValue_altG : ∀ (g : Groups) {g' : Groups}, Spec.LaterMore g g' → ∀ i v, Spec.knownAltG g i v = true →
    isValueAltG g' i v = isValueAltG g i v
  | .nil, g', h, i, v, hk => by rw [Spec.knownAltG] at hk; cases hk
  | .cons f g, g', h, i, v, hk => by
    rw [Spec.LaterMore] at h
    obtain ⟨f', g', rfl, h1, h2⟩ := h
    rw [isValueAltG, isValueAltG, laterAll_length h1]
    rw [Spec.knownAltG] at hk
    by_cases c : i < f.length
    · rw [if_pos c] at hk ⊢; rw [if_pos c, isValue_alt f h1 i v hk]
    · rw [if_neg c] at hk ⊢; rw [if_neg c, isValue_altG g h2 _ v hk]
theorem isValue_all : ∀ (f : Fields) {f' : Fields}, Spec.LaterAll f f' → ∀ cs, Spec.knownAll f cs = true →
    mandatoryAll f' cs = mandatoryAll f cs ∧ anyValue f' cs = anyValue f cs
  | .nil, f', h, cs, hk => by rw [Spec.LaterAll] at h; rw [h]; exact ⟨rfl, rfl⟩
  | .cons n k t r, f', h, cs, hk => by
    rw [Spec.LaterAll] at h
    obtain ⟨t', r', rfl, h1, h2⟩ := h
    rw [Spec.knownAll, Bool.and_eq_true] at hk
    obtain ⟨k1, k2⟩ := hk
    obtain ⟨i1, i2⟩ := isValue_all r h2 _ k2
    simp only [mandatoryAll, anyValue, i1, i2]
    cases hc : cs.head? with
    | none => simp
    | some c =>
      cases c with
      | none => simp
      | some v =>
        rw [hc] at k1
        simp only [isValue_later t h1 v k1, and_self]
theorem isValue_allG : ∀ (g : Groups) {g' : Groups}, Spec.LaterGroups g g' → ∀ cs, Spec.knownAllG g cs = true →
    mandatoryAllG g' cs = mandatoryAllG g cs ∧ anyValueG g' cs = anyValueG g cs
  | .nil, g', h, cs, hk => by rw [Spec.LaterGroups] at h; rw [h]; exact ⟨rfl, rfl⟩
  | .cons f g, g', h, cs, hk => by
    rw [Spec.LaterGroups] at h
    obtain ⟨f', g', rfl, h1, h2⟩ := h
    rw [Spec.knownAllG, Bool.and_eq_true] at hk
    obtain ⟨k1, k2⟩ := hk
    obtain ⟨i1, i2⟩ := isValue_all f h1 _ k1
    obtain ⟨j1, j2⟩ := isValue_allG g h2 _ k2
    simp only [mandatoryAllG, anyValueG, laterAll_length h1, i1, i2, j1, j2, and_self]
end

/-- What the loops of the encoder see of a component. -/
def KnownOpt (t : Ty) (c : Option Val) : Prop := ∀ v, c = some v → Spec.known t v = true

theorem knownOpt_head {n : String} {k : Kind} {t : Ty} {r : Fields} {cs : List (Option Val)}
    (h : Spec.knownAll (.cons n k t r) cs = true) : KnownOpt t (cs.head?.getD none) ∧ Spec.knownAll r cs.tail = true := by
  rw [Spec.knownAll, Bool.and_eq_true] at h
  refine ⟨fun v e => ?_, h.2⟩
  cases hc : cs.head? with
  | none => rw [hc] at e; cases e
  | some c =>
    rw [hc] at e h
    simp only [Option.getD_some] at e
    subst e
    exact h.1

theorem settled_head {n : String} {k : Kind} {t : Ty} {r : Fields} (h : Spec.defaultsKnownAll (.cons n k t r) = true) :
    (∀ d, k = .default d → Spec.known t d = true) ∧ Spec.defaultsKnown t = true ∧ Spec.defaultsKnownAll r = true := by
  cases k <;> simp only [Spec.defaultsKnownAll, Bool.and_eq_true] at h
  · exact ⟨fun d e => (nomatch e), h.1.2, h.2⟩
  · exact ⟨fun d e => (nomatch e), h.1.2, h.2⟩
  · exact ⟨fun d e => by cases e; exact h.1.1, h.1.2, h.2⟩

theorem knownOpt_effective {k : Kind} {t : Ty} {c : Option Val} (hd : ∀ d, k = .default d → Spec.known t d = true)
    (h : KnownOpt t c) : KnownOpt t (effective k c) := by
  intro v e
  unfold effective at e
  cases c with
  | some w => exact h v e
  | none =>
    cases k with
    | default d => cases e; exact hd _ rfl
    | mandatory => cases e
    | optional => cases e

theorem present_later {t t' : Ty} (h : Spec.Later t t') {c : Option Val} (hc : KnownOpt t c) :
    present t' c = present t c ∧ isValueOpt t' c = isValueOpt t c := by
  cases c with
  | none => exact ⟨rfl, rfl⟩
  | some v => simp only [present, isValueOpt, isValue_later t h v (hc v rfl), and_self]

theorem empty_later {t t' : Ty} (h : Spec.Later t t') :
    emptyVal t' = emptyVal t ∧ ∀ v, emptyVal t = some v → Spec.known t v = true := by
  cases t with
  | seqOf c t =>
    rw [Spec.Later] at h
    obtain ⟨t', rfl, h⟩ := h
    refine ⟨rfl, fun v e => ?_⟩
    cases e; rw [Spec.known]; rfl
  | sequence ext r a g =>
    rw [Spec.Later] at h
    obtain ⟨r', a', g', rfl, hr, ha, hg⟩ := h
    rw [emptyVal, emptyVal, laterAll_length hr, laterAll_length ha, (laterGroups_length hg).2]
    refine ⟨rfl, fun v e => ?_⟩
    cases e
    rw [Spec.known, List.drop_replicate, List.drop_replicate, knownAll_none, knownAll_none, knownAllG_none]; rfl
  | enumerated ext root add =>
    rw [Spec.Later] at h
    obtain ⟨more, rfl, h⟩ := h
    exact ⟨rfl, fun v e => nomatch e⟩
  | choice ext r a g =>
    rw [Spec.Later] at h
    obtain ⟨r', a', g', rfl, _⟩ := h
    exact ⟨rfl, fun v e => nomatch e⟩
  | _ =>
    rw [Spec.Later] at h; rw [h]
    exact ⟨rfl, fun v e => nomatch e⟩

theorem rootComponent_later {t t' : Ty} (h : Spec.Later t t') {k : Kind} {c : Option Val}
    {enc enc' : Val → Except Err (List BitField)} (he : ∀ v, Spec.known t v = true → enc' v = enc v)
    (hd : ∀ d, k = .default d → Spec.known t d = true) (hc : KnownOpt t c) :
    rootComponent enc' k t' c = rootComponent enc k t c := by
  cases k with
  | optional =>
    cases c with
    | none => simp only [rootComponent, (present_later h hc).1]
    | some v => simp only [rootComponent, (present_later h hc).1, he v (hc v rfl)]
  | default d =>
    cases c with
    | none => simp only [rootComponent, he d (hd d rfl)]
    | some v => simp only [rootComponent, he v (hc v rfl)]
  | mandatory =>
    cases c with
    | none =>
      simp only [rootComponent, (empty_later h).1]
      cases e : emptyVal t with
      | none => rfl
      | some v => simp only [he v ((empty_later h).2 v e)]
    | some v => simp only [rootComponent, he v (hc v rfl)]

theorem additionComponent_later {t t' : Ty} (h : Spec.Later t t') {prev : Option Prev} {c : Option Val}
    {enc enc' : Val → Except Err (List BitField)} (he : ∀ v, Spec.known t v = true → enc' v = enc v)
    (hc : KnownOpt t c) : additionComponent enc' t' prev c = additionComponent enc t prev c := by
  cases c with
  | none => rfl
  | some v => simp only [additionComponent, isValue_later t h v (hc v rfl), he v (hc v rfl)]

theorem scan_later : ∀ (f : Fields) {f' : Fields}, Spec.LaterAll f f' → Spec.defaultsKnownAll f = true → ∀ cs prev,
    Spec.knownAll f cs = true → scanGroup f' cs prev = scanGroup f cs prev
  | .nil, f', h, _, cs, prev, hk => by rw [Spec.LaterAll] at h; rw [h]
  | .cons n k t r, f', h, hs, cs, prev, hk => by
    rw [Spec.LaterAll] at h
    obtain ⟨t', r', rfl, h1, h2⟩ := h
    obtain ⟨s1, s2, s3⟩ := settled_head hs
    obtain ⟨k1, k2⟩ := knownOpt_head hk
    have := present_later h1 (knownOpt_effective s1 k1)
    simp only [scanGroup, this.1, this.2, scan_later r h2 s3 _ _ k2]

theorem enumerated_later {ext : Bool} {root add more : List (String × Int)} {z : Int} (h : ext = true ∨ more = [])
    (hk : (root ++ add).any (fun p => p.2 == z) = true) :
    encodeEnumerated ext root (add ++ more) z = encodeEnumerated ext root add z := by
  cases ext with
  | false => obtain rfl : more = [] := by simpa using h
             rw [List.append_nil]
  | true =>
    simp only [encodeEnumerated, Bool.not_true, Bool.false_eq_true, if_false]
    by_cases hr : (root.map (·.2)).contains z = true
    · rw [if_pos hr, if_pos hr]
    · rw [if_neg hr, if_neg hr]
      obtain ⟨p, hp, hz⟩ := List.any_eq_true.1 hk
      obtain rfl : p.2 = z := by simpa using hz
      have ha : p ∈ add := by
        rcases List.mem_append.1 hp with hp | hp
        · exact absurd (List.contains_iff_mem.2 (List.mem_map.2 ⟨p, hp, rfl⟩)) hr
        · exact hp
      have : ∃ n, (add.map (·.2)).findIdx? (· == p.2) = some n := by
        cases hf : (add.map (·.2)).findIdx? (· == p.2) with
        | some n => exact ⟨n, rfl⟩
        | none =>
          rw [List.findIdx?_eq_none_iff] at hf
          have := hf p.2 (List.mem_map.2 ⟨p, ha, rfl⟩)
          simp at this
      obtain ⟨n, hn⟩ := this
      rw [List.map_append, List.findIdx?_append, hn]
      rfl

mutual
theorem enc_later : ∀ (t : Ty) {t' : Ty}, Spec.Later t t' → Spec.defaultsKnown t = true → ∀ v, Spec.known t v = true →
    encTy t' v = encTy t v
  | .boolean, t', h, _, v, _ => by rw [Spec.Later] at h; rw [h]
  | .integer c, t', h, _, v, _ => by rw [Spec.Later] at h; rw [h]
  | .bitString c, t', h, _, v, _ => by rw [Spec.Later] at h; rw [h]
  | .octetString c, t', h, _, v, _ => by rw [Spec.Later] at h; rw [h]
  | .enumerated ext root add, t', h, _, v, hk => by
    rw [Spec.Later] at h
    obtain ⟨more, rfl, h⟩ := h
    cases v with
    | enum z => rw [Spec.known] at hk; simp only [encTy]; exact enumerated_later h hk
    | _ => simp [encTy]
  | .seqOf c t, t', h, hs, v, hk => by
    rw [Spec.Later] at h
    obtain ⟨t', rfl, h⟩ := h
    rw [Spec.defaultsKnown] at hs
    cases v with
    | seqOf vs =>
      rw [Spec.known, List.all_eq_true] at hk
      rw [encTy, encTy, mapM_same fun v hv => enc_later t h hs v (hk v hv)]
    | _ => simp [encTy]
  | .choice ext r a g, t', h, hs, v, hk => by
    rw [Spec.Later] at h
    obtain ⟨r', a', g', rfl, hr, hx⟩ := h
    have hl := laterAll_length hr
    rw [Spec.defaultsKnown, Bool.and_eq_true, Bool.and_eq_true] at hs
    obtain ⟨⟨s1, s2⟩, s3⟩ := hs
    cases v with
    | choice pos v =>
      rw [encTy, encTy, hl]
      rw [Spec.known] at hk
      by_cases c : pos < r.length
      · rw [if_pos c] at hk ⊢
        rw [if_pos c, enc_alt r hr s1 _ _ hk]
        refine bind_congr fun fl => ?_
        simp only [assembleChoice, c, if_true]
      · rw [if_neg c] at hk ⊢
        rw [if_neg c]
        rcases hx with ⟨rfl, ha⟩ | ⟨ha, hg⟩
        · have := laterSome_length ha
          by_cases c' : pos < r.length + a.length
          · rw [if_pos c'] at hk ⊢
            rw [if_pos (by omega), enc_altSome a ha s2 _ _ hk,
              show (decide (a'.length = 0 ∧ g'.length = 0)) = false by simp; omega,
              show (decide (a.length = 0 ∧ Groups.nil.length = 0)) = false by simp; omega]
          · rw [if_neg c', Spec.knownAltG] at hk; cases hk
        · rw [laterAll_length ha]
          have hm := laterMore_length hg
          by_cases c' : pos < r.length + a.length
          · rw [if_pos c'] at hk ⊢
            rw [if_pos c', enc_alt a ha s2 _ _ hk,
              show (decide (a.length = 0 ∧ g'.length = 0)) = false by simp; omega,
              show (decide (a.length = 0 ∧ g.length = 0)) = false by simp; omega]
          · rw [if_neg c'] at hk ⊢
            have hg0 : g.length ≠ 0 := by
              cases g with
              | nil => rw [Spec.knownAltG] at hk; cases hk
              | cons => simp [Groups.length]
            rw [if_neg c', enc_altG g hg s3 _ _ hk,
              show (decide (a.length = 0 ∧ g'.length = 0)) = false by simp; omega,
              show (decide (a.length = 0 ∧ g.length = 0)) = false by simp; omega]
    | _ => simp [encTy]
  | .sequence ext r a g, t', h, hs, v, hk => by
    rw [Spec.Later] at h
    obtain ⟨r', a', g', rfl, hr, ha, hg⟩ := h
    rw [Spec.defaultsKnown, Bool.and_eq_true, Bool.and_eq_true] at hs
    obtain ⟨⟨s1, s2⟩, s3⟩ := hs
    cases v with
    | seq cs =>
      rw [Spec.known, Bool.and_eq_true, Bool.and_eq_true] at hk
      obtain ⟨⟨k1, k2⟩, k3⟩ := hk
      rw [encTy, encTy, laterAll_length hr, laterAll_length ha, (laterGroups_length hg).1, enc_root r hr s1 _ k1,
        enc_adds a ha s2 _ _ k2, enc_groups g hg s3 _ _ k3]
    | _ => simp [encTy]
theorem enc_alt : ∀ (f : Fields) {f' : Fields}, Spec.LaterAll f f' → Spec.defaultsKnownAll f = true → ∀ i v,
    Spec.knownAlt f i v = true → encAlt f' i v = encAlt f i v
  | .nil, f', h, _, i, v, hk => by rw [Spec.knownAlt] at hk; cases hk
  | .cons n k t r, f', h, hs, i, v, hk => by
    rw [Spec.LaterAll] at h
    obtain ⟨t', r', rfl, h1, h2⟩ := h
    obtain ⟨_, s2, s3⟩ := settled_head hs
    cases i with
    | zero => rw [Spec.knownAlt] at hk; rw [encAlt, encAlt, enc_later t h1 s2 v hk]
    | succ i => rw [Spec.knownAlt] at hk; rw [encAlt, encAlt, enc_alt r h2 s3 i v hk]
theorem enc_altSome : ∀ (f : Fields) {f' : Fields}, Spec.LaterSome f f' → Spec.defaultsKnownAll f = true → ∀ i v,
    Spec.knownAlt f i v = true → encAlt f' i v = encAlt f i v
  | .nil, f', h, _, i, v, hk => by rw [Spec.knownAlt] at hk; cases hk
  | .cons n k t r, f', h, hs, i, v, hk => by
    rw [Spec.LaterSome] at h
    obtain ⟨t', r', rfl, h1, h2⟩ := h
    obtain ⟨_, s2, s3⟩ := settled_head hs
    cases i with
    | zero => rw [Spec.knownAlt] at hk; rw [encAlt, encAlt, enc_later t h1 s2 v hk]
    | succ i => rw [Spec.knownAlt] at hk; rw [encAlt, encAlt, enc_altSome r h2 s3 i v hk]
theorem enc_altG : ∀ (g : Groups) {g' : Groups}, Spec.LaterMore g g' → Spec.defaultsKnownAllG g = true → ∀ i v,
    Spec.knownAltG g i v = true → encAltG g' i v = encAltG g i v
  | .nil, g', h, _, i, v, hk => by rw [Spec.knownAltG] at hk; cases hk
  | .cons f g, g', h, hs, i, v, hk => by
    rw [Spec.LaterMore] at h
    obtain ⟨f', g', rfl, h1, h2⟩ := h
    rw [Spec.defaultsKnownAllG, Bool.and_eq_true] at hs
    rw [encAltG, encAltG, laterAll_length h1]
    rw [Spec.knownAltG] at hk
    by_cases c : i < f.length
    · rw [if_pos c] at hk ⊢; rw [if_pos c, enc_alt f h1 hs.1 i v hk]
    · rw [if_neg c] at hk ⊢; rw [if_neg c, enc_altG g h2 hs.2 _ v hk]
theorem enc_root : ∀ (f : Fields) {f' : Fields}, Spec.LaterAll f f' → Spec.defaultsKnownAll f = true → ∀ cs,
    Spec.knownAll f cs = true → encRoot f' cs = encRoot f cs
  | .nil, f', h, _, cs, hk => by rw [Spec.LaterAll] at h; rw [h]
  | .cons n k t r, f', h, hs, cs, hk => by
    rw [Spec.LaterAll] at h
    obtain ⟨t', r', rfl, h1, h2⟩ := h
    obtain ⟨s1, s2, s3⟩ := settled_head hs
    obtain ⟨k1, k2⟩ := knownOpt_head hk
    rw [encRoot, encRoot, rootComponent_later h1 (fun v => enc_later t h1 s2 v) s1 k1, enc_root r h2 s3 _ k2]
theorem enc_adds : ∀ (f : Fields) {f' : Fields}, Spec.LaterAll f f' → Spec.defaultsKnownAll f = true → ∀ cs prev,
    Spec.knownAll f cs = true → encAdds f' cs prev = encAdds f cs prev
  | .nil, f', h, _, cs, prev, hk => by rw [Spec.LaterAll] at h; rw [h]
  | .cons n k t r, f', h, hs, cs, prev, hk => by
    rw [Spec.LaterAll] at h
    obtain ⟨t', r', rfl, h1, h2⟩ := h
    obtain ⟨s1, s2, s3⟩ := settled_head hs
    obtain ⟨k1, k2⟩ := knownOpt_head hk
    rw [encAdds, encAdds, additionComponent_later h1 (fun v => enc_later t h1 s2 v) (knownOpt_effective s1 k1)]
    refine bind_congr fun b => ?_
    simp only [enc_adds r h2 s3 _ _ k2]
theorem enc_groups : ∀ (g : Groups) {g' : Groups}, Spec.LaterGroups g g' → Spec.defaultsKnownAllG g = true → ∀ cs prev,
    Spec.knownAllG g cs = true → encGroups g' cs prev = encGroups g cs prev
  | .nil, g', h, _, cs, prev, hk => by rw [Spec.LaterGroups] at h; rw [h]
  | .cons f g, g', h, hs, cs, prev, hk => by
    rw [Spec.LaterGroups] at h
    obtain ⟨f', g', rfl, h1, h2⟩ := h
    rw [Spec.defaultsKnownAllG, Bool.and_eq_true] at hs
    rw [Spec.knownAllG, Bool.and_eq_true] at hk
    rw [encGroups, encGroups, scan_later f h1 hs.1 _ _ hk.1, laterAll_length h1, enc_root f h1 hs.1 _ hk.1]
    refine bind_congr fun b => ?_
    simp only [enc_groups g h2 hs.2 _ _ hk.2]
end

end Verif
