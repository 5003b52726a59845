import Verif.SpecHeap
/-!
# Decoding with objects agrees with decoding with types
-/
namespace Verif.Heap

open Verif.Spec

theorem kept_refl (h : Heap) : KeptObjects h h := fun _ c e => ⟨c, e, rfl, rfl, rfl, rfl, fun _ _ e => e, fun _ => rfl⟩

theorem kept_trans {h h' h'' : Heap} (a : KeptObjects h h') (b : KeptObjects h' h'') : KeptObjects h h'' := by
  intro x c e
  obtain ⟨c', e', k⟩ := a x c e
  obtain ⟨c'', e'', k'⟩ := b x c' e'
  refine ⟨c'', e'', k'.cls.trans k.cls, k'.attrs.trans k.attrs, k'.value.trans k.value, k'.elems.trans k.elems,
    fun i a s => k'.slots i a (k.slots i a s), fun n => (k'.sel fun _ _ _ _ => ?_).trans (k.sel n)⟩
  rw [k.cls]; exact n _ _ _ _

theorem kept_has {h h' : Heap} (k : KeptObjects h h') {x : Nat} {t : Ty} (a : Has h x t) : Has h' x t := by
  obtain ⟨c, e, e'⟩ := a
  obtain ⟨c', i, k⟩ := k x c e
  exact ⟨c', i, k.cls.trans e'⟩

/-- A new object. -/
theorem kept_append (h : Heap) (c : Cell) : KeptObjects h (h ++ [c]) := by
  intro x c' e
  refine ⟨c', ?_, rfl, rfl, rfl, rfl, fun _ _ e => e, fun _ => rfl⟩
  rw [List.getElem?_append_left (List.getElem?_eq_some_iff.1 e).1]; exact e

theorem wf_clone {h : Heap} {a : Nat} {c : Cell} (w : WellFormed h) (e : h[a]? = some c) :
    WellFormed (h ++ [clone c]) := by
  intro x c' e'
  have k := kept_append h (clone c)
  by_cases l : x < h.length
  · rw [List.getElem?_append_left l] at e'
    obtain ⟨w1, w2, w3⟩ := w x c' e'
    refine ⟨fun i t s => ?_, fun i a s t u => kept_has k (w2 i a s t u), fun i a s t u => kept_has k (w3 i a s t u)⟩
    obtain ⟨b, s', u⟩ := w1 i t s
    exact ⟨b, s', kept_has k u⟩
  · have e'' : c' = clone c := by
      have : x = h.length := by
        have := (List.getElem?_eq_some_iff.1 e').1
        simp at this; omega
      subst this
      simpa using e'.symm
    subst e''
    refine ⟨fun i t s => ?_, fun i a s => ?_, fun i a s => ?_⟩
    · obtain ⟨b, s', u⟩ := (w a c e).1 i t s
      exact ⟨b, s', kept_has k u⟩
    · simp [clone] at s
    · simp [clone] at s

theorem kept_modify {h : Heap} {x : Nat} {f : Cell → Cell} (k : ∀ c, h[x]? = some c → KeptCell c (f c)) :
    KeptObjects h (h.modify x f) := by
  intro y c e
  by_cases i : x = y
  · subst i
    exact ⟨f c, by simp [e], k c e⟩
  · exact ⟨c, by simp [List.getElem?_modify, i, e], rfl, rfl, rfl, rfl, fun _ _ e => e, fun _ => rfl⟩

theorem wf_modify {h : Heap} {x : Nat} {f : Cell → Cell} (w : WellFormed h)
    (k : ∀ c, h[x]? = some c → KeptCell c (f c))
    (n : ∀ c, h[x]? = some c → (∀ (i a : Nat), (f c).slots[i]? = some (some a) → c.slots[i]? = some (some a) ∨
      ∀ t : Ty, (componentTypes c.cls)[i]? = some t → Has h a t))
    (s : ∀ c, h[x]? = some c → (∀ i a, (f c).sel = some (i, a) → c.sel = some (i, a) ∨
      ∀ t : Ty, (componentTypes c.cls)[i]? = some t → Has h a t)) : WellFormed (h.modify x f) := by
  have kk := kept_modify k
  intro y c' e
  by_cases i : x = y
  · subst i
    cases hc : h[x]? with
    | none => simp [hc] at e
    | some c =>
      have : c' = f c := by simpa [hc] using e.symm
      subst this
      obtain ⟨w1, w2, w3⟩ := w x c hc
      have kc := k c hc
      rw [kc.cls, kc.attrs]
      refine ⟨fun i t u => ?_, fun i a u t v => ?_, fun i a u t v => ?_⟩
      · obtain ⟨b, s', u⟩ := w1 i t u
        exact ⟨b, s', kept_has kk u⟩
      · rcases n c hc i a u with o | o
        · exact kept_has kk (w2 i a o t v)
        · exact kept_has kk (o t v)
      · rcases s c hc i a u with o | o
        · exact kept_has kk (w3 i a o t v)
        · exact kept_has kk (o t v)
  · have e' : h[y]? = some c' := by simpa [List.getElem?_modify, i] using e
    obtain ⟨w1, w2, w3⟩ := w y c' e'
    refine ⟨fun i t s => ?_, fun i a s t u => kept_has kk (w2 i a s t u), fun i a s t u => kept_has kk (w3 i a s t u)⟩
    obtain ⟨b, s', u⟩ := w1 i t s
    exact ⟨b, s', kept_has kk u⟩

/-- A computation that gives an object of a class and reads nothing. -/
def Gives (m : HDec Nat) (t : Ty) (h : Heap) : Prop :=
  ∀ p, ∃ y h', m h p = (.ok (y, p), h') ∧ WellFormed h' ∧ KeptObjects h h' ∧ Has h' y t

theorem bind_ok {α β : Type} {m : HDec α} {f : α → HDec β} {h h' : Heap} {p p' : PerBytes} {a : α}
    (e : m h p = (.ok (a, p'), h')) : (m >>= f) h p = f a h' p' := by
  show HDec.bind m f h p = _
  simp [HDec.bind, e]

theorem bind_error {α β : Type} {m : HDec α} {f : α → HDec β} {h h' : Heap} {p : PerBytes} {x : Err}
    (e : m h p = (.error x, h')) : (m >>= f) h p = (.error x, h') := by
  show HDec.bind m f h p = _
  simp [HDec.bind, e]

theorem pure_apply {α : Type} (a : α) (h : Heap) (p : PerBytes) : (pure a : HDec α) h p = (.ok (a, p), h) := rfl

theorem cell_eq {h : Heap} {x : Nat} {c : Cell} (e : h[x]? = some c) (p : PerBytes) : cell x h p = (.ok (c, p), h) := by
  simp [cell, e]

theorem make_gives {h : Heap} {a : Nat} {t : Ty} (w : WellFormed h) (o : Has h a t) (p : PerBytes) :
    ∃ y h', make a h p = (.ok (y, p), h') ∧ WellFormed h' ∧ KeptObjects h h' ∧ Has h' y t ∧
      ∀ (x : Nat) (c : Cell), h[x]? = some c → h'[x]? = some c := by
  obtain ⟨c, e, rfl⟩ := o
  by_cases i : isConstructed c.cls = true
  · refine ⟨h.length, h ++ [clone c], by simp [make, e, i], wf_clone w e, kept_append _ _, ⟨clone c, by simp, rfl⟩, ?_⟩
    intro x c' e'
    rw [List.getElem?_append_left (List.getElem?_eq_some_iff.1 e').1]; exact e'
  · exact ⟨a, h, by simp [make, e, i], w, kept_refl h, ⟨c, e, rfl⟩, fun _ _ e => e⟩

theorem attr_gives {h : Heap} {x i : Nat} {t t' : Ty} (w : WellFormed h) (o : Has h x t)
    (ht : (componentTypes t)[i]? = some t') : Gives (attr x i) t' h := by
  obtain ⟨c, e, rfl⟩ := o
  intro p
  obtain ⟨a, e', u⟩ := (w x c e).1 i t' ht
  refine ⟨a, h, ?_, w, kept_refl h, u⟩
  rw [attr, bind_ok (cell_eq e p)]
  simp [e', pure_apply]

/-- Making a component and putting it somewhere. -/
theorem put_gives {h : Heap} {x i : Nat} {c : Cell} {t' : Ty} {f : Nat → Cell → Cell} (w : WellFormed h)
    (e : h[x]? = some c) (ht : (componentTypes c.cls)[i]? = some t')
    (k : ∀ a, KeptCell c (f a c))
    (n : ∀ a, ∀ (j b : Nat), (f a c).slots[j]? = some (some b) → c.slots[j]? = some (some b) ∨ (j = i ∧ b = a))
    (s : ∀ a, ∀ j b, (f a c).sel = some (j, b) → c.sel = some (j, b) ∨ (j = i ∧ b = a)) :
    Gives (do
      let a ← make (← attr x i)
      update x (f a)
      pure a) t' h := by
  intro p
  obtain ⟨b, h1, e1, w1, k1, o1⟩ := attr_gives w ⟨c, e, rfl⟩ ht p
  have eh : h1 = h := by
    have : (attr x i h p).2 = h := by
      rw [attr, bind_ok (cell_eq e p)]
      cases c.attrs[i]? <;> rfl
    rw [e1] at this; exact this
  subst eh
  obtain ⟨y, h2, e2, w2, k2, o2, u2⟩ := make_gives w1 o1 p
  have e' := u2 x c e
  have kc : ∀ c', h2[x]? = some c' → KeptCell c' (f y c') := by
    intro c' ec; rw [e'] at ec; cases ec; exact k y
  have k3 := kept_modify kc
  refine ⟨y, h2.modify x (f y), ?_, wf_modify w2 kc ?_ ?_, kept_trans k2 k3, kept_has k3 o2⟩
  · rw [bind_ok e1, bind_ok e2]; rfl
  · intro c' ec; rw [e'] at ec; cases ec
    intro j b u
    rcases n y j b u with v | ⟨rfl, rfl⟩
    · exact .inl v
    · refine .inr fun t v => ?_
      rw [ht] at v; cases v; exact o2
  · intro c' ec; rw [e'] at ec; cases ec
    intro j b u
    rcases s y j b u with v | ⟨rfl, rfl⟩
    · exact .inl v
    · refine .inr fun t v => ?_
      rw [ht] at v; cases v; exact o2

theorem component_gives {h : Heap} {x i : Nat} {t t' : Ty} (w : WellFormed h) (o : Has h x t)
    (ht : (componentTypes t)[i]? = some t') : Gives (component x i) t' h := by
  obtain ⟨c, e, rfl⟩ := o
  intro p
  rw [component, bind_ok (cell_eq e p)]
  cases hs : c.slots[i]?.join with
  | some a =>
    have hs' : c.slots[i]? = some (some a) := by simpa [Option.join_eq_some_iff] using hs
    exact ⟨a, h, rfl, w, kept_refl h, (w x c e).2.1 i a hs' t' ht⟩
  | none =>
    have hn : ∀ a, c.slots[i]? ≠ some (some a) := by
      intro a u; rw [u] at hs; cases hs
    refine put_gives (f := fun a => setSlot i a) w e ht (fun a => ?_) (fun a j b u => ?_) (fun a j b u => .inl u) p
    · refine ⟨rfl, rfl, rfl, rfl, fun j b u => ?_, fun _ => rfl⟩
      have ne : i ≠ j := by rintro rfl; exact hn b u
      have l : c.slots.isEmpty = false := by
        cases hc : c.slots with
        | nil => simp [hc] at u
        | cons _ _ => rfl
      simp [setSlot, l, List.getElem?_set, ne, u]
    · by_cases ne : i = j
      · subst ne
        right
        refine ⟨rfl, ?_⟩
        simp only [setSlot, List.getElem?_set_self'] at u
        revert u
        cases (if c.slots.isEmpty = true then List.replicate c.attrs.length none else c.slots)[i]? <;> simp [Eq.comm]
      · left
        simp only [setSlot] at u
        rw [List.getElem?_set_ne ne] at u
        split at u
        · simp [List.getElem?_replicate] at u
        · exact u

theorem alternative_gives {h : Heap} {x i : Nat} {ext : Bool} {r a : Fields} {g : Groups} {t' : Ty} (w : WellFormed h)
    (o : Has h x (.choice ext r a g)) (ht : (componentTypes (.choice ext r a g))[i]? = some t') :
    Gives (alternative x i) t' h := by
  obtain ⟨c, e, ec⟩ := o
  rw [← ec] at ht
  have new : Gives (do
      let a ← make (← attr x i)
      update x fun c => { c with sel := some (i, a) }
      pure a) t' h := by
    refine put_gives (f := fun a c => { c with sel := some (i, a) }) w e ht (fun a => ?_) (fun a j b u => .inl u)
      (fun a j b u => ?_)
    · exact ⟨rfl, rfl, rfl, rfl, fun _ _ u => u, fun n => absurd ec (n _ _ _ _)⟩
    · right
      cases u; exact ⟨rfl, rfl⟩
  intro p
  rw [alternative, bind_ok (cell_eq e p)]
  cases hs : c.sel with
  | none => exact new p
  | some s =>
    obtain ⟨j, b⟩ := s
    by_cases ij : j = i
    · subst ij
      refine ⟨b, h, by simp [pure_apply], w, kept_refl h, (w x c e).2.2 j b hs t' ht⟩
    · simp only [if_neg ij]
      exact new p

/-- With any objects, and whatever is done to them before, a computation does what one on types does. -/
def Agree {α : Type} (h0 : Heap) (m : HDec α) (d : Dec α) : Prop :=
  ∀ h p, KeptObjects h0 h → WellFormed h → (m h p).1 = d p ∧ WellFormed (m h p).2 ∧ KeptObjects h (m h p).2

theorem Agree.mono {α : Type} {h0 h1 : Heap} {m : HDec α} {d : Dec α} (a : Agree h0 m d) (k : KeptObjects h0 h1) :
    Agree h1 m d := fun h p k' w => a h p (kept_trans k k') w

theorem agree_lift {α : Type} (h0 : Heap) (d : Dec α) : Agree h0 (lift d) d :=
  fun h _ _ w => ⟨rfl, w, kept_refl h⟩

theorem agree_pure {α : Type} (h0 : Heap) (a : α) : Agree h0 (pure a) (pure a) :=
  fun h _ _ w => ⟨rfl, w, kept_refl h⟩

theorem agree_bind {α β : Type} {h0 : Heap} {m : HDec α} {d : Dec α} {f : α → HDec β} {k : α → Dec β}
    (a : Agree h0 m d) (b : ∀ v, Agree h0 (f v) (k v)) : Agree h0 (m >>= f) (d >>= k) := by
  intro h p k0 w
  obtain ⟨e, w', kk⟩ := a h p k0 w
  cases hm : m h p with
  | mk o h' =>
    rw [hm] at e w' kk
    cases o with
    | error x =>
      rw [bind_error hm]
      refine ⟨?_, w', kk⟩
      show _ = (d p >>= _)
      rw [← e]; rfl
    | ok r =>
      obtain ⟨v, p'⟩ := r
      rw [bind_ok hm]
      obtain ⟨e', w'', kk'⟩ := b v h' p' (kept_trans k0 kk) w'
      refine ⟨?_, w'', kept_trans kk kk'⟩
      show _ = (d p >>= _)
      rw [← e]; exact e'

/-- Getting an object of the right class first. -/
theorem agree_get {β : Type} {h0 : Heap} {m : HDec Nat} {t : Ty} {f : Nat → HDec β} {d : Dec β}
    (a : ∀ h, KeptObjects h0 h → WellFormed h → Gives m t h)
    (b : ∀ h1 y, KeptObjects h0 h1 → Has h1 y t → Agree h1 (f y) d) : Agree h0 (m >>= f) d := by
  intro h p k w
  obtain ⟨y, h', e, w', kk, o⟩ := a h k w p
  rw [bind_ok e]
  obtain ⟨e', w'', kk'⟩ := b h' y (kept_trans k kk) o h' p (kept_refl h') w'
  exact ⟨e', w'', kept_trans kk kk'⟩

theorem agree_open {α : Type} {h0 : Heap} {m : HDec α} {d : Dec α} (a : Agree h0 m d) :
    Agree h0 (openType m) (decodeOpenTypeField d) := by
  refine agree_bind (agree_lift _ _) fun len => agree_bind (agree_lift _ _) fun v =>
    agree_bind (agree_lift _ _) fun inner => ?_
  intro h p k w
  obtain ⟨e, w', kk⟩ := a h inner k w
  cases hm : m h inner with
  | mk o h' =>
    rw [hm] at e w' kk
    cases o with
    | error x =>
      simp only [hm]
      refine ⟨?_, w', kk⟩
      show _ = ((liftE (d inner) : Dec _) p >>= _)
      rw [← e]; rfl
    | ok r =>
      simp only [hm]
      refine ⟨?_, w', kk⟩
      show _ = ((liftE (d inner) : Dec _) p >>= _)
      rw [← e]; rfl

theorem agree_repeated {α : Type} {h0 : Heap} {m : HDec α} {d : Dec α} (a : Agree h0 m d) :
    ∀ n, Agree h0 (repeated n m) (repeatDec n d)
  | 0 => agree_pure _ _
  | n + 1 => agree_bind a fun _ => agree_bind (agree_repeated a n) fun _ => agree_pure _ _

theorem agree_root {h0 : Heap} {m : Nat → HDec Val} : ∀ (f : Fields) (i : Nat) (opt : Bits),
    (∀ (j : Nat) (t : Ty), (fieldTypes f)[j]? = some t → Agree h0 (m (i + j)) (decTy t)) →
    Agree h0 (rootLoop m i f opt) (decRoot f opt)
  | .nil, i, opt, _ => by unfold rootLoop decRoot; exact agree_pure _ _
  | .cons _ k t r, i, opt, a => by
    have hd : Agree h0 (m i) (decTy t) := a 0 t rfl
    have tl := fun opt => agree_root (m := m) r (i + 1) opt fun j t' e => by
      have := a (j + 1) t' e
      rwa [show i + (j + 1) = i + 1 + j by omega] at this
    unfold rootLoop decRoot
    cases k
    case mandatory => exact agree_bind hd fun _ => agree_bind (tl _) fun _ => agree_pure _ _
    all_goals
      cases opt with
      | nil => exact agree_lift _ _
      | cons b opt' =>
        cases b
        · exact agree_bind (tl _) fun _ => agree_pure _ _
        · exact agree_bind hd fun _ => agree_bind (tl _) fun _ => agree_pure _ _

/-- The order in which computations are put together does not matter. -/
theorem agree_assoc {α β γ : Type} {h0 : Heap} {m : HDec α} {f : α → HDec β} {g : β → HDec γ} {d : Dec γ}
    (a : Agree h0 ((m >>= f) >>= g) d) : Agree h0 (m >>= fun x => f x >>= g) d := by
  have e : ((m >>= f) >>= g) = (m >>= fun x => f x >>= g) := by
    funext h p
    show HDec.bind (HDec.bind m f) g h p = HDec.bind m (fun x => HDec.bind (f x) g) h p
    simp only [HDec.bind]
    cases hg : m h p with
    | mk o h' => cases o <;> rfl
  rwa [e] at a

theorem agree_adds {h0 : Heap} {get : Nat → HDec Nat} {m : Nat → HDec Val} : ∀ (f : Fields) (i : Nat) (bits : Bits),
    (∀ (j : Nat) (t : Ty), (fieldTypes f)[j]? = some t →
      Agree h0 (get (i + j) >>= fun a => openType (m a)) (decodeOpenTypeField (decTy t))) →
    Agree h0 (addLoop get m i f bits) (decAdds f bits)
  | .nil, i, bits, _ => by unfold addLoop decAdds; exact agree_pure _ _
  | .cons _ k t r, i, bits, a => by
    have hd := a 0 t rfl
    have tl := fun bits => agree_adds (get := get) (m := m) r (i + 1) bits fun j t' e => by
      have := a (j + 1) t' e
      rwa [show i + (j + 1) = i + 1 + j by omega] at this
    unfold addLoop decAdds
    cases bits with
    | nil => exact agree_bind (tl _) fun _ => agree_pure _ _
    | cons b bits' =>
      cases b
      · exact agree_bind (tl _) fun _ => agree_pure _ _
      · exact agree_assoc (agree_bind hd fun _ => agree_bind (tl _) fun _ => agree_pure _ _)

theorem fieldTypes_length : ∀ f : Fields, (fieldTypes f).length = f.length
  | .nil => rfl
  | .cons _ _ _ r => by simp [fieldTypes, Fields.length, fieldTypes_length r]

theorem groupTypes_length : ∀ g : Groups, (groupTypes g).length = g.size
  | .nil => rfl
  | .cons f g => by simp [groupTypes, Groups.size, fieldTypes_length, groupTypes_length g]

theorem agree_groups {h0 : Heap} {m : Nat → HDec Val} : ∀ (g : Groups) (i : Nat) (bits : Bits),
    (∀ (j : Nat) (t : Ty), (groupTypes g)[j]? = some t → Agree h0 (m (i + j)) (decTy t)) →
    Agree h0 (groupLoop m i g bits) (decGroups g bits)
  | .nil, i, bits, _ => by unfold groupLoop decGroups; exact agree_pure _ _
  | .cons f g, i, bits, a => by
    have hd : ∀ opt, Agree h0 (rootLoop m i f opt) (decRoot f opt) := fun opt => agree_root f i opt fun j t e => by
      refine a j t ?_
      rw [groupTypes, List.getElem?_append_left (List.getElem?_eq_some_iff.1 e).1]; exact e
    have tl := fun bits => agree_groups (m := m) g (i + f.length) bits fun j t' e => by
      have := a (f.length + j) t' (by
        rw [groupTypes, List.getElem?_append_right (by rw [fieldTypes_length]; omega), fieldTypes_length,
          Nat.add_sub_cancel_left]; exact e)
      rwa [← Nat.add_assoc] at this
    unfold groupLoop decGroups
    cases bits with
    | nil => exact agree_bind (tl _) fun _ => agree_pure _ _
    | cons b bits' =>
      cases b
      · exact agree_bind (tl _) fun _ => agree_pure _ _
      · exact agree_bind (agree_open (agree_bind (agree_lift _ _) fun _ => hd _)) fun _ =>
          agree_bind (tl _) fun _ => agree_pure _ _

theorem decAlt_some : ∀ (f : Fields) (i : Nat) (t : Ty), (fieldTypes f)[i]? = some t → decAlt f i = decTy t
  | .nil, i, t, e => by simp [fieldTypes] at e
  | .cons _ _ t' r, 0, t, e => by
    have : t' = t := by simpa [fieldTypes] using e
    subst this; rw [decAlt]
  | .cons _ _ t' r, i + 1, t, e => by
    rw [decAlt]; exact decAlt_some r i t (by simpa [fieldTypes] using e)

theorem decAlt_none : ∀ (f : Fields) (i : Nat), f.length ≤ i → decAlt f i = raise .indexError
  | .nil, i, _ => by rw [decAlt]
  | .cons _ _ t' r, 0, e => by simp [Fields.length] at e
  | .cons _ _ t' r, i + 1, e => by
    rw [decAlt]; exact decAlt_none r i (by simpa [Fields.length] using e)

theorem decAltG_some : ∀ (g : Groups) (i : Nat) (t : Ty), (groupTypes g)[i]? = some t → decAltG g i = decTy t
  | .nil, i, t, e => by simp [groupTypes] at e
  | .cons f g, i, t, e => by
    rw [groupTypes] at e
    rw [decAltG]
    split
    · rename_i l
      rw [List.getElem?_append_left (by rwa [fieldTypes_length])] at e
      exact decAlt_some f i t e
    · rename_i l
      rw [List.getElem?_append_right (by rw [fieldTypes_length]; omega), fieldTypes_length] at e
      exact decAltG_some g _ t e

theorem decAltG_none : ∀ (g : Groups) (i : Nat), g.size ≤ i → decAltG g i = raise .indexError
  | .nil, i, _ => by rw [decAltG]
  | .cons f g, i, e => by
    simp only [Groups.size] at e
    rw [decAltG, if_neg (by omega)]
    exact decAltG_none g _ (by omega)

theorem fieldTypes_height : ∀ (f : Fields) (t : Ty), t ∈ fieldTypes f → height t ≤ heightFields f
  | .nil, t, e => by simp [fieldTypes] at e
  | .cons n k t' r, t, e => by
    simp only [fieldTypes, List.mem_cons] at e
    rw [heightFields]
    rcases e with rfl | e
    · omega
    · have := fieldTypes_height r t e
      omega

theorem groupTypes_height : ∀ (g : Groups) (t : Ty), t ∈ groupTypes g → height t ≤ heightGroups g
  | .nil, t, e => by simp [groupTypes] at e
  | .cons f g, t, e => by
    simp only [groupTypes, List.mem_append] at e
    rw [heightGroups]
    rcases e with e | e
    · have := fieldTypes_height f t e
      omega
    · have := groupTypes_height g t e
      omega

theorem componentTypes_height {T t : Ty} (e : t ∈ componentTypes T) : height t < height T := by
  cases T <;> simp only [componentTypes, List.mem_cons, List.not_mem_nil, List.mem_append, or_false] at e
  · subst e; rw [height.eq_1]; omega
  all_goals
    rcases e with (e | e) | e
    · have := fieldTypes_height _ _ e; simp only [height]; omega
    · have := fieldTypes_height _ _ e; simp only [height]; omega
    · have := groupTypes_height _ _ e; simp only [height]; omega

theorem agree_cell {β : Type} {h0 : Heap} {x : Nat} {t : Ty} {f : Cell → HDec β} {d : Dec β} (o : Has h0 x t)
    (b : ∀ c, c.cls = t → Agree h0 (f c) d) : Agree h0 (cell x >>= f) d := by
  intro h p k w
  obtain ⟨c, e, ec⟩ := kept_has k o
  rw [bind_ok (cell_eq e p)]
  exact b c ec h p k w

/-- The positions of a class. -/
theorem at_root {r a : Fields} {g : Groups} {i : Nat} {t : Ty} (e : (fieldTypes r)[i]? = some t) :
    (fieldTypes r ++ fieldTypes a ++ groupTypes g)[i]? = some t := by
  rw [List.append_assoc, List.getElem?_append_left (List.getElem?_eq_some_iff.1 e).1]; exact e

theorem at_add {r a : Fields} {g : Groups} {i : Nat} {t : Ty} (e : (fieldTypes a)[i]? = some t) :
    (fieldTypes r ++ fieldTypes a ++ groupTypes g)[r.length + i]? = some t := by
  rw [List.append_assoc, List.getElem?_append_right (by rw [fieldTypes_length]; omega), fieldTypes_length,
    Nat.add_sub_cancel_left, List.getElem?_append_left (List.getElem?_eq_some_iff.1 e).1]; exact e

theorem at_group {r a : Fields} {g : Groups} {i : Nat} {t : Ty} (e : (groupTypes g)[i]? = some t) :
    (fieldTypes r ++ fieldTypes a ++ groupTypes g)[r.length + a.length + i]? = some t := by
  rw [List.getElem?_append_right (by rw [List.length_append, fieldTypes_length, fieldTypes_length]; omega),
    List.length_append, fieldTypes_length, fieldTypes_length, Nat.add_sub_cancel_left]; exact e

/-- `create_field_list` of an object does what its class says. -/
theorem agree_fieldList : ∀ (n : Nat) (t : Ty) (x : Nat) (h0 : Heap), height t ≤ n → Has h0 x t →
    Agree h0 (fieldList n x) (decTy t)
  | 0, t, x, h0, l, _ => by cases t <;> simp [height] at l
  | n + 1, t, x, h0, l, o => by
    have ih : ∀ {t' : Ty} {i : Nat}, (componentTypes t)[i]? = some t' → ∀ h1 y, Has h1 y t' →
        Agree h1 (fieldList n y) (decTy t') := fun e h1 y o => by
      have := componentTypes_height (List.mem_of_getElem? e)
      exact agree_fieldList n _ y h1 (by omega) o
    unfold fieldList
    refine agree_cell o fun c ec => ?_
    cases t with
    | boolean => simp only [ec]; exact agree_lift _ _
    | integer _ => simp only [ec]; exact agree_lift _ _
    | enumerated _ _ _ => simp only [ec]; exact agree_lift _ _
    | bitString _ => simp only [ec]; exact agree_lift _ _
    | octetString _ => simp only [ec]; exact agree_lift _ _
    | seqOf s t =>
      simp only [ec]
      rw [decTy]
      refine agree_bind (agree_lift _ _) fun k => ?_
      refine agree_get (t := t) (fun h kh w => attr_gives w (kept_has kh o) (by rfl)) fun h1 y _ oy => ?_
      exact agree_bind (agree_repeated (ih (i := 0) (by rfl) h1 y oy) _) fun _ => agree_pure _ _
    | choice ext r a g =>
      have alt : ∀ (i : Nat) (t' : Ty), (componentTypes (.choice ext r a g))[i]? = some t' →
          Agree h0 (do fieldList n (← alternative x i)) (decTy t') := fun i t' e =>
        agree_get (t := t') (fun h kh w => alternative_gives w (kept_has kh o) e) fun h1 y _ oy => ih e h1 y oy
      have low : ∀ i, i < r.length → Agree h0 (do fieldList n (← alternative x i)) (decAlt r i) := fun i l => by
        have l' : i < (fieldTypes r).length := by rwa [fieldTypes_length]
        rw [decAlt_some r i _ (List.getElem?_eq_getElem l')]
        exact alt i _ (at_root (List.getElem?_eq_getElem l'))
      have pick : ∀ i, Agree h0 (if i < r.length then (do
            let v ← fieldList n (← alternative x i)
            pure (.choice i v) : HDec Val)
          else lift (raise .indexError)) (do
            let v ← decAlt r i
            return .choice i v) := fun i => by
        split
        · rename_i l
          exact agree_assoc (agree_bind (low i l) fun _ => agree_pure _ _)
        · rename_i l
          rw [decAlt_none r i (by omega)]
          exact agree_lift _ (raise .indexError)
      have root : Agree h0 (if r.length = 1 then (do
            let v ← fieldList n (← alternative x 0)
            pure (.choice 0 v) : HDec Val)
          else do
            let i ← lift (decodeConstrainedFromFieldList (some 0) (some ((r.length : Int) - 1)))
            if i.toNat < r.length then do
              let v ← fieldList n (← alternative x i.toNat)
              pure (.choice i.toNat v)
            else lift (raise .indexError))
          (if r.length = 1 then (do
            let v ← decAlt r 0
            return .choice 0 v)
          else do
            let i ← decodeConstrainedFromFieldList (some 0) (some ((r.length : Int) - 1))
            let v ← decAlt r i.toNat
            return .choice i.toNat v) := by
        split
        · rename_i l
          exact agree_assoc (agree_bind (low 0 (by omega)) fun _ => agree_pure _ _)
        · exact agree_bind (agree_lift _ _) fun i => pick i.toNat
      have high : ∀ i, i < a.length + g.size → Agree h0
          (alternative x (r.length + i) >>= fun y => openType (fieldList n y))
          (decodeOpenTypeField (if i < a.length then decAlt a i else decAltG g (i - a.length))) := fun i l => by
        have : ∃ t', (componentTypes (.choice ext r a g))[r.length + i]? = some t' ∧
            (if i < a.length then decAlt a i else decAltG g (i - a.length)) = decTy t' := by
          split
          · rename_i la
            have l' : i < (fieldTypes a).length := by rwa [fieldTypes_length]
            exact ⟨_, at_add (List.getElem?_eq_getElem l'), decAlt_some a i _ (List.getElem?_eq_getElem l')⟩
          · rename_i la
            have l' : i - a.length < (groupTypes g).length := by rw [groupTypes_length]; omega
            refine ⟨_, ?_, decAltG_some g _ _ (List.getElem?_eq_getElem l')⟩
            have := at_group (r := r) (a := a) (List.getElem?_eq_getElem l')
            rwa [show r.length + a.length + (i - a.length) = r.length + i by omega] at this
        obtain ⟨t', e, e'⟩ := this
        rw [e']
        exact agree_get (t := t') (fun h kh w => alternative_gives w (kept_has kh o) e) fun h1 y _ oy =>
          agree_open (ih e h1 y oy)
      simp only [ec]
      rw [decTy]
      cases ext
      · exact root
      · refine agree_bind (agree_lift _ _) fun e => ?_
        by_cases e0 : e = 0
        · rw [if_pos e0, if_pos e0]
          exact root
        · rw [if_neg e0, if_neg e0]
          refine agree_bind (agree_lift _ _) fun i => ?_
          by_cases ag : a.length = 0 ∧ g.length = 0
          · rw [if_pos ag, if_pos ag]
            exact agree_lift _ _
          · rw [if_neg ag, if_neg ag]
            by_cases l : i.toNat < a.length + g.size
            · rw [if_pos l]
              exact agree_assoc (agree_bind (high i.toNat l) fun _ => agree_pure _ _)
            · dsimp only
              rw [if_neg l, if_neg (by omega), decAltG_none g _ (by omega)]
              exact agree_bind (agree_open (agree_lift _ _)) fun _ => agree_pure _ _
    | sequence ext r a g =>
      simp only [ec]
      rw [decTy]
      have comp : ∀ (i : Nat) (t' : Ty), (componentTypes (.sequence ext r a g))[i]? = some t' →
          Agree h0 (do fieldList n (← component x i)) (decTy t') := fun i t' e =>
        agree_get (t := t') (fun h kh w => component_gives w (kept_has kh o) e) fun h1 y _ oy => ih e h1 y oy
      cases ext
      all_goals
        simp only [Bool.false_eq_true, if_false, if_true]
        refine agree_bind ?_ fun e => agree_bind (agree_lift _ _) fun opt =>
          agree_bind (agree_root r 0 opt ?_) fun rv => ?_
        · first
          | exact agree_pure _ _
          | exact agree_lift _ _
        · intro j t' e
          rw [Nat.zero_add]
          exact comp j t' (at_root e)
        · split
          · refine agree_bind (agree_lift _ _) fun bits => agree_bind (agree_adds a _ _ ?_) fun av =>
              agree_bind (agree_groups g _ _ ?_) fun gv => agree_pure _ _
            · intro j t' e
              exact agree_get (t := t') (fun h kh w => component_gives w (kept_has kh o) (at_add e)) fun h1 y _ oy =>
                agree_open (ih (at_add e) h1 y oy)
            · intro j t' e
              exact agree_get (t := t') (fun h kh w => attr_gives w (kept_has kh o) (at_group e)) fun h1 y _ oy =>
                ih (at_group e) h1 y oy
          · exact agree_pure _ _

theorem decodeAt_eq {n x : Nat} {t : Ty} {h : Heap} (w : WellFormed h) (o : Has h x t) (l : height t ≤ n)
    (stream : List UInt8) :
    (decodeAt n x stream h).1 = decode t stream ∧ WellFormed (decodeAt n x stream h).2 ∧
      KeptObjects h (decodeAt n x stream h).2 := by
  unfold decodeAt decode
  cases hp : PerBytes.init (hexlify stream) with
  | error e => exact ⟨rfl, w, kept_refl h⟩
  | ok p =>
    obtain ⟨e, w', k⟩ := agree_fieldList n t x h l o h p (kept_refl h) w
    simp only [Bind.bind, Except.bind]
    rw [← e]
    cases hm : fieldList n x h p with
    | mk r h' =>
      rw [hm] at w' k
      cases r with
      | error e => exact ⟨rfl, w', k⟩
      | ok q =>
        obtain ⟨v, p'⟩ := q
        cases v <;> exact ⟨rfl, w', k⟩

theorem decodeCalls_eq {n : Nat} {cls : Nat → Ty} : ∀ (calls : List (Nat × List UInt8)) (h : Heap), WellFormed h →
    (∀ c ∈ calls, Has h c.1 (cls c.1) ∧ height (cls c.1) ≤ n) →
    (decodeCalls n calls h).1 = calls.map (fun c => decode (cls c.1) c.2) ∧
      WellFormed (decodeCalls n calls h).2 ∧ KeptObjects h (decodeCalls n calls h).2
  | [], h, w, f => ⟨rfl, w, kept_refl h⟩
  | (x, s) :: calls, h, w, f => by
    obtain ⟨o, l⟩ := f (x, s) (by simp)
    obtain ⟨e1, w1, k1⟩ := decodeAt_eq w o l s
    obtain ⟨e2, w2, k2⟩ := decodeCalls_eq (n := n) (cls := cls) calls _ w1
      (fun c m => ⟨kept_has k1 (f c (by simp [m])).1, (f c (by simp [m])).2⟩)
    refine ⟨?_, w2, kept_trans k1 k2⟩
    simp only [decodeCalls, List.map_cons]
    rw [e1, e2]

/-! ## Every type has objects -/

theorem wf_new {h : Heap} {t : Ty} {as : List Nat} (w : WellFormed h)
    (e : ∀ (i : Nat) (t' : Ty), (componentTypes t)[i]? = some t' → ∃ a, as[i]? = some a ∧ Has h a t') :
    WellFormed (h ++ [{ cls := t, attrs := as }]) := by
  intro x c' e'
  have k := kept_append h { cls := t, attrs := as }
  by_cases l : x < h.length
  · rw [List.getElem?_append_left l] at e'
    obtain ⟨w1, w2, w3⟩ := w x c' e'
    refine ⟨fun i t s => ?_, fun i a s t u => kept_has k (w2 i a s t u), fun i a s t u => kept_has k (w3 i a s t u)⟩
    obtain ⟨b, s', u⟩ := w1 i t s
    exact ⟨b, s', kept_has k u⟩
  · have e'' : c' = { cls := t, attrs := as } := by
      have : x = h.length := by
        have := (List.getElem?_eq_some_iff.1 e').1
        simp at this; omega
      subst this
      simpa using e'.symm
    subst e''
    refine ⟨fun i t s => ?_, fun i a s => (nomatch s), fun i a s => (nomatch s)⟩
    obtain ⟨b, s', u⟩ := e i t s
    exact ⟨b, s', kept_has k u⟩

/-- Objects for a list of types can be made. -/
def Makes (ts : List Ty) : Prop :=
  ∀ h, WellFormed h → ∃ (h' : Heap) (as : List Nat), WellFormed h' ∧ KeptObjects h h' ∧
    ∀ (i : Nat) (t : Ty), ts[i]? = some t → ∃ a, as[i]? = some a ∧ Has h' a t

theorem makes_nil : Makes [] := fun h w => ⟨h, [], w, kept_refl h, fun _ _ e => (nomatch e)⟩

theorem makes_cons {t : Ty} {ts : List Ty} (a : Makes [t]) (b : Makes ts) : Makes (t :: ts) := by
  intro h w
  obtain ⟨h1, a1, w1, k1, e1⟩ := a h w
  obtain ⟨h2, a2, w2, k2, e2⟩ := b h1 w1
  obtain ⟨x, _, hx⟩ := e1 0 t rfl
  refine ⟨h2, x :: a2, w2, kept_trans k1 k2, fun i t' e => ?_⟩
  cases i with
  | zero => cases e; exact ⟨x, rfl, kept_has k2 hx⟩
  | succ i => exact e2 i t' e

theorem makes_all : ∀ {ts : List Ty}, (∀ t ∈ ts, Makes [t]) → Makes ts
  | [], _ => makes_nil
  | t :: _, c => makes_cons (c t (by simp)) (makes_all fun u m => c u (by simp [m]))

theorem makes_ty {t : Ty} (c : Makes (componentTypes t)) : Makes [t] := by
  intro h w
  obtain ⟨h', as, w', k, e⟩ := c h w
  refine ⟨h' ++ [{ cls := t, attrs := as }], [h'.length], wf_new w' e, kept_trans k (kept_append _ _), fun i t' u => ?_⟩
  match i with
  | 0 => cases u; exact ⟨_, rfl, { cls := t, attrs := as }, by simp, rfl⟩
  | i + 1 => cases u

theorem makes : ∀ (n : Nat) (t : Ty), height t ≤ n → Makes [t]
  | 0, t, l => by cases t <;> simp [height] at l
  | n + 1, t, l => makes_ty (makes_all fun u m => makes n u (by have := componentTypes_height m; omega))

end Verif.Heap
