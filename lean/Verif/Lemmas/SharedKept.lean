import Verif.Lemmas.SharedSame
/-!
# Objects that share parts: nothing but components is filled in, whatever the types
-/
namespace Verif.Shared

open Spec

/-- The computation does nothing to the objects but fill in components. -/
def Keeps {α : Type} (h : Store) (m : SEnc α) : Prop := Grown h (m h).2 ∧ WellTyped (m h).2

theorem keeps_lift {α : Type} {h : Store} (w : WellTyped h) (v : Except Err α) : Keeps h (lift v) := ⟨grown_refl h, w⟩

theorem keeps_pure {α : Type} {h : Store} (w : WellTyped h) (x : α) : Keeps h (pure x) := ⟨grown_refl h, w⟩

theorem keeps_bind {α β : Type} {h : Store} {m : SEnc α} {f : α → SEnc β} (s : Keeps h m)
    (n : ∀ x h1, Grown h h1 → WellTyped h1 → Keeps h1 (f x)) : Keeps h (m >>= f) := by
  obtain ⟨g, w⟩ := s
  show Keeps h (SEnc.bind m f)
  unfold Keeps SEnc.bind
  rcases hm : m h with ⟨r, h1⟩
  rw [hm] at g w
  dsimp only at g w
  cases r with
  | error er => exact ⟨g, w⟩
  | ok x =>
    obtain ⟨g2, w2⟩ := n x h1 g w
    exact ⟨grown_trans w w2 g g2, w2⟩

theorem keeps_view {β : Type} {h : Store} {t : Ty} {x : Nat} {f : Obj → SEnc β} (s : ∀ o, Keeps h (f o)) :
    Keeps h (view t x >>= f) := s _

theorem keeps_state {β : Type} {h : Store} {x : Nat} {f : Option Body → SEnc β} (s : Keeps h (f (bodyAt h x))) :
    Keeps h (state x >>= f) := s

theorem keeps_component {β : Type} {e : Bool} {r a : Fields} {g : Groups} {h : Store} {x j : Nat} {k : Kind} {t : Ty}
    {f : Nat → SEnc β} (w : WellTyped h) (i : IsA h (.sequence e r a g) x) (p : partAt r a g j = some (k, t))
    (n : ∀ y h1, Grown h h1 → WellTyped h1 → IsA h1 t y → Keeps h1 (f y)) :
    Keeps h (component (r.length + a.length + g.size) x j k t >>= f) := by
  obtain ⟨y, h1, ec, gr, w1, iy, _⟩ := component_spec w i p
  obtain ⟨g2, w2⟩ := n y h1 gr w1 iy
  show Keeps h (SEnc.bind _ f)
  unfold Keeps SEnc.bind
  rw [ec]
  exact ⟨grown_trans w1 w2 gr g2, w2⟩

theorem keeps_if {α : Type} {h : Store} {c : Prop} [Decidable c] {m m' : SEnc α} (s : c → Keeps h m) (s' : ¬ c → Keeps h m') :
    Keeps h (if c then m else m') := by
  by_cases d : c
  · rw [if_pos d]; exact s d
  · rw [if_neg d]; exact s' d

theorem keeps_over {α : Type} {t : Ty} {f : Nat → SEnc α} (ih : ∀ h y, WellTyped h → IsA h t y → Keeps h (f y)) :
    ∀ (ys : List Nat) (h : Store), WellTyped h → (∀ y, y ∈ ys → IsA h t y) → Keeps h (overAddresses f ys)
  | [], _, w, _ => keeps_pure w _
  | y :: ys, h, w, iy =>
    keeps_bind (ih h y w (iy y (by simp))) fun _ h1 gr w1 =>
      keeps_bind (keeps_over ih ys h1 w1 fun z m => gr.isA (iy z (by simp [m]))) fun _ _ _ w2 => keeps_pure w2 _

theorem keeps_rootStep {h : Store} {enc : Nat → SEnc (List BitField)} {k : Kind} {t : Ty} {y : Nat} (w : WellTyped h)
    (ih : Keeps h (enc y)) : Keeps h (rootStep enc k t y) := by
  cases k with
  | mandatory => exact keeps_bind ih fun _ _ _ w1 => keeps_pure w1 _
  | optional =>
    exact keeps_view fun o => keeps_if (fun _ => keeps_bind ih fun _ _ _ w1 => keeps_pure w1 _) fun _ => keeps_pure w _
  | default d =>
    refine keeps_view fun o => ?_
    match o with
    | .leaf (some v) =>
      dsimp only
      cases hn : pyValueNe d v with
      | error er => exact keeps_lift w (.error er)
      | ok b =>
        have : Keeps h (if b = true then enc y >>= fun fl => pure ([true], fl) else pure ([false], [])) :=
          keeps_if (fun _ => keeps_bind ih fun _ _ _ w1 => keeps_pure w1 _) fun _ => keeps_pure w _
        exact this
    | .leaf none => exact keeps_lift w _
    | .list _ => exact keeps_lift w _
    | .choice _ => exact keeps_lift w _
    | .seq _ => exact keeps_lift w _

theorem keeps_additionStep {h : Store} {enc : Nat → SEnc (List BitField)} {t : Ty} {y : Nat} (prev : Option Prev) (w : WellTyped h)
    (ih : Keeps h (enc y)) : Keeps h (additionStep enc t prev y) :=
  keeps_view fun _ => keeps_if (fun _ => keeps_if (fun _ => keeps_lift w _) fun _ => keeps_if
    (fun _ => keeps_bind ih fun _ _ _ w1 => keeps_bind (keeps_lift w1 _) fun _ _ _ w2 => keeps_pure w2 _) fun _ => keeps_pure w _)
    fun _ => keeps_pure w _

theorem keeps_scan {e : Bool} {r a : Fields} {g : Groups} {x : Nat} : ∀ (f : Fields) (i : Nat) (prev : Option Prev) (h : Store),
    WellTyped h → IsA h (.sequence e r a g) x → From r a g f i → Keeps h (scan (r.length + a.length + g.size) x f i prev)
  | .nil, _, _, h, w, _, _ => keeps_pure w _
  | .cons n k t f, i, prev, h, w, ix, fr =>
    keeps_component w ix (fr 0 _ rfl) fun y h1 gr w1 iy => keeps_view fun o => keeps_if (fun _ => keeps_lift w1 _) fun _ =>
      keeps_bind (keeps_scan f (i + 1) _ h1 w1 (gr.isA ix) (from_tail fr)) fun _ _ _ w2 => keeps_pure w2 _

theorem from_root (r a : Fields) (g : Groups) : From r a g r 0 := fun j p c => by rw [Nat.zero_add]; exact partAt_root c
theorem from_adds (r a : Fields) (g : Groups) : From r a g a r.length := fun _ _ c => partAt_add c
theorem from_groups (r a : Fields) (g : Groups) : FromG r a g g (r.length + a.length) := fun _ _ c => partAt_group c

/-! ## `encode` -/

theorem keeps_leaf {t : Ty} (c : isConstructed t = false) {h : Store} {x : Nat} (w : WellTyped h) : Keeps h (encAt t x) :=
  (sim_leaf c w).2

mutual
theorem keeps_enc : ∀ (t : Ty) (h : Store) (x : Nat), WellTyped h → IsA h t x → Keeps h (encAt t x)
  | .boolean, _, _, w, _ => keeps_leaf rfl w
  | .integer _, _, _, w, _ => keeps_leaf rfl w
  | .enumerated _ _ _, _, _, w, _ => keeps_leaf rfl w
  | .bitString _, _, _, w, _ => keeps_leaf rfl w
  | .octetString _, _, _, w, _ => keeps_leaf rfl w
  | .seqOf c t, h, x, w, ix => by
    obtain ⟨b, eb⟩ := isA_cell ix
    have fo := (w _ _ eb).2
    match b, fo, eb with
    | .list es, fo, eb =>
      simp only [Formed] at fo
      simp only [encAt]
      refine keeps_state ?_
      rw [body_of eb]
      exact keeps_bind (keeps_over (keeps_enc t) (es.getD []) h w fo) fun _ _ _ w1 => keeps_lift w1 _
  | .choice ext r a g, h, x, w, ix => by
    obtain ⟨b, eb⟩ := isA_cell ix
    have fo := (w _ _ eb).2
    have be := body_of eb
    match b, fo, be with
    | .choice none, _, be =>
      simp only [encAt]
      refine keeps_state ?_
      rw [be]
      exact keeps_lift w _
    | .choice (some (pos, y)), fo, be =>
      simp only [Formed] at fo
      obtain ⟨k, t, p, iy⟩ := fo pos y rfl
      simp only [encAt]
      refine keeps_state ?_
      rw [be]
      unfold partAt at p
      refine keeps_bind (keeps_if (fun c => ?_) fun c => keeps_if (fun d => ?_) fun d => ?_) fun _ _ _ w1 => keeps_lift w1 _
      · rw [if_pos c] at p
        exact keeps_alt r pos k t p h y w iy
      · rw [if_neg c, if_pos d] at p
        exact keeps_alt a _ k t p h y w iy
      · rw [if_neg c, if_neg d] at p
        exact keeps_altG g _ k t p h y w iy
  | .sequence ext r a g, h, x, w, ix => by
    simp only [encAt]
    refine keeps_bind (keeps_root r ext r a g 0 h x w ix (from_root r a g)) fun p h1 g1 w1 => keeps_bind (keeps_lift w1 _)
      fun rf h2 g2 w2 => keeps_if (fun _ => keeps_if (fun _ => keeps_pure w2 _) fun _ => ?_) fun _ => keeps_pure w2 _
    have ix2 := g2.isA (g1.isA ix)
    exact keeps_bind (keeps_adds a ext r a g r.length none h2 x w2 ix2 (from_adds r a g)) fun q h3 g3 w3 =>
      keeps_bind (keeps_groups g ext r a g (r.length + a.length) none h3 x w3 (g3.isA ix2) (from_groups r a g)) fun u h4 g4 w4 =>
        keeps_lift w4 _
theorem keeps_alt : ∀ (f : Fields) (p : Nat) (k : Kind) (t : Ty), compOf f p = some (k, t) →
    ∀ (h : Store) (y : Nat), WellTyped h → IsA h t y → Keeps h (encAlt f p y)
  | .nil, _, _, _, c, _, _, _, _ => by simp [compOf] at c
  | .cons _ _ t f, 0, k', t', c, h, y, w, iy => by
    simp only [compOf, Option.some.injEq, Prod.mk.injEq] at c
    obtain ⟨rfl, rfl⟩ := c
    simp only [encAlt]
    exact keeps_enc t h y w iy
  | .cons _ _ _ f, p + 1, k, t, c, h, y, w, iy => by
    simp only [compOf] at c
    simp only [encAlt]
    exact keeps_alt f p k t c h y w iy
theorem keeps_altG : ∀ (g : Groups) (p : Nat) (k : Kind) (t : Ty), compOfG g p = some (k, t) →
    ∀ (h : Store) (y : Nat), WellTyped h → IsA h t y → Keeps h (encAltG g p y)
  | .nil, _, _, _, c, _, _, _, _ => by simp [compOfG] at c
  | .cons f g, p, k, t, c, h, y, w, iy => by
    simp only [compOfG] at c
    simp only [encAltG]
    refine keeps_if (fun d => ?_) fun d => ?_
    · rw [if_pos d] at c
      exact keeps_alt f p k t c h y w iy
    · rw [if_neg d] at c
      exact keeps_altG g _ k t c h y w iy
theorem keeps_root : ∀ (f : Fields) (e : Bool) (r a : Fields) (g : Groups) (i : Nat) (h : Store) (x : Nat), WellTyped h →
    IsA h (.sequence e r a g) x → From r a g f i → Keeps h (encRoot f (r.length + a.length + g.size) x i)
  | .nil, _, _, _, _, _, _, _, w, _, _ => by simp only [encRoot]; exact keeps_pure w _
  | .cons n k t f, e, r, a, g, i, h, x, w, ix, fr => by
    simp only [encRoot]
    exact keeps_component w ix (fr 0 _ rfl) fun y h1 g1 w1 iy =>
      keeps_bind (keeps_rootStep w1 (keeps_enc t h1 y w1 iy)) fun b h2 g2 w2 =>
        keeps_bind (keeps_root f e r a g (i + 1) h2 x w2 (g2.isA (g1.isA ix)) (from_tail fr)) fun _ _ _ w3 => keeps_pure w3 _
theorem keeps_adds : ∀ (f : Fields) (e : Bool) (r a : Fields) (g : Groups) (i : Nat) (prev : Option Prev) (h : Store) (x : Nat),
    WellTyped h → IsA h (.sequence e r a g) x → From r a g f i → Keeps h (encAdds f (r.length + a.length + g.size) x i prev)
  | .nil, _, _, _, _, _, _, _, _, w, _, _ => by simp only [encAdds]; exact keeps_pure w _
  | .cons n k t f, e, r, a, g, i, prev, h, x, w, ix, fr => by
    simp only [encAdds]
    exact keeps_component w ix (fr 0 _ rfl) fun y h1 g1 w1 iy =>
      keeps_bind (keeps_additionStep prev w1 (keeps_enc t h1 y w1 iy)) fun b h2 g2 w2 =>
        keeps_bind (keeps_adds f e r a g (i + 1) _ h2 x w2 (g2.isA (g1.isA ix)) (from_tail fr)) fun _ _ _ w3 => keeps_pure w3 _
theorem keeps_groups : ∀ (f : Groups) (e : Bool) (r a : Fields) (g : Groups) (i : Nat) (prev : Option (List Prev)) (h : Store)
    (x : Nat), WellTyped h → IsA h (.sequence e r a g) x → FromG r a g f i →
    Keeps h (encGroups f (r.length + a.length + g.size) x i prev)
  | .nil, _, _, _, _, _, _, _, _, w, _, _ => by simp only [encGroups]; exact keeps_pure w _
  | .cons f g', e, r, a, g, i, prev, h, x, w, ix, fr => by
    simp only [encGroups]
    refine keeps_bind (keeps_scan f i none h w ix (fromG_head fr)) fun infos h1 g1 w1 => keeps_if (fun _ => ?_) fun _ => ?_
    · exact keeps_bind (keeps_lift w1 _) fun _ h2 g2 w2 =>
        keeps_bind (keeps_root f e r a g i h2 x w2 (g2.isA (g1.isA ix)) (fromG_head fr)) fun q h3 g3 w3 =>
          keeps_bind (keeps_lift w3 _) fun _ h4 g4 w4 =>
            keeps_bind (keeps_groups g' e r a g (i + f.length) _ h4 x w4 (g4.isA (g3.isA (g2.isA (g1.isA ix)))) (fromG_tail fr))
              fun _ _ _ w5 => keeps_pure w5 _
    · exact keeps_bind (keeps_groups g' e r a g (i + f.length) _ h1 x w1 (g1.isA ix) (fromG_tail fr)) fun _ _ _ w2 => keeps_pure w2 _
end

theorem keeps_encode {h : Store} {t : Ty} {x : Nat} (w : WellTyped h) (ix : IsA h t x) : Keeps h (encodeAt x) := by
  obtain ⟨b, eb⟩ := isA_cell ix
  have s := keeps_enc t h x w ix
  unfold Keeps encodeAt
  simp only [eb]
  exact s

/-! ## `to_dict` -/

theorem keeps_dictLeaf {t : Ty} (c : isConstructed t = false) {h : Store} {b : Bool} {x : Nat} (w : WellTyped h) :
    Keeps h (dictAt t b x) := by
  have e : dictAt t b x = (state x >>= fun o => match o with
    | some (.leaf (some v)) => lift (toDict t b v)
    | _ => lift (.error .noValue)) := by cases t <;> first | rfl | cases c
  rw [e]
  refine keeps_state ?_
  split <;> exact keeps_lift w _

mutual
theorem keeps_dict : ∀ (t : Ty) (b : Bool) (h : Store) (x : Nat), WellTyped h → IsA h t x → Keeps h (dictAt t b x)
  | .boolean, _, _, _, w, _ => keeps_dictLeaf rfl w
  | .integer _, _, _, _, w, _ => keeps_dictLeaf rfl w
  | .enumerated _ _ _, _, _, _, w, _ => keeps_dictLeaf rfl w
  | .bitString _, _, _, _, w, _ => keeps_dictLeaf rfl w
  | .octetString _, _, _, _, w, _ => keeps_dictLeaf rfl w
  | .seqOf c t, _, h, x, w, ix => by
    obtain ⟨b, eb⟩ := isA_cell ix
    have fo := (w _ _ eb).2
    match b, fo, eb with
    | .list es, fo, eb =>
      simp only [Formed] at fo
      simp only [dictAt]
      refine keeps_state ?_
      rw [body_of eb]
      exact keeps_bind (keeps_over (keeps_dict t false) (es.getD []) h w fo) fun _ _ _ w1 => keeps_pure w1 _
  | .choice ext r a g, _, h, x, w, ix => by
    obtain ⟨b, eb⟩ := isA_cell ix
    have fo := (w _ _ eb).2
    have be := body_of eb
    match b, fo, be with
    | .choice none, _, be =>
      simp only [dictAt]
      refine keeps_state ?_
      rw [be]
      exact keeps_pure w _
    | .choice (some (pos, y)), fo, be =>
      simp only [Formed] at fo
      obtain ⟨k, t, p, iy⟩ := fo pos y rfl
      simp only [dictAt]
      refine keeps_state ?_
      rw [be]
      unfold partAt at p
      refine keeps_if (fun c => ?_) fun c => keeps_if (fun d => ?_) fun d => ?_
      · rw [if_pos c] at p
        exact keeps_dictAlt r pos k t p h y w iy
      · rw [if_neg c, if_pos d] at p
        exact keeps_dictAlt a _ k t p h y w iy
      · rw [if_neg c, if_neg d] at p
        exact keeps_dictAltG g _ k t p h y w iy
  | .sequence ext r a g, _, h, x, w, ix => by
    simp only [dictAt]
    exact keeps_bind (keeps_fields r ext r a g 0 h x w ix (from_root r a g)) fun p h1 g1 w1 =>
      keeps_bind (keeps_fields a ext r a g r.length h1 x w1 (g1.isA ix) (from_adds r a g)) fun q h2 g2 w2 =>
      keeps_bind (keeps_dictGroups g ext r a g (r.length + a.length) h2 x w2 (g2.isA (g1.isA ix)) (from_groups r a g)) fun u h3 g3 w3 =>
        keeps_pure w3 _
theorem keeps_dictAlt : ∀ (f : Fields) (p : Nat) (k : Kind) (t : Ty), compOf f p = some (k, t) →
    ∀ (h : Store) (y : Nat), WellTyped h → IsA h t y → Keeps h (dictAlt f p y)
  | .nil, _, _, _, c, _, _, _, _ => by simp [compOf] at c
  | .cons _ _ t f, 0, k', t', c, h, y, w, iy => by
    simp only [compOf, Option.some.injEq, Prod.mk.injEq] at c
    obtain ⟨rfl, rfl⟩ := c
    simp only [dictAlt]
    refine keeps_view fun o => keeps_if (fun _ => keeps_bind (keeps_dict t false h y w iy) fun d h1 _ w1 => ?_) fun _ => keeps_pure w _
    cases d <;> exact keeps_pure w1 _
  | .cons _ _ _ f, p + 1, k, t, c, h, y, w, iy => by
    simp only [compOf] at c
    simp only [dictAlt]
    exact keeps_dictAlt f p k t c h y w iy
theorem keeps_dictAltG : ∀ (g : Groups) (p : Nat) (k : Kind) (t : Ty), compOfG g p = some (k, t) →
    ∀ (h : Store) (y : Nat), WellTyped h → IsA h t y → Keeps h (dictAltG g p y)
  | .nil, _, _, _, c, _, _, _, _ => by simp [compOfG] at c
  | .cons f g, p, k, t, c, h, y, w, iy => by
    simp only [compOfG] at c
    simp only [dictAltG]
    refine keeps_if (fun d => ?_) fun d => ?_
    · rw [if_pos d] at c
      exact keeps_dictAlt f p k t c h y w iy
    · rw [if_neg d] at c
      exact keeps_dictAltG g _ k t c h y w iy
theorem keeps_fields : ∀ (f : Fields) (e : Bool) (r a : Fields) (g : Groups) (i : Nat) (h : Store) (x : Nat), WellTyped h →
    IsA h (.sequence e r a g) x → From r a g f i → Keeps h (dictFields f (r.length + a.length + g.size) x i)
  | .nil, _, _, _, _, _, _, _, w, _, _ => by simp only [dictFields]; exact keeps_pure w _
  | .cons n k t f, e, r, a, g, i, h, x, w, ix, fr => by
    simp only [dictFields]
    exact keeps_component w ix (fr 0 _ rfl) fun y h1 g1 w1 iy => keeps_view fun o =>
      keeps_bind (keeps_if (fun _ => keeps_dict t false h1 y w1 iy) fun _ => keeps_pure w1 _) fun d h2 g2 w2 =>
        keeps_bind (keeps_fields f e r a g (i + 1) h2 x w2 (g2.isA (g1.isA ix)) (from_tail fr)) fun _ _ _ w3 => keeps_pure w3 _
theorem keeps_dictGroups : ∀ (f : Groups) (e : Bool) (r a : Fields) (g : Groups) (i : Nat) (h : Store) (x : Nat), WellTyped h →
    IsA h (.sequence e r a g) x → FromG r a g f i → Keeps h (dictGroups f (r.length + a.length + g.size) x i)
  | .nil, _, _, _, _, _, _, _, w, _, _ => by simp only [dictGroups]; exact keeps_pure w _
  | .cons f g', e, r, a, g, i, h, x, w, ix, fr => by
    simp only [dictGroups]
    exact keeps_bind (keeps_fields f e r a g i h x w ix (fromG_head fr)) fun _ h1 g1 w1 =>
      keeps_bind (keeps_dictGroups g' e r a g (i + f.length) h1 x w1 (g1.isA ix) (fromG_tail fr)) fun _ _ _ w2 => keeps_pure w2 _
end

theorem keeps_toDict {h : Store} {t : Ty} {x : Nat} (w : WellTyped h) (ix : IsA h t x) : Keeps h (toDictAt x) := by
  obtain ⟨b, eb⟩ := isA_cell ix
  have s := keeps_dict t true h x w ix
  unfold Keeps toDictAt
  simp only [eb]
  exact s

/-! ## Reading -/

theorem keeps_read : ∀ (p : List Nat) (x : Nat) (h : Store), WellTyped h → Keeps h (readAt p x)
  | [], _, _, w => keeps_pure w _
  | i :: p, x, h, w => by
    have no : ∀ e, Keeps h (fun h => ((.error e : Except Err Unit), h)) := fun e => keeps_lift w (.error e)
    unfold Keeps
    simp only [readAt]
    split
    · rename_i e r a g s eb
      split
      · rename_i k t pa
        exact keeps_component w (isA_of eb) pa fun y h1 _ w1 _ => keeps_read p y h1 w1
      · exact no _
    · split
      · exact keeps_read p _ h w
      · exact no _
    · split
      · exact keeps_read p _ h w
      · exact no _
    · exact no _

end Verif.Shared
