import Verif.Named
import Verif.SpecNames
import Verif.Lemmas.Later
/-!
# Names and positions
-/
namespace Verif.Named

open Verif

theorem idxOf_mid {pre post : List String} {n : String} (h : (pre ++ n :: post).Nodup) :
    (pre ++ n :: post).idxOf? n = some pre.length := by
  induction pre with
  | nil => simp [List.idxOf?_cons]
  | cons m pre ih =>
    have hm : (m == n) = false := by
      rw [List.cons_append, List.nodup_cons] at h
      refine beq_eq_false_iff_ne.2 fun e => h.1 ?_
      rw [e]; simp
    rw [List.cons_append, List.idxOf?_cons, hm, ih (by rw [List.cons_append, List.nodup_cons] at h; exact h.2)]
    simp

theorem position_mid {pre post : List String} {n : String} (h : (pre ++ n :: post).Nodup) :
    position (pre ++ n :: post) n = .ok pre.length := by
  unfold position
  rw [if_pos h, idxOf_mid h]

theorem names_length : ∀ f : Fields, f.names.length = f.length
  | .nil => rfl
  | .cons _ _ _ r => by simp [Fields.names, Fields.length, names_length r]
theorem namesG_length : ∀ g : Groups, g.names.length = g.size
  | .nil => rfl
  | .cons f g => by simp [Groups.names, Groups.size, names_length f, namesG_length g]

/-! ## Encoder -/

/-- What there is to be found. -/
def comps : Fields → List (Option Val) → List Comp
  | .nil, _ => []
  | .cons _ k t r, cs => ⟨k, t, Verif.encTy t, cs.head?.getD none⟩ :: comps r cs.tail
def compsG : Groups → List (Option Val) → List Comp
  | .nil, _ => []
  | .cons f g, cs => comps f cs ++ compsG g (cs.drop f.length)

theorem comps_length : ∀ (f : Fields) (cs : List (Option Val)), (comps f cs).length = f.length
  | .nil, _ => rfl
  | .cons _ _ _ r, cs => by simp [comps, Fields.length, comps_length r]
theorem compsG_length : ∀ (g : Groups) (cs : List (Option Val)), (compsG g cs).length = g.size
  | .nil, _ => rfl
  | .cons f g, cs => by simp [compsG, Groups.size, comps_length, compsG_length g]

/-- Names are found. -/
def Finds (look : String → Except Err Comp) : Fields → List (Option Val) → Prop
  | .nil, _ => True
  | .cons n k t r, cs => look n = .ok ⟨k, t, Verif.encTy t, cs.head?.getD none⟩ ∧ Finds look r cs.tail
def FindsG (look : String → Except Err Comp) : Groups → List (Option Val) → Prop
  | .nil, _ => True
  | .cons f g, cs => Finds look f cs ∧ FindsG look g (cs.drop f.length)

theorem finds_of {get : Nat → Except Err Comp} : ∀ (f : Fields) (cs : List (Option Val)) (pre post : List String),
    (pre ++ (f.names ++ post)).Nodup →
    (∀ j c, (comps f cs)[j]? = some c → get (pre.length + j) = .ok c) →
    Finds (fun n => position (pre ++ (f.names ++ post)) n >>= get) f cs
  | .nil, _, _, _, _, _ => trivial
  | .cons n k t r, cs, pre, post, h, hg => by
    refine ⟨?_, ?_⟩
    · simp only [Fields.names, List.cons_append] at h ⊢
      show (position _ n >>= get) = _
      rw [position_mid h]
      exact hg 0 _ rfl
    · have e : pre ++ ((Fields.cons n k t r).names ++ post) = (pre ++ [n]) ++ (r.names ++ post) := by
        simp [Fields.names]
      rw [e] at h ⊢
      refine finds_of r cs.tail (pre ++ [n]) post h fun j c hj => ?_
      have := hg (j + 1) c (by simpa [comps] using hj)
      rw [List.length_append, List.length_singleton, Nat.add_assoc, Nat.add_comm 1 j]
      exact this

theorem findsG_of {get : Nat → Except Err Comp} : ∀ (g : Groups) (cs : List (Option Val)) (pre : List String),
    (pre ++ g.names).Nodup →
    (∀ j c, (compsG g cs)[j]? = some c → get (pre.length + j) = .ok c) →
    FindsG (fun n => position (pre ++ g.names) n >>= get) g cs
  | .nil, _, _, _, _ => trivial
  | .cons f g, cs, pre, h, hg => by
    refine ⟨?_, ?_⟩
    · refine finds_of f cs pre g.names h fun j c hj => hg j c ?_
      have hlt : j < (comps f cs).length := by
        obtain ⟨h, _⟩ := List.getElem?_eq_some_iff.1 hj
        exact h
      rw [compsG, List.getElem?_append_left hlt]
      exact hj
    · have e : pre ++ (Groups.cons f g).names = (pre ++ f.names) ++ g.names := by simp [Groups.names]
      rw [e] at h ⊢
      refine findsG_of g _ _ h fun j c hj => ?_
      have := hg (f.length + j) c (by
        rw [compsG, List.getElem?_append_right (by rw [comps_length]; omega), comps_length, Nat.add_sub_cancel_left]
        exact hj)
      rw [List.length_append, names_length, Nat.add_assoc]
      exact this

theorem encRoot_of : ∀ {look : String → Except Err Comp} {f : Fields} {cs : List (Option Val)}, Finds look f cs →
    encRoot look f = Verif.encRoot f cs
  | _, .nil, _, _ => by rw [encRoot, Verif.encRoot]
  | look, .cons n k t r, cs, h => by
    rw [encRoot, Verif.encRoot, h.1, encRoot_of h.2]; rfl

theorem encAdds_of : ∀ {look : String → Except Err Comp} {f : Fields} {cs : List (Option Val)} {prev : Option Prev},
    Finds look f cs → encAdds look f prev = Verif.encAdds f cs prev
  | _, .nil, _, _, _ => by rw [encAdds, Verif.encAdds]
  | look, .cons n k t r, cs, prev, h => by
    rw [encAdds, Verif.encAdds, h.1]
    simp only [bind, Except.bind, encAdds_of h.2]

theorem scan_of : ∀ {look : String → Except Err Comp} {f : Fields} {cs : List (Option Val)} {prev : Option Prev},
    Finds look f cs → scanGroup look f prev = Verif.scanGroup f cs prev
  | _, .nil, _, _, _ => by rw [scanGroup, Verif.scanGroup]
  | look, .cons n k t r, cs, prev, h => by
    rw [scanGroup, Verif.scanGroup, h.1]
    simp only [bind, Except.bind, scan_of h.2]

theorem mapM_look : ∀ {look : String → Except Err Comp} {f : Fields} {cs : List (Option Val)}, Finds look f cs →
    f.names.mapM look = .ok (comps f cs)
  | _, .nil, _, _ => rfl
  | look, .cons n k t r, cs, h => by
    rw [Fields.names, List.mapM_cons, h.1, mapM_look h.2]; rfl

theorem encGroup_of {look : String → Except Err Comp} {f : Fields} {cs : List (Option Val)} (h : Finds look f cs)
    (hn : f.names.Nodup) : encGroup look f = Verif.encRoot f cs := by
  unfold encGroup
  rw [mapM_look h]
  show encRoot _ f = _
  refine encRoot_of ?_
  have := finds_of (get := nth (comps f cs)) f cs [] []
    (by simpa using hn) (fun j c hj => by rw [List.length_nil, Nat.zero_add, nth, hj])
  simpa using this

theorem encGroups_of : ∀ {look : String → Except Err Comp} {g : Groups} {cs : List (Option Val)} {prev : Option (List Prev)},
    FindsG look g cs → g.names.Nodup → encGroups look g prev = Verif.encGroups g cs prev
  | _, .nil, _, _, _, _ => by rw [encGroups, Verif.encGroups]
  | look, .cons f g, cs, prev, h, hn => by
    rw [Groups.names, List.nodup_append] at hn
    rw [encGroups, Verif.encGroups, scan_of h.1, encGroup_of h.1 hn.1]
    refine bind_congr fun infos => bind_congr fun b => ?_
    simp only [encGroups_of h.2 hn.2.1]

theorem comps_at : ∀ (f : Fields) (cs : List (Option Val)) (j : Nat) (c : Comp), (comps f cs)[j]? = some c →
    (kinds f)[j]? = some (c.kind, c.type) ∧ c.val = cs[j]?.getD none ∧ Verif.encAlt f j = c.enc
  | .nil, _, _, _, h => by simp [comps] at h
  | .cons n k t r, cs, 0, c, h => by
    simp only [comps, List.getElem?_cons_zero, Option.some.injEq] at h
    subst h
    refine ⟨rfl, ?_, ?_⟩
    · cases cs <;> rfl
    · funext v; rw [Verif.encAlt]
  | .cons n k t r, cs, j + 1, c, h => by
    simp only [comps, List.getElem?_cons_succ] at h
    obtain ⟨h1, h2, h3⟩ := comps_at r cs.tail j c h
    refine ⟨by simpa [kinds] using h1, ?_, ?_⟩
    · rw [h2]; cases cs <;> rfl
    · rw [← h3]; funext v; rw [Verif.encAlt]

theorem compsG_at : ∀ (g : Groups) (cs : List (Option Val)) (j : Nat) (c : Comp), (compsG g cs)[j]? = some c →
    (kindsG g)[j]? = some (c.kind, c.type) ∧ c.val = cs[j]?.getD none ∧ Verif.encAltG g j = c.enc
  | .nil, _, _, _, h => by simp [compsG] at h
  | .cons f g, cs, j, c, h => by
    have hk : (kinds f).length = f.length := by
      clear h
      induction f using kinds.induct with
      | case1 => rfl
      | case2 _ _ _ r ih => simp [kinds, Fields.length, ih]
    by_cases hj : j < f.length
    · rw [compsG, List.getElem?_append_left (by rw [comps_length]; exact hj)] at h
      obtain ⟨h1, h2, h3⟩ := comps_at f cs j c h
      refine ⟨by rw [kindsG, List.getElem?_append_left (by omega)]; exact h1, h2, ?_⟩
      rw [← h3]; funext v; rw [Verif.encAltG, if_pos hj]
    · rw [compsG, List.getElem?_append_right (by rw [comps_length]; omega), comps_length] at h
      obtain ⟨h1, h2, h3⟩ := compsG_at g _ _ c h
      refine ⟨by rw [kindsG, List.getElem?_append_right (by omega), hk]; exact h1, ?_, ?_⟩
      · rw [h2, List.getElem?_drop, Nat.add_sub_cancel' (by omega)]
      · rw [← h3]; funext v; rw [Verif.encAltG, if_neg hj]

theorem kinds_length : ∀ f : Fields, (kinds f).length = f.length
  | .nil => rfl
  | .cons _ _ _ r => by simp [kinds, Fields.length, kinds_length r]

theorem alternative_of {r x : List String} {pos : Nat} (h : (r ++ x).Nodup) (hp : pos < (r ++ x).length) :
    alternative r x pos = .ok pos := by
  unfold alternative
  rw [List.getElem?_eq_getElem hp]
  by_cases hr : pos < r.length
  · have e : (r ++ x)[pos] = r[pos] := List.getElem_append_left hr
    have hd : r = r.take pos ++ r[pos] :: r.drop (pos + 1) := by simp
    have hn : (r.take pos ++ r[pos] :: r.drop (pos + 1)).Nodup := by rw [← hd]; exact (List.nodup_append.1 h).1
    have := idxOf_mid hn
    rw [← hd, List.length_take, Nat.min_eq_left (by omega)] at this
    simp only [e, this]
  · have hr' : r.length ≤ pos := by omega
    rw [List.length_append] at hp
    have e : (r ++ x)[pos]'(by rw [List.length_append]; exact hp) = x[pos - r.length] := List.getElem_append_right hr'
    have hx : pos - r.length < x.length := by omega
    have hd : x = x.take (pos - r.length) ++ x[pos - r.length] :: x.drop (pos - r.length + 1) := by simp
    have hn : (x.take (pos - r.length) ++ x[pos - r.length] :: x.drop (pos - r.length + 1)).Nodup := by
      rw [← hd]; exact (List.nodup_append.1 h).2.1
    have := idxOf_mid hn
    rw [← hd, List.length_take, Nat.min_eq_left (by omega)] at this
    have none_ : r.idxOf? x[pos - r.length] = none := by
      rw [List.idxOf?_eq_none_iff]
      intro hm
      exact (List.nodup_append.1 h).2.2 _ hm _ (List.getElem_mem hx) rfl
    simp only [e, none_, this, Nat.add_sub_cancel' hr']

theorem encAlt_beyond : ∀ (f : Fields) (i : Nat) (v : Val), f.length ≤ i → Verif.encAlt f i v = .error .indexError
  | .nil, _, _, _ => by rw [Verif.encAlt]
  | .cons _ _ _ _, 0, _, h => by simp [Fields.length] at h
  | .cons _ _ _ r, i + 1, v, h => by
    rw [Verif.encAlt]; exact encAlt_beyond r i v (by simpa [Fields.length] using h)
theorem encAltG_beyond : ∀ (g : Groups) (i : Nat) (v : Val), g.size ≤ i → Verif.encAltG g i v = .error .indexError
  | .nil, _, _, _ => by rw [Verif.encAltG]
  | .cons f g, i, v, h => by
    simp only [Groups.size] at h
    rw [Verif.encAltG, if_neg (by omega)]
    exact encAltG_beyond g _ v (by omega)

mutual
theorem enc_named : ∀ (t : Ty), Spec.wellNamed t = true → encTy t = Verif.encTy t
  | .boolean, _ => by funext v; cases v <;> simp [encTy, Verif.encTy]
  | .integer c, _ => by funext v; cases v <;> simp [encTy, Verif.encTy]
  | .enumerated ext root add, _ => by funext v; cases v <;> simp [encTy, Verif.encTy]
  | .bitString c, _ => by funext v; cases v <;> simp [encTy, Verif.encTy]
  | .octetString c, _ => by funext v; cases v <;> simp [encTy, Verif.encTy]
  | .seqOf c t, h => by
    rw [Spec.wellNamed] at h
    funext v
    cases v with
    | seqOf vs => rw [encTy, Verif.encTy, enc_named t h]
    | _ => simp [encTy, Verif.encTy]
  | .choice ext r a g, h => by
    simp only [Spec.wellNamed, Bool.and_eq_true, decide_eq_true_eq] at h
    obtain ⟨⟨⟨h, hr⟩, ha⟩, hg⟩ := h
    funext v
    cases v with
    | choice pos v =>
      rw [encTy, Verif.encTy, enc_alt_named r hr, enc_alt_named a ha, enc_altG_named g hg]
      by_cases hp : pos < r.length + a.length + g.size
      · have := alternative_of (r := r.names) (x := a.names ++ g.names) (pos := pos) (by rw [← List.append_assoc]; exact h)
          (by simp only [List.length_append, names_length, namesG_length]; omega)
        rw [this]
        split
        · rfl
        · split <;> rfl
      · have : ¬ pos < r.length := by omega
        have : ¬ pos < r.length + a.length := by omega
        have e := encAltG_beyond g (pos - (r.length + a.length)) v (by omega)
        simp only [*, if_false]
        rfl
    | _ => simp [encTy, Verif.encTy]
  | .sequence ext r a g, h => by
    simp only [Spec.wellNamed, Bool.and_eq_true, decide_eq_true_eq] at h
    obtain ⟨⟨⟨h, hr⟩, ha⟩, hg⟩ := h
    funext v
    cases v with
    | seq cs =>
      rw [encTy, Verif.encTy, enc_alt_named r hr, enc_alt_named a ha, enc_altG_named g hg]
      generalize hl : byName (r.names ++ a.names ++ g.names) (kinds r ++ kinds a ++ kindsG g)
        (fun i v => if i < r.length then Verif.encAlt r i v
          else if i < r.length + a.length then Verif.encAlt a (i - r.length) v
          else Verif.encAltG g (i - (r.length + a.length)) v) cs = look
      have f1 : Finds look r cs := by
        have := finds_of (get := component (kinds r ++ kinds a ++ kindsG g)
          (fun i v => if i < r.length then Verif.encAlt r i v
            else if i < r.length + a.length then Verif.encAlt a (i - r.length) v
            else Verif.encAltG g (i - (r.length + a.length)) v) cs) r cs [] (a.names ++ g.names)
            (by simpa using h) (fun j c hj => ?_)
        · rw [← hl]
          unfold byName
          simp only [List.nil_append, List.append_assoc] at this ⊢
          exact this
        · have hlt := (List.getElem?_eq_some_iff.1 hj).1
          rw [comps_length] at hlt
          obtain ⟨i1, i2, i3⟩ := comps_at r cs j c hj
          rw [List.length_nil, Nat.zero_add]
          unfold component
          rw [List.append_assoc, List.getElem?_append_left (by rw [kinds_length]; exact hlt), i1]
          simp only [hlt, if_true, ← i2]
          rw [show (fun v => Verif.encAlt r j v) = Verif.encAlt r j from rfl, i3]
      have f2 : Finds look a (cs.drop r.length) := by
        have := finds_of (get := component (kinds r ++ kinds a ++ kindsG g)
          (fun i v => if i < r.length then Verif.encAlt r i v
            else if i < r.length + a.length then Verif.encAlt a (i - r.length) v
            else Verif.encAltG g (i - (r.length + a.length)) v) cs) a (cs.drop r.length) r.names g.names
            (by simpa using h) (fun j c hj => ?_)
        · rw [← hl]
          unfold byName
          simp only [List.nil_append, List.append_assoc] at this ⊢
          exact this
        · have hlt := (List.getElem?_eq_some_iff.1 hj).1
          rw [comps_length] at hlt
          obtain ⟨i1, i2, i3⟩ := comps_at a _ j c hj
          rw [names_length]
          unfold component
          rw [List.append_assoc, List.getElem?_append_right (by rw [kinds_length]; omega), kinds_length,
            Nat.add_sub_cancel_left, List.getElem?_append_left (by rw [kinds_length]; exact hlt), i1]
          have e1 : ¬ r.length + j < r.length := by omega
          have e2 : r.length + j < r.length + a.length := by omega
          rw [List.getElem?_drop] at i2
          simp only [e1, e2, if_true, if_false, ← i2, Nat.add_sub_cancel_left]
          rw [show (fun v => Verif.encAlt a j v) = Verif.encAlt a j from rfl, i3]
      have f3 : FindsG look g (cs.drop (r.length + a.length)) := by
        have := findsG_of (get := component (kinds r ++ kinds a ++ kindsG g)
          (fun i v => if i < r.length then Verif.encAlt r i v
            else if i < r.length + a.length then Verif.encAlt a (i - r.length) v
            else Verif.encAltG g (i - (r.length + a.length)) v) cs) g (cs.drop (r.length + a.length)) (r.names ++ a.names)
            (by simpa using h) (fun j c hj => ?_)
        · rw [← hl]
          unfold byName
          simp only [List.nil_append, List.append_assoc] at this ⊢
          exact this
        · have hlt := (List.getElem?_eq_some_iff.1 hj).1
          rw [compsG_length] at hlt
          obtain ⟨i1, i2, i3⟩ := compsG_at g _ j c hj
          rw [List.length_append, names_length, names_length]
          unfold component
          rw [List.getElem?_append_right (by rw [List.length_append, kinds_length, kinds_length]; omega),
            List.length_append, kinds_length, kinds_length, Nat.add_sub_cancel_left, i1]
          have e1 : ¬ r.length + a.length + j < r.length := by omega
          have e2 : ¬ r.length + a.length + j < r.length + a.length := by omega
          rw [List.getElem?_drop] at i2
          simp only [e1, e2, if_false, ← i2, Nat.add_sub_cancel_left]
          rw [show (fun v => Verif.encAltG g j v) = Verif.encAltG g j from rfl, i3]
      have hng : g.names.Nodup := (List.nodup_append.1 h).2.1
      simp only [encRoot_of f1, encAdds_of f2, encGroups_of f3 hng]
    | _ => simp [encTy, Verif.encTy]
theorem enc_alt_named : ∀ (f : Fields), Spec.wellNamedAll f = true → encAlt f = Verif.encAlt f
  | .nil, _ => by funext i v; rw [encAlt, Verif.encAlt]
  | .cons n k t r, h => by
    rw [Spec.wellNamedAll, Bool.and_eq_true] at h
    funext i v
    cases i with
    | zero => rw [encAlt, Verif.encAlt, enc_named t h.1]
    | succ i => rw [encAlt, Verif.encAlt, enc_alt_named r h.2]
theorem enc_altG_named : ∀ (g : Groups), Spec.wellNamedAllG g = true → encAltG g = Verif.encAltG g
  | .nil, _ => by funext i v; rw [encAltG, Verif.encAltG]
  | .cons f g, h => by
    rw [Spec.wellNamedAllG, Bool.and_eq_true] at h
    funext i v
    rw [encAltG, Verif.encAltG, enc_alt_named f h.1, enc_altG_named g h.2]
end

/-! ## Decoder -/

/-- Readers that return the same, although they may raise something else. -/
abbrev Same {α : Type} (m m' : Dec α) : Prop := Below m m' (fun _ => True)

theorem same_iff {α : Type} {m m' : Dec α} : Same m m' ↔ ∀ p a p', m p = .ok (a, p') ↔ m' p = .ok (a, p') := by
  simp [Same, Below]

theorem Same.symm {α : Type} {m m' : Dec α} (h : Same m m') : Same m' m :=
  same_iff.2 fun p a p' => (same_iff.1 h p a p').symm
theorem Same.trans {α : Type} {m m' m'' : Dec α} (h : Same m m') (h' : Same m' m'') : Same m m'' :=
  same_iff.2 fun p a p' => (same_iff.1 h p a p').trans (same_iff.1 h' p a p')
theorem Same.of_eq {α : Type} {m m' : Dec α} (h : m = m') : Same m m' := h ▸ Below.refl m

theorem Same.bindQ {α β : Type} {m m' : Dec α} {f f' : α → Dec β} {Q : α → Prop} (hm : Same m m') (hQ : Ensures m' Q)
    (hf : ∀ a, Q a → Same (f a) (f' a)) : Same (m >>= f) (m' >>= f') :=
  Below.bind hm hQ (fun a q _ => hf a q) fun _ _ => ⟨fun _ _ _ _ _ => trivial⟩
theorem Same.bind {α β : Type} {m m' : Dec α} {f f' : α → Dec β} (hm : Same m m') (hf : ∀ a, Same (f a) (f' a)) :
    Same (m >>= f) (m' >>= f') := hm.bindQ (Ensures.trivial m') fun a _ => hf a

theorem liftE_ok {α β : Type} (a : α) (f : α → Dec β) : (liftE (.ok a) >>= f) = f a := rfl
theorem liftE_error {α β : Type} (e : Err) (f : α → Dec β) : (liftE (.error e) >>= f) = raise e := rfl

/-- Readers that never return. -/
theorem Same.never {α : Type} {m m' : Dec α} (h : Ensures m (fun _ => False)) (h' : Ensures m' (fun _ => False)) :
    Same m m' :=
  same_iff.2 fun p a p' => ⟨fun e => (h.run _ _ _ e).elim, fun e => (h'.run _ _ _ e).elim⟩

/-- What is stored can be computed later. -/
theorem Same.later {α σ β : Type} (e : Except Err σ) (m : Dec α) (k : σ → α → Except Err β) :
    Same (liftE e >>= fun s => m >>= fun a => liftE (k s a)) (m >>= fun a => liftE (e >>= fun s => k s a)) := by
  cases e with
  | ok s => exact Same.of_eq rfl
  | error e =>
    rw [liftE_error]
    exact Same.never (Ensures.raise e) (Ensures.bind' fun a => Ensures.raise e)

/-- Components that are stored under their names. -/
def store {σ : Type} (put : String → Val → σ → Except Err σ) : Fields → List (Option Val) → σ → Except Err σ
  | .cons n _ _ r, some v :: cs, s => put n v s >>= store put r cs
  | .cons _ _ _ r, none :: cs, s => store put r cs s
  | _, _, s => .ok s

/-- Names are found by the decoder. -/
def Looks (look : String → Except Err (Dec Val)) : Fields → Prop
  | .nil => True
  | .cons n _ t r => (∃ m, look n = .ok m ∧ Same m (Verif.decTy t)) ∧ Looks look r

theorem bind_pure_store {α β γ : Type} (m : Dec α) (f : α → β) (g : β → Dec γ) :
    (m >>= fun a => Pure.pure (f a)) >>= g = m >>= fun a => g (f a) := by
  rw [bind_assoc]; rfl

theorem decRoot_of {σ : Type} {look : String → Except Err (Dec Val)} {put : String → Val → σ → Except Err σ} :
    ∀ (f : Fields) (opt : Bits) (s : σ), Looks look f →
    Same (decRoot look put f opt s) (Verif.decRoot f opt >>= fun vs => liftE (store put f vs s))
  | .nil, opt, s, _ => by unfold decRoot Verif.decRoot; exact Same.of_eq rfl
  | .cons n k t r, opt, s, h => by
    obtain ⟨⟨m, h1, h2⟩, h3⟩ := h
    have some_ : ∀ o, Same (liftE (look n) >>= fun m => m >>= fun v => liftE (put n v s) >>= fun s => decRoot look put r o s)
        ((Verif.decTy t >>= fun v => Verif.decRoot r o >>= fun vs => Pure.pure (some v :: vs)) >>=
          fun vs => liftE (store put (.cons n k t r) vs s)) := by
      intro o
      rw [h1, liftE_ok, bind_assoc]
      refine h2.bind fun v => ?_
      rw [bind_pure_store]
      exact ((Same.of_eq rfl).bind fun s => decRoot_of r o s h3).trans
        (Same.later (put n v s) (Verif.decRoot r o) fun s vs => store put r vs s)
    have none_ : ∀ o, Same (decRoot look put r o s)
        ((Verif.decRoot r o >>= fun vs => Pure.pure (none :: vs)) >>=
          fun vs => liftE (store put (.cons n k t r) vs s)) := by
      intro o
      rw [bind_pure_store]
      exact decRoot_of r o s h3
    have opt_ : ∀ o : Bits, Same
        (match o with
          | [] => raise .indexError
          | b :: o => if b then
              (liftE (look n) >>= fun m => m >>= fun v => liftE (put n v s) >>= fun s => decRoot look put r o s)
            else decRoot look put r o s)
        ((match o with
          | [] => raise .indexError
          | b :: o => if b then (Verif.decTy t >>= fun v => Verif.decRoot r o >>= fun vs => Pure.pure (some v :: vs))
            else (Verif.decRoot r o >>= fun vs => Pure.pure (none :: vs))) >>=
          fun vs => liftE (store put (.cons n k t r) vs s)) := by
      intro o
      cases o with
      | nil => exact Same.never (Ensures.raise _) (Ensures.bind (Ensures.raise (P := fun _ => False) _) fun _ h => h.elim)
      | cons b o =>
        cases b with
        | true => exact some_ o
        | false => exact none_ o
    unfold decRoot Verif.decRoot
    cases k with
    | mandatory => exact some_ opt
    | optional => exact opt_ opt
    | default d => exact opt_ opt

theorem decAdds_of {σ : Type} {look : String → Except Err (Dec Val)} {put : String → Val → σ → Except Err σ} :
    ∀ (f : Fields) (bits : Bits) (s : σ), Looks look f →
    Same (decAdds look put f bits s) (Verif.decAdds f bits >>= fun vs => liftE (store put f vs s))
  | .nil, opt, s, _ => by unfold decAdds Verif.decAdds; exact Same.of_eq rfl
  | .cons n k t r, bits, s, h => by
    obtain ⟨⟨m, h1, h2⟩, h3⟩ := h
    have none_ : ∀ o, Same (decAdds look put r o s)
        ((Verif.decAdds r o >>= fun vs => Pure.pure (none :: vs)) >>=
          fun vs => liftE (store put (.cons n k t r) vs s)) := by
      intro o
      rw [bind_pure_store]
      exact decAdds_of r o s h3
    unfold decAdds Verif.decAdds
    cases bits with
    | nil => exact none_ []
    | cons b o =>
      cases b with
      | false => exact none_ o
      | true =>
        show Same (liftE (look n) >>= fun m => decodeOpenTypeField m >>= fun v => liftE (put n v s) >>= fun s =>
            decAdds look put r o s)
          ((decodeOpenTypeField (Verif.decTy t) >>= fun v => Verif.decAdds r o >>= fun vs => Pure.pure (some v :: vs)) >>=
            fun vs => liftE (store put (.cons n k t r) vs s))
        rw [h1, liftE_ok, bind_assoc]
        refine Same.bind (Below.openType h2) fun v => ?_
        rw [bind_pure_store]
        exact ((Same.of_eq rfl).bind fun s => decAdds_of r o s h3).trans
          (Same.later (put n v s) (Verif.decAdds r o) fun s vs => store put r vs s)

/-- The components of a group with their names. -/
def pairs : Fields → List (Option Val) → List (String × Val)
  | .cons n _ _ r, some v :: cs => (n, v) :: pairs r cs
  | .cons _ _ _ r, none :: cs => pairs r cs
  | _, _ => []

theorem store_note : ∀ (f : Fields) (vs : List (Option Val)) (d : List (String × Val)),
    store note f vs d = .ok (d ++ pairs f vs)
  | .nil, vs, d => by simp [store, pairs]
  | .cons n k t r, [], d => by simp [store, pairs]
  | .cons n k t r, none :: vs, d => by rw [store, pairs, store_note r]
  | .cons n k t r, some v :: vs, d => by
    rw [store, pairs]
    show store note r vs (d ++ [(n, v)]) = _
    rw [store_note r, List.append_assoc]; rfl

theorem putAll_pairs {σ : Type} {put : String → Val → σ → Except Err σ} : ∀ (f : Fields) (vs : List (Option Val)) (s : σ),
    putAll put (pairs f vs) s = store put f vs s
  | .nil, vs, s => by simp [store, pairs, putAll]
  | .cons n k t r, [], s => by simp [store, pairs, putAll]
  | .cons n k t r, none :: vs, s => by rw [store, pairs, putAll_pairs r]
  | .cons n k t r, some v :: vs, s => by
    rw [store, pairs, putAll]
    exact bind_congr fun s => putAll_pairs r vs s

theorem open_map {α β : Type} (m : Dec α) (f : α → β) :
    decodeOpenTypeField (m >>= fun a => Pure.pure (f a)) = decodeOpenTypeField m >>= fun a => Pure.pure (f a) := by
  unfold decodeOpenTypeField
  simp only [bind_assoc, pure_bind]
  refine bind_congr fun len => bind_congr fun v => bind_congr fun inner => ?_
  have : (m >>= fun a => Pure.pure (f a)) inner = (m inner).map fun r => (f r.1, r.2) := by
    show (m inner >>= fun r => _) = _
    cases m inner <;> rfl
  rw [this]
  cases m inner <;> rfl

/-- Groups whose components are stored. -/
def storeG {σ : Type} (put : String → Val → σ → Except Err σ) : Groups → List (Option Val) → σ → Except Err σ
  | .nil, _, s => .ok s
  | .cons f g, vs, s => store put f (vs.take f.length) s >>= storeG put g (vs.drop f.length)

theorem store_none {σ : Type} {put : String → Val → σ → Except Err σ} : ∀ (f : Fields) (n : Nat) (s : σ),
    store put f (List.replicate n none) s = .ok s
  | .nil, n, s => by rw [store]; nofun; nofun
  | .cons _ _ _ r, 0, s => rfl
  | .cons _ _ _ r, n + 1, s => by rw [List.replicate_succ, store, store_none r]

theorem looks_of {reader : Nat → Dec Val} : ∀ (f : Fields) (pre post : List String),
    (pre ++ (f.names ++ post)).Nodup →
    (∀ j, j < f.length → Same (reader (pre.length + j)) (Verif.decAlt f j)) →
    Looks (fun n => (position (pre ++ (f.names ++ post)) n).map reader) f
  | .nil, _, _, _, _ => trivial
  | .cons n k t r, pre, post, h, hg => by
    refine ⟨⟨reader pre.length, ?_, ?_⟩, ?_⟩
    · simp only [Fields.names, List.cons_append] at h ⊢
      rw [position_mid h]; rfl
    · have := hg 0 (by simp [Fields.length])
      rwa [Verif.decAlt] at this
    · have e : pre ++ ((Fields.cons n k t r).names ++ post) = (pre ++ [n]) ++ (r.names ++ post) := by
        simp [Fields.names]
      rw [e] at h ⊢
      refine looks_of r (pre ++ [n]) post h fun j hj => ?_
      have := hg (j + 1) (by simpa [Fields.length] using hj)
      rw [Verif.decAlt] at this
      rw [List.length_append, List.length_singleton, Nat.add_assoc, Nat.add_comm 1 j]
      exact this

theorem decGroups_of {σ : Type} {reader : Nat → Dec Val} {put : String → Val → σ → Except Err σ} :
    ∀ (g : Groups) (bits : Bits) (o : Nat) (s : σ), g.names.Nodup →
    (∀ j, j < g.size → Same (reader (o + j)) (Verif.decAltG g j)) →
    Same (decGroups reader put g bits o s) (Verif.decGroups g bits >>= fun vs => liftE (storeG put g vs s))
  | .nil, opt, o, s, _, _ => by unfold decGroups Verif.decGroups; exact Same.of_eq rfl
  | .cons f g, bits, o, s, hn, hr => by
    rw [Groups.names, List.nodup_append] at hn
    have rest : ∀ b s, Same (decGroups reader put g b (o + f.length) s)
        (Verif.decGroups g b >>= fun vs => liftE (storeG put g vs s)) := fun b s =>
      decGroups_of g b (o + f.length) s hn.2.1 fun j hj => by
        have := hr (f.length + j) (by simp only [Groups.size]; omega)
        rw [Verif.decAltG, if_neg (by omega), Nat.add_sub_cancel_left, ← Nat.add_assoc] at this
        exact this
    have none_ : ∀ b, Same (decGroups reader put g b (o + f.length) s)
        ((Verif.decGroups g b >>= fun vs => Pure.pure (List.replicate f.length none ++ vs)) >>=
          fun vs => liftE (storeG put (.cons f g) vs s)) := by
      intro b
      rw [bind_pure_store]
      refine (rest b s).trans (Same.of_eq (bind_congr fun vs => ?_))
      rw [storeG, List.take_left' (by simp), List.drop_left' (by simp), store_none]; rfl
    unfold decGroups Verif.decGroups
    cases bits with
    | nil => exact none_ []
    | cons b bits =>
      cases b with
      | false => exact none_ bits
      | true =>
        show Same (decodeOpenTypeField (decodeOptionalBits f.optionalCount >>= fun opt =>
              decRoot (fun n => (position f.names n).map fun i => reader (o + i)) note f opt []) >>= fun d =>
              liftE (putAll put d s) >>= fun s => decGroups reader put g bits (o + f.length) s)
          ((decodeOpenTypeField (decodeOptionalBits f.optionalCount >>= fun opt => Verif.decRoot f opt) >>= fun cs =>
              Verif.decGroups g bits >>= fun vs => Pure.pure (cs ++ vs)) >>=
            fun vs => liftE (storeG put (.cons f g) vs s))
        have looks : Looks (fun n => (position f.names n).map fun i => reader (o + i)) f := by
          have := looks_of (reader := fun i => reader (o + i)) f [] [] (by simpa using hn.1) (fun j hj => by
            have := hr j (by simp only [Groups.size]; omega)
            rw [Verif.decAltG, if_pos hj] at this
            rw [List.length_nil, Nat.zero_add]; exact this)
          simpa using this
        have inner : Same (decodeOpenTypeField (decodeOptionalBits f.optionalCount >>= fun opt =>
              decRoot (fun n => (position f.names n).map fun i => reader (o + i)) note f opt []))
            (decodeOpenTypeField (decodeOptionalBits f.optionalCount >>= fun opt => Verif.decRoot f opt) >>=
              fun cs => Pure.pure (pairs f cs)) := by
          rw [← open_map, bind_assoc]
          refine Below.openType ((Same.of_eq rfl).bind fun opt => ?_)
          refine (decRoot_of f opt [] looks).trans (Same.of_eq (bind_congr fun vs => ?_))
          rw [store_note]; rfl
        refine (inner.bind fun d => Same.of_eq rfl).trans ?_
        rw [bind_pure_store, bind_assoc]
        refine Same.bindQ (Q := fun cs => cs.length = f.length) (Same.of_eq rfl)
          (ensures_openType (Ensures.bind' fun opt => length_root f opt)) fun cs hcs => ?_
        rw [bind_pure_store, putAll_pairs]
        refine ((Same.of_eq rfl).bind fun s => rest bits s).trans ((Same.later _ _ _).trans (Same.of_eq ?_))
        refine bind_congr fun vs => ?_
        rw [storeG, List.take_left' hcs, List.drop_left' hcs]

/-! ### Storing under distinct names -/

theorem store_put : ∀ (f : Fields) (vs : List (Option Val)) (pre post : List String) (before after : List (Option Val)),
    (pre ++ (f.names ++ post)).Nodup → vs.length = f.length → before.length = pre.length →
    store (put (pre ++ (f.names ++ post))) f vs (before ++ (List.replicate f.length none ++ after)) =
      .ok (before ++ (vs ++ after))
  | .nil, [], pre, post, before, after, _, _, _ => by simp [store, Fields.length]
  | .nil, _ :: _, _, _, _, _, _, h, _ => by simp [Fields.length] at h
  | .cons _ _ _ _, [], _, _, _, _, _, h, _ => by simp [Fields.length] at h
  | .cons n k t r, c :: vs, pre, post, before, after, h, hl, hb => by
    have e : pre ++ ((Fields.cons n k t r).names ++ post) = (pre ++ [n]) ++ (r.names ++ post) := by
      simp [Fields.names]
    have h' := h
    rw [e] at h' ⊢
    have ih := fun c => store_put r vs (pre ++ [n]) post (before ++ [c]) after h' (by simpa [Fields.length] using hl)
      (by simp [hb])
    have e0 : before ++ (List.replicate (Fields.cons n k t r).length none ++ after) =
        (before ++ [none]) ++ (List.replicate r.length none ++ after) := by
      simp [Fields.length, List.replicate_succ]
    cases c with
    | none =>
      rw [store, e0, ih none]; simp
    | some v =>
      rw [store]
      have hp : put ((pre ++ [n]) ++ (r.names ++ post)) n v
          (before ++ (List.replicate (Fields.cons n k t r).length none ++ after)) =
          .ok ((before ++ [some v]) ++ (List.replicate r.length none ++ after)) := by
        unfold put
        have h'' : (pre ++ n :: (r.names ++ post)).Nodup := by simpa using h'
        have := position_mid h''
        rw [show (pre ++ [n]) ++ (r.names ++ post) = pre ++ n :: (r.names ++ post) by simp, this]
        show Except.ok _ = _
        rw [e0, ← hb]
        simp
      rw [hp]
      show store _ r vs _ = _
      rw [ih (some v)]; simp

theorem storeG_put : ∀ (g : Groups) (vs : List (Option Val)) (pre : List String) (before : List (Option Val)),
    (pre ++ g.names).Nodup → vs.length = g.size → before.length = pre.length →
    storeG (put (pre ++ g.names)) g vs (before ++ List.replicate g.size none) = .ok (before ++ vs)
  | .nil, vs, pre, before, _, hl, _ => by
    have : vs = [] := List.eq_nil_of_length_eq_zero hl
    subst this
    rw [storeG]; simp [Groups.size]
  | .cons f g, vs, pre, before, h, hl, hb => by
    simp only [Groups.size] at hl
    have h1 := store_put f (vs.take f.length) pre g.names before (List.replicate g.size none) h
      (by rw [List.length_take]; omega) hb
    rw [storeG, Groups.size, ← List.replicate_append_replicate]
    rw [show pre ++ (Groups.cons f g).names = pre ++ (f.names ++ g.names) from rfl, h1]
    show storeG _ g _ _ = _
    have e : pre ++ (f.names ++ g.names) = (pre ++ f.names) ++ g.names := by simp
    rw [e, ← List.append_assoc]
    rw [storeG_put g (vs.drop f.length) (pre ++ f.names) (before ++ vs.take f.length) (by rw [← e]; exact h)
      (by rw [List.length_drop]; omega)
      (by rw [List.length_append, List.length_append, List.length_take, names_length, hb]; omega)]
    simp

/-! ### The alternative of a CHOICE -/

theorem take_cons_drop {α : Type} {xs : List α} {i : Nat} (hi : i < xs.length) :
    xs.take i ++ xs[i] :: xs.drop (i + 1) = xs := by
  rw [List.getElem_cons_drop, List.take_append_drop]

theorem choose_never {all xs : List String} {i : Nat} {m : Dec Val} (h : xs.length ≤ i) :
    Ensures (choose all xs i m) (fun _ => False) := by
  unfold choose
  rw [List.getElem?_eq_none h]
  exact Ensures.raise _

theorem choose_of {pre xs : List String} {i : Nat} {m m' : Dec Val} (h : (pre ++ xs).Nodup) (hm : Same m m')
    (hb : xs.length ≤ i → Ensures m' (fun _ => False)) :
    Same (choose (pre ++ xs) xs i m) (m' >>= fun v => Pure.pure (Val.choice (pre.length + i) v)) := by
  by_cases hi : i < xs.length
  · have e : pre ++ xs = (pre ++ xs.take i) ++ xs[i] :: xs.drop (i + 1) := by
      rw [List.append_assoc, take_cons_drop]
    have hp : position (pre ++ xs) xs[i] = .ok (pre.length + i) := by
      rw [e] at h ⊢
      rw [position_mid h, List.length_append, List.length_take, Nat.min_eq_left (Nat.le_of_lt hi)]
    unfold choose
    rw [List.getElem?_eq_getElem hi]
    simp only [hp, liftE_ok]
    exact hm.bind fun v => Same.of_eq rfl
  · exact Same.never (choose_never (by omega)) (Ensures.bind (hb (by omega)) fun _ h => h.elim)

theorem choose_root {r x : List String} {i : Nat} {m m' : Dec Val} (h : (r ++ x).Nodup) (hm : Same m m')
    (hb : r.length ≤ i → Ensures m' (fun _ => False)) :
    Same (choose (r ++ x) r i m) (m' >>= fun v => Pure.pure (Val.choice i v)) := by
  by_cases hi : i < r.length
  · have e : r ++ x = r.take i ++ r[i] :: (r.drop (i + 1) ++ x) := by
      rw [← List.cons_append, ← List.append_assoc, take_cons_drop]
    have hp : position (r ++ x) r[i] = .ok i := by
      rw [e] at h ⊢
      rw [position_mid h, List.length_take, Nat.min_eq_left (Nat.le_of_lt hi)]
    unfold choose
    rw [List.getElem?_eq_getElem hi]
    simp only [hp, liftE_ok]
    exact hm.bind fun v => Same.of_eq rfl
  · exact Same.never (choose_never (by omega)) (Ensures.bind (hb (by omega)) fun _ h => h.elim)

theorem decAlt_never {f : Fields} {i : Nat} (h : f.length ≤ i) : Ensures (Verif.decAlt f i) (fun _ => False) := by
  rw [decAlt_past f i h]; exact Ensures.raise _
theorem decAltG_never : ∀ {g : Groups} {i : Nat}, g.size ≤ i → Ensures (Verif.decAltG g i) (fun _ => False)
  | .nil, i, _ => by rw [Verif.decAltG]; exact Ensures.raise _
  | .cons f g, i, h => by
    simp only [Groups.size] at h
    rw [Verif.decAltG, if_neg (by omega)]
    exact decAltG_never (by omega)

mutual
theorem dec_named : ∀ (t : Ty), Spec.wellNamed t = true → Same (decTy t) (Verif.decTy t)
  | .boolean, _ => by rw [decTy, Verif.decTy]; exact Below.refl _
  | .integer c, _ => by rw [decTy, Verif.decTy]; exact Below.refl _
  | .enumerated ext root add, _ => by rw [decTy, Verif.decTy]; exact Below.refl _
  | .bitString c, _ => by rw [decTy, Verif.decTy]; exact Below.refl _
  | .octetString c, _ => by rw [decTy, Verif.decTy]; exact Below.refl _
  | .seqOf c t, h => by
    rw [Spec.wellNamed] at h
    rw [decTy, Verif.decTy]
    refine (Same.of_eq rfl).bind fun n => Same.bind ?_ fun vs => Same.of_eq rfl
    exact (Below.repeat (dec_named t h) n.toNat).mono (by simp)
  | .choice ext r a g, h => by
    simp only [Spec.wellNamed, Bool.and_eq_true, decide_eq_true_eq] at h
    obtain ⟨⟨⟨h, hr⟩, ha⟩, hg⟩ := h
    have root : ∀ i, Same (choose (r.names ++ a.names ++ g.names) r.names i (decAlt r i))
        (Verif.decAlt r i >>= fun v => Pure.pure (Val.choice i v)) := fun i => by
      rw [List.append_assoc] at h ⊢
      exact choose_root h (dec_alt_named r hr i) fun hl => decAlt_never (by rwa [names_length] at hl)
    have more : ∀ i, Same (choose (r.names ++ a.names ++ g.names) (a.names ++ g.names) i
          (decodeOpenTypeField (if i < a.length then decAlt a i else decAltG g (i - a.length))))
        (decodeOpenTypeField (if i < a.length then Verif.decAlt a i else Verif.decAltG g (i - a.length)) >>=
          fun v => Pure.pure (Val.choice (r.length + i) v)) := fun i => by
      rw [List.append_assoc] at h ⊢
      rw [← names_length r]
      refine choose_of h (Below.openType ?_) fun hl => ensures_openType ?_
      · split
        · exact dec_alt_named a ha i
        · exact dec_altG_named g hg _
      · rw [List.length_append, names_length, namesG_length] at hl
        rw [if_neg (by omega)]
        exact decAltG_never (by omega)
    have roots : Same
        (if r.length = 1 then choose (r.names ++ a.names ++ g.names) r.names 0 (decAlt r 0)
        else decodeConstrainedFromFieldList (some 0) (some ((r.length : Int) - 1)) >>= fun i =>
          choose (r.names ++ a.names ++ g.names) r.names i.toNat (decAlt r i.toNat))
        (if r.length = 1 then Verif.decAlt r 0 >>= fun v => Pure.pure (Val.choice 0 v)
        else decodeConstrainedFromFieldList (some 0) (some ((r.length : Int) - 1)) >>= fun i =>
          Verif.decAlt r i.toNat >>= fun v => Pure.pure (Val.choice i.toNat v)) := by
      split
      · exact root 0
      · exact (Same.of_eq rfl).bind fun i => root i.toNat
    rw [decTy, Verif.decTy]
    cases ext with
    | false => exact roots
    | true =>
      refine (Same.of_eq rfl).bind fun e => ?_
      by_cases he : e = 0
      · subst he; exact roots
      · simp only [if_neg he]
        refine (Same.of_eq rfl).bind fun i => ?_
        split
        · exact Same.of_eq rfl
        · exact more i.toNat
  | .sequence ext r a g, h => by
    simp only [Spec.wellNamed, Bool.and_eq_true, decide_eq_true_eq] at h
    obtain ⟨⟨⟨h, hr⟩, ha⟩, hg⟩ := h
    have hgn : g.names.Nodup := (List.nodup_append.1 h).2.1
    have looks : ∀ look, look = (fun n => (position (r.names ++ a.names ++ g.names) n).map fun i =>
        if i < r.length then decAlt r i
        else if i < r.length + a.length then decAlt a (i - r.length)
        else decAltG g (i - (r.length + a.length))) → Looks look r ∧ Looks look a := by
      rintro _ rfl
      constructor
      · have := looks_of (reader := fun i =>
          if i < r.length then decAlt r i
          else if i < r.length + a.length then decAlt a (i - r.length)
          else decAltG g (i - (r.length + a.length))) r [] (a.names ++ g.names) (by simpa using h) (fun j hj => by
            simp only [List.length_nil, Nat.zero_add, if_pos hj]
            exact dec_alt_named r hr j)
        simpa using this
      · have := looks_of (reader := fun i =>
          if i < r.length then decAlt r i
          else if i < r.length + a.length then decAlt a (i - r.length)
          else decAltG g (i - (r.length + a.length))) a r.names g.names (by simpa using h) (fun j hj => by
            have h1 : ¬ r.length + j < r.length := by omega
            have h2 : r.length + j < r.length + a.length := by omega
            simp only [names_length, if_neg h1, if_pos h2, Nat.add_sub_cancel_left]
            exact dec_alt_named a ha j)
        simpa using this
    rw [decTy, Verif.decTy]
    generalize hlook : (fun n => (position (r.names ++ a.names ++ g.names) n).map fun i =>
        if i < r.length then decAlt r i
        else if i < r.length + a.length then decAlt a (i - r.length)
        else decAltG g (i - (r.length + a.length))) = look
    obtain ⟨lr, la⟩ := looks look hlook.symm
    have s1 : ∀ vs : List (Option Val), vs.length = r.length →
        store (put (r.names ++ a.names ++ g.names)) r vs (List.replicate (r.length + a.length + g.size) none) =
          .ok (vs ++ (List.replicate a.length none ++ List.replicate g.size none)) := fun vs hv => by
      have := store_put r vs [] (a.names ++ g.names) [] (List.replicate a.length none ++ List.replicate g.size none)
        (by simpa using h) hv rfl
      simpa [List.replicate_append_replicate, Nat.add_assoc] using this
    have s2 : ∀ ws vs : List (Option Val), ws.length = r.length → vs.length = a.length →
        store (put (r.names ++ a.names ++ g.names)) a vs
          (ws ++ (List.replicate a.length none ++ List.replicate g.size none)) =
          .ok ((ws ++ vs) ++ List.replicate g.size none) := fun ws vs hw hv => by
      have := store_put a vs r.names g.names ws (List.replicate g.size none) (by simpa using h) hv
        (by rw [hw, names_length])
      simpa using this
    have s3 : ∀ ws vs : List (Option Val), ws.length = r.length + a.length → vs.length = g.size →
        storeG (put (r.names ++ a.names ++ g.names)) g vs (ws ++ List.replicate g.size none) = .ok (ws ++ vs) :=
      fun ws vs hw hv => storeG_put g vs (r.names ++ a.names) ws h hv
        (by rw [hw, List.length_append, names_length, names_length])
    have body : ∀ e : Nat, Same
        (decodeOptionalBits r.optionalCount >>= fun opt =>
          decRoot look (put (r.names ++ a.names ++ g.names)) r opt
            (List.replicate (r.length + a.length + g.size) none) >>= fun cs =>
          if e ≠ 0 then decodeExtensionBits (a.length + g.length) >>= fun bits =>
            decAdds look (put (r.names ++ a.names ++ g.names)) a (bits.take a.length) cs >>= fun cs =>
            decGroups (fun i => decAltG g i) (put (r.names ++ a.names ++ g.names)) g (bits.drop a.length) 0 cs >>=
              fun cs => Pure.pure (Val.seq cs)
          else Pure.pure (Val.seq cs))
        (decodeOptionalBits r.optionalCount >>= fun opt =>
          Verif.decRoot r opt >>= fun rootVals =>
          if e ≠ 0 then decodeExtensionBits (a.length + g.length) >>= fun bits =>
            Verif.decAdds a (bits.take a.length) >>= fun addVals =>
            Verif.decGroups g (bits.drop a.length) >>= fun groupVals =>
              Pure.pure (Val.seq (rootVals ++ addVals ++ groupVals))
          else Pure.pure (Val.seq (rootVals ++ List.replicate (a.length + g.size) none))) := by
      intro e
      refine (Same.of_eq rfl).bind fun opt => ?_
      refine ((decRoot_of r opt _ lr).bind fun _ => Same.of_eq rfl).trans ?_
      rw [bind_assoc]
      refine (Same.of_eq rfl).bindQ (length_root r opt) fun rv hrv => ?_
      rw [s1 rv hrv, liftE_ok]
      by_cases he : e ≠ 0
      · rw [if_pos he, if_pos he]
        refine (Same.of_eq rfl).bind fun bits => ?_
        refine ((decAdds_of a _ _ la).bind fun _ => Same.of_eq rfl).trans ?_
        rw [bind_assoc]
        refine (Same.of_eq rfl).bindQ (length_adds a _) fun av hav => ?_
        rw [s2 rv av hrv hav, liftE_ok]
        refine ((decGroups_of g _ 0 _ hgn fun j _ => ?_).bind fun _ => Same.of_eq rfl).trans ?_
        · rw [Nat.zero_add]; exact dec_altG_named g hg j
        rw [bind_assoc]
        refine (Same.of_eq rfl).bindQ (length_groups g _) fun gv hgv => ?_
        rw [s3 (rv ++ av) gv (by rw [List.length_append, hrv, hav]) hgv, liftE_ok]
        exact Same.of_eq rfl
      · rw [if_neg he, if_neg he, List.replicate_append_replicate]
        exact Same.of_eq rfl
    cases ext with
    | false => exact body 0
    | true => exact (Same.of_eq rfl).bind body
theorem dec_alt_named : ∀ (f : Fields), Spec.wellNamedAll f = true → ∀ i, Same (decAlt f i) (Verif.decAlt f i)
  | .nil, _, i => by rw [decAlt, Verif.decAlt]; exact Below.refl _
  | .cons n k t r, h, i => by
    rw [Spec.wellNamedAll, Bool.and_eq_true] at h
    cases i with
    | zero => rw [decAlt, Verif.decAlt]; exact dec_named t h.1
    | succ i => rw [decAlt, Verif.decAlt]; exact dec_alt_named r h.2 i
theorem dec_altG_named : ∀ (g : Groups), Spec.wellNamedAllG g = true → ∀ i, Same (decAltG g i) (Verif.decAltG g i)
  | .nil, _, i => by rw [decAltG, Verif.decAltG]; exact Below.refl _
  | .cons f g, h, i => by
    rw [Spec.wellNamedAllG, Bool.and_eq_true] at h
    rw [decAltG, Verif.decAltG]
    split
    · exact dec_alt_named f h.1 i
    · exact dec_altG_named g h.2 _
end

end Verif.Named
