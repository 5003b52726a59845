import Verif.SpecObject
import Verif.Lemmas.Vocabulary
import Verif.Lemmas.RoundTrip
/-!
# Objects that were encoded before

`Shows t v o`: the object `o` is a newly built object that holds `v`, or what encoding may have left of one.
-/
namespace Verif
open Spec

theorem ofSlots_length : ∀ (f : Fields) (cs : List (Option Val)), (ofSlots f cs).length = f.length
  | .nil, _ => by simp [ofSlots, Fields.length]
  | .cons _ _ _ r, cs => by simp [ofSlots, Fields.length, ofSlots_length r]

theorem ofSlotsG_length : ∀ (g : Groups) (cs : List (Option Val)), (ofSlotsG g cs).length = g.size
  | .nil, _ => by simp [ofSlotsG, Groups.size]
  | .cons f g, cs => by simp [ofSlotsG, Groups.size, ofSlots_length f, ofSlotsG_length g]

theorem anyValue_cons (n : String) (k : Kind) (t : Ty) (r : Fields) (cs : List (Option Val)) :
    anyValue (.cons n k t r) cs =
      ((match cs.head?.getD none with | some v => isValue t v | none => false) || anyValue r cs.tail) := by
  rw [anyValue]
  cases cs with
  | nil => rfl
  | cons c cs => cases c <;> rfl

theorem mandatoryAll_cons (n : String) (k : Kind) (t : Ty) (r : Fields) (cs : List (Option Val)) :
    mandatoryAll (.cons n k t r) cs =
      ((match k with
        | .mandatory => (match cs.head?.getD none with | some v => isValue t v | none => false)
        | _ => true) && mandatoryAll r cs.tail) := by
  cases k <;> try rfl
  cases cs with
  | nil => rfl
  | cons c cs => cases c <;> rfl

theorem all_map_congr {t : Ty} (ih : ∀ v, steady t v = true → objValue t (ofVal t v) = isValue t v) :
    ∀ vs : List Val, vs.all (steady t) = true → (vs.map (ofVal t)).all (objValue t) = vs.all (isValue t)
  | [], _ => rfl
  | v :: vs, h => by
    rw [List.all_cons, Bool.and_eq_true] at h
    rw [List.map_cons, List.all_cons, List.all_cons, ih v h.1, all_map_congr ih vs h.2]

mutual
theorem fresh_value : ∀ (t : Ty) (v : Val), steady t v = true → objValue t (ofVal t v) = isValue t v
  | .boolean, v, h => by cases v <;> first | rfl | cases h
  | .integer _, v, h => by cases v <;> first | rfl | cases h
  | .enumerated _ _ _, v, h => by cases v <;> first | rfl | cases h
  | .bitString _, v, h => by cases v <;> first | rfl | cases h
  | .octetString _, v, h => by cases v <;> first | rfl | cases h
  | .seqOf _ t, v, h => by
    cases v with
    | seqOf vs =>
      simp only [steady] at h
      have := all_map_congr (fun v h => fresh_value t v h) vs h
      cases vs with
      | nil => rfl
      | cons v vs =>
        simp only [ofVal, List.isEmpty_cons, Bool.false_eq_true, if_false, objValue, isValue, Bool.not_false,
          Bool.true_and]
        exact this
    | _ => cases h
  | .choice _ r a g, v, h => by
    cases v with
    | choice pos v =>
      simp only [steady] at h
      simp only [ofVal, objValue, isValue]
      by_cases h1 : pos < r.length
      · simp only [h1, if_true] at h ⊢
        exact fresh_valueAlt r pos v h
      · by_cases h2 : pos < r.length + a.length
        · simp only [h1, h2, if_true, if_false] at h ⊢
          exact fresh_valueAlt a _ v h
        · simp only [h1, h2, if_false] at h ⊢
          exact fresh_valueAltG g _ v h
    | _ => cases h
  | .sequence _ r a g, v, h => by
    cases v with
    | seq cs =>
      simp only [steady, Bool.and_eq_true] at h
      obtain ⟨⟨⟨_, hr⟩, ha⟩, hg⟩ := h
      simp only [ofVal]
      by_cases hc : cs.any Option.isSome = true
      · obtain ⟨r1, r2⟩ := fresh_fields r cs hr
          (ofSlots a (cs.drop r.length) ++ ofSlotsG g (cs.drop (r.length + a.length)))
        obtain ⟨a1, a2⟩ := fresh_fields a (cs.drop r.length) ha (ofSlotsG g (cs.drop (r.length + a.length)))
        obtain ⟨g1, g2⟩ := fresh_groups g (cs.drop (r.length + a.length)) hg
        have d1 : (ofSlots r cs ++ (ofSlots a (cs.drop r.length) ++ ofSlotsG g (cs.drop (r.length + a.length)))).drop
            r.length = ofSlots a (cs.drop r.length) ++ ofSlotsG g (cs.drop (r.length + a.length)) :=
          List.drop_left' (ofSlots_length r cs)
        have d2 : (ofSlots r cs ++ (ofSlots a (cs.drop r.length) ++ ofSlotsG g (cs.drop (r.length + a.length)))).drop
            (r.length + a.length) = ofSlotsG g (cs.drop (r.length + a.length)) := by
          rw [← List.drop_drop, d1]
          exact List.drop_left' (ofSlots_length a _)
        rw [if_pos hc]
        simp only [objValue, isValue, hc, d1, d2, r1, r2, a1, a2, g1, g2, Bool.true_and]
      · rw [if_neg hc]
        simp only [objValue, isValue]
        simp [hc]
    | _ => cases h
theorem fresh_valueAlt : ∀ (r : Fields) (p : Nat) (v : Val), steadyAlt r p v = true →
    objValueAlt r p (ofAlt r p v) = isValueAlt r p v
  | .nil, _, _, h => by cases h
  | .cons _ _ t _, 0, v, h => fresh_value t v h
  | .cons _ _ _ r, p + 1, v, h => fresh_valueAlt r p v h
theorem fresh_valueAltG : ∀ (g : Groups) (p : Nat) (v : Val), steadyAltG g p v = true →
    objValueAltG g p (ofAltG g p v) = isValueAltG g p v
  | .nil, _, _, h => by cases h
  | .cons f g, p, v, h => by
    simp only [steadyAltG, objValueAltG, ofAltG, isValueAltG] at h ⊢
    by_cases hp : p < f.length
    · simp only [hp, if_true] at h ⊢
      exact fresh_valueAlt f p v h
    · simp only [hp, if_false] at h ⊢
      exact fresh_valueAltG g _ v h
theorem fresh_fields : ∀ (f : Fields) (cs : List (Option Val)), steadyFields f cs = true → ∀ rest : List (Option Obj),
    objMandatory f (ofSlots f cs ++ rest) = mandatoryAll f cs ∧ objAny f (ofSlots f cs ++ rest) = anyValue f cs
  | .nil, _, _, _ => ⟨rfl, rfl⟩
  | .cons n k t r, cs, h, rest => by
    simp only [steadyFields, Bool.and_eq_true] at h
    obtain ⟨h1, h2⟩ := fresh_fields r cs.tail h.2 rest
    have hs := h.1
    rw [mandatoryAll_cons, anyValue_cons, ← h1, ← h2]
    simp only [ofSlots, List.cons_append, objMandatory, objAny, List.head?_cons, Option.getD_some, List.tail_cons]
    cases hc : cs.head?.getD none with
    | none => exact ⟨rfl, rfl⟩
    | some v =>
      rw [hc] at hs
      have hv : steady t v = true := by cases k <;> exact hs
      have e := fresh_value t v hv
      simp only [Option.map_some, e]
      cases k <;> exact ⟨rfl, trivial⟩
theorem fresh_groups : ∀ (g : Groups) (cs : List (Option Val)), steadyGroups g cs = true →
    objMandatoryG g (ofSlotsG g cs) = mandatoryAllG g cs ∧ objAnyG g (ofSlotsG g cs) = anyValueG g cs
  | .nil, _, _ => ⟨rfl, rfl⟩
  | .cons f g, cs, h => by
    simp only [steadyGroups, Bool.and_eq_true] at h
    obtain ⟨f1, f2⟩ := fresh_fields f cs h.1.1 (ofSlotsG g (cs.drop f.length))
    obtain ⟨g1, g2⟩ := fresh_groups g (cs.drop f.length) h.2
    simp only [ofSlotsG, objMandatoryG, objAnyG, mandatoryAllG, anyValueG, f1, f2, List.drop_left' (ofSlots_length f cs),
      g1, g2, and_self]
end

theorem fresh_content {t : Ty} {v : Val} (h : steady t v = true) : objContent (ofVal t v) = hasContent v := by
  cases t <;> cases v <;> first | rfl | cases h | skip
  · rename_i c t vs
    simp only [ofVal, hasContent]
    cases vs <;> simp [objContent]
  · rename_i ext r a g cs
    simp only [steady, Bool.and_eq_true, beq_iff_eq] at h
    simp only [ofVal, hasContent]
    by_cases hc : cs.any Option.isSome = true
    · rw [if_pos hc, hc]
      have hl : 0 < cs.length := by
        cases cs with
        | nil => cases hc
        | cons => simp
      have : (ofSlots r cs ++ (ofSlots a (cs.drop r.length) ++ ofSlotsG g (cs.drop (r.length + a.length)))).length
          = cs.length := by
        simp only [List.length_append, ofSlots_length, ofSlotsG_length]
        omega
      generalize ofSlots r cs ++ (ofSlots a (cs.drop r.length) ++ ofSlotsG g (cs.drop (r.length + a.length))) = l at *
      cases l with
      | nil => simp at this; omega
      | cons => rfl
    · rw [if_neg hc]
      simp [objContent] at hc ⊢
      exact hc

/-! ## what encoding leaves behind -/

def AllPairs (p : α → β → Prop) : List α → List β → Prop
  | [], [] => True
  | x :: xs, y :: ys => p x y ∧ AllPairs p xs ys
  | _, _ => False

/-- The object `getComponentByName` finds in a component of a newly built object. -/
def start (k : Kind) (t : Ty) (c : Option Val) : Obj :=
  match effective k c with
  | some v => ofVal t v
  | none => blank t

/-- At most instantiated. -/
def Pristine (k : Kind) (t : Ty) (c : Option Val) (s : Option Obj) : Prop :=
  (c = none ∧ s = none) ∨ s = some (start k t c)

/-- A component that is encoded if it is a value. -/
def AddSlot (S : Val → Obj → Prop) (k : Kind) (t : Ty) (c : Option Val) (s : Option Obj) : Prop :=
  match effective k c with
  | some v => if isValue t v then (c = none ∧ s = none) ∨ ∃ o, s = some o ∧ S v o else Pristine k t c s
  | none => Pristine k t c s

/-- A component of the root. -/
def RootSlot (S : Val → Obj → Prop) (k : Kind) (t : Ty) (c : Option Val) (s : Option Obj) : Prop :=
  match k with
  | .optional => AddSlot S .optional t c s
  | .default d => Pristine (.default d) t c s
  | .mandatory =>
    match c with
    | some v => ∃ o, s = some o ∧ S v o
    | none => s = none ∨ ∃ o, s = some o ∧ (match emptyVal t with | some e => S e o | none => o = blank t)

def PristineAll : Fields → List (Option Val) → List (Option Obj) → Prop
  | .nil, _, ss => ss = []
  | .cons _ k t r, cs, ss => ∃ s ss', ss = s :: ss' ∧ Pristine k t (cs.head?.getD none) s ∧ PristineAll r cs.tail ss'

mutual
def Shows : Ty → Val → Obj → Prop
  | .seqOf _ t, .seqOf vs, o => ∃ es, o = .list (if vs.isEmpty then none else some es) ∧ AllPairs (Shows t) vs es
  | .choice _ r a g, .choice pos v, o =>
    ∃ o', o = .choice (some (pos, o')) ∧
      (if pos < r.length then ShowsAlt r pos v o'
       else if pos < r.length + a.length then ShowsAlt a (pos - r.length) v o'
       else ShowsAltG g (pos - (r.length + a.length)) v o')
  | .sequence ext r a g, .seq cs, o =>
    (cs.any Option.isSome = false ∧ o = .seq none) ∨
    ∃ rs as gs, o = .seq (some (rs ++ (as ++ gs))) ∧ ShowsRoot r cs rs ∧
      (if ext then ShowsAdds a (cs.drop r.length) as ∧ ShowsGroups g (cs.drop (r.length + a.length)) gs
       else as = ofSlots a (cs.drop r.length) ∧ gs = ofSlotsG g (cs.drop (r.length + a.length)))
  | _, v, o => o = .leaf (some v)
def ShowsAlt : Fields → Nat → Val → Obj → Prop
  | .nil, _, _, o => o = .leaf none
  | .cons _ _ t _, 0, v, o => Shows t v o
  | .cons _ _ _ r, p + 1, v, o => ShowsAlt r p v o
def ShowsAltG : Groups → Nat → Val → Obj → Prop
  | .nil, _, _, o => o = .leaf none
  | .cons f g, p, v, o => if p < f.length then ShowsAlt f p v o else ShowsAltG g (p - f.length) v o
def ShowsRoot : Fields → List (Option Val) → List (Option Obj) → Prop
  | .nil, _, ss => ss = []
  | .cons _ k t r, cs, ss =>
    ∃ s ss', ss = s :: ss' ∧ RootSlot (Shows t) k t (cs.head?.getD none) s ∧ ShowsRoot r cs.tail ss'
def ShowsAdds : Fields → List (Option Val) → List (Option Obj) → Prop
  | .nil, _, ss => ss = []
  | .cons _ k t r, cs, ss =>
    ∃ s ss', ss = s :: ss' ∧ AddSlot (Shows t) k t (cs.head?.getD none) s ∧ ShowsAdds r cs.tail ss'
/-- A group that is not sent is at most instantiated. -/
def ShowsGroups : Groups → List (Option Val) → List (Option Obj) → Prop
  | .nil, _, ss => ss = []
  | .cons f g, cs, ss =>
    ∃ fs gs, ss = fs ++ gs ∧ (if anySubstantial f cs then ShowsRoot f cs fs else PristineAll f cs fs) ∧
      ShowsGroups g (cs.drop f.length) gs
end

theorem ShowsRoot.length : ∀ {f : Fields} {cs : List (Option Val)} {ss : List (Option Obj)}, ShowsRoot f cs ss →
    ss.length = f.length
  | .nil, _, _, h => by subst h; rfl
  | .cons _ _ _ r, _, _, ⟨s, ss', e, _, h⟩ => by subst e; simp [Fields.length, ShowsRoot.length h]

theorem ShowsAdds.length : ∀ {f : Fields} {cs : List (Option Val)} {ss : List (Option Obj)}, ShowsAdds f cs ss →
    ss.length = f.length
  | .nil, _, _, h => by subst h; rfl
  | .cons _ _ _ r, _, _, ⟨s, ss', e, _, h⟩ => by subst e; simp [Fields.length, ShowsAdds.length h]

theorem PristineAll.length : ∀ {f : Fields} {cs : List (Option Val)} {ss : List (Option Obj)}, PristineAll f cs ss →
    ss.length = f.length
  | .nil, _, _, h => by subst h; rfl
  | .cons _ _ _ r, _, _, ⟨s, ss', e, _, h⟩ => by subst e; simp [Fields.length, PristineAll.length h]

theorem Pristine.inst {k : Kind} {t : Ty} {c : Option Val} {s : Option Obj} (h : Pristine k t c s) :
    instantiate k t s = start k t c := by
  rcases h with ⟨rfl, rfl⟩ | rfl
  · cases k <;> rfl
  · rfl

theorem Pristine.fresh (k : Kind) (t : Ty) (c : Option Val) : Pristine k t c (c.map (ofVal t)) := by
  cases c with
  | none => exact .inl ⟨rfl, rfl⟩
  | some v => exact .inr rfl

theorem AddSlot.fresh {S : Val → Obj → Prop} {k : Kind} {t : Ty} {c : Option Val} (hS : ∀ v, S v (ofVal t v)) :
    AddSlot S k t c (c.map (ofVal t)) := by
  unfold AddSlot
  cases c with
  | none =>
    split
    · split
      · exact .inl ⟨rfl, rfl⟩
      · exact .inl ⟨rfl, rfl⟩
    · exact .inl ⟨rfl, rfl⟩
  | some v =>
    simp only [effective]
    split
    · exact .inr ⟨_, rfl, hS v⟩
    · exact .inr rfl

theorem RootSlot.fresh {S : Val → Obj → Prop} {k : Kind} {t : Ty} {c : Option Val} (hS : ∀ v, S v (ofVal t v)) :
    RootSlot S k t c (c.map (ofVal t)) := by
  unfold RootSlot
  cases k with
  | optional => exact AddSlot.fresh hS
  | default d => exact Pristine.fresh _ _ _
  | mandatory =>
    cases c with
    | none => exact .inl rfl
    | some v => exact ⟨_, rfl, hS v⟩

theorem PristineAll.fresh : ∀ (f : Fields) (cs : List (Option Val)), PristineAll f cs (ofSlots f cs)
  | .nil, _ => rfl
  | .cons _ _ _ r, cs => ⟨_, _, rfl, Pristine.fresh _ _ _, PristineAll.fresh r cs.tail⟩

theorem AllPairs.fresh {t : Ty} (hS : ∀ v, Shows t v (ofVal t v)) :
    ∀ vs : List Val, AllPairs (Shows t) vs (vs.map (ofVal t))
  | [] => trivial
  | v :: vs => ⟨hS v, AllPairs.fresh hS vs⟩

mutual
theorem shows_fresh : ∀ (t : Ty) (v : Val), Shows t v (ofVal t v)
  | .boolean, v => by cases v <;> rfl
  | .integer _, v => by cases v <;> rfl
  | .enumerated _ _ _, v => by cases v <;> rfl
  | .bitString _, v => by cases v <;> rfl
  | .octetString _, v => by cases v <;> rfl
  | .seqOf _ t, v => by
    cases v with
    | seqOf vs => exact ⟨_, rfl, AllPairs.fresh (fun v => shows_fresh t v) vs⟩
    | _ => rfl
  | .choice _ r a g, v => by
    cases v with
    | choice pos v =>
      refine ⟨_, rfl, ?_⟩
      by_cases h1 : pos < r.length
      · simp only [h1, if_true]
        exact shows_freshAlt r pos v
      · by_cases h2 : pos < r.length + a.length
        · simp only [h1, h2, if_true, if_false]
          exact shows_freshAlt a _ v
        · simp only [h1, h2, if_false]
          exact shows_freshAltG g _ v
    | _ => rfl
  | .sequence ext r a g, v => by
    cases v with
    | seq cs =>
      simp only [Shows, ofVal]
      by_cases hc : cs.any Option.isSome = true
      · rw [if_pos hc]
        refine .inr ⟨_, _, _, rfl, shows_freshRoot r cs, ?_⟩
        cases ext with
        | true => exact ⟨shows_freshAdds a _, shows_freshGroups g _⟩
        | false => exact ⟨rfl, rfl⟩
      · rw [if_neg hc]
        exact .inl ⟨by simpa using hc, rfl⟩
    | _ => rfl
theorem shows_freshAlt : ∀ (f : Fields) (p : Nat) (v : Val), ShowsAlt f p v (ofAlt f p v)
  | .nil, _, _ => rfl
  | .cons _ _ t _, 0, v => shows_fresh t v
  | .cons _ _ _ r, p + 1, v => shows_freshAlt r p v
theorem shows_freshAltG : ∀ (g : Groups) (p : Nat) (v : Val), ShowsAltG g p v (ofAltG g p v)
  | .nil, _, _ => rfl
  | .cons f g, p, v => by
    simp only [ShowsAltG, ofAltG]
    by_cases hp : p < f.length
    · simp only [hp, if_true]; exact shows_freshAlt f p v
    · simp only [hp, if_false]; exact shows_freshAltG g _ v
theorem shows_freshRoot : ∀ (f : Fields) (cs : List (Option Val)), ShowsRoot f cs (ofSlots f cs)
  | .nil, _ => rfl
  | .cons _ _ t r, cs => ⟨_, _, rfl, RootSlot.fresh (fun v => shows_fresh t v), shows_freshRoot r cs.tail⟩
theorem shows_freshAdds : ∀ (f : Fields) (cs : List (Option Val)), ShowsAdds f cs (ofSlots f cs)
  | .nil, _ => rfl
  | .cons _ _ t r, cs => ⟨_, _, rfl, AddSlot.fresh (fun v => shows_fresh t v), shows_freshAdds r cs.tail⟩
theorem shows_freshGroups : ∀ (g : Groups) (cs : List (Option Val)), ShowsGroups g cs (ofSlotsG g cs)
  | .nil, _ => rfl
  | .cons f g, cs => by
    refine ⟨_, _, rfl, ?_, shows_freshGroups g _⟩
    split
    · exact shows_freshRoot f cs
    · exact PristineAll.fresh f cs
end

/-! ## being a value does not get lost -/

theorem steady_content {t : Ty} {v : Val} (h : steady t v = true) (hv : isValue t v = true) : hasContent v = true := by
  cases t <;> cases v <;> first | rfl | cases h | skip
  · rename_i c t vs
    simp only [isValue, Bool.and_eq_true] at hv
    exact hv.1
  · rename_i ext r a g cs
    simp only [isValue, Bool.and_eq_true] at hv
    exact hv.1

theorem present_value {t : Ty} {v : Val} (h : steady t v = true) : present t (some v) = isValue t v := by
  show (isValue t v && hasContent v) = isValue t v
  cases hv : isValue t v with
  | false => rfl
  | true => rw [steady_content h hv]; rfl

/-- Set components that are values are values of the object. -/
def Kept : Fields → List (Option Val) → List (Option Obj) → Prop
  | .nil, _, _ => True
  | .cons _ _ t r, cs, ss =>
    (∀ v, cs.head?.getD none = some v → isValue t v = true → ∃ o, ss.head?.getD none = some o ∧ objValue t o = true) ∧
      Kept r cs.tail ss.tail

theorem objMandatory_cons (n : String) (k : Kind) (t : Ty) (r : Fields) (ss : List (Option Obj)) :
    objMandatory (.cons n k t r) ss =
      ((match k with
        | .mandatory => (match ss.head?.getD none with | some o => objValue t o | none => false)
        | _ => true) && objMandatory r ss.tail) := by
  cases k <;> rfl

theorem Kept.lists : ∀ {f : Fields} {cs : List (Option Val)} {ss : List (Option Obj)}, Kept f cs ss →
    (mandatoryAll f cs = true → objMandatory f ss = true) ∧ (anyValue f cs = true → objAny f ss = true)
  | .nil, _, _, _ => ⟨fun _ => rfl, fun h => h⟩
  | .cons n k t r, cs, ss, h => by
    obtain ⟨h1, h2⟩ := h
    obtain ⟨i1, i2⟩ := Kept.lists h2
    have key : (match cs.head?.getD none with | some v => isValue t v | none => false) = true →
        (match ss.head?.getD none with | some o => objValue t o | none => false) = true := by
      cases hc : cs.head?.getD none with
      | none => intro h; cases h
      | some v =>
        intro h
        obtain ⟨o, e1, e2⟩ := h1 v hc h
        rw [e1]
        exact e2
    rw [mandatoryAll_cons, anyValue_cons]
    constructor
    · intro h
      rw [Bool.and_eq_true] at h
      rw [objMandatory_cons, Bool.and_eq_true]
      refine ⟨?_, i1 h.2⟩
      cases k with
      | mandatory => exact key h.1
      | optional => rfl
      | default d => rfl
    · intro h
      rw [Bool.or_eq_true] at h
      rw [objAny, Bool.or_eq_true]
      exact h.imp key i2

theorem Kept.append : ∀ {f : Fields} {cs : List (Option Val)} {ss : List (Option Obj)}, Kept f cs ss →
    ss.length = f.length → ∀ rest, Kept f cs (ss ++ rest)
  | .nil, _, _, _, _, _ => trivial
  | .cons _ _ _ r, cs, [], h, hl, rest => by simp [Fields.length] at hl
  | .cons _ _ _ r, cs, s :: ss, h, hl, rest => ⟨h.1, h.2.append (by simpa [Fields.length] using hl) rest⟩

theorem Pristine.kept {k : Kind} {t : Ty} {c : Option Val} {s : Option Obj} (h : Pristine k t c s) {v : Val}
    (hc : c = some v) (hs : steady t v = true) (hv : isValue t v = true) : ∃ o, s = some o ∧ objValue t o = true := by
  subst hc
  rcases h with ⟨h, _⟩ | rfl
  · cases h
  · exact ⟨_, rfl, by rw [start]; exact (fresh_value t v hs).trans hv⟩

theorem AddSlot.kept {S : Val → Obj → Prop} {k : Kind} {t : Ty} {c : Option Val} {s : Option Obj} (h : AddSlot S k t c s)
    {v : Val} (hS : ∀ o, S v o → objValue t o = true) (hc : c = some v) (hv : isValue t v = true) :
    ∃ o, s = some o ∧ objValue t o = true := by
  subst hc
  simp only [AddSlot, effective, hv, if_true] at h
  rcases h with ⟨h, _⟩ | ⟨o, rfl, h⟩
  · cases h
  · exact ⟨o, rfl, hS o h⟩

theorem RootSlot.kept {S : Val → Obj → Prop} {k : Kind} {t : Ty} {c : Option Val} {s : Option Obj}
    (h : RootSlot S k t c s) {v : Val} (hS : ∀ o, S v o → objValue t o = true) (hc : c = some v)
    (hs : steady t v = true) (hv : isValue t v = true) : ∃ o, s = some o ∧ objValue t o = true := by
  cases k with
  | optional => exact AddSlot.kept h hS hc hv
  | default d => exact Pristine.kept h hc hs hv
  | mandatory =>
    subst hc
    obtain ⟨o, rfl, h⟩ := h
    exact ⟨o, rfl, hS o h⟩

theorem steadyFields_some {n : String} {k : Kind} {t : Ty} {r : Fields} {cs : List (Option Val)}
    (h : steadyFields (.cons n k t r) cs = true) {v : Val} (hc : cs.head?.getD none = some v) : steady t v = true := by
  simp only [steadyFields, Bool.and_eq_true] at h
  have := h.1
  rw [hc] at this
  cases k <;> exact this

theorem steadyFields_held {n : String} {k : Kind} {t : Ty} {r : Fields} {cs : List (Option Val)}
    (h : steadyFields (.cons n k t r) cs = true) {v : Val} (hc : effective k (cs.head?.getD none) = some v) :
    steady t v = true := by
  simp only [steadyFields, Bool.and_eq_true, held_eq] at h
  have := h.1
  rw [hc] at this
  exact this

theorem steadyFields_empty {n : String} {k : Kind} {t : Ty} {r : Fields} {cs : List (Option Val)}
    (h : steadyFields (.cons n k t r) cs = true) (hc : effective k (cs.head?.getD none) = none) {v : Val}
    (he : emptyVal t = some v) : steady t v = true := by
  simp only [steadyFields, Bool.and_eq_true, held_eq, untouched_eq] at h
  have := h.1
  rw [hc] at this
  simpa [he] using this

theorem steadyFields_tail {n : String} {k : Kind} {t : Ty} {r : Fields} {cs : List (Option Val)}
    (h : steadyFields (.cons n k t r) cs = true) : steadyFields r cs.tail = true := by
  simp only [steadyFields, Bool.and_eq_true] at h
  exact h.2

theorem PristineAll.kept : ∀ {f : Fields} {cs : List (Option Val)} {ss : List (Option Obj)},
    steadyFields f cs = true → PristineAll f cs ss → Kept f cs ss
  | .nil, _, _, _, _ => trivial
  | .cons _ _ _ r, cs, _, hs, ⟨s, ss', e, h1, h2⟩ => by
    subst e
    exact ⟨fun v hc hv => h1.kept hc (steadyFields_some hs hc) hv, PristineAll.kept (steadyFields_tail hs) h2⟩

theorem AllPairs.values {t : Ty} (ih : ∀ v o, steady t v = true → Shows t v o → isValue t v = true → objValue t o = true) :
    ∀ (vs : List Val) (es : List Obj), vs.all (steady t) = true → AllPairs (Shows t) vs es →
      vs.all (isValue t) = true → es.all (objValue t) = true
  | [], [], _, _, _ => rfl
  | v :: vs, e :: es, hs, h, hv => by
    rw [List.all_cons, Bool.and_eq_true] at hs hv ⊢
    exact ⟨ih v e hs.1 h.1 hv.1, AllPairs.values ih vs es hs.2 h.2 hv.2⟩
  | [], _ :: _, _, h, _ => h.elim
  | _ :: _, [], _, h, _ => h.elim

mutual
theorem shows_value : ∀ (t : Ty) (v : Val) (o : Obj), steady t v = true → Shows t v o → isValue t v = true →
    objValue t o = true
  | .boolean, v, o, hs, h, _ => by cases v <;> first | (cases hs; done) | (subst h; rfl)
  | .integer _, v, o, hs, h, _ => by cases v <;> first | (cases hs; done) | (subst h; rfl)
  | .enumerated _ _ _, v, o, hs, h, _ => by cases v <;> first | (cases hs; done) | (subst h; rfl)
  | .bitString _, v, o, hs, h, _ => by cases v <;> first | (cases hs; done) | (subst h; rfl)
  | .octetString _, v, o, hs, h, _ => by cases v <;> first | (cases hs; done) | (subst h; rfl)
  | .seqOf _ t, v, o, hs, h, hv => by
    cases v with
    | seqOf vs =>
      obtain ⟨es, rfl, h⟩ := h
      simp only [isValue, Bool.and_eq_true, Bool.not_eq_true'] at hv
      simp only [steady] at hs
      simp only [hv.1, Bool.false_eq_true, if_false, objValue]
      exact AllPairs.values (fun v o => shows_value t v o) vs es hs h hv.2
    | _ => cases hs
  | .choice _ r a g, v, o, hs, h, hv => by
    cases v with
    | choice pos v =>
      obtain ⟨o', rfl, h⟩ := h
      simp only [isValue, objValue, steady] at hs hv ⊢
      by_cases h1 : pos < r.length
      · simp only [h1, if_true] at h hs hv ⊢
        exact shows_valueAlt r pos v o' hs h hv
      · by_cases h2 : pos < r.length + a.length
        · simp only [h1, h2, if_true, if_false] at h hs hv ⊢
          exact shows_valueAlt a _ v o' hs h hv
        · simp only [h1, h2, if_false] at h hs hv ⊢
          exact shows_valueAltG g _ v o' hs h hv
    | _ => cases hs
  | .sequence ext r a g, v, o, hs, h, hv => by
    cases v with
    | seq cs =>
      simp only [steady, Bool.and_eq_true] at hs
      obtain ⟨⟨⟨_, hr⟩, ha⟩, hg⟩ := hs
      simp only [isValue, Bool.and_eq_true] at hv
      rcases h with ⟨h, rfl⟩ | ⟨rs, as, gs, rfl, h1, h2⟩
      · rw [h] at hv; cases hv.1
      · have lr := h1.length
        have kr := (shows_kept_root r cs rs hr h1).append lr (as ++ gs)
        have ka : Kept a (cs.drop r.length) (as ++ gs) ∧ as.length = a.length ∧
            (mandatoryAllG g (cs.drop (r.length + a.length)) = true → objMandatoryG g gs = true) ∧
            (anyValueG g (cs.drop (r.length + a.length)) = true → objAnyG g gs = true) := by
          cases ext with
          | true =>
            simp only [if_true] at h2
            obtain ⟨h2, h3⟩ := h2
            exact ⟨(shows_kept_adds a _ as ha h2).append h2.length gs, h2.length, shows_kept_groups g _ gs hg h3⟩
          | false =>
            simp only [Bool.false_eq_true, if_false] at h2
            obtain ⟨rfl, rfl⟩ := h2
            refine ⟨((PristineAll.fresh a _).kept ha).append (ofSlots_length a _) _, ofSlots_length a _, ?_⟩
            obtain ⟨g1, g2⟩ := fresh_groups g _ hg
            rw [g1, g2]
            exact ⟨id, id⟩
        obtain ⟨ka, la, k1, k2⟩ := ka
        have d1 : (rs ++ (as ++ gs)).drop r.length = as ++ gs := List.drop_left' lr
        have d2 : (rs ++ (as ++ gs)).drop (r.length + a.length) = gs := by
          rw [← List.drop_drop, d1]
          exact List.drop_left' la
        obtain ⟨r1, r2⟩ := kr.lists
        obtain ⟨a1, a2⟩ := ka.lists
        simp only [objValue, d1, d2, Bool.or_eq_true, Bool.and_eq_true]
        have := hv.2
        simp only [Bool.or_eq_true, Bool.and_eq_true] at this
        exact this.imp (fun h => ⟨⟨r1 h.1.1, a1 h.1.2⟩, k1 h.2⟩) (fun h => h.imp (fun h => h.imp r2 a2) k2)
    | _ => cases hs
theorem shows_valueAlt : ∀ (f : Fields) (p : Nat) (v : Val) (o : Obj), steadyAlt f p v = true → ShowsAlt f p v o →
    isValueAlt f p v = true → objValueAlt f p o = true
  | .nil, _, _, _, hs, _, _ => by cases hs
  | .cons _ _ t _, 0, v, o, hs, h, hv => shows_value t v o hs h hv
  | .cons _ _ _ r, p + 1, v, o, hs, h, hv => shows_valueAlt r p v o hs h hv
theorem shows_valueAltG : ∀ (g : Groups) (p : Nat) (v : Val) (o : Obj), steadyAltG g p v = true → ShowsAltG g p v o →
    isValueAltG g p v = true → objValueAltG g p o = true
  | .nil, _, _, _, hs, _, _ => by cases hs
  | .cons f g, p, v, o, hs, h, hv => by
    simp only [steadyAltG, ShowsAltG, isValueAltG, objValueAltG] at hs h hv ⊢
    by_cases hp : p < f.length
    · simp only [hp, if_true] at hs h hv ⊢
      exact shows_valueAlt f p v o hs h hv
    · simp only [hp, if_false] at hs h hv ⊢
      exact shows_valueAltG g _ v o hs h hv
theorem shows_kept_root : ∀ (f : Fields) (cs : List (Option Val)) (ss : List (Option Obj)), steadyFields f cs = true →
    ShowsRoot f cs ss → Kept f cs ss
  | .nil, _, _, _, _ => trivial
  | .cons n k t r, cs, _, hs, ⟨s, ss', e, h1, h2⟩ => by
    subst e
    refine ⟨fun v hc hv => ?_, shows_kept_root r cs.tail ss' (steadyFields_tail hs) h2⟩
    have hsv := steadyFields_some hs hc
    exact h1.kept (fun o ho => shows_value t v o hsv ho hv) hc hsv hv
theorem shows_kept_adds : ∀ (f : Fields) (cs : List (Option Val)) (ss : List (Option Obj)), steadyFields f cs = true →
    ShowsAdds f cs ss → Kept f cs ss
  | .nil, _, _, _, _ => trivial
  | .cons n k t r, cs, _, hs, ⟨s, ss', e, h1, h2⟩ => by
    subst e
    refine ⟨fun v hc hv => ?_, shows_kept_adds r cs.tail ss' (steadyFields_tail hs) h2⟩
    have hsv := steadyFields_some hs hc
    exact h1.kept (fun o ho => shows_value t v o hsv ho hv) hc hv
theorem shows_kept_groups : ∀ (g : Groups) (cs : List (Option Val)) (ss : List (Option Obj)), steadyGroups g cs = true →
    ShowsGroups g cs ss →
    (mandatoryAllG g cs = true → objMandatoryG g ss = true) ∧ (anyValueG g cs = true → objAnyG g ss = true)
  | .nil, _, _, _, _ => ⟨id, id⟩
  | .cons f g, cs, _, hs, ⟨fs, gs, e, h1, h2⟩ => by
    subst e
    simp only [steadyGroups, Bool.and_eq_true] at hs
    obtain ⟨i1, i2⟩ := shows_kept_groups g _ gs hs.2 h2
    have hk : Kept f cs (fs ++ gs) ∧ fs.length = f.length := by
      cases ha : anySubstantial f cs with
      | true =>
        rw [ha] at h1
        exact ⟨(shows_kept_root f cs fs hs.1.1 h1).append h1.length gs, h1.length⟩
      | false =>
        rw [ha] at h1
        exact ⟨(h1.kept hs.1.1).append h1.length gs, h1.length⟩
    obtain ⟨f1, f2⟩ := hk.1.lists
    simp only [mandatoryAllG, objMandatoryG, anyValueG, objAnyG, List.drop_left' hk.2, Bool.and_eq_true, Bool.or_eq_true]
    exact ⟨fun h => ⟨f1 h.1, i1 h.2⟩, fun h => h.imp f2 i2⟩
end

theorem AllPairs.length {p : α → β → Prop} : ∀ {xs : List α} {ys : List β}, AllPairs p xs ys → ys.length = xs.length
  | [], [], _ => rfl
  | _ :: _, _ :: _, h => by simp [h.2.length]
  | [], _ :: _, h => h.elim
  | _ :: _, [], h => h.elim

theorem ShowsGroups.length : ∀ {g : Groups} {cs : List (Option Val)} {ss : List (Option Obj)}, ShowsGroups g cs ss →
    ss.length = g.size
  | .nil, _, _, h => by subst h; rfl
  | .cons f g, cs, _, ⟨fs, gs, e, h1, h2⟩ => by
    subst e
    have : fs.length = f.length := by
      split at h1
      · exact h1.length
      · exact h1.length
    simp [Groups.size, this, h2.length]

theorem shows_content {t : Ty} {v : Val} {o : Obj} (hs : steady t v = true) (h : Shows t v o)
    (hv : isValue t v = true) : objContent o = true := by
  have hc := steady_content hs hv
  cases t <;> cases v <;> first | (cases hs; done) | (subst h; rfl) | skip
  · rename_i c t vs
    obtain ⟨es, rfl, h⟩ := h
    simp only [hasContent, Bool.not_eq_true'] at hc
    have := h.length
    simp only [hc, Bool.false_eq_true, if_false, objContent, Option.getD_some, Bool.not_eq_true']
    cases es with
    | nil => cases vs <;> simp at this hc
    | cons => rfl
  · obtain ⟨o', rfl, h⟩ := h
    rfl
  · rename_i ext r a g cs
    rcases h with ⟨h, rfl⟩ | ⟨rs, as, gs, rfl, h1, h2⟩
    · simp only [hasContent] at hc
      rw [h] at hc; cases hc
    · simp only [steady, Bool.and_eq_true, beq_iff_eq] at hs
      have hl : 0 < cs.length := by
        cases cs with
        | nil => cases hc
        | cons => simp
      have l1 := h1.length
      have l2 : as.length = a.length ∧ gs.length = g.size := by
        cases ext with
        | true =>
          simp only [if_true] at h2
          exact ⟨h2.1.length, h2.2.length⟩
        | false =>
          simp only [Bool.false_eq_true, if_false] at h2
          rw [h2.1, h2.2]
          exact ⟨ofSlots_length a _, ofSlotsG_length g _⟩
      have : (rs ++ (as ++ gs)).length = cs.length := by
        simp only [List.length_append]
        omega
      generalize rs ++ (as ++ gs) = l at *
      cases l with
      | nil => simp at this; omega
      | cons => rfl

/-! ## one component -/

theorem blank_value (t : Ty) : objValue t (blank t) = false := by cases t <;> rfl

theorem encObj_blank {t : Ty} (h : emptyVal t = none) : encObj t (blank t) = (.error .noValue, blank t) := by
  cases t <;> first | rfl | cases h

theorem shows_blank {t : Ty} {e : Val} (h : emptyVal t = some e) : Shows t e (blank t) := by
  cases t <;> simp only [emptyVal, reduceCtorEq, Option.some.injEq] at h <;> subst h
  · exact ⟨[], rfl, trivial⟩
  · exact .inl ⟨by simp, rfl⟩

theorem start_value {k : Kind} {t : Ty} {c : Option Val} (h : ∀ v, effective k c = some v → steady t v = true) :
    objValue t (start k t c) = isValueOpt t (effective k c) ∧
      (objValue t (start k t c) && objContent (start k t c)) = present t (effective k c) := by
  unfold start
  cases he : effective k c with
  | none => exact ⟨blank_value t, by rw [blank_value]; rfl⟩
  | some v =>
    refine ⟨fresh_value t v (h v he), ?_⟩
    rw [fresh_value t v (h v he), fresh_content (h v he)]
    rfl

/-- A simple value is in its object; a constructed one has no `_value`. -/
theorem ofVal_cases {t : Ty} {v : Val} (h : steady t v = true) :
    (ofVal t v = .leaf (some v) ∧ encObj t (.leaf (some v)) = (encTy t v, .leaf (some v))) ∨
    ((∀ w, ofVal t v ≠ .leaf w) ∧ ∀ d, pyValueNe d v = .error .attributeError) := by
  cases t <;> cases v <;> first
    | (cases h; done)
    | exact .inl ⟨rfl, rfl⟩
    | (refine .inr ⟨fun w => ?_, fun d => ?_⟩
       · simp [ofVal]
       · cases d <;> rfl)

/-- What encoding an object of the type does, if it shows a value. -/
def Faithful (t : Ty) : Prop := ∀ v o, steady t v = true → Shows t v o →
  (encObj t o).1 = encTy t v ∧ Shows t v (encObj t o).2

theorem addSlot_touch {k : Kind} {t : Ty} {c : Option Val} {s : Option Obj} (h : AddSlot (Shows t) k t c s) :
    AddSlot (Shows t) k t c (some (instantiate k t s)) := by
  unfold AddSlot at h ⊢
  split at h
  · rename_i v hv
    by_cases hval : isValue t v = true
    · rw [if_pos hval] at h ⊢
      rcases h with ⟨rfl, rfl⟩ | ⟨o, rfl, h⟩
      · refine .inr ⟨_, rfl, ?_⟩
        cases k with
        | mandatory => cases hv
        | optional => cases hv
        | default d => cases hv; exact shows_fresh t _
      · exact .inr ⟨o, rfl, h⟩
    · rw [if_neg hval] at h ⊢
      exact .inr (by rw [h.inst])
  · exact .inr (by rw [h.inst])

theorem rootSlot_touch {k : Kind} {t : Ty} {c : Option Val} {s : Option Obj} (h : RootSlot (Shows t) k t c s) :
    RootSlot (Shows t) k t c (some (instantiate k t s)) := by
  cases k with
  | optional => exact addSlot_touch h
  | default d => exact .inr (by rw [Pristine.inst h])
  | mandatory =>
    cases c with
    | some v =>
      obtain ⟨o, rfl, h⟩ := h
      exact ⟨o, rfl, h⟩
    | none =>
      rcases h with rfl | ⟨o, rfl, h⟩
      · refine .inr ⟨_, rfl, ?_⟩
        cases he : emptyVal t with
        | none => rfl
        | some e => exact shows_blank he
      · exact .inr ⟨o, rfl, h⟩

/-- A component that is encoded if it is a value is judged as the value is, and encoded only if it is one. -/
theorem addSlot_value {k : Kind} {t : Ty} {c : Option Val} {s : Option Obj} (h : AddSlot (Shows t) k t c s)
    (hs : ∀ v, effective k c = some v → steady t v = true) :
    objValue t (instantiate k t s) = isValueOpt t (effective k c) ∧
      (objValue t (instantiate k t s) && objContent (instantiate k t s)) = present t (effective k c) := by
  have h' := addSlot_touch h
  unfold AddSlot at h h'
  split at h
  · rename_i v hv
    rw [hv] at h'
    by_cases hval : isValue t v = true
    · simp only [hval, if_true, reduceCtorEq, and_false, false_or, Option.some.injEq] at h'
      obtain ⟨o, rfl, h'⟩ := h'
      rw [hv, present_value (hs v hv)]
      simp only [isValueOpt, hval, shows_value t v _ (hs v hv) h' hval, shows_content (hs v hv) h' hval, Bool.and_self,
        and_self]
    · rw [if_neg hval] at h
      rw [h.inst]
      exact start_value hs
  · rw [h.inst]
    exact start_value hs

theorem addSlot_shows {k : Kind} {t : Ty} {c : Option Val} {s : Option Obj} (h : AddSlot (Shows t) k t c s) {v : Val}
    (hv : effective k c = some v) (hval : isValue t v = true) : Shows t v (instantiate k t s) := by
  have h' := addSlot_touch h
  unfold AddSlot at h'
  rw [hv] at h'
  simp only [hval, if_true, reduceCtorEq, and_false, false_or, Option.some.injEq] at h'
  obtain ⟨o, rfl, h'⟩ := h'
  exact h'

theorem addSlot_of_shows {k : Kind} {t : Ty} {c : Option Val} {v : Val} {o : Obj}
    (hv : effective k c = some v) (hval : isValue t v = true) (h : Shows t v o) : AddSlot (Shows t) k t c (some o) := by
  unfold AddSlot
  rw [hv]
  simp only [hval, if_true]
  exact .inr ⟨o, rfl, h⟩

theorem addition_spec {k : Kind} {t : Ty} {c : Option Val} {s : Option Obj} (ih : Faithful t)
    (hs : ∀ v, effective k c = some v → steady t v = true) (h : AddSlot (Shows t) k t c s) (prev : Option Prev) :
    (objAdditionStep (encObj t) t prev (instantiate k t s)).1 = additionComponent (encTy t) t prev (effective k c) ∧
      AddSlot (Shows t) k t c (some (objAdditionStep (encObj t) t prev (instantiate k t s)).2) := by
  have ht := addSlot_touch h
  obtain ⟨h1, h2⟩ := addSlot_value h hs
  have hsh := @addSlot_shows _ _ _ _ h
  generalize instantiate k t s = o at *
  unfold objAdditionStep additionComponent
  cases he : effective k c with
  | none =>
    rw [he] at h1
    rw [h1]
    exact ⟨rfl, ht⟩
  | some v =>
    rw [he] at h1 h2
    simp only [isValueOpt] at h1
    dsimp only
    rw [h1]
    by_cases hval : isValue t v = true
    · rw [if_pos hval, if_pos hval]
      by_cases hg : Prev.gap prev = true
      · rw [if_pos hg, if_pos hg]
        exact ⟨rfl, ht⟩
      · rw [if_neg hg, if_neg hg]
        rw [h1, hval, present_value (hs v he), hval, Bool.true_and] at h2
        rw [if_pos h2, if_pos (steady_content (hs v he) hval)]
        obtain ⟨i1, i2⟩ := ih v o (hs v he) (hsh he hval)
        refine ⟨?_, addSlot_of_shows he hval i2⟩
        dsimp only
        rw [i1]
        cases encTy t v with
        | error e => rfl
        | ok fl =>
          show (encodeOpenTypeField fl).map _ = _
          simp only [bind, Except.bind]
          cases encodeOpenTypeField fl <;> rfl
    · rw [if_neg hval, if_neg hval]
      exact ⟨rfl, ht⟩

theorem root_spec {k : Kind} {t : Ty} {c : Option Val} {s : Option Obj} (ih : Faithful t)
    (hs : ∀ v, effective k c = some v → steady t v = true)
    (hse : effective k c = none → ∀ e, emptyVal t = some e → steady t e = true) (h : RootSlot (Shows t) k t c s) :
    (objRootStep (encObj t) k t (instantiate k t s)).1 = rootComponent (encTy t) k t c ∧
      RootSlot (Shows t) k t c (some (objRootStep (encObj t) k t (instantiate k t s)).2) := by
  have mapOk : ∀ (r : Except Err (List BitField)) (b : Bits),
      (r.map fun fl => (b, fl)) = (do let fl ← r; return (b, fl)) := by
    intro r b; cases r <;> rfl
  cases k with
  | optional =>
    have h : AddSlot (Shows t) .optional t c s := h
    have ht := addSlot_touch h
    obtain ⟨_, h2⟩ := addSlot_value h hs
    have hsh := @addSlot_shows _ _ _ _ h
    generalize instantiate .optional t s = o at *
    have hec : effective .optional c = c := by cases c <;> rfl
    rw [hec] at h2
    unfold objRootStep rootComponent
    dsimp only
    rw [h2]
    by_cases hp : present t c = true
    · rw [if_pos hp, if_pos hp]
      cases c with
      | none => cases hp
      | some v =>
        have hsv := hs v rfl
        rw [present_value hsv] at hp
        obtain ⟨i1, i2⟩ := ih v o hsv (hsh rfl hp)
        exact ⟨by dsimp only; rw [i1, mapOk], addSlot_of_shows (k := .optional) (c := some v) rfl hp i2⟩
    · rw [if_neg hp, if_neg hp]
      exact ⟨rfl, ht⟩
  | default d =>
    have h : Pristine (.default d) t c s := h
    rw [h.inst]
    have key : ∀ v, effective (.default d) c = some v →
        (objRootStep (encObj t) (.default d) t (ofVal t v)).1 =
          (do if ← pyValueNe d v then
                let fl ← encTy t v
                return ([true], fl)
              else return ([false], [])) ∧
        (objRootStep (encObj t) (.default d) t (ofVal t v)).2 = ofVal t v := by
      intro v hv
      unfold objRootStep
      rcases ofVal_cases (hs v hv) with ⟨e1, e2⟩ | ⟨e1, e2⟩
      · rw [e1]
        dsimp only
        rw [e2]
        cases pyValueNe d v with
        | error e => exact ⟨rfl, rfl⟩
        | ok b =>
          cases b with
          | false => exact ⟨rfl, rfl⟩
          | true => exact ⟨mapOk _ _, rfl⟩
      · rw [e2]
        dsimp only
        generalize ofVal t v = o at e1
        cases o with
        | leaf w => exact absurd rfl (e1 w)
        | _ => exact ⟨rfl, rfl⟩
    cases c with
    | none =>
      obtain ⟨k1, k2⟩ := key d rfl
      exact ⟨k1, .inr (congrArg some k2)⟩
    | some v =>
      obtain ⟨k1, k2⟩ := key v rfl
      exact ⟨k1, .inr (congrArg some k2)⟩
  | mandatory =>
    have ht := rootSlot_touch h
    generalize instantiate .mandatory t s = o at *
    cases c with
    | some v =>
      obtain ⟨o', e, h'⟩ := ht
      cases e
      obtain ⟨i1, i2⟩ := ih v o (hs v rfl) h'
      exact ⟨by unfold objRootStep rootComponent; dsimp only; rw [i1, mapOk], ⟨_, rfl, i2⟩⟩
    | none =>
      rcases ht with e | ⟨o', e, h'⟩
      · cases e
      · cases e
        unfold objRootStep rootComponent
        dsimp only
        cases he : emptyVal t with
        | none =>
          rw [he] at h'
          dsimp only at h'
          subst h'
          rw [encObj_blank he]
          exact ⟨rfl, .inr ⟨_, rfl, by rw [he]⟩⟩
        | some e =>
          rw [he] at h'
          obtain ⟨i1, i2⟩ := ih e o (hse rfl e he) h'
          exact ⟨by rw [i1, mapOk], .inr ⟨_, rfl, by rw [he]; exact i2⟩⟩

/-! ## the scan of a group -/

theorem objScan_cons (n : String) (k : Kind) (t : Ty) (r : Fields) (s : Option Obj) (ss : List (Option Obj))
    (prev : Option Prev) (isv here : Bool) (hv : objValue t (instantiate k t s) = isv)
    (hh : (objValue t (instantiate k t s) && objContent (instantiate k t s)) = here) :
    objScan (.cons n k t r) (s :: ss) prev =
      if isv && Prev.gap prev then (.error .mandatoryFieldNotPresentInGroup, some (instantiate k t s) :: ss)
      else ((objScan r ss (some ⟨here, k.isOptional⟩)).1.map (⟨here, k.isOptional⟩ :: ·),
        some (instantiate k t s) :: (objScan r ss (some ⟨here, k.isOptional⟩)).2) := by
  subst hv
  subst hh
  rfl

theorem settled_value {n : String} {k : Kind} {t : Ty} {r : Fields} {cs : List (Option Val)} {s : Option Obj}
    (hs : steadyFields (.cons n k t r) cs = true) (hset : settled (.cons n k t r) cs = true)
    (h : RootSlot (Shows t) k t (cs.head?.getD none) s) :
    objValue t (instantiate k t s) = isValueOpt t (effective k (cs.head?.getD none)) ∧
      (objValue t (instantiate k t s) && objContent (instantiate k t s)) =
        present t (effective k (cs.head?.getD none)) := by
  have hst : ∀ v, effective k (cs.head?.getD none) = some v → steady t v = true := fun v hv => steadyFields_held hs hv
  cases k with
  | optional => exact addSlot_value h hst
  | default d =>
    rw [Pristine.inst h]
    exact start_value hst
  | mandatory =>
    simp only [settled, Bool.and_eq_true] at hset
    have hset := hset.1
    have ht := rootSlot_touch h
    generalize instantiate .mandatory t s = o at *
    generalize cs.head?.getD none = c at *
    cases c with
    | some v =>
      obtain ⟨o', e, h'⟩ := ht
      cases e
      have hval : isValue t v = true := by simpa using hset
      have hsv := hst v rfl
      show _ = isValue t v ∧ _ = present t (some v)
      rw [present_value hsv, hval, shows_value t v _ hsv h' hval, shows_content hsv h' hval]
      exact ⟨rfl, rfl⟩
    | none =>
      have hset : (!isSequence t) = true := hset
      have : objValue t o = false := by
        rcases ht with e | ⟨o', e, h'⟩
        · cases e
        · cases e
          cases t <;> first
            | (simp [isSequence] at hset; done)
            | (simp only [emptyVal] at h'; subst h'; rfl)
            | (simp only [emptyVal] at h'; obtain ⟨es, rfl, _⟩ := h'; rfl)
      rw [this]
      exact ⟨rfl, rfl⟩

theorem scan_root : ∀ (f : Fields) (cs : List (Option Val)) (ss : List (Option Obj)) (prev : Option Prev),
    steadyFields f cs = true → settled f cs = true → ShowsRoot f cs ss →
    (objScan f ss prev).1 = scanGroup f cs prev ∧ ShowsRoot f cs (objScan f ss prev).2
  | .nil, _, _, _, _, _, h => ⟨rfl, h⟩
  | .cons n k t r, cs, _, prev, hs, hset, ⟨s, ss', e, h1, h2⟩ => by
    subst e
    obtain ⟨v1, v2⟩ := settled_value hs hset h1
    have ht := rootSlot_touch h1
    have hset' : settled r cs.tail = true := by
      simp only [settled, Bool.and_eq_true] at hset
      exact hset.2
    rw [objScan_cons n k t r s ss' prev _ _ v1 v2]
    unfold scanGroup
    by_cases hg : (isValueOpt t (effective k (cs.head?.getD none)) && Prev.gap prev) = true
    · rw [if_pos hg, if_pos hg]
      exact ⟨rfl, _, _, rfl, ht, h2⟩
    · rw [if_neg hg, if_neg hg]
      obtain ⟨i1, i2⟩ := scan_root r cs.tail ss' (some ⟨present t (effective k (cs.head?.getD none)), k.isOptional⟩)
        (steadyFields_tail hs) hset' h2
      refine ⟨?_, _, _, rfl, ht, i2⟩
      dsimp only
      rw [i1]
      cases scanGroup r cs.tail (some ⟨present t (effective k (cs.head?.getD none)), k.isOptional⟩) <;> rfl

theorem scan_pristine : ∀ (f : Fields) (cs : List (Option Val)) (ss : List (Option Obj)) (prev : Option Prev),
    steadyFields f cs = true → PristineAll f cs ss →
    (objScan f ss prev).1 = scanGroup f cs prev ∧ PristineAll f cs (objScan f ss prev).2
  | .nil, _, _, _, _, h => ⟨rfl, h⟩
  | .cons n k t r, cs, _, prev, hs, ⟨s, ss', e, h1, h2⟩ => by
    subst e
    obtain ⟨v1, v2⟩ := start_value (k := k) (t := t) (c := cs.head?.getD none) (fun v hv => steadyFields_held hs hv)
    have ht : Pristine k t (cs.head?.getD none) (some (start k t (cs.head?.getD none))) := .inr rfl
    rw [objScan_cons n k t r s ss' prev _ _ ((congrArg _ h1.inst).trans v1)
      ((congrArg (fun o => objValue t o && objContent o) h1.inst).trans v2), h1.inst]
    unfold scanGroup
    by_cases hg : (isValueOpt t (effective k (cs.head?.getD none)) && Prev.gap prev) = true
    · rw [if_pos hg, if_pos hg]
      exact ⟨rfl, _, _, rfl, ht, h2⟩
    · rw [if_neg hg, if_neg hg]
      obtain ⟨i1, i2⟩ := scan_pristine r cs.tail ss' (some ⟨present t (effective k (cs.head?.getD none)), k.isOptional⟩)
        (steadyFields_tail hs) h2
      refine ⟨?_, _, _, rfl, ht, i2⟩
      dsimp only
      rw [i1]
      cases scanGroup r cs.tail (some ⟨present t (effective k (cs.head?.getD none)), k.isOptional⟩) <;> rfl

/-! ## all types -/

theorem overList_cons {α : Type} (f : Obj → Step Obj α) (o : Obj) (os : List Obj) :
    overList f (o :: os) = match f o with
      | (.error e, o') => (.error e, o' :: os)
      | (.ok x, o') => match overList f os with
        | (.error e, os') => (.error e, o' :: os')
        | (.ok xs, os') => (.ok (x :: xs), o' :: os') := rfl

theorem overList_spec {t : Ty} (ih : Faithful t) : ∀ (vs : List Val) (es : List Obj), vs.all (steady t) = true →
    AllPairs (Shows t) vs es →
    (overList (encObj t) es).1 = vs.mapM (encTy t) ∧ AllPairs (Shows t) vs (overList (encObj t) es).2
  | [], [], _, _ => ⟨rfl, trivial⟩
  | v :: vs, e :: es, hs, h => by
    rw [List.all_cons, Bool.and_eq_true] at hs
    obtain ⟨i1, i2⟩ := ih v e hs.1 h.1
    obtain ⟨j1, j2⟩ := overList_spec ih vs es hs.2 h.2
    rw [List.mapM_cons, ← i1, ← j1, overList_cons]
    cases hx : encObj t e with
    | mk x o' =>
      rw [hx] at i2
      cases x with
      | error er => exact ⟨rfl, i2, h.2⟩
      | ok fl =>
        cases hy : overList (encObj t) es with
        | mk y os' =>
          rw [hy] at j2
          cases y with
          | error er => exact ⟨rfl, i2, j2⟩
          | ok fls => exact ⟨rfl, i2, j2⟩
  | [], _ :: _, _, h => h.elim
  | _ :: _, [], _, h => h.elim

theorem none_drop {cs : List (Option Val)} (h : cs.any Option.isSome = false) (n : Nat) :
    (cs.drop n).any Option.isSome = false := by
  rw [List.any_eq_false] at h ⊢
  exact fun x hx => h x (List.mem_of_mem_drop hx)

theorem none_tail {cs : List (Option Val)} (h : cs.any Option.isSome = false) :
    cs.head?.getD none = none ∧ cs.tail.any Option.isSome = false := by
  cases cs with
  | nil => exact ⟨rfl, rfl⟩
  | cons c cs =>
    simp only [List.any_cons, Bool.or_eq_false_iff] at h
    cases c with
    | none => exact ⟨rfl, h.2⟩
    | some v => cases h.1

theorem ofSlots_none : ∀ (f : Fields) (cs : List (Option Val)), cs.any Option.isSome = false →
    ofSlots f cs = List.replicate f.length none
  | .nil, _, _ => rfl
  | .cons n k t r, cs, h => by
    obtain ⟨h1, h2⟩ := none_tail h
    simp only [ofSlots, Fields.length, h1, ofSlots_none r cs.tail h2, List.replicate_succ, Option.map_none]

theorem ofSlotsG_none : ∀ (g : Groups) (cs : List (Option Val)), cs.any Option.isSome = false →
    ofSlotsG g cs = List.replicate g.size none
  | .nil, _, _ => rfl
  | .cons f g, cs, h => by
    simp only [ofSlotsG, Groups.size, ofSlots_none f cs h, ofSlotsG_none g _ (none_drop h _),
      List.replicate_append_replicate]

/-- The slots a SEQUENCE that shows a value works with. -/
theorem shows_slots {ext : Bool} {r a : Fields} {g : Groups} {cs : List (Option Val)} {o : Obj}
    (hl : cs.length = r.length + a.length + g.size) (h : Shows (.sequence ext r a g) (.seq cs) o) :
    ∃ slots rs as gs, o = .seq slots ∧ slotsOf (r.length + a.length + g.size) slots = rs ++ (as ++ gs) ∧
      ShowsRoot r cs rs ∧
      (if ext then ShowsAdds a (cs.drop r.length) as ∧ ShowsGroups g (cs.drop (r.length + a.length)) gs
       else as = ofSlots a (cs.drop r.length) ∧ gs = ofSlotsG g (cs.drop (r.length + a.length))) ∧
      as.length = a.length ∧ gs.length = g.size := by
  rcases h with ⟨h, rfl⟩ | ⟨rs, as, gs, rfl, h1, h2⟩
  · refine ⟨none, ofSlots r cs, ofSlots a (cs.drop r.length), ofSlotsG g (cs.drop (r.length + a.length)), rfl, ?_,
      shows_freshRoot r cs, ?_, ofSlots_length a _, ofSlotsG_length g _⟩
    · have hd : ∀ n, (cs.drop n).any Option.isSome = false := fun n => none_drop h n
      rw [ofSlots_none r cs h, ofSlots_none a _ (hd _), ofSlotsG_none g _ (hd _), List.replicate_append_replicate, List.replicate_append_replicate]
      simp only [slotsOf, Nat.add_assoc]
    · cases ext with
      | true => exact ⟨shows_freshAdds a _, shows_freshGroups g _⟩
      | false => exact ⟨rfl, rfl⟩
  · have l2 : as.length = a.length ∧ gs.length = g.size := by
      cases ext with
      | true =>
        simp only [if_true] at h2
        exact ⟨h2.1.length, h2.2.length⟩
      | false =>
        simp only [Bool.false_eq_true, if_false] at h2
        rw [h2.1, h2.2]
        exact ⟨ofSlots_length a _, ofSlotsG_length g _⟩
    refine ⟨_, rs, as, gs, rfl, ?_, h1, h2, l2⟩
    have : (rs ++ (as ++ gs)).length = r.length + a.length + g.size := by
      simp only [List.length_append, h1.length, l2.1, l2.2]
      omega
    cases hl : rs ++ (as ++ gs) with
    | nil =>
      rw [hl] at this
      rw [← this]
      rfl
    | cons => rfl

mutual
theorem obj_ty : ∀ (t : Ty) (v : Val) (o : Obj), steady t v = true → Shows t v o →
    (encObj t o).1 = encTy t v ∧ Shows t v (encObj t o).2
  | .boolean, v, o, hs, h => by cases v <;> first | (cases hs; done) | (subst h; exact ⟨rfl, rfl⟩)
  | .integer _, v, o, hs, h => by cases v <;> first | (cases hs; done) | (subst h; exact ⟨rfl, rfl⟩)
  | .enumerated _ _ _, v, o, hs, h => by cases v <;> first | (cases hs; done) | (subst h; exact ⟨rfl, rfl⟩)
  | .bitString _, v, o, hs, h => by cases v <;> first | (cases hs; done) | (subst h; exact ⟨rfl, rfl⟩)
  | .octetString _, v, o, hs, h => by cases v <;> first | (cases hs; done) | (subst h; exact ⟨rfl, rfl⟩)
  | .seqOf c t, v, o, hs, h => by
    cases v with
    | seqOf vs =>
      obtain ⟨es, rfl, h⟩ := h
      simp only [steady] at hs
      obtain ⟨i1, i2⟩ := overList_spec (fun v o => obj_ty t v o) vs es hs h
      cases vs with
      | nil => exact ⟨rfl, [], rfl, trivial⟩
      | cons v vs =>
        have hl := h.length
        simp only [encObj, encTy, List.isEmpty_cons, Bool.false_eq_true, if_false, Option.getD_some, Option.map_some]
        rw [i1, hl]
        exact ⟨rfl, _, rfl, i2⟩
    | _ => cases hs
  | .choice ext r a g, v, o, hs, h => by
    cases v with
    | choice pos v =>
      obtain ⟨o', rfl, h⟩ := h
      simp only [encObj, encTy, steady] at hs ⊢
      by_cases h1 : pos < r.length
      · simp only [h1, if_true] at h hs ⊢
        obtain ⟨i1, i2⟩ := obj_alt r pos v o' hs h
        exact ⟨by rw [i1], _, rfl, by simp only [h1, if_true]; exact i2⟩
      · by_cases h2 : pos < r.length + a.length
        · simp only [h1, h2, if_true, if_false] at h hs ⊢
          obtain ⟨i1, i2⟩ := obj_alt a _ v o' hs h
          exact ⟨by rw [i1], _, rfl, by simp only [h1, h2, if_true, if_false]; exact i2⟩
        · simp only [h1, h2, if_false] at h hs ⊢
          obtain ⟨i1, i2⟩ := obj_altG g _ v o' hs h
          exact ⟨by rw [i1], _, rfl, by simp only [h1, h2, if_false]; exact i2⟩
    | _ => cases hs
  | .sequence ext r a g, v, o, hs, h => by
    cases v with
    | seq cs =>
      simp only [steady, Bool.and_eq_true, beq_iff_eq] at hs
      obtain ⟨⟨⟨hl, hr⟩, ha⟩, hg⟩ := hs
      have hsame := h
      obtain ⟨slots, rs, as, gs, rfl, hsl, h1, h2, la, lg⟩ := shows_slots hl h
      have lr := h1.length
      have t1 : (rs ++ (as ++ gs)).take r.length = rs := List.take_left' lr
      have d1 : (rs ++ (as ++ gs)).drop r.length = as ++ gs := List.drop_left' lr
      have t2 : (as ++ gs).take a.length = as := List.take_left' la
      have d2 : (rs ++ (as ++ gs)).drop (r.length + a.length) = gs := by
        rw [← List.drop_drop, d1]
        exact List.drop_left' la
      obtain ⟨i1, i2⟩ := obj_root r cs rs hr h1
      simp only [encObj, encTy]
      rw [hsl, t1, d1, t2, d2, i1]
      cases hroot : encRoot r cs with
      | error e => exact ⟨rfl, .inr ⟨_, _, _, rfl, i2, h2⟩⟩
      | ok p =>
        obtain ⟨opt, fl⟩ := p
        simp only [bind, Except.bind]
        cases hw : withOptionalBits opt fl with
        | error e => exact ⟨rfl, .inr ⟨_, _, _, rfl, i2, h2⟩⟩
        | ok rootFields =>
          cases ext with
          | false =>
            simp only [Bool.false_eq_true, if_false]
            refine ⟨rfl, ?_⟩
            by_cases h0 : r.length = 0
            · rw [if_pos h0]
              exact hsame
            · rw [if_neg h0]
              exact .inr ⟨_, _, _, rfl, i2, h2⟩
          | true =>
            simp only [if_true] at h2 ⊢
            by_cases hag : a.length = 0 ∧ g.length = 0
            · rw [if_pos hag, if_pos hag]
              refine ⟨rfl, ?_⟩
              by_cases h0 : r.length = 0
              · simp only [if_pos h0]
                exact hsame
              · simp only [if_neg h0]
                exact .inr ⟨_, _, _, rfl, i2, h2⟩
            · rw [if_neg hag, if_neg hag]
              obtain ⟨j1, j2⟩ := obj_adds a _ as none ha h2.1
              rw [j1]
              cases hadds : encAdds a (cs.drop r.length) none with
              | error e => exact ⟨rfl, .inr ⟨_, _, _, rfl, i2, by rw [if_pos rfl]; exact ⟨j2, h2.2⟩⟩⟩
              | ok q =>
                obtain ⟨abits, afl⟩ := q
                obtain ⟨k1, k2⟩ := obj_groups g _ gs none hg h2.2
                dsimp only
                rw [k1]
                refine ⟨?_, ?_⟩
                · cases encGroups g (cs.drop (r.length + a.length)) none <;> rfl
                · by_cases h0 : r.length + a.length + g.size = 0
                  · rw [if_pos h0]
                    exact hsame
                  · rw [if_neg h0]
                    exact .inr ⟨_, _, _, rfl, i2, by rw [if_pos rfl]; exact ⟨j2, k2⟩⟩
    | _ => cases hs
theorem obj_alt : ∀ (f : Fields) (p : Nat) (v : Val) (o : Obj), steadyAlt f p v = true → ShowsAlt f p v o →
    (encObjAlt f p o).1 = encAlt f p v ∧ ShowsAlt f p v (encObjAlt f p o).2
  | .nil, _, _, _, hs, _ => by cases hs
  | .cons _ _ t _, 0, v, o, hs, h => obj_ty t v o hs h
  | .cons _ _ _ r, p + 1, v, o, hs, h => obj_alt r p v o hs h
theorem obj_altG : ∀ (g : Groups) (p : Nat) (v : Val) (o : Obj), steadyAltG g p v = true → ShowsAltG g p v o →
    (encObjAltG g p o).1 = encAltG g p v ∧ ShowsAltG g p v (encObjAltG g p o).2
  | .nil, _, _, _, hs, _ => by cases hs
  | .cons f g, p, v, o, hs, h => by
    simp only [steadyAltG, ShowsAltG, encObjAltG, encAltG] at hs h ⊢
    by_cases hp : p < f.length
    · simp only [hp, if_true] at hs h ⊢
      exact obj_alt f p v o hs h
    · simp only [hp, if_false] at hs h ⊢
      exact obj_altG g _ v o hs h
theorem obj_root : ∀ (f : Fields) (cs : List (Option Val)) (ss : List (Option Obj)), steadyFields f cs = true →
    ShowsRoot f cs ss → (encObjRoot f ss).1 = encRoot f cs ∧ ShowsRoot f cs (encObjRoot f ss).2
  | .nil, _, _, _, h => ⟨rfl, h⟩
  | .cons n k t r, cs, _, hs, ⟨s, ss', e, h1, h2⟩ => by
    subst e
    obtain ⟨i1, i2⟩ := root_spec (fun v o => obj_ty t v o) (fun v hv => steadyFields_held hs hv)
      (fun hn e he => steadyFields_empty hs hn he) h1
    obtain ⟨j1, j2⟩ := obj_root r cs.tail ss' (steadyFields_tail hs) h2
    unfold encObjRoot encRoot
    simp only [List.head?_cons, Option.getD_some, List.tail_cons]
    rw [← i1, ← j1]
    cases hx : (objRootStep (encObj t) k t (instantiate k t s)).1 with
    | error e => exact ⟨rfl, _, _, rfl, i2, h2⟩
    | ok p =>
      refine ⟨?_, _, _, rfl, i2, j2⟩
      dsimp only
      cases (encObjRoot r ss').1 <;> rfl
theorem obj_adds : ∀ (f : Fields) (cs : List (Option Val)) (ss : List (Option Obj)) (prev : Option Prev),
    steadyFields f cs = true → ShowsAdds f cs ss →
    (encObjAdds f ss prev).1 = encAdds f cs prev ∧ ShowsAdds f cs (encObjAdds f ss prev).2
  | .nil, _, _, _, _, h => ⟨rfl, h⟩
  | .cons n k t r, cs, _, prev, hs, ⟨s, ss', e, h1, h2⟩ => by
    subst e
    obtain ⟨i1, i2⟩ := addition_spec (fun v o => obj_ty t v o) (fun v hv => steadyFields_held hs hv) h1 prev
    unfold encObjAdds encAdds
    simp only [List.head?_cons, Option.getD_some, List.tail_cons]
    rw [← i1]
    cases hx : (objAdditionStep (encObj t) t prev (instantiate k t s)).1 with
    | error e => exact ⟨rfl, _, _, rfl, i2, h2⟩
    | ok p =>
      obtain ⟨b, fl⟩ := p
      obtain ⟨j1, j2⟩ := obj_adds r cs.tail ss' (some ⟨b, k.isOptional⟩) (steadyFields_tail hs) h2
      refine ⟨?_, _, _, rfl, i2, j2⟩
      simp only [bind, Except.bind]
      rw [← j1]
      cases (encObjAdds r ss' (some ⟨b, k.isOptional⟩)).1 <;> rfl
theorem obj_groups : ∀ (g : Groups) (cs : List (Option Val)) (ss : List (Option Obj)) (prev : Option (List Prev)),
    steadyGroups g cs = true → ShowsGroups g cs ss →
    (encObjGroups g ss prev).1 = encGroups g cs prev ∧ ShowsGroups g cs (encObjGroups g ss prev).2
  | .nil, _, _, _, _, h => ⟨rfl, h⟩
  | .cons f g, cs, _, prev, hs, ⟨fs, gs, e, h1, h2⟩ => by
    subst e
    simp only [steadyGroups, Bool.and_eq_true, Bool.or_eq_true, Bool.not_eq_true'] at hs
    obtain ⟨⟨hf, hset⟩, hg⟩ := hs
    have lf : fs.length = f.length := by
      split at h1
      · exact h1.length
      · exact h1.length
    have hscan : (objScan f fs none).1 = scanGroup f cs none ∧
        (if anySubstantial f cs then ShowsRoot f cs (objScan f fs none).2 else PristineAll f cs (objScan f fs none).2) := by
      cases ha : anySubstantial f cs with
      | true =>
        rw [ha] at h1 hset
        exact scan_root f cs fs none hf (by simpa using hset) h1
      | false =>
        rw [ha] at h1
        exact scan_pristine f cs fs none hf h1
    obtain ⟨s1, s2⟩ := hscan
    unfold encObjGroups encGroups
    simp only [List.take_left' lf, List.drop_left' lf]
    rw [s1]
    cases hsc : scanGroup f cs none with
    | error e => exact ⟨rfl, _, _, rfl, s2, h2⟩
    | ok infos =>
      have hany := scanGroup_any hsc
      simp only [bind, Except.bind, groupComponent]
      cases ha : anySubstantial f cs with
      | false =>
        rw [ha] at hany
        rw [hany]
        obtain ⟨j1, j2⟩ := obj_groups g _ gs (some infos) hg h2
        simp only [Bool.false_eq_true, if_false, Bool.not_false, if_true, pure, Except.pure]
        rw [j1]
        refine ⟨?_, _, _, rfl, s2, j2⟩
        cases encGroups g (cs.drop f.length) (some infos) <;> simp [Except.map]
      | true =>
        rw [ha] at hany
        rw [hany]
        simp only [Bool.not_true, Bool.false_eq_true, if_false, if_true]
        cases checkPreviousGroup prev with
        | error e => exact ⟨rfl, _, _, rfl, s2, h2⟩
        | ok u =>
          have s2' : ShowsRoot f cs (objScan f fs none).2 := by rw [ha] at s2; exact s2
          obtain ⟨r1, r2⟩ := obj_root f cs _ hf s2'
          have r2' : (if anySubstantial f cs then ShowsRoot f cs (encObjRoot f (objScan f fs none).2).2
              else PristineAll f cs (encObjRoot f (objScan f fs none).2).2) := by rw [ha]; exact r2
          dsimp only
          rw [r1]
          cases encRoot f cs with
          | error e => exact ⟨rfl, _, _, rfl, r2', h2⟩
          | ok p =>
            dsimp only
            cases withOptionalBits p.1 p.2 with
            | error e => exact ⟨rfl, _, _, rfl, r2', h2⟩
            | ok rf =>
              dsimp only
              cases encodeOpenTypeField rf with
              | error e => exact ⟨rfl, _, _, rfl, r2', h2⟩
              | ok ofl =>
                obtain ⟨j1, j2⟩ := obj_groups g _ gs (some infos) hg h2
                dsimp only [pure, Except.pure]
                rw [j1]
                refine ⟨?_, _, _, rfl, r2', j2⟩
                cases encGroups g (cs.drop f.length) (some infos) <;> rfl
end

theorem shows_encode {t : Ty} {v : Val} {o : Obj} (hs : steady t v = true) (h : Shows t v o) :
    (encodeObj t o).1 = encode t v ∧ Shows t v (encodeObj t o).2 := by
  obtain ⟨h1, h2⟩ := obj_ty t v o hs h
  exact ⟨by simp only [encodeObj, encode, h1], h2⟩

/-! ## assignment -/

theorem shows_set_root : ∀ (f : Fields) (i : Nat) (t : Ty) (v : Val) (cs : List (Option Val)) (ss : List (Option Obj)),
    f.tyAt i = some t → i < cs.length → ShowsRoot f cs ss → ShowsRoot f (cs.set i (some v)) (ss.set i (some (ofVal t v)))
  | .nil, _, _, _, _, _, ht, _, _ => by cases ht
  | .cons n k t r, i, t', v, cs, _, ht, hi, ⟨s, ss', e, h1, h2⟩ => by
    subst e
    cases cs with
    | nil => simp at hi
    | cons c cs =>
      cases i with
      | zero =>
        cases ht
        exact ⟨_, _, rfl, RootSlot.fresh (c := some v) (shows_fresh t), h2⟩
      | succ i => exact ⟨_, _, rfl, h1, shows_set_root r i t' v cs ss' ht (Nat.lt_of_succ_lt_succ hi) h2⟩

theorem shows_set_adds : ∀ (f : Fields) (i : Nat) (t : Ty) (v : Val) (cs : List (Option Val)) (ss : List (Option Obj)),
    f.tyAt i = some t → i < cs.length → ShowsAdds f cs ss → ShowsAdds f (cs.set i (some v)) (ss.set i (some (ofVal t v)))
  | .nil, _, _, _, _, _, ht, _, _ => by cases ht
  | .cons n k t r, i, t', v, cs, _, ht, hi, ⟨s, ss', e, h1, h2⟩ => by
    subst e
    cases cs with
    | nil => simp at hi
    | cons c cs =>
      cases i with
      | zero =>
        cases ht
        exact ⟨_, _, rfl, AddSlot.fresh (c := some v) (shows_fresh t), h2⟩
      | succ i => exact ⟨_, _, rfl, h1, shows_set_adds r i t' v cs ss' ht (Nat.lt_of_succ_lt_succ hi) h2⟩

theorem fresh_set : ∀ (f : Fields) (i : Nat) (t : Ty) (v : Val) (cs : List (Option Val)),
    f.tyAt i = some t → i < cs.length → ofSlots f (cs.set i (some v)) = (ofSlots f cs).set i (some (ofVal t v))
  | .nil, _, _, _, _, ht, _ => by cases ht
  | .cons n k t r, i, t', v, cs, ht, hi => by
    cases cs with
    | nil => simp at hi
    | cons c cs =>
      cases i with
      | zero =>
        cases ht
        rfl
      | succ i =>
        simp only [ofSlots, List.set_cons_succ, List.head?_cons, List.tail_cons,
          fresh_set r i t' v cs ht (Nat.lt_of_succ_lt_succ hi)]

theorem shows_beyond : ∀ (f : Fields) (i : Nat) (x : Option Val) (cs : List (Option Val)) (ss : List (Option Obj)),
    f.length ≤ i → ShowsRoot f cs ss → ShowsRoot f (cs.set i x) ss
  | .nil, _, _, _, _, _, h => h
  | .cons n k t r, i, x, cs, _, hi, ⟨s, ss', e, h1, h2⟩ => by
    subst e
    cases i with
    | zero => simp [Fields.length] at hi
    | succ i =>
      cases cs with
      | nil => exact ⟨_, _, rfl, h1, h2⟩
      | cons c cs => exact ⟨_, _, rfl, h1, shows_beyond r i x cs ss' (Nat.le_of_succ_le_succ hi) h2⟩

theorem tyAt_some : ∀ (f : Fields) (i : Nat), i < f.length → ∃ t, f.tyAt i = some t
  | .nil, _, h => by simp [Fields.length] at h
  | .cons _ _ t _, 0, _ => ⟨t, rfl⟩
  | .cons _ _ _ r, i + 1, h => tyAt_some r i (Nat.lt_of_succ_lt_succ h)

theorem shows_assign {ext : Bool} {r a : Fields} {g : Groups} {cs : List (Option Val)} {o : Obj} {i : Nat} {v : Val}
    (hl : cs.length = r.length + a.length + g.size) (hi : i < r.length + a.length)
    (h : Shows (.sequence ext r a g) (.seq cs) o) :
    Shows (.sequence ext r a g) (.seq (cs.set i (some v))) (assign (.sequence ext r a g) i v o) := by
  obtain ⟨slots, rs, as, gs, rfl, hsl, h1, h2, la, lg⟩ := shows_slots hl h
  have lr := h1.length
  have hic : i < cs.length := by omega
  have dg : (cs.set i (some v)).drop (r.length + a.length) = cs.drop (r.length + a.length) :=
    List.drop_set_of_lt hi
  refine .inr ?_
  simp only [assign]
  by_cases hr : i < r.length
  · obtain ⟨t, ht⟩ := tyAt_some r i hr
    rw [if_pos hr, ht]
    dsimp only
    refine ⟨rs.set i (some (ofVal t v)), as, gs, ?_, shows_set_root r i t v cs rs ht hic h1, ?_⟩
    · rw [hsl, List.set_append_left _ _ (by omega)]
    · rw [dg, List.drop_set_of_lt hr]
      exact h2
  · obtain ⟨t, ht⟩ := tyAt_some a (i - r.length) (by omega)
    rw [if_neg hr, if_pos hi, ht]
    dsimp only
    have da : (cs.set i (some v)).drop r.length = (cs.drop r.length).set (i - r.length) (some v) := by
      rw [List.drop_set, if_neg hr]
    have hid : i - r.length < (cs.drop r.length).length := by
      rw [List.length_drop]
      omega
    refine ⟨rs, as.set (i - r.length) (some (ofVal t v)), gs, ?_, shows_beyond r i _ cs rs (by omega) h1, ?_⟩
    · rw [hsl, List.set_append_right _ _ (by omega), List.set_append_left _ _ (by omega), lr]
    · rw [dg, da]
      cases ext with
      | true =>
        simp only [if_true] at h2 ⊢
        exact ⟨shows_set_adds a _ t v _ as ht hid h2.1, h2.2⟩
      | false =>
        simp only [Bool.false_eq_true, if_false] at h2 ⊢
        rw [h2.1]
        exact ⟨(fresh_set a _ t v _ ht hid).symm, h2.2⟩

end Verif
