import Verif.Props.Missing
import Verif.Lemmas.Domain
/-!
# C24: exactly when a gap in the extension additions is reported
-/
namespace Verif

theorem hasContent_of_isValue {t : Ty} {v : Val} (ht : Spec.ofType t v = true) (h : isValue t v = true) :
    hasContent v = true := by
  cases v with
  | seqOf vs =>
    cases t <;> simp only [Spec.ofType, Bool.false_eq_true] at ht
    simp only [isValue, Bool.and_eq_true] at h
    exact h.1
  | seq cs =>
    cases t <;> simp only [Spec.ofType, Bool.false_eq_true] at ht
    simp only [isValue, Bool.and_eq_true] at h
    exact h.1
  | _ => rfl

theorem ofTypeFields_effective {n : String} {k : Kind} {t : Ty} {r : Fields} {cs : List (Option Val)} {v : Val}
    (h : Spec.ofTypeFields (.cons n k t r) cs = true) (hv : effective k (cs.head?.getD none) = some v) :
    Spec.ofType t v = true := by
  simp only [Spec.ofTypeFields, Bool.and_eq_true] at h
  obtain ⟨⟨h1, h2⟩, _⟩ := h
  cases hc : cs.head?.getD none with
  | some w =>
    rw [hc] at h2 hv
    have : w = v := by cases k <;> simpa [effective] using hv
    subst this
    exact h2
  | none =>
    rw [hc] at hv
    cases k with
    | default d =>
      have : d = v := by simpa [effective] using hv
      subst this
      exact h1
    | _ => simp [effective] at hv

theorem given_lt : ∀ {a : Fields} {cs : List (Option Val)} {m : Nat}, Spec.given a cs m = true → m < a.length
  | .nil, _, _, h => by simp [Spec.given, Spec.fieldAt] at h
  | .cons _ _ _ r, _, 0, _ => by simp [Fields.length]
  | .cons _ _ _ r, cs, m + 1, h => by
    rw [given_succ] at h
    have := given_lt h
    simp only [Fields.length]
    omega

/-- Putting the parts together fails only for more than 64 additions. -/
theorem assembleSequence_error {rf afl : List BitField} {bits : Bits} {e : Err} (h0 : bits ≠ [])
    (h : assembleSequence rf bits afl = .error e) : e = .notImplemented := by
  by_cases h64 : bits.length ≤ 64
  · obtain ⟨fs, hf⟩ := assembleSequence_ok (rf := rf) (afl := afl) h0 h64
    rw [hf] at h; cases h
  · unfold assembleSequence at h
    rw [pyInt2_of_ne h0] at h
    simp only [bind, Except.bind] at h
    split at h
    · unfold encodeLengthDeterminant at h
      rw [if_pos rfl, if_neg (by omega)] at h
      cases h
      rfl
    · cases h

/-- If every addition by itself can be sent, an error comes from two neighbours. -/
theorem encAdds_neighbours : ∀ (a : Fields) (cs : List (Option Val)) (prev : Option Prev) {e : Err},
    (∀ m n k t v, Spec.fieldAt a m = some (n, k, t) → effective k (cs[m]?.getD none) = some v →
      Spec.given a cs m = true → Spec.fitsOpenType t v = true) →
    Spec.ofTypeFields a cs = true → encAdds a cs prev = .error e →
    (Prev.gap prev = true ∧ Spec.given a cs 0 = true) ∨
      ∃ m, Spec.given a cs m = false ∧ Spec.optionalAt a m = false ∧ Spec.given a cs (m + 1) = true
  | .nil, _, _, e, _, _, h => by simp [encAdds] at h
  | .cons n k t r, cs, prev, e, hf, ht, h => by
    simp only [encAdds] at h
    cases hc : additionComponent (encTy t) t prev (effective k (cs.head?.getD none)) with
    | error e' =>
      unfold additionComponent at hc
      cases hv : effective k (cs.head?.getD none) with
      | none => rw [hv] at hc; cases hc
      | some v =>
        rw [hv] at hc
        dsimp only at hc
        split at hc
        · rename_i hval
          have hcont := hasContent_of_isValue (ofTypeFields_effective ht hv) hval
          have hg : Spec.given (.cons n k t r) cs 0 = true := by
            rw [given_zero, hv, ← present_eq, present, hval, hcont]; rfl
          split at hc
          · rename_i hgap
            exact .inl ⟨hgap, hg⟩
          · have := hf 0 n k t v rfl (by rw [← List.head?_eq_getElem?]; exact hv) hg
            obtain ⟨fs, e1, e2⟩ := fitsOpenType_ok this
            obtain ⟨ofl, e3⟩ := openType_ok e2
            rw [e1] at hc
            simp only [bind, Except.bind] at hc
            rw [e3] at hc
            cases hc
        · cases hc
    | ok x =>
      rw [hc] at h
      simp only [bind, Except.bind] at h
      obtain ⟨b, fl⟩ := x
      obtain ⟨h1, _⟩ := additionComponent_shape hc
      cases hr : encAdds r cs.tail (some ⟨b, k.isOptional⟩) with
      | ok y => rw [hr] at h; cases h
      | error e' =>
        right
        rcases encAdds_neighbours r cs.tail _ (fun m n k t v h1 h2 h3 => by
          rw [List.getElem?_tail] at h2
          exact hf (m + 1) n k t v h1 h2 (by rw [given_succ]; exact h3)) (by
            simp only [Spec.ofTypeFields, Bool.and_eq_true] at ht
            exact ht.2) hr with ⟨hp, hg⟩ | ⟨m, g1, g2, g3⟩
        · simp only [Prev.gap, Bool.and_eq_true, Bool.not_eq_true'] at hp
          refine ⟨0, ?_, ?_, ?_⟩
          · rw [given_zero, ← h1]; exact hp.1
          · exact hp.2
          · rw [given_succ]; exact hg
        · exact ⟨m + 1, by rw [given_succ]; exact g1, by rw [optionalAt_succ]; exact g2, by rw [given_succ]; exact g3⟩

/-! ## groups -/

/-- Without a gap among its components a group passes the scan. -/
theorem scanGroup_passes : ∀ (f : Fields) (cs : List (Option Val)) (prev : Option Prev), Spec.ofTypeFields f cs = true →
    (Prev.gap prev = true → Spec.given f cs 0 = false) →
    (∀ m, Spec.given f cs m = false → Spec.optionalAt f m = false → Spec.given f cs (m + 1) = false) →
    ∃ infos, scanGroup f cs prev = .ok infos ∧ infos.length = f.length
  | .nil, _, _, _, _, _ => ⟨[], rfl, rfl⟩
  | .cons n k t r, cs, prev, ht, hp, hg => by
    have hv : isValueOpt t (effective k (cs.head?.getD none)) = Spec.given (.cons n k t r) cs 0 := by
      rw [given_zero, ← present_eq]
      cases hv : effective k (cs.head?.getD none) with
      | none => rfl
      | some v =>
        rw [isValueOpt, present]
        cases hi : isValue t v with
        | false => rfl
        | true => rw [hasContent_of_isValue (ofTypeFields_effective ht hv) hi]; rfl
    obtain ⟨infos, e, hl⟩ := scanGroup_passes r cs.tail
      (some ⟨present t (effective k (cs.head?.getD none)), k.isOptional⟩)
      (by simp only [Spec.ofTypeFields, Bool.and_eq_true] at ht; exact ht.2)
      (fun h => by
        simp only [Prev.gap, Bool.and_eq_true, Bool.not_eq_true'] at h
        rw [← given_succ (n := n) (k := k) (t := t)]
        exact hg 0 (by rw [given_zero, ← present_eq]; exact h.1) h.2)
      (fun m h1 h2 => by
        rw [← given_succ (n := n) (k := k) (t := t)]
        exact hg (m + 1) (by rw [given_succ]; exact h1) (by rw [optionalAt_succ]; exact h2))
    refine ⟨⟨present t (effective k (cs.head?.getD none)), k.isOptional⟩ :: infos, ?_, ?_⟩
    · unfold scanGroup
      dsimp only
      rw [hv, if_neg (by
        rw [Bool.and_eq_true]
        rintro ⟨h1, h2⟩
        rw [hp h2] at h1
        cases h1), e]
      rfl
    · rw [List.length_cons, hl, Fields.length]

/-- If every group by itself can be sent, an error comes from two neighbours. -/
theorem encGroups_neighbours : ∀ (g : Groups) (cs : List (Option Val)) (prev : Option (List Prev)) {e : Err},
    (∀ i f o, Spec.groupAt g i = some (f, o) → f.length ≠ 0 ∧ Spec.ofTypeFields f (cs.drop o) = true ∧
      (∀ m, Spec.given f (cs.drop o) m = false → Spec.optionalAt f m = false → Spec.given f (cs.drop o) (m + 1) = false) ∧
      (Spec.anySubstantial f (cs.drop o) = true →
        Spec.fitsOpenType (.sequence false f .nil .nil) (.seq (cs.drop o)) = true)) →
    (∀ infos, prev = some infos → infos ≠ []) → encGroups g cs prev = .error e →
    e = .mandatoryExtensionFieldNotPresent ∧
    ((∃ infos f, prev = some infos ∧ infos.any (fun p => p.present || p.optional) = false ∧
        Spec.groupAt g 0 = some (f, 0) ∧ Spec.anySubstantial f cs = true) ∨
      ∃ i f o f' o', Spec.groupAt g i = some (f, o) ∧ Spec.groupAt g (i + 1) = some (f', o') ∧
        Spec.anySubstantial f (cs.drop o) = false ∧ Spec.hasOptional f = false ∧
        Spec.anySubstantial f' (cs.drop o') = true)
  | .nil, _, _, _, _, _, h => by simp [encGroups] at h
  | .cons f g, cs, prev, e, hf, hp, h => by
    obtain ⟨h0, ht, hg, hs⟩ := hf 0 f 0 rfl
    rw [List.drop_zero] at ht hg hs
    obtain ⟨infos, e1, hl⟩ := scanGroup_passes f cs none ht (fun h => nomatch h) hg
    simp only [encGroups] at h
    rw [e1] at h
    simp only [bind, Except.bind] at h
    cases hc : groupComponent (fun _ => encRoot f cs) prev infos with
    | error e' =>
      rw [hc] at h
      cases h
      unfold groupComponent at hc
      rw [scanGroup_any e1] at hc
      cases ha : Spec.anySubstantial f cs with
      | false => rw [ha] at hc; simp [pure, Except.pure] at hc
      | true =>
        rw [ha] at hc
        simp only [Bool.not_true, Bool.false_eq_true, if_false] at hc
        cases hpg : checkPreviousGroup prev with
        | error e'' =>
          rw [hpg] at hc
          cases hc
          unfold checkPreviousGroup at hpg
          cases prev with
          | none => cases hpg
          | some pi =>
            dsimp only at hpg
            by_cases hany : pi.any (fun p => p.present || p.optional) = true
            · rw [if_pos hany] at hpg; cases hpg
            · rw [if_neg hany, if_neg (by rw [List.isEmpty_iff]; exact hp pi rfl)] at hpg
              cases hpg
              exact ⟨rfl, .inl ⟨pi, f, rfl, by simpa using hany, rfl, ha⟩⟩
        | ok u =>
          exfalso
          obtain ⟨fs, e2, e3⟩ := fitsOpenType_ok (hs ha)
          obtain ⟨ofl, e4⟩ := openType_ok e3
          simp only [encTy] at e2
          obtain ⟨⟨opt, fl⟩, e5, e6⟩ := Except.bind_eq_ok e2
          obtain ⟨rf, e7, e8⟩ := Except.bind_eq_ok e6
          cases e8
          rw [hpg] at hc
          simp only [bind, Except.bind] at hc
          rw [e5] at hc
          dsimp only at hc e7
          rw [e7] at hc
          dsimp only at hc
          rw [e4] at hc
          cases hc
    | ok x =>
      rw [hc] at h
      dsimp only at h
      cases hr : encGroups g (cs.drop f.length) (some infos) with
      | ok y => rw [hr] at h; cases h
      | error e' =>
        rw [hr] at h
        cases h
        have := encGroups_neighbours g (cs.drop f.length) (some infos) (fun i f' o h1 => by
          have := hf (i + 1) f' (f.length + o) (by rw [Spec.groupAt, h1]; rfl)
          rwa [← List.drop_drop] at this) (fun i hi e => by
            cases hi
            rw [e] at hl
            exact h0 hl.symm) hr
        refine ⟨this.1, .inr ?_⟩
        rcases this.2 with ⟨i', f', hi, hn, h1, h2⟩ | ⟨i, f1, o, f2, o', g1, g2, g3, g4, g5⟩
        · cases hi
          rw [scanGroup_optional e1, Bool.or_eq_false_iff] at hn
          exact ⟨0, f, 0, f', f.length + 0, rfl, by rw [Spec.groupAt, h1]; rfl, hn.1, hn.2, h2⟩
        · refine ⟨i + 1, f1, f.length + o, f2, f.length + o', by rw [Spec.groupAt, g1]; rfl,
            by rw [Spec.groupAt, g2]; rfl, ?_, g4, ?_⟩
          · rw [← List.drop_drop]; exact g3
          · rw [← List.drop_drop]; exact g5

namespace Props
open Verif

/-- C24, exactly: if the root and every addition by itself can be encoded, MandatoryExtensionFieldNotPresent is raised if
and only if some addition is given right behind one that is neither given nor OPTIONAL.  (The claim is about any
later addition: `Findings.C24_hidden_gap`.) -/
theorem C24_exact {r a : Fields} {cs : List (Option Val)} (ht : Spec.ofTypeFields a (cs.drop r.length) = true)
    (hroot : ∃ fs, encTy (.sequence false r .nil .nil) (.seq cs) = .ok fs)
    (hadds : ∀ m n k t v, Spec.fieldAt a m = some (n, k, t) → Spec.held k ((cs.drop r.length)[m]?.getD none) = some v →
      Spec.given a (cs.drop r.length) m = true → Spec.fitsOpenType t v = true) :
    encode (.sequence true r a .nil) (.seq cs) = .error .mandatoryExtensionFieldNotPresent ↔
      ∃ m, Spec.given a (cs.drop r.length) m = false ∧ Spec.optionalAt a m = false ∧
        Spec.given a (cs.drop r.length) (m + 1) = true := by
  constructor
  · intro h
    obtain ⟨fs, hroot⟩ := hroot
    have h' : encTy (.sequence true r a .nil) (.seq cs) = .error .mandatoryExtensionFieldNotPresent := by
      unfold encode at h
      cases hx : encTy (.sequence true r a .nil) (.seq cs) with
      | error e => rw [hx] at h; simp only [bind, Except.bind] at h; cases h; rfl
      | ok fl =>
        obtain ⟨bs, hb⟩ := encode_of_encTy hx
        unfold encode at hb
        rw [h] at hb
        cases hb
    simp only [encTy] at hroot h'
    obtain ⟨⟨opt, fl⟩, e1, h2⟩ := Except.bind_eq_ok hroot
    obtain ⟨rf, e2, _⟩ := Except.bind_eq_ok h2
    rw [e1] at h'
    dsimp only [bind, Except.bind] at e2 h'
    rw [e2] at h'
    dsimp only at h'
    rw [if_pos trivial] at h'
    by_cases hz : a.length = 0 ∧ Groups.nil.length = 0
    · rw [if_pos hz] at h'; cases h'
    · rw [if_neg hz] at h'
      cases hA : encAdds a (cs.drop r.length) none with
      | error e =>
        rcases encAdds_neighbours a _ none (by simpa only [held_eq] using hadds) ht hA with ⟨hp, _⟩ | hm
        · cases hp
        · exact hm
      | ok x =>
        rw [hA] at h'
        simp only [encGroups] at h'
        obtain ⟨bits, fl'⟩ := x
        have hl := (adds_bits hA).1
        have hne : bits ++ [] ≠ [] := by
          intro e
          rw [List.append_nil] at e
          rw [e] at hl
          exact hz ⟨hl.symm, rfl⟩
        cases assembleSequence_error hne h'
  · rintro ⟨m, h1, h2, h3⟩
    have hm : m < a.length := by have := given_lt h3; omega
    exact C24_error_partial hm (Nat.lt_succ_self m) h1 h3
      (fun i hi hj => by rw [show i = m by omega]; exact h2) hroot hadds

/-- C24, exactly, with groups: if the root, every addition and every group by itself can be encoded (a group without a gap
among its own components), MandatoryExtensionFieldNotPresent is raised if and only if there is a gap between two additions,
or a group is given right behind one of which nothing is given and nothing is OPTIONAL.  A gap between the last addition
and the first group is none of them (`Findings.C24_group_after_gap`). -/
theorem C24_groups_exact {r a : Fields} {g : Groups} {cs : List (Option Val)}
    (ht : Spec.ofTypeFields a (cs.drop r.length) = true)
    (hroot : ∃ fs, encTy (.sequence false r .nil .nil) (.seq cs) = .ok fs)
    (hadds : ∀ m n k t v, Spec.fieldAt a m = some (n, k, t) → Spec.held k ((cs.drop r.length)[m]?.getD none) = some v →
      Spec.given a (cs.drop r.length) m = true → Spec.fitsOpenType t v = true)
    (hgroups : ∀ i f o, Spec.groupAt g i = some (f, o) →
      f.length ≠ 0 ∧ Spec.ofTypeFields f (cs.drop (r.length + a.length + o)) = true ∧
      (∀ m, Spec.given f (cs.drop (r.length + a.length + o)) m = false → Spec.optionalAt f m = false →
        Spec.given f (cs.drop (r.length + a.length + o)) (m + 1) = false) ∧
      (Spec.anySubstantial f (cs.drop (r.length + a.length + o)) = true →
        Spec.fitsOpenType (.sequence false f .nil .nil) (.seq (cs.drop (r.length + a.length + o))) = true)) :
    encode (.sequence true r a g) (.seq cs) = .error .mandatoryExtensionFieldNotPresent ↔
      (∃ m, Spec.given a (cs.drop r.length) m = false ∧ Spec.optionalAt a m = false ∧
        Spec.given a (cs.drop r.length) (m + 1) = true) ∨
      ∃ i f o f' o', Spec.groupAt g i = some (f, o) ∧ Spec.groupAt g (i + 1) = some (f', o') ∧
        Spec.anySubstantial f (cs.drop (r.length + a.length + o)) = false ∧ Spec.hasOptional f = false ∧
        Spec.anySubstantial f' (cs.drop (r.length + a.length + o')) = true := by
  have hgr := fun {e} => encGroups_neighbours g (cs.drop (r.length + a.length)) none (e := e)
    (fun i f o h => by rw [List.drop_drop]; exact hgroups i f o h) (fun _ h => nomatch h)
  constructor
  · intro h
    obtain ⟨fs, hroot⟩ := hroot
    have h' : encTy (.sequence true r a g) (.seq cs) = .error .mandatoryExtensionFieldNotPresent := by
      unfold encode at h
      cases hx : encTy (.sequence true r a g) (.seq cs) with
      | error e => rw [hx] at h; simp only [bind, Except.bind] at h; cases h; rfl
      | ok fl =>
        obtain ⟨bs, hb⟩ := encode_of_encTy hx
        unfold encode at hb
        rw [h] at hb
        cases hb
    simp only [encTy] at hroot h'
    obtain ⟨⟨opt, fl⟩, e1, h2⟩ := Except.bind_eq_ok hroot
    obtain ⟨rf, e2, _⟩ := Except.bind_eq_ok h2
    rw [e1] at h'
    dsimp only [bind, Except.bind] at e2 h'
    rw [e2] at h'
    dsimp only at h'
    rw [if_pos trivial] at h'
    by_cases hz : a.length = 0 ∧ g.length = 0
    · rw [if_pos hz] at h'; cases h'
    · rw [if_neg hz] at h'
      cases hA : encAdds a (cs.drop r.length) none with
      | error e =>
        rcases encAdds_neighbours a _ none (by simpa only [held_eq] using hadds) ht hA with ⟨hp, _⟩ | hm
        · cases hp
        · exact .inl hm
      | ok x =>
        rw [hA] at h'
        obtain ⟨bits, fl'⟩ := x
        dsimp only at h'
        cases hG : encGroups g (cs.drop (r.length + a.length)) none with
        | error e =>
          right
          rcases (hgr hG).2 with ⟨_, _, hp, _⟩ | ⟨i, f, o, f', o', g1, g2, g3, g4, g5⟩
          · cases hp
          · rw [List.drop_drop] at g3 g5
            exact ⟨i, f, o, f', o', g1, g2, g3, g4, g5⟩
        | ok y =>
          rw [hG] at h'
          obtain ⟨gbits, gfl⟩ := y
          have hl := (adds_bits hA).1
          have hl' := (groups_bits hG).1
          have hne : bits ++ gbits ≠ [] := by
            intro e
            have := congrArg List.length e
            rw [List.length_append, hl, hl', List.length_nil] at this
            exact hz ⟨by omega, by omega⟩
          cases assembleSequence_error hne h'
  · rintro (⟨m, h1, h2, h3⟩ | ⟨i, f, o, f', o', g1, g2, g3, g4, g5⟩)
    · have hm : m < a.length := by have := given_lt h3; omega
      exact C24_error_partial hm (Nat.lt_succ_self m) h1 h3
        (fun i hi hj => by rw [show i = m by omega]; exact h2) hroot hadds
    · apply encode_error
      obtain ⟨fs, hroot⟩ := hroot
      simp only [encTy] at hroot ⊢
      obtain ⟨⟨opt, fl⟩, e1, h2⟩ := Except.bind_eq_ok hroot
      obtain ⟨rf, e2, _⟩ := Except.bind_eq_ok h2
      rw [e1]
      dsimp only [bind, Except.bind] at e2 ⊢
      rw [e2]
      dsimp only
      have hz : g.length ≠ 0 := by
        cases g with
        | nil => simp [Spec.groupAt] at g1
        | cons => simp [Groups.length]
      rw [if_pos trivial, if_neg (by omega)]
      cases hA : encAdds a (cs.drop r.length) none with
      | error e =>
        rw [encAdds_error a _ none (by simpa only [held_eq] using hadds) hA]
      | ok x =>
        dsimp only
        obtain ⟨e, he⟩ := encGroups_gap g (cs.drop (r.length + a.length)) none i f f' o o' g1 g2
          (by rw [List.drop_drop]; exact g3) g4 (by rw [List.drop_drop]; exact g5)
        rw [he, (hgr he).1]

/-- Three additions; the second is missing, and what follows it is sent or is not. -/
private def sampleThree : Fields :=
  Fields.ofList [("b", .mandatory, .integer .noConstraint), ("c", .mandatory, .boolean), ("d", .mandatory, .boolean)]
private def sampleRootOf : Fields := Fields.ofList [("a", .mandatory, .boolean)]

example : encode (.sequence true sampleRootOf sampleThree .nil)
    (.seq [some (.bool true), some (.int (-300)), none, some (.bool false)]) =
      .error .mandatoryExtensionFieldNotPresent := by
  refine (C24_exact (by decide +kernel) ⟨_, rfl⟩ ?_).2 ⟨1, by decide +kernel, by decide +kernel, by decide +kernel⟩
  intro m n k t v hf hv _
  match m with
  | 0 => cases hf; cases hv; decide +kernel
  | 1 => cases hf; cases hv
  | 2 => cases hf; cases hv; decide +kernel
  | m + 3 => cases hf
example : encode (.sequence true sampleRootOf sampleThree .nil)
    (.seq [some (.bool true), some (.int (-300)), none, none]) ≠ .error .mandatoryExtensionFieldNotPresent := by
  decide +kernel

/-- Two groups; the first is missing, the second is given in part. -/
private def sampleTwo : Groups :=
  Groups.ofList [[("e", .mandatory, .boolean)], [("f", .mandatory, .integer .noConstraint), ("g", .optional, .boolean)]]

example : encode (.sequence true sampleRootOf .nil sampleTwo)
    (.seq [some (.bool true), none, some (.int 5), none]) = .error .mandatoryExtensionFieldNotPresent := by
  refine (C24_groups_exact (by decide +kernel) ⟨_, rfl⟩ (fun m n k t v h _ _ => by cases h) ?_).2
    (.inr ⟨0, _, _, _, _, rfl, rfl, by decide +kernel, by decide +kernel, by decide +kernel⟩)
  intro i f o h
  match i with
  | 0 =>
    cases h
    refine ⟨by decide, by decide +kernel, fun m _ _ => ?_, by decide +kernel⟩
    cases m <;> rfl
  | 1 =>
    cases h
    refine ⟨by decide, by decide +kernel, fun m h1 h2 => ?_, by decide +kernel⟩
    match m with
    | 0 => exact absurd h1 (by decide +kernel)
    | 1 => rfl
    | m + 2 => rfl
  | i + 2 => cases h

end Props
end Verif
