import Verif.Props.Exact
/-!
# C06, C07, C08: lists, alternatives and components carry whatever their contents carry

`C06_sequence_of_partial`, `C07_choice_root_partial` and `C08_sequence_root_partial` ask for contents that are `safe`; here
the contents are only asked to arrive as something, at any place of any message.
-/
namespace Verif

/-- Carrying, in terms of emitted bits. -/
theorem reads_everywhere {t : Ty} {v w : Val} (h : Spec.Carries t v w) : ∃ fs, encTy t v = .ok fs ∧
    ∀ pos, Reads (decTy t) pos (emit pos fs) w := by
  obtain ⟨fs, he, h⟩ := h
  refine ⟨fs, he, fun pos p rest hat => ?_⟩
  have hl : (List.replicate pos false).length = pos := List.length_replicate
  obtain ⟨p', e, hat'⟩ := h (List.replicate pos false) rest p (by
    rw [foldl_appendField, List.drop_left, readerAt_iff, hl]; exact hat)
  rw [foldl_appendField, readerAt_iff, List.length_append, hl] at hat'
  exact ⟨p', e, hat'⟩

theorem repeat_reads {t : Ty} : ∀ {vs ws : List Val}, vs.length = ws.length → (∀ p ∈ vs.zip ws, Spec.Carries t p.1 p.2) →
    ∃ fls, vs.mapM (encTy t) = .ok fls ∧ ∀ pos, Reads (repeatDec vs.length (decTy t)) pos (emit pos fls.flatten) ws
  | [], [], _, _ => ⟨[], rfl, fun pos => Reads.pure _ _⟩
  | v :: vs, w :: ws, hl, h => by
    obtain ⟨fl, e1, r1⟩ := reads_everywhere (h (v, w) (by simp))
    obtain ⟨fls, e2, r2⟩ := repeat_reads (vs := vs) (ws := ws) (by simpa using hl)
      (fun p hp => h p (by rw [List.zip_cons_cons]; exact List.mem_cons_of_mem _ hp))
    refine ⟨fl :: fls, by rw [List.mapM_cons, e1, e2]; rfl, fun pos => ?_⟩
    rw [List.flatten_cons, emit_append, List.length_cons]
    unfold repeatDec
    refine (r1 pos).bind ?_
    exact (r2 _).bind_pure (Reads.pure _ _)

theorem alt_at : ∀ {f : Fields} {i : Nat} {n : String} {k : Kind} {t : Ty}, Spec.fieldAt f i = some (n, k, t) →
    i < f.length ∧ (∀ v, encAlt f i v = encTy t v) ∧ decAlt f i = decTy t
  | .nil, _, _, _, _, h => by simp [Spec.fieldAt] at h
  | .cons n' k' t' r, 0, n, k, t, h => by
    simp only [Spec.fieldAt, Option.some.injEq, Prod.mk.injEq] at h
    obtain ⟨rfl, rfl, rfl⟩ := h
    exact ⟨by simp [Fields.length], fun v => by rw [encAlt], by rw [decAlt]⟩
  | .cons n' k' t' r, i + 1, n, k, t, h => by
    simp only [Spec.fieldAt] at h
    obtain ⟨h1, h2, h3⟩ := alt_at h
    exact ⟨by simp [Fields.length]; exact h1, fun v => by rw [encAlt]; exact h2 v, by rw [decAlt]; exact h3⟩

/-- A component of a SEQUENCE that holds `c` is acceptable and arrives as `d`: what is sent of it arrives, and what is not sent
is absent. -/
def Arrives (k : Kind) (t : Ty) (c d : Option Val) : Prop :=
  (match k with
   | .mandatory => (Spec.sent k t c).isSome = true
   | .optional => True
   | .default x => Spec.comparable x (c.getD x) = true) ∧
  match Spec.sent k t c with
  | some v => ∃ w, d = some w ∧ Spec.Carries t v w
  | none => d = none

/-- What the loop over the root components writes for one of them. -/
theorem component_arrives {k : Kind} {t : Ty} {c d : Option Val} (h : Arrives k t c d) :
    ∃ b fl, rootComponent (encTy t) k t c = .ok (b, fl) ∧ b = (if k.isOptional || k.isDefaulted then [d.isSome] else []) ∧
      (∀ w, d = some w → ∀ pos, Reads (decTy t) pos (emit pos fl) w) ∧ (d = none → fl = [] ∧ k ≠ .mandatory) := by
  obtain ⟨h1, h2⟩ := h
  have given : ∀ v, Spec.sent k t c = some v → ∃ fl w, d = some w ∧ encTy t v = .ok fl ∧
      ∀ pos, Reads (decTy t) pos (emit pos fl) w := by
    intro v hv
    rw [hv] at h2
    obtain ⟨w, rfl, hw⟩ := h2
    obtain ⟨fl, e, r⟩ := reads_everywhere hw
    exact ⟨fl, w, rfl, e, r⟩
  unfold rootComponent
  cases k with
  | mandatory =>
    cases c with
    | some v =>
      obtain ⟨fl, w, rfl, e, r⟩ := given v rfl
      exact ⟨[], fl, by simp only [e]; rfl, rfl, fun w e => by cases e; exact r, fun e => nomatch e⟩
    | none =>
      have hsn : Spec.sent .mandatory t none = emptyVal t := by simp [Spec.sent, untouched_eq]
      dsimp only
      cases hev : emptyVal t with
      | none => rw [hsn, hev] at h1; cases h1
      | some v =>
        obtain ⟨fl, w, rfl, e, r⟩ := given v (hsn.trans hev)
        exact ⟨[], fl, by simp only [e]; rfl, rfl, fun w e => by cases e; exact r, fun e => nomatch e⟩
  | optional =>
    dsimp only
    by_cases hp : present t c = true
    · cases c with
      | none => cases hp
      | some v =>
        obtain ⟨fl, w, rfl, e, r⟩ := given v (by rw [present_eq] at hp; simp [Spec.sent, hp])
        exact ⟨[true], fl, by rw [if_pos hp]; simp only [e]; rfl, rfl, fun w e => by cases e; exact r, fun e => nomatch e⟩
    · have hsn : Spec.sent .optional t c = none := by rw [present_eq] at hp; simp [Spec.sent, hp]
      rw [hsn] at h2
      cases h2
      exact ⟨[false], [], by rw [if_neg hp]; rfl, rfl, fun w e => (nomatch e), fun _ => ⟨rfl, by simp⟩⟩
  | default x =>
    cases c with
    | none =>
      obtain ⟨b, e⟩ := pyValueNe_ok (show Spec.comparable x x = true from h1)
      have hb : b = false := by
        rw [pyValueNe_eq e]; cases x <;> simp [Spec.sameAsDefault]
      subst hb
      cases h2
      exact ⟨[false], [], by simp only [e]; rfl, rfl, fun w e => (nomatch e), fun _ => ⟨rfl, by simp⟩⟩
    | some v =>
      obtain ⟨b, e⟩ := pyValueNe_ok (show Spec.comparable x v = true from h1)
      have hb := pyValueNe_eq e
      cases b
      · have hsd : Spec.sameAsDefault x v = true := by simpa using hb
        have hsn : Spec.sent (.default x) t (some v) = none := by simp [Spec.sent, hsd]
        rw [hsn] at h2
        cases h2
        exact ⟨[false], [], by simp only [e]; rfl, rfl, fun w e => (nomatch e), fun _ => ⟨rfl, by simp⟩⟩
      · have hsd : Spec.sameAsDefault x v = false := by simpa using hb
        obtain ⟨fl, w, rfl, e', r⟩ := given v (by simp [Spec.sent, hsd])
        exact ⟨[true], fl, by simp only [e, e']; rfl, rfl, fun w e => by cases e; exact r, fun e => nomatch e⟩

theorem root_arrives : ∀ {r : Fields} {cs ds : List (Option Val)}, ds.length = r.length →
    (∀ i n k t, Spec.fieldAt r i = some (n, k, t) → Arrives k t (cs[i]?.getD none) (ds[i]?.getD none)) →
    ∃ bits fs, encRoot r cs = .ok (bits, fs) ∧ bits.length = r.optionalCount ∧
      ∀ pos, Reads (decRoot r bits) pos (emit pos fs) ds
  | .nil, cs, [], _, _ => ⟨[], [], rfl, rfl, fun pos => Reads.pure _ _⟩
  | .cons n k t r, cs, d :: ds, hl, h => by
    have h0 := h 0 n k t rfl
    have hc : cs[0]?.getD none = cs.head?.getD none := by cases cs <;> rfl
    rw [hc] at h0
    obtain ⟨b, fl, e1, hb, hd, hn⟩ := component_arrives h0
    obtain ⟨bs, fls, e2, hlen, hr⟩ := root_arrives (r := r) (cs := cs.tail) (ds := ds)
      (by simpa [Fields.length] using hl) (fun i n' k' t' hf => by
        have := h (i + 1) n' k' t' hf
        rw [List.getElem?_cons_succ] at this
        rwa [List.getElem?_tail])
    refine ⟨b ++ bs, fl ++ fls, by simp only [encRoot, e1, bind, Except.bind, e2]; rfl, ?_, fun pos => ?_⟩
    · subst hb
      cases k <;> simp [Fields.optionalCount, Kind.isOptional, Kind.isDefaulted, hlen, Nat.add_comm]
    · rw [emit_append]
      simp only [List.getElem?_cons_zero, Option.getD_some] at hb hd hn
      cases d with
      | some w =>
        cases k with
        | mandatory =>
          subst hb
          simp only [Kind.isOptional, Kind.isDefaulted, Bool.or_self, Bool.false_eq_true, if_false, List.nil_append, decRoot]
          exact Reads.some_cons (hd _ rfl pos) (hr _)
        | _ =>
          subst hb
          simp only [Kind.isOptional, Kind.isDefaulted, Bool.or_false, Bool.or_true, Option.isSome_some, List.singleton_append, decRoot, if_true]
          exact Reads.some_cons (hd _ rfl pos) (hr _)
      | none =>
        obtain ⟨rfl, hk⟩ := hn rfl
        cases k with
        | mandatory => exact absurd rfl hk
        | _ =>
          subst hb
          simp only [Kind.isOptional, Kind.isDefaulted, Bool.or_false, Bool.or_true, if_true, Option.isSome_none, List.singleton_append, decRoot, Bool.false_eq_true, if_false]
          exact Reads.none_cons (hr _)

namespace Props
open Verif

/-- C06 for any elements: if each element arrives as something, the list arrives as the list of these, in order, exactly if
its length is one that arrives (`Spec.safeCount`). -/
theorem C06_elements {c : SizeC} {t : Ty} {vs ws : List Val} (hl : vs.length = ws.length)
    (h : ∀ p ∈ vs.zip ws, Spec.Carries t p.1 p.2) :
    Spec.Carries (.seqOf c t) (.seqOf vs) (.seqOf ws) ↔ Spec.safeCount c vs.length = true := by
  constructor
  · exact fun hc => count_exact hl.symm (back_of_carries hc)
  · intro hc
    obtain ⟨fls, e1, r1⟩ := repeat_reads hl h
    obtain ⟨pre, e2, r2⟩ := seqOfCount_rt hc
    refine carries_of_reads (fs := pre ++ fls.flatten) (by
      simp only [encTy, e1, bind, Except.bind]; exact e2 _) fun pos => ?_
    rw [emit_append, decTy]
    refine (r2 pos).bind ?_
    simp only [Int.toNat_natCast]
    exact (r1 _).bind_pure (Reads.pure _ _)

/-- The empty BIT STRING arrives as the string of one zero (F3). -/
theorem empty_as_zero : Spec.Carries (.bitString ⟨false, none, none⟩) (.bits []) (.bits [false]) := by
  obtain ⟨fs, he, h⟩ := (C04_exact_unconstrained [false]).2 (by decide)
  exact ⟨fs, he, h⟩

/-- So does one between others in a list. -/
example : Spec.Carries (.seqOf ⟨false, some 0, some 10⟩ (.bitString ⟨false, none, none⟩))
    (.seqOf [.bits [true], .bits [], .bits [true, false]]) (.seqOf [.bits [true], .bits [false], .bits [true, false]]) := by
  rw [C06_elements]
  · decide +kernel
  · rfl
  intro p hp
  simp only [List.zip_cons_cons, List.zip_nil_right, List.mem_cons, List.not_mem_nil, or_false] at hp
  rcases hp with rfl | rfl | rfl
  · exact (C04_exact_unconstrained _).2 (by decide)
  · exact empty_as_zero
  · exact (C04_exact_unconstrained _).2 (by decide)

/-- C07 for any alternative of the root: whatever its value arrives as, the CHOICE arrives as that alternative with it. -/
theorem C07_alternative {ext : Bool} {r a : Fields} {g : Groups} {pos : Nat} {v w : Val} {n : String} {k : Kind} {t : Ty}
    (hp : Spec.fieldAt r pos = some (n, k, t)) (hn : Spec.unsignedFits 65536 r.length = true) (h : Spec.Carries t v w) :
    Spec.Carries (.choice ext r a g) (.choice pos v) (.choice pos w) := by
  obtain ⟨hr, he, hdec⟩ := alt_at hp
  obtain ⟨fl, e1, hd⟩ := reads_everywhere h
  rw [← he] at e1
  rw [← hdec] at hd
  obtain ⟨ixf, i1, i2⟩ := choiceIndex_rt hr hn
  have tail : ∀ p, Reads (if r.length = 1 then do
        let v ← decAlt r 0
        return Val.choice 0 v
      else do
        let i ← decodeConstrainedFromFieldList (some 0) (some ((r.length : Int) - 1))
        let v ← decAlt r i.toNat
        return Val.choice i.toNat v) p (emit p (if r.length = 1 then fl else ixf ++ fl)) (Val.choice pos w) := by
    intro p
    by_cases h1 : r.length = 1
    · simp only [h1, if_true]
      have : pos = 0 := by omega
      subst this
      exact (hd p).bind_pure (Reads.pure _ _)
    · simp only [h1, if_false]
      rw [emit_append]
      refine (i2 p).bind ?_
      simp only [Int.toNat_natCast]
      exact (hd _).bind_pure (Reads.pure _ _)
  cases ext with
  | false =>
    refine carries_of_reads (fs := if r.length = 1 then fl else ixf ++ fl) ?_ fun q => ?_
    · simp only [encTy, hr, if_true, e1, bind, Except.bind, assembleChoice, Bool.not_false, i1, pure, Except.pure]
      split <;> rfl
    · rw [decTy]
      simp only [Bool.not_false, if_true]
      exact tail q
  | true =>
    refine carries_of_reads (fs := ⟨false, [false]⟩ :: (if r.length = 1 then fl else ixf ++ fl)) ?_ fun q => ?_
    · simp only [encTy, hr, if_true, e1, bind, Except.bind, assembleChoice, Bool.not_true, Bool.false_eq_true, if_false, i1,
        pure, Except.pure]
      split <;> rfl
    · rw [decTy, emit_bit]
      simp only [Bool.not_true, Bool.false_eq_true, if_false]
      refine (Reads.bit q false).bind ?_
      simp only [Bool.false_eq_true, if_false, if_true]
      exact tail _

/-- The second of two alternatives, with a value that arrives changed. -/
example : Spec.Carries (.choice false (Fields.ofList [("a", .mandatory, .boolean), ("b", .mandatory, .bitString ⟨false, none, none⟩)])
      .nil .nil) (.choice 1 (.bits [])) (.choice 1 (.bits [false])) :=
  C07_alternative (n := "b") (k := .mandatory) rfl (by decide +kernel) empty_as_zero

/-- C08 for any components of a SEQUENCE without extension additions (with or without the marker): if every component that is
sent arrives as something, the SEQUENCE arrives with these, and without the components that are not sent. -/
theorem C08_components {ext : Bool} {r : Fields} {cs ds : List (Option Val)} (hl : ds.length = r.length)
    (ho : Spec.optionals r < 65536)
    (h : ∀ i n k t, Spec.fieldAt r i = some (n, k, t) → Arrives k t (cs[i]?.getD none) (ds[i]?.getD none)) :
    Spec.Carries (.sequence ext r .nil .nil) (.seq cs) (.seq ds) := by
  obtain ⟨bits, fl, e1, hlen, hr⟩ := root_arrives hl h
  have hob := encRoot_bits_length r cs e1
  obtain ⟨rf, e2⟩ := optionalBits_ok (fl := fl) (opt := bits) (by omega)
  cases ext with
  | false =>
    refine carries_of_reads (fs := rf) ?_ fun pos => ?_
    · simp only [encTy, e1, bind, Except.bind, e2]; rfl
    · rw [decTy]
      simp only [Bool.false_eq_true, if_false]
      refine Reads.bind_nil (Reads.pure _ _) ?_
      rw [← hlen]
      refine optionalBits_rt e2 (fun p => ?_) pos
      refine (hr p).bind_pure ?_
      simp only [Fields.length, Groups.size, Nat.add_zero, List.replicate_zero, List.append_nil]
      exact Reads.pure _ _
  | true =>
    refine carries_of_reads (fs := ⟨false, [false]⟩ :: rf) ?_ fun pos => ?_
    · simp only [encTy, e1, bind, Except.bind, e2]; rfl
    · rw [decTy, emit_bit]
      simp only [if_true]
      refine (Reads.bit pos false).bind ?_
      rw [← hlen]
      refine optionalBits_rt e2 (fun p => ?_) _
      refine (hr p).bind_pure ?_
      simp only [Fields.length, Groups.size, Nat.add_zero, List.replicate_zero, List.append_nil]
      exact Reads.pure _ _

/-- A component that arrives changed, beside one that is absent and one left at its DEFAULT. -/
example : Spec.Carries (.sequence true (Fields.ofList [("a", .mandatory, .bitString ⟨false, none, none⟩), ("b", .optional, .boolean),
      ("c", .default (.bool true), .boolean)]) .nil .nil)
    (.seq [some (.bits []), none, some (.bool true)]) (.seq [some (.bits [false]), none, none]) := by
  refine C08_components rfl (by decide) fun i n k t hf => ?_
  match i with
  | 0 => cases hf; exact ⟨rfl, _, rfl, empty_as_zero⟩
  | 1 => cases hf; exact ⟨trivial, rfl⟩
  | 2 =>
    cases hf
    have hs : Spec.sent (.default (.bool true)) .boolean (some (.bool true)) = none := by decide +kernel
    refine ⟨rfl, ?_⟩
    show (match Spec.sent (.default (.bool true)) .boolean (some (.bool true)) with
      | some v => ∃ w, none = some w ∧ Spec.Carries .boolean v w
      | none => (none : Option Val) = none)
    rw [hs]
  | i + 3 => cases hf

end Props
end Verif
