import Verif.Lemmas.Extent
/-!
# Lemmas for C61: constructed types, and bounds from the type alone
-/
set_option linter.unusedSimpArgs false
namespace Verif
open Spec

theorem count_sized {c : SizeC} {n m : Nat} {es fl : List BitField} (hes : Sized es m)
    (h : encodeSequenceOf c n es = .ok fl) : Sized fl (markBits c.ext + countBits c n + m) := by
  have field : ∀ {l u : Nat} {ld : List BitField}, c.lower = some l → c.upper = some u →
      encodeLengthDeterminant false true n c.lowerZ c.upperZ = .ok ld → l ≤ u ∧ Sized ld (fieldBits l u n) := by
    intro l u ld hl hu h
    have e1 : c.lowerZ = some (l : Int) := by simp [SizeC.lowerZ, hl]
    have e2 : c.upperZ = some (u : Int) := by simp [SizeC.upperZ, hu]
    rw [e1, e2] at h
    unfold encodeLengthDeterminant at h
    simp only [Bool.false_eq_true, if_false, if_true] at h
    obtain ⟨f, hf, h⟩ := Except.bind_eq_ok h
    cases h
    have hd : Done (encodeConstrainedWholeNumber (n : Int) (some (l : Int)) (some (u : Int))) := ⟨f, hf⟩
    rw [cwn_done, takesRange_iff] at hd
    exact ⟨by omega, (cwn_shape hf).1⟩
  unfold encodeSequenceOf at h
  unfold countBits markBits
  cases he : c.ext with
  | true =>
    simp only [he, if_true] at h ⊢
    rcases chain_inv h with ⟨l, u, hl, hu, h1, h2, h⟩ | ⟨l, hl, ho, h⟩
    · obtain ⟨ld, hld, h⟩ := Except.bind_eq_ok h
      cases h
      obtain ⟨_, hs⟩ := field hl hu hld
      have hun : unlimited false c l u n = false := by
        unfold unlimited
        simp [h1, h2]; omega
      rw [hl, hu]
      simp only [hun, Bool.false_eq_true, if_false]
      exact Sized.append (Sized.cons hs) hes
    · obtain ⟨ld, hld, h⟩ := Except.bind_eq_ok h
      cases h
      have hs := Sized.append (Sized.cons (b := true) (length_sized hld)) hes
      rw [hl]
      cases hu : c.upper with
      | none => exact hs
      | some u =>
        have hun : unlimited false c l u n = true := by
          have := ho u hu
          unfold unlimited
          simp [he]
          omega
        simpa [hun] using hs
  | false =>
    simp only [he, Bool.false_eq_true, if_false, Nat.zero_add] at h ⊢
    cases hl : c.lower with
    | none => rw [hl] at h; cases h
    | some l =>
      rw [hl] at h
      dsimp only at h
      split at h
      · cases h
      rename_i hn
      cases hu : c.upper with
      | none =>
        rw [hu] at h
        dsimp only at h
        obtain ⟨ld, hld, h⟩ := Except.bind_eq_ok h
        cases h
        exact Sized.append (length_sized hld) hes
      | some u =>
        rw [hu] at h
        dsimp only at h ⊢
        split at h
        · cases h
        rename_i h1
        split at h
        · rename_i h2
          cases h
          exact hes.mono (by omega)
        · rename_i h2
          split at h
          · rename_i h3
            obtain ⟨ld, hld, h⟩ := Except.bind_eq_ok h
            cases h
            obtain ⟨hlu, hs⟩ := field hl hu hld
            have hun : unlimited false c l u n = false := by
              unfold unlimited
              simp [he]; omega
            simp only [hun, Bool.false_eq_true, if_false]
            exact Sized.append hs hes
          · rename_i h3
            obtain ⟨ld, hld, h⟩ := Except.bind_eq_ok h
            cases h
            have hun : unlimited false c l u n = true := by
              unfold unlimited
              simp [he]; omega
            simp only [hun, if_true]
            exact Sized.append (length_sized hld) hes

/-! ## open types and CHOICE -/

theorem countedBits_mono {a b x y : Nat} (h : a ≤ b) (h' : x ≤ y) : countedBits a x ≤ countedBits b y := by
  unfold countedBits
  repeat' split
  all_goals omega

theorem lengthBits_mono {a b : Nat} (h : a ≤ b) : lengthBits a ≤ lengthBits b := by
  unfold lengthBits
  repeat' split
  all_goals omega

theorem openBits_mono {a b : Nat} (h : a ≤ b) : openBits a ≤ openBits b :=
  countedBits_mono (octetsFor_mono h) (by have := octetsFor_mono h; omega)

theorem le_openBits (n : Nat) : n ≤ openBits n := by
  unfold openBits countedBits octetsFor; omega

theorem open_sized {fl ofl : List BitField} {n : Nat} (hs : Sized fl n) (h : encodeOpenTypeField fl = .ok ofl) :
    Sized ofl (openBits n) := by
  unfold encodeOpenTypeField at h
  dsimp only at h
  obtain ⟨ld, hld, h⟩ := Except.bind_eq_ok h
  cases h
  refine (counted_sized hld true _).mono ?_
  have h1 := hs.complete
  refine countedBits_mono h1 ?_
  rw [complete_length] at h1 ⊢
  omega

theorem choice_sized {ext none : Bool} {n pos m : Nat} {fl fs : List BitField} (hs : Sized fl m)
    (h : assembleChoice ext n none pos fl = .ok fs) :
    Sized fs (markBits ext + if pos < n then rangeBits 0 ((n : Int) - 1) pos + m else smallBits (pos - n) + openBits m) := by
  have hopen := le_openBits m
  unfold assembleChoice at h
  unfold markBits
  cases ext with
  | false =>
    simp only [Bool.not_false, if_true, Bool.false_eq_true, if_false, Nat.zero_add] at h ⊢
    split at h
    · cases h
      exact hs.mono (by split <;> omega)
    · split at h
      · rename_i hp
        obtain ⟨ix, hix, h⟩ := Except.bind_eq_ok h
        cases h
        rw [if_pos hp]
        exact Sized.append (range_sized hix) hs
      · cases h; exact Sized.nil _
  | true =>
    simp only [Bool.not_true, Bool.false_eq_true, if_false, if_true] at h ⊢
    split at h
    · rename_i hp
      rw [if_pos hp]
      split at h
      · cases h
        exact (Sized.cons hs).mono (by omega)
      · obtain ⟨ix, hix, h⟩ := Except.bind_eq_ok h
        cases h
        exact (Sized.append (Sized.cons (b := false) (range_sized hix)) hs).mono (by omega)
    · rename_i hp
      rw [if_neg hp]
      split at h
      · cases h
      · obtain ⟨ix, hix, h⟩ := Except.bind_eq_ok h
        obtain ⟨ofl, hofl, h⟩ := Except.bind_eq_ok h
        cases h
        exact (Sized.append (Sized.cons (b := true) (small_sized hix)) (open_sized hs hofl)).mono (by omega)

/-! ## components -/

theorem component_sized {enc : Val → Except Err (List BitField)} {e : Val → Nat} (he : ∀ v fl, enc v = .ok fl → Sized fl (e v))
    {k : Kind} {t : Ty} {c : Option Val} {b : Bits} {fl : List BitField} (h : rootComponent enc k t c = .ok (b, fl)) :
    Sized fl (match sent k t c with | some v => e v | none => 0) := by
  unfold rootComponent at h
  have one : ∀ {x : Bits} {v : Val}, (enc v >>= fun fl => (pure (x, fl) : Except Err (Bits × List BitField))) = .ok (b, fl) →
      Sized fl (e v) := by
    intro x v h
    obtain ⟨fl', h', h⟩ := Except.bind_eq_ok h
    cases h
    exact he v fl h'
  cases k with
  | mandatory =>
    cases c with
    | some v => simp only [sent]; exact one h
    | none =>
      simp only [sent, untouched_eq]
      dsimp only at h
      cases hv : emptyVal t with
      | none => rw [hv] at h; cases h
      | some v => rw [hv] at h; exact one h
  | optional =>
    simp only [sent, present_eq] at h ⊢
    split at h
    · rename_i hp
      rw [if_pos hp]
      cases c with
      | none => cases h
      | some v => exact one h
    · rename_i hp
      rw [if_neg hp]
      cases h
      exact Sized.nil _
  | default d =>
    have two : ∀ v, (pyValueNe d v >>= fun ne => if ne = true then enc v >>= fun fl => pure ([true], fl) else pure ([false], [])) =
        .ok (b, fl) → Sized fl (if sameAsDefault d v then 0 else e v) := by
      intro v h
      obtain ⟨ne, hne, h⟩ := Except.bind_eq_ok h
      have := pyValueNe_eq hne
      cases hs : sameAsDefault d v with
      | true =>
        rw [hs] at this; subst this
        cases h
        exact Sized.nil _
      | false =>
        rw [hs] at this; subst this
        simpa using one h
    cases c with
    | some v =>
      simp only [sent]
      have := two v h
      cases hs : sameAsDefault d v <;> rw [hs] at this <;> simpa using this
    | none =>
      simp only [sent]
      have := two d h
      have hd : sameAsDefault d d = true := by cases d <;> simp [sameAsDefault]
      rw [hd] at this
      simpa using this

theorem addition_sized {enc : Val → Except Err (List BitField)} {e : Val → Nat} (he : ∀ v fl, enc v = .ok fl → Sized fl (e v))
    {t : Ty} {prev : Option Prev} {c : Option Val} {b : Bool} {fl : List BitField} (h : additionComponent enc t prev c = .ok (b, fl)) :
    Sized fl (c.elim 0 fun v => if substantial t (some v) then openBits (e v) else 0) := by
  unfold additionComponent at h
  cases c with
  | none => cases h; exact Sized.nil _
  | some v =>
    simp only [Option.elim] at h ⊢
    have hp := present_eq t (some v)
    simp only [present] at hp
    rw [← hp]
    split at h
    · rename_i hv
      split at h
      · cases h
      · split at h
        · rename_i hc
          obtain ⟨fl', h', h⟩ := Except.bind_eq_ok h
          obtain ⟨ofl, h2, h⟩ := Except.bind_eq_ok h
          cases h
          simp only [hv, hc, Bool.and_self, if_true]
          exact open_sized (he v fl' h') h2
        · cases h; exact Sized.nil _
    · cases h; exact Sized.nil _

theorem optionalBits_sized {opt : Bits} {fl rf : List BitField} {n : Nat} (hs : Sized fl n) (h : withOptionalBits opt fl = .ok rf) :
    Sized rf (opt.length + n) := by
  unfold withOptionalBits at h
  split at h
  · cases h; exact hs.mono (by omega)
  · split at h
    · cases h
      exact Sized.append (a := [⟨false, opt⟩]) (Sized.bits opt) hs
    · cases h

theorem mapM_sized {f : Val → Except Err (List BitField)} {e : Val → Nat} (he : ∀ v fl, f v = .ok fl → Sized fl (e v)) :
    ∀ {vs : List Val} {fls : List (List BitField)}, vs.mapM f = .ok fls → Sized fls.flatten (total (vs.map e))
  | [], fls, h => by cases h; exact Sized.nil _
  | v :: vs, fls, h => by
    rw [List.mapM_cons] at h
    obtain ⟨a, h1, h⟩ := Except.bind_eq_ok h
    obtain ⟨b, h2, h⟩ := Except.bind_eq_ok h
    cases h
    simp only [List.flatten_cons, List.map_cons, total]
    exact Sized.append (he v a h1) (mapM_sized he h2)

mutual
theorem sized_ty : ∀ (t : Ty) (v : Val) (fl : List BitField), encTy t v = .ok fl → Sized fl (extent t v)
  | .boolean, v, fl, h => by
    cases v with
    | bool b => simp only [encTy, extent] at *; cases h; exact Sized.bits [b]
    | _ => simp only [encTy] at h; cases h
  | .integer c, v, fl, h => by
    cases v with
    | int z => simp only [encTy, extent] at *; exact int_sized h
    | _ => simp only [encTy] at h; cases h
  | .enumerated ext root add, v, fl, h => by
    cases v with
    | enum z => simp only [encTy, extent] at *; exact enum_sized h
    | _ => simp only [encTy] at h; cases h
  | .bitString c, v, fl, h => by
    cases v with
    | bits b => simp only [encTy, extent] at *; exact bits_sized h
    | _ => simp only [encTy] at h; cases h
  | .octetString c, v, fl, h => by
    cases v with
    | octets o => simp only [encTy, extent] at *; exact octets_sized h
    | _ => simp only [encTy] at h; cases h
  | .seqOf c t, v, fl, h => by
    cases v with
    | seqOf vs =>
      simp only [encTy, extent] at *
      obtain ⟨fls, h1, h⟩ := Except.bind_eq_ok h
      exact count_sized (mapM_sized (fun v fl => sized_ty t v fl) h1) h
    | _ => simp only [encTy] at h; cases h
  | .choice ext r a g, v, fl, h => by
    cases v with
    | choice pos v =>
      simp only [encTy, extent] at *
      obtain ⟨fs, h1, h⟩ := Except.bind_eq_ok h
      by_cases hr : pos < r.length
      · rw [if_pos hr] at h1
        have := choice_sized (sized_alt r pos v fs h1) h
        rw [if_pos hr] at this ⊢
        exact this
      · rw [if_neg hr] at h1
        have key : ∀ m, Sized fs m → Sized fl (markBits ext + (smallBits (pos - r.length) + openBits m)) := by
          intro m hm
          have := choice_sized hm h
          rwa [if_neg hr] at this
        rw [if_neg hr]
        by_cases ha : pos < r.length + a.length
        · rw [if_pos ha] at h1 ⊢
          exact key _ (sized_alt a _ v fs h1)
        · rw [if_neg ha] at h1 ⊢
          exact key _ (sized_altG g _ v fs h1)
    | _ => simp only [encTy] at h; cases h
  | .sequence ext r a g, v, fl, h => by
    cases v with
    | seq cs =>
      simp only [encTy, extent] at *
      obtain ⟨⟨opt, fs⟩, h1, h⟩ := Except.bind_eq_ok h
      obtain ⟨rf, h2, h⟩ := Except.bind_eq_ok h
      have hr := optionalBits_sized (sized_root r cs opt fs h1) h2
      rw [encRoot_bits_length r cs h1] at hr
      unfold markBits
      cases ext with
      | false =>
        simp only [Bool.false_eq_true, if_false] at h ⊢
        cases h
        exact hr.mono (by omega)
      | true =>
        simp only [if_true] at h ⊢
        split at h
        · cases h
          exact (Sized.cons hr).mono (by omega)
        · obtain ⟨⟨ab, af⟩, h3, h⟩ := Except.bind_eq_ok h
          obtain ⟨⟨gb, gf⟩, h4, h⟩ := Except.bind_eq_ok h
          have hb : (ab ++ gb).length = a.length + g.length := by
            rw [List.length_append, (adds_bits h3).1, (groups_bits h4).1]
          have ha := Sized.append (sized_adds a _ _ ab af h3) (sized_groups g _ _ gb gf h4)
          dsimp only at h
          unfold assembleSequence at h
          obtain ⟨n, h5, h⟩ := Except.bind_eq_ok h
          split at h
          · obtain ⟨ld, h6, h⟩ := Except.bind_eq_ok h
            cases h
            have hld : Sized ld 7 := by
              unfold encodeLengthDeterminant at h6
              simp only [if_true] at h6
              split at h6
              · obtain ⟨f, hf, h6⟩ := Except.bind_eq_ok h6
                cases h6
                obtain ⟨s1, s2⟩ := nonNeg_shape hf
                obtain ⟨al, w⟩ := f
                simp only at s1 s2
                subst s1
                refine (Sized.cons (Sized.bits w)).mono ?_
                have : digits (((ab ++ gb).length : Int) - 1).toNat ≤ 6 := by
                  rw [digits, ← pyBin_length]; exact pyBin_length_le (by omega) (by omega)
                rw [s2]; omega
              · cases h6
            have := Sized.append (Sized.append (Sized.append (Sized.cons (b := true) hr) hld) (Sized.bits (ab ++ gb))) ha
            rw [hb] at this
            exact this.mono (by omega)
          · cases h
            exact (Sized.cons hr).mono (by omega)
    | _ => simp only [encTy] at h; cases h
theorem sized_alt : ∀ (r : Fields) (p : Nat) (v : Val) (fl : List BitField), encAlt r p v = .ok fl → Sized fl (extentAlt r p v)
  | .nil, _, _, _, h => by simp only [encAlt] at h; cases h
  | .cons _ _ t _, 0, v, fl, h => by simp only [encAlt, extentAlt] at *; exact sized_ty t v fl h
  | .cons _ _ _ r, p + 1, v, fl, h => by simp only [encAlt, extentAlt] at *; exact sized_alt r p v fl h
theorem sized_altG : ∀ (g : Groups) (p : Nat) (v : Val) (fl : List BitField), encAltG g p v = .ok fl → Sized fl (extentAltG g p v)
  | .nil, _, _, _, h => by simp only [encAltG] at h; cases h
  | .cons f g, p, v, fl, h => by
    simp only [encAltG, extentAltG] at *
    split at h
    · rename_i hp; rw [if_pos hp]; exact sized_alt f p v fl h
    · rename_i hp; rw [if_neg hp]; exact sized_altG g _ v fl h
theorem sized_root : ∀ (r : Fields) (cs : List (Option Val)) (b : Bits) (fl : List BitField), encRoot r cs = .ok (b, fl) →
    Sized fl (extentRoot r cs)
  | .nil, _, _, _, h => by simp only [encRoot] at h; cases h; exact Sized.nil _
  | .cons n k t r, cs, b, fl, h => by
    simp only [encRoot, extentRoot] at *
    obtain ⟨⟨b1, f1⟩, h1, h⟩ := Except.bind_eq_ok h
    obtain ⟨⟨b2, f2⟩, h2, h⟩ := Except.bind_eq_ok h
    cases h
    exact Sized.append (component_sized (fun v fl => sized_ty t v fl) h1) (sized_root r cs.tail b2 f2 h2)
theorem sized_adds : ∀ (a : Fields) (cs : List (Option Val)) (prev : Option Prev) (b : Bits) (fl : List BitField),
    encAdds a cs prev = .ok (b, fl) → Sized fl (extentAdds a cs)
  | .nil, _, _, _, _, h => by simp only [encAdds] at h; cases h; exact Sized.nil _
  | .cons n k t r, cs, prev, b, fl, h => by
    simp only [encAdds, extentAdds] at *
    obtain ⟨⟨b1, f1⟩, h1, h⟩ := Except.bind_eq_ok h
    obtain ⟨⟨b2, f2⟩, h2, h⟩ := Except.bind_eq_ok h
    cases h
    have := addition_sized (fun v fl => sized_ty t v fl) h1
    rw [← held_eq] at this
    refine Sized.append ?_ (sized_adds r cs.tail _ b2 f2 h2)
    cases hh : held k (cs.head?.getD none) with
    | none => rw [hh] at this; exact this
    | some v => rw [hh] at this; exact this
theorem sized_groups : ∀ (g : Groups) (cs : List (Option Val)) (prev : Option (List Prev)) (b : Bits) (fl : List BitField),
    encGroups g cs prev = .ok (b, fl) → Sized fl (extentGroups g cs)
  | .nil, _, _, _, _, h => by simp only [encGroups] at h; cases h; exact Sized.nil _
  | .cons f g, cs, prev, b, fl, h => by
    simp only [encGroups, extentGroups] at *
    obtain ⟨infos, h0, h⟩ := Except.bind_eq_ok h
    obtain ⟨⟨b1, f1⟩, h1, h⟩ := Except.bind_eq_ok h
    obtain ⟨⟨b2, f2⟩, h2, h⟩ := Except.bind_eq_ok h
    cases h
    refine Sized.append ?_ (sized_groups g _ _ b2 f2 h2)
    unfold groupComponent at h1
    rw [scanGroup_any h0] at h1
    cases hs : anySubstantial f cs with
    | false =>
      simp only [hs, Bool.not_false, if_true] at h1
      cases h1; exact Sized.nil _
    | true =>
      simp only [hs, Bool.not_true, Bool.false_eq_true, if_false, if_true] at h1 ⊢
      obtain ⟨_, _, h1⟩ := Except.bind_eq_ok h1
      obtain ⟨⟨opt, fs⟩, h3, h1⟩ := Except.bind_eq_ok h1
      obtain ⟨rf, h4, h1⟩ := Except.bind_eq_ok h1
      obtain ⟨ofl, h5, h1⟩ := Except.bind_eq_ok h1
      cases h1
      have hr := optionalBits_sized (sized_root f cs opt fs h3) h4
      rw [encRoot_bits_length f cs h3] at hr
      exact open_sized hr h5
end

/-! ## from the type alone -/

theorem digits_mono {a b : Nat} (h : a ≤ b) : digits a ≤ digits b := Nat.succ_le_succ (log2_mono h)

theorem octetsOf_mono {a b : Nat} (h : a ≤ b) : octetsOf a ≤ octetsOf b := by
  have := log2_mono h
  unfold octetsOf; omega

theorem fieldBits_mono (l u : Int) {y z : Int} (h : y ≤ z) : fieldBits l u y ≤ fieldBits l u z := by
  have h1 := digits_mono (a := (y - l).toNat) (b := (z - l).toNat) (by omega)
  have h2 := octetsOf_mono (a := (y - l).toNat) (b := (z - l).toNat) (by omega)
  unfold fieldBits
  repeat' split
  all_goals omega

theorem rangeBits_mono (l u : Int) {y z : Int} (h : y ≤ z) : rangeBits l u y ≤ rangeBits l u z := by
  have h2 := octetsOf_mono (a := (y - l).toNat) (b := (z - l).toNat) (by omega)
  have h3 := fieldBits_mono l u h
  have h4 := fieldBits_mono 1 (octetsOf (u - l).toNat) (y := octetsOf (y - l).toNat) (z := octetsOf (z - l).toNat) (by omega)
  unfold rangeBits
  split
  · exact h3
  · omega

theorem smallBits_mono {a b : Nat} (h : a ≤ b) : smallBits a ≤ smallBits b := by
  have h2 := octetsOf_mono h
  have h3 := countedBits_mono (a := octetsOf a) (b := octetsOf b) h2 (x := 8 * octetsOf a) (y := 8 * octetsOf b) (by omega)
  unfold smallBits
  repeat' split
  all_goals first | omega | (unfold countedBits; omega)

theorem stringBits_mono {wide : Bool} {c : SizeC} {m n v w u' : Nat} (he : c.ext = false) (hu : c.upper = some u')
    (h : m ≤ n) (hn : u' < m → m = n) (hv : v ≤ w) : stringBits wide c m v ≤ stringBits wide c n w := by
  unfold stringBits
  refine Nat.add_le_add_left ?_ _
  have hc := countedBits_mono h hv
  rw [hu]
  cases hl : c.lower with
  | none => exact hc
  | some l =>
    dsimp only
    have e : unlimited wide c l u' m = unlimited wide c l u' n := by simp [unlimited, he]
    have hf := fieldBits_mono (l : Int) (u' : Int) (y := (m : Int)) (z := (n : Int)) (by omega)
    rw [e]
    by_cases hU : unlimited wide c l u' n = true
    · rw [if_pos hU, if_pos hU]; exact hc
    rw [if_neg hU, if_neg hU]
    by_cases hlu : l = u'
    · rw [if_pos hlu, if_pos hlu]
      repeat' split
      all_goals omega
    rw [if_neg hlu, if_neg hlu]
    repeat' split
    all_goals omega

theorem countBits_mono {c : SizeC} {m n : Nat} (he : c.ext = false) (h : m ≤ n) : countBits c m ≤ countBits c n := by
  have hl := lengthBits_mono h
  unfold countBits
  cases c.lower with
  | none => exact hl
  | some l =>
    cases c.upper with
    | none => exact hl
    | some u =>
      dsimp only
      have e : unlimited false c l u m = unlimited false c l u n := by simp [unlimited, he]
      rw [e]
      split
      · exact hl
      · exact fieldBits_mono _ _ (by omega)

theorem maxOf_some {a b : Option Nat} {n : Nat} (h : maxOf a b = some n) : ∃ x y, a = some x ∧ b = some y ∧ n = max x y := by
  cases a with
  | none => cases h
  | some x =>
    cases b with
    | none => cases h
    | some y => exact ⟨x, y, rfl, rfl, by cases h; rfl⟩

theorem sumOf_some {a b : Option Nat} {n : Nat} (h : sumOf a b = some n) : ∃ x y, a = some x ∧ b = some y ∧ n = x + y := by
  cases a with
  | none => cases h
  | some x =>
    cases b with
    | none => cases h
    | some y => exact ⟨x, y, rfl, rfl, by cases h; rfl⟩

theorem le_peak : ∀ {l : List Nat} {n : Nat}, n ∈ l → n ≤ peak l
  | m :: l, n, h => by
    simp only [peak]
    rcases List.mem_cons.1 h with e | e
    · omega
    · have := le_peak e; omega

theorem total_le {f : Val → Nat} {n : Nat} : ∀ {vs : List Val}, (∀ v ∈ vs, f v ≤ n) → total (vs.map f) ≤ vs.length * n
  | [], _ => by simp [total]
  | v :: vs, h => by
    have h1 := h v (by simp)
    have h2 := total_le (vs := vs) fun w hw => h w (by simp [hw])
    simp only [List.map_cons, total, List.length_cons, Nat.succ_mul]
    omega

theorem insideAll_none : ∀ (f : Fields) (k : Nat), insideAll f (List.replicate k none) = true
  | .nil, _ => rfl
  | .cons _ _ t r, 0 => by simpa [insideAll] using insideAll_none r 0
  | .cons _ _ t r, k + 1 => by simpa [insideAll, List.replicate_succ] using insideAll_none r k

theorem insideGroups_none : ∀ (g : Groups) (k : Nat), insideGroups g (List.replicate k none) = true
  | .nil, _ => rfl
  | .cons f g, k => by
    simp only [insideGroups, List.drop_replicate, insideAll_none, Bool.true_and]
    exact insideGroups_none g _

theorem untouched_inside {t : Ty} {v : Val} (h : untouched t = some v) : inside t v = true := by
  cases t with
  | seqOf c t =>
    cases h
    simp only [inside]
    cases c.upper <;> simp
  | sequence e r a g =>
    cases h
    simp only [inside, List.drop_replicate, insideAll_none, insideGroups_none, Bool.and_self]
  | _ => cases h

theorem sent_inside {k : Kind} {t : Ty} {c : Option Val} {v : Val} (hc : c.all (inside t) = true) (h : sent k t c = some v) :
    inside t v = true := by
  unfold sent at h
  cases k with
  | mandatory =>
    cases c with
    | none => exact untouched_inside h
    | some w => cases h; exact hc
  | optional =>
    dsimp only at h
    split at h
    · subst h; exact hc
    · cases h
  | default d =>
    cases c with
    | none => cases h
    | some w =>
      dsimp only at h
      split at h
      · cases h
      · cases h; exact hc

theorem insideAlt_lt : ∀ {f : Fields} {p : Nat} {v : Val}, insideAlt f p v = true → p < f.length
  | .nil, _, _, h => by simp [insideAlt] at h
  | .cons _ _ t r, 0, _, _ => by simp [Fields.length]
  | .cons _ _ t r, p + 1, v, h => by
    simp only [insideAlt] at h
    have := insideAlt_lt h
    simp only [Fields.length]; omega

theorem insideAltG_lt : ∀ {g : Groups} {p : Nat} {v : Val}, insideAltG g p v = true → p < g.size
  | .nil, _, _, h => by simp [insideAltG] at h
  | .cons f g, p, v, h => by
    simp only [insideAltG] at h
    simp only [Groups.size]
    split at h
    · omega
    · have := insideAltG_lt h; omega

mutual
theorem largest_ty : ∀ (t : Ty) (v : Val) (n : Nat), inside t v = true → largest t = some n → extent t v ≤ n
  | .boolean, v, n, hi, hn => by
    cases v with
    | bool b => simp only [largest] at hn; cases hn; simp [extent]
    | _ => simp only [inside] at hi; cases hi
  | .integer c, v, n, hi, hn => by
    cases v with
    | int z =>
      simp only [largest, inside, extent, intBits] at *
      split at hn
      · rename_i l u he hl hu
        cases hn
        rw [hu] at hi
        simp only [Option.all_some, decide_eq_true_eq] at hi
        rw [Bool.or_eq_false_iff] at he
        rw [he.1, hl, hu]
        simpa [markBits] using rangeBits_mono l u hi
      · cases hn
    | _ => simp only [inside] at hi; cases hi
  | .enumerated ext root add, v, n, hi, hn => by
    cases v with
    | enum z =>
      simp only [largest, inside, extent] at *
      cases hn
      obtain ⟨p, hp, e⟩ := List.any_eq_true.1 hi
      have e : p.2 = z := by simpa using e
      refine le_peak (List.mem_map.2 ⟨p, hp, ?_⟩)
      rw [e]
    | _ => simp only [inside] at hi; cases hi
  | .bitString c, v, n, hi, hn => by
    cases v with
    | bits b =>
      simp only [largest, inside, extent] at *
      split at hn
      · rename_i u he hu
        cases hn
        rw [hu] at hi
        simp only [Option.all_some, decide_eq_true_eq] at hi
        exact stringBits_mono he hu (by omega) (by omega) (by omega)
      · cases hn
    | _ => simp only [inside] at hi; cases hi
  | .octetString c, v, n, hi, hn => by
    cases v with
    | octets o =>
      simp only [largest, inside, extent] at *
      split at hn
      · rename_i u he hu
        cases hn
        rw [hu] at hi
        simp only [Option.all_some, decide_eq_true_eq] at hi
        exact stringBits_mono he hu (by omega) (by omega) (by omega)
      · cases hn
    | _ => simp only [inside] at hi; cases hi
  | .seqOf c t, v, n, hi, hn => by
    cases v with
    | seqOf vs =>
      simp only [largest, inside, extent] at *
      split at hn
      · rename_i u m he hu ht
        cases hn
        rw [hu] at hi
        simp only [Option.all_some, decide_eq_true_eq, Bool.and_eq_true, List.all_eq_true] at hi
        have h1 := total_le (f := extent t) (n := m) (vs := vs) fun v hv => largest_ty t v m (hi.2 v hv) ht
        have h2 := countBits_mono (c := c) he hi.1
        have h3 := Nat.mul_le_mul_right m hi.1
        simp only [markBits, he, Bool.false_eq_true, if_false]
        omega
      · cases hn
    | _ => simp only [inside] at hi; cases hi
  | .choice ext r a g, v, n, hi, hn => by
    cases v with
    | choice pos v =>
      simp only [largest, inside, extent] at *
      obtain ⟨m, hm, rfl⟩ := Option.map_eq_some_iff.1 hn
      obtain ⟨x, y, hx, hy, rfl⟩ := maxOf_some hm
      obtain ⟨x', hx', rfl⟩ := Option.map_eq_some_iff.1 hx
      refine Nat.add_le_add_left ?_ _
      by_cases hr : pos < r.length
      · rw [if_pos hr] at hi ⊢
        have h1 := largest_alt r pos v x' hi hx'
        have h2 := rangeBits_mono 0 ((r.length : Int) - 1) (y := (pos : Int)) (z := (r.length : Int) - 1) (by omega)
        omega
      · rw [if_neg hr] at hi ⊢
        rw [Bool.and_eq_true] at hi
        rw [hi.1] at hy
        simp only [if_true] at hy
        obtain ⟨w, hw, rfl⟩ := Option.map_eq_some_iff.1 hy
        obtain ⟨wa, wg, ha, hg, rfl⟩ := maxOf_some hw
        by_cases hp : pos < r.length + a.length
        · have hi2 := hi.2
          rw [if_pos hp] at hi2 ⊢
          have h1 := openBits_mono (Nat.le_trans (largest_alt a _ v wa hi2 ha) (Nat.le_max_left wa wg))
          have h2 := smallBits_mono (a := pos - r.length) (b := a.length + g.size) (by omega)
          omega
        · have hi2 := hi.2
          rw [if_neg hp] at hi2 ⊢
          have h1 := openBits_mono (Nat.le_trans (largest_altG g _ v wg hi2 hg) (Nat.le_max_right wa wg))
          have h3 := insideAltG_lt hi2
          have h2 := smallBits_mono (a := pos - r.length) (b := a.length + g.size) (by omega)
          omega
    | _ => simp only [inside] at hi; cases hi
  | .sequence ext r a g, v, n, hi, hn => by
    cases v with
    | seq cs =>
      simp only [largest, inside, extent, Bool.and_eq_true] at *
      obtain ⟨m, hm, rfl⟩ := Option.map_eq_some_iff.1 hn
      obtain ⟨x, y, hx, hy, rfl⟩ := sumOf_some hm
      obtain ⟨x', hx', rfl⟩ := Option.map_eq_some_iff.1 hx
      have h1 := largest_root r cs x' hi.1.1 hx'
      cases ext with
      | false =>
        simp only [Bool.false_eq_true, if_false] at *
        omega
      | true =>
        simp only [if_true] at *
        obtain ⟨w, hw, rfl⟩ := Option.map_eq_some_iff.1 hy
        obtain ⟨wa, wg, ha, hg, rfl⟩ := sumOf_some hw
        have h2 := largest_adds a _ wa hi.1.2 ha
        have h3 := largest_groups g _ wg hi.2 hg
        omega
    | _ => simp only [inside] at hi; cases hi
theorem largest_alt : ∀ (r : Fields) (p : Nat) (v : Val) (n : Nat), insideAlt r p v = true → largestAlt r = some n →
    extentAlt r p v ≤ n
  | .nil, _, _, _, _, _ => by simp [extentAlt]
  | .cons _ _ t r, 0, v, n, hi, hn => by
    simp only [largestAlt, insideAlt, extentAlt] at *
    obtain ⟨x, y, hx, hy, rfl⟩ := maxOf_some hn
    have := largest_ty t v x hi hx
    omega
  | .cons _ _ t r, p + 1, v, n, hi, hn => by
    simp only [largestAlt, insideAlt, extentAlt] at *
    obtain ⟨x, y, hx, hy, rfl⟩ := maxOf_some hn
    have := largest_alt r p v y hi hy
    omega
theorem largest_altG : ∀ (g : Groups) (p : Nat) (v : Val) (n : Nat), insideAltG g p v = true → largestAltG g = some n →
    extentAltG g p v ≤ n
  | .nil, _, _, _, _, _ => by simp [extentAltG]
  | .cons f g, p, v, n, hi, hn => by
    simp only [largestAltG, insideAltG, extentAltG] at *
    obtain ⟨x, y, hx, hy, rfl⟩ := maxOf_some hn
    split at hi
    · rename_i hp
      rw [if_pos hp]
      have := largest_alt f p v x hi hx
      omega
    · rename_i hp
      rw [if_neg hp]
      have := largest_altG g _ v y hi hy
      omega
theorem largest_root : ∀ (r : Fields) (cs : List (Option Val)) (n : Nat), insideAll r cs = true → largestRoot r = some n →
    extentRoot r cs ≤ n
  | .nil, _, _, _, _ => by simp [extentRoot]
  | .cons _ k t r, cs, n, hi, hn => by
    simp only [largestRoot, insideAll, extentRoot, Bool.and_eq_true] at *
    obtain ⟨x, y, hx, hy, rfl⟩ := sumOf_some hn
    refine Nat.add_le_add ?_ (largest_root r cs.tail y hi.2 hy)
    cases hs : sent k t (cs.head?.getD none) with
    | none => exact Nat.zero_le _
    | some v => exact largest_ty t v x (sent_inside hi.1 hs) hx
theorem largest_adds : ∀ (a : Fields) (cs : List (Option Val)) (n : Nat), insideAll a cs = true → largestAdds a = some n →
    extentAdds a cs ≤ n
  | .nil, _, _, _, _ => by simp [extentAdds]
  | .cons _ k t r, cs, n, hi, hn => by
    simp only [largestAdds, insideAll, extentAdds, Bool.and_eq_true] at *
    obtain ⟨x, y, hx, hy, rfl⟩ := sumOf_some hn
    obtain ⟨w, hw, rfl⟩ := Option.map_eq_some_iff.1 hx
    obtain ⟨w1, w2, h1, h2, rfl⟩ := maxOf_some hw
    refine Nat.add_le_add ?_ (largest_adds r cs.tail y hi.2 hy)
    cases hc : cs.head?.getD none with
    | some v =>
      have : held k (some v) = some v := by cases k <;> rfl
      rw [this]
      dsimp only
      split
      · refine openBits_mono (Nat.le_trans (largest_ty t v w1 ?_ h1) (Nat.le_max_left _ _))
        have := hi.1; rw [hc] at this; exact this
      · exact Nat.zero_le _
    | none =>
      cases k with
      | default d =>
        cases h2
        show (if substantial t (some d) = true then openBits (extent t d) else 0) ≤ _
        split
        · exact openBits_mono (Nat.le_max_right _ _)
        · exact Nat.zero_le _
      | mandatory => exact Nat.zero_le _
      | optional => exact Nat.zero_le _
theorem largest_groups : ∀ (g : Groups) (cs : List (Option Val)) (n : Nat), insideGroups g cs = true → largestGroups g = some n →
    extentGroups g cs ≤ n
  | .nil, _, _, _, _ => by simp [extentGroups]
  | .cons f g, cs, n, hi, hn => by
    simp only [largestGroups, insideGroups, extentGroups, Bool.and_eq_true] at *
    obtain ⟨x, y, hx, hy, rfl⟩ := sumOf_some hn
    obtain ⟨w, hw, rfl⟩ := Option.map_eq_some_iff.1 hx
    refine Nat.add_le_add ?_ (largest_groups g _ y hi.2 hy)
    split
    · refine openBits_mono (Nat.add_le_add_left (largest_root f cs w hi.1 hw) _)
    · exact Nat.zero_le _
end

/-! ## values that conform -/

theorem allNone_all : ∀ {f : Fields} {cs : List (Option Val)}, allNone cs = true → insideAll f cs = true
  | .nil, _, _ => rfl
  | .cons _ _ t r, [], _ => by
    simp only [insideAll, List.head?_nil, Option.getD_none, Option.all_none, Bool.true_and, List.tail_nil]
    exact allNone_all rfl
  | .cons _ _ t r, c :: cs, h => by
    simp only [allNone, List.all_cons, Bool.and_eq_true] at h
    simp only [insideAll, List.head?_cons, Option.getD_some, List.tail_cons, Bool.and_eq_true]
    refine ⟨?_, allNone_all h.2⟩
    cases c with
    | none => rfl
    | some v => simp at h

theorem allNone_drop {cs : List (Option Val)} (h : allNone cs = true) (k : Nat) : allNone (cs.drop k) = true := by
  simp only [allNone, List.all_eq_true] at *
  exact fun x hx => h x (List.mem_of_mem_drop hx)

theorem allNone_groups : ∀ {g : Groups} {cs : List (Option Val)}, allNone cs = true → insideGroups g cs = true
  | .nil, _, _ => rfl
  | .cons f g, cs, h => by
    simp only [insideGroups, allNone_all h, Bool.true_and]
    exact allNone_groups (allNone_drop h _)

theorem insideAll_take : ∀ {f : Fields} {cs : List (Option Val)}, insideAll f (cs.take f.length) = insideAll f cs
  | .nil, _ => rfl
  | .cons _ _ t r, [] => by simp [insideAll]
  | .cons _ _ t r, c :: cs => by
    simp only [Fields.length, List.take_succ_cons, insideAll, List.head?_cons, List.tail_cons]
    rw [insideAll_take]

theorem all_of_test {c : SizeC} {n u : Nat} (he : c.ext = false) (hu : c.upper = some u) (h : c.test n = true) :
    c.upper.all (fun u => decide (n ≤ u)) = true := by
  rw [hu]
  simp only [SizeC.test, he, hu, Bool.false_or, Bool.and_eq_true] at h
  exact h.2

mutual
theorem conforms_inside : ∀ (t : Ty) (v : Val) (n : Nat), largest t = some n → conforms t v = true → inside t v = true
  | .boolean, v, n, hn, h => by
    cases v with
    | bool b => simp only [inside]
    | _ => simp only [conforms, hasShape] at h; cases h
  | .integer c, v, n, hn, h => by
    cases v with
    | int z =>
      simp only [largest, conforms, hasShape, inside] at *
      split at hn
      · rename_i l u he hl hu
        simp only [Bool.or_eq_false_iff, Bool.not_eq_false'] at he
        have := lower_upper_cover he.2 he.1 h
        rw [hu] at this ⊢
        simpa [leHi] using this.2
      · cases hn
    | _ => simp only [conforms, hasShape] at h; cases h
  | .enumerated ext root add, v, n, hn, h => by
    cases v with
    | enum z => simpa only [conforms, hasShape, inside] using h
    | _ => simp only [conforms, hasShape] at h; cases h
  | .bitString c, v, n, hn, h => by
    cases v with
    | bits b =>
      simp only [largest, conforms, hasShape, inside] at *
      split at hn
      · rename_i u he hu; exact all_of_test he hu h
      · cases hn
    | _ => simp only [conforms, hasShape] at h; cases h
  | .octetString c, v, n, hn, h => by
    cases v with
    | octets b =>
      simp only [largest, conforms, hasShape, inside] at *
      split at hn
      · rename_i u he hu; exact all_of_test he hu h
      · cases hn
    | _ => simp only [conforms, hasShape] at h; cases h
  | .seqOf c t, v, n, hn, h => by
    cases v with
    | seqOf vs =>
      simp only [largest, conforms, hasShape, inside, Bool.and_eq_true, List.all_eq_true] at *
      split at hn
      · rename_i u m he hu ht
        exact ⟨all_of_test he hu h.1, fun v hv => conforms_inside t v m ht (h.2 v hv)⟩
      · cases hn
    | _ => simp only [conforms, hasShape] at h; cases h
  | .choice ext r a g, v, n, hn, h => by
    cases v with
    | choice pos v =>
      simp only [largest, conforms, hasShape, inside] at *
      obtain ⟨m, hm, rfl⟩ := Option.map_eq_some_iff.1 hn
      obtain ⟨x, y, hx, hy, rfl⟩ := maxOf_some hm
      obtain ⟨x', hx', rfl⟩ := Option.map_eq_some_iff.1 hx
      by_cases hr : pos < r.length
      · rw [if_pos hr] at h ⊢
        exact conforms_insideAlt r pos v x' hx' h
      · rw [if_neg hr] at h ⊢
        rw [Bool.and_eq_true] at h ⊢
        refine ⟨h.1, ?_⟩
        rw [h.1] at hy
        simp only [if_true] at hy
        obtain ⟨w, hw, rfl⟩ := Option.map_eq_some_iff.1 hy
        obtain ⟨wa, wg, ha, hg, rfl⟩ := maxOf_some hw
        by_cases hp : pos < r.length + a.length
        · have h2 := h.2
          rw [if_pos hp] at h2 ⊢
          exact conforms_insideAlt a _ v wa ha h2
        · have h2 := h.2
          rw [if_neg hp] at h2 ⊢
          exact conforms_insideAltG g _ v wg hg h2
    | _ => simp only [conforms, hasShape] at h; cases h
  | .sequence ext r a g, v, n, hn, h => by
    cases v with
    | seq cs =>
      simp only [largest, conforms, hasShape, inside, Bool.and_eq_true] at *
      obtain ⟨m, hm, rfl⟩ := Option.map_eq_some_iff.1 hn
      obtain ⟨x, y, hx, hy, rfl⟩ := sumOf_some hm
      obtain ⟨x', hx', rfl⟩ := Option.map_eq_some_iff.1 hx
      have h1 := conforms_insideRoot r cs x' hx' h.1.2
      cases ext with
      | false =>
        have h2 := h.2
        simp only [Bool.false_eq_true, if_false] at h2
        refine ⟨⟨h1, allNone_all h2⟩, allNone_groups ?_⟩
        rw [← List.drop_drop]
        exact allNone_drop h2 _
      | true =>
        have h2 := h.2
        simp only [if_true, Bool.and_eq_true] at h2 hy
        obtain ⟨w, hw, rfl⟩ := Option.map_eq_some_iff.1 hy
        obtain ⟨wa, wg, ha, hg, rfl⟩ := sumOf_some hw
        exact ⟨⟨h1, conforms_insideAdds a _ wa ha h2.1⟩, conforms_insideGroups g _ wg hg h2.2⟩
    | _ => simp only [conforms, hasShape] at h; cases h
theorem conforms_insideAlt : ∀ (r : Fields) (p : Nat) (v : Val) (n : Nat), largestAlt r = some n →
    hasShapeAlt SizeC.test r p v = true → insideAlt r p v = true
  | .nil, _, _, _, _, h => by simp only [hasShapeAlt] at h; cases h
  | .cons _ _ t r, 0, v, n, hn, h => by
    simp only [largestAlt, hasShapeAlt, insideAlt] at *
    obtain ⟨x, y, hx, hy, rfl⟩ := maxOf_some hn
    exact conforms_inside t v x hx h
  | .cons _ _ t r, p + 1, v, n, hn, h => by
    simp only [largestAlt, hasShapeAlt, insideAlt] at *
    obtain ⟨x, y, hx, hy, rfl⟩ := maxOf_some hn
    exact conforms_insideAlt r p v y hy h
theorem conforms_insideAltG : ∀ (g : Groups) (p : Nat) (v : Val) (n : Nat), largestAltG g = some n →
    hasShapeAltG SizeC.test g p v = true → insideAltG g p v = true
  | .nil, _, _, _, _, h => by simp only [hasShapeAltG] at h; cases h
  | .cons f g, p, v, n, hn, h => by
    simp only [largestAltG, hasShapeAltG, insideAltG] at *
    obtain ⟨x, y, hx, hy, rfl⟩ := maxOf_some hn
    split at h
    · rename_i hp; rw [if_pos hp]; exact conforms_insideAlt f p v x hx h
    · rename_i hp; rw [if_neg hp]; exact conforms_insideAltG g _ v y hy h
theorem conforms_insideRoot : ∀ (r : Fields) (cs : List (Option Val)) (n : Nat), largestRoot r = some n →
    hasShapeRoot SizeC.test r cs = true → insideAll r cs = true
  | .nil, _, _, _, _ => by simp only [insideAll]
  | .cons _ k t r, cs, n, hn, h => by
    simp only [largestRoot, hasShapeRoot, insideAll, Bool.and_eq_true] at *
    obtain ⟨x, y, hx, hy, rfl⟩ := sumOf_some hn
    refine ⟨?_, conforms_insideRoot r cs.tail y hy h.2⟩
    cases hc : cs.head?.getD none with
    | none => rfl
    | some v =>
      have h1 := h.1
      rw [hc] at h1
      exact conforms_inside t v x hx h1
theorem conforms_insideAdds : ∀ (a : Fields) (cs : List (Option Val)) (n : Nat), largestAdds a = some n →
    hasShapeAdds SizeC.test a cs = true → insideAll a cs = true
  | .nil, _, _, _, _ => by simp only [insideAll]
  | .cons _ k t r, cs, n, hn, h => by
    simp only [largestAdds, hasShapeAdds, insideAll, Bool.and_eq_true] at *
    obtain ⟨x, y, hx, hy, rfl⟩ := sumOf_some hn
    obtain ⟨w, hw, rfl⟩ := Option.map_eq_some_iff.1 hx
    obtain ⟨w1, w2, h1, h2, rfl⟩ := maxOf_some hw
    refine ⟨?_, conforms_insideAdds r cs.tail y hy h.2⟩
    cases hc : cs.head?.getD none with
    | none => rfl
    | some v =>
      have h3 := h.1
      rw [hc] at h3
      exact conforms_inside t v w1 h1 h3
theorem conforms_insideGroups : ∀ (g : Groups) (cs : List (Option Val)) (n : Nat), largestGroups g = some n →
    hasShapeGroups SizeC.test g cs = true → insideGroups g cs = true
  | .nil, _, _, _, _ => by simp only [insideGroups]
  | .cons f g, cs, n, hn, h => by
    simp only [largestGroups, hasShapeGroups, insideGroups, Bool.and_eq_true, Bool.or_eq_true] at *
    obtain ⟨x, y, hx, hy, rfl⟩ := sumOf_some hn
    obtain ⟨w, hw, rfl⟩ := Option.map_eq_some_iff.1 hx
    refine ⟨?_, conforms_insideGroups g _ y hy h.2⟩
    rcases h.1 with h1 | h1
    · rw [← insideAll_take]; exact allNone_all h1
    · exact conforms_insideRoot f cs w hw h1
end

end Verif
