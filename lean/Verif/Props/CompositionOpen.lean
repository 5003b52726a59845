import Verif.Props.Composition
/-!
# C07, C09: what travels in an open type arrives whenever it arrives as a message of its own

The alternatives and components behind the extension marker are written as messages of their own, preceded by their length.
Here they are asked to arrive in this way only, and not, like in `Spec.safe`, at any place of any message.
-/
namespace Verif

/-- `openType_rt` for contents that are only known to be read from the beginning of a message. -/
theorem openType_alone {α : Type} {m : Dec α} {fs ofl : List BitField} {a : α} {p₁ : PerBytes}
    (h : encodeOpenTypeField fs = .ok ofl) (hm : m ⟨Offset.init 0 0, produceCompleteEncoding fs⟩ = .ok (a, p₁))
    (hne : (produceCompleteEncoding fs).length / 8 ≠ 16384) :
    (∃ w rest, ofl = ⟨true, w⟩ :: rest) ∧ ∀ pos, Reads (decodeOpenTypeField m) pos (emit pos ofl) a := by
  obtain ⟨h8, hp⟩ := produceCompleteEncoding_length fs
  unfold encodeOpenTypeField at h
  obtain ⟨ld, e1, e2⟩ := Except.bind_eq_ok h
  have hle := lenDet_bound e1
  obtain ⟨w, e3, w8, _, hd⟩ := lenDet_roundtrip (n := (((produceCompleteEncoding fs).length / 8 : Nat) : Int))
    (by omega) (by omega) none none
  rw [e3] at e1
  cases e1
  cases e2
  refine ⟨⟨w, _, rfl⟩, fun pos => ?_⟩
  rw [emit_append, emit_single]
  unfold decodeOpenTypeField
  refine (hd none none pos).bind ?_
  simp only [Int.toNat_natCast]
  rw [emit_single (f := ⟨true, produceCompleteEncoding fs⟩)]
  refine (Reads.next ⟨(produceCompleteEncoding fs).length / 8, 0⟩ true _ (produceCompleteEncoding fs)
    (by simp; omega)).bind_pure ?_
  obtain ⟨bs, hb⟩ := exists_bytes (produceCompleteEncoding fs) h8
  have hlen : (produceCompleteEncoding fs).length / 8 = bs.length := by
    rw [← hb, bytesToBits_length]; omega
  have hbne : bs ≠ [] := by
    rintro rfl; rw [← hb] at hp; simp [bytesToBits_nil] at hp
  have hbp := List.length_pos_iff.2 hbne
  have hinit : PerBytes.init (zfillHex ((produceCompleteEncoding fs).length / 8 * 2)
      (pyHex (bitsToNat (produceCompleteEncoding fs)))) = .ok ⟨Offset.init 0 0, produceCompleteEncoding fs⟩ := by
    rw [hlen, ← hb, zfillHex_pyHex (by omega), Nat.mul_comm, natToHex_bytes, PerBytes_init_hexlify hbne]
    have := bitsToNat_lt (bytesToBits bs)
    rw [bytesToBits_length] at this
    rw [pow16, show 4 * (bs.length * 2) = 8 * bs.length by omega]
    exact this
  refine Reads.bind_nil (Reads.liftE hinit _) ?_
  exact Reads.bind_nil (Reads.liftE hm _) (Reads.pure _ _)

/-- `v` is a message of at most 16383 octets that is read as `w`. -/
def Alone (t : Ty) (v w : Val) : Prop := ∃ bs, encode t v = .ok bs ∧ bs.length ≤ 16383 ∧ decode t bs = .ok w

/-- Such a message wrapped as an open type. -/
theorem message_open {t : Ty} {v w : Val} (h : Alone t v w) : ∃ fl ofl, encTy t v = .ok fl ∧ encodeOpenTypeField fl = .ok ofl ∧
      (produceCompleteEncoding fl).length / 8 ≠ 16384 ∧
      (∃ p', decTy t ⟨Offset.init 0 0, produceCompleteEncoding fl⟩ = .ok (w, p')) := by
  obtain ⟨bs, he, hl, hd⟩ := h
  obtain ⟨fl, e1, e2⟩ := (encode_eq t v bs).1 he
  obtain ⟨p', d1, _, _⟩ := decode_ok hd
  rw [e2] at d1
  have hlen : (produceCompleteEncoding fl).length / 8 ≤ 16383 := by
    rw [← e2, bytesToBits_length]; omega
  obtain ⟨ofl, o1⟩ := openType_ok hlen
  exact ⟨fl, ofl, e1, o1, by omega, p', d1⟩

/-- The additions `cs` arrive as `ds`: those that hold something as messages of their own, the others are absent. -/
def AddsArrive : Fields → List (Option Val) → List (Option Val) → Prop
  | .nil, _, ds => ds = []
  | .cons _ k t r, cs, ds => ∃ d ds', ds = d :: ds' ∧ AddsArrive r cs.tail ds' ∧
      if Spec.substantial t (Spec.held k (cs.head?.getD none)) then
        ∃ v w, Spec.held k (cs.head?.getD none) = some v ∧ d = some w ∧ Alone t v w
      else d = none

/-- The addition groups likewise; a group is a message like a SEQUENCE of its components. -/
def GroupsArrive : Groups → List (Option Val) → List (Option Val) → Prop
  | .nil, _, ds => ds = []
  | .cons f g, cs, ds => ∃ d ds', ds = d ++ ds' ∧ GroupsArrive g (cs.drop f.length) ds' ∧
      if Spec.anySubstantial f cs then Alone (.sequence false f .nil .nil) (.seq cs) (.seq d)
      else d = List.replicate f.length none

/-- No group is given after one that is not given and has no OPTIONAL component (`may`: the previous group permits this one),
and none has gaps inside. -/
def groupsGapless (may : Bool) : Groups → List (Option Val) → Bool
  | .nil, _ => true
  | .cons f g, cs => Spec.gapless false f cs && (!Spec.anySubstantial f cs || may) &&
      groupsGapless (Spec.anySubstantial f cs || Spec.hasOptional f) g (cs.drop f.length)

theorem adds_arrive : ∀ {a : Fields} {cs ds : List (Option Val)} {prev : Option Prev}, AddsArrive a cs ds →
    Spec.gapless (Prev.gap prev) a cs = true → ∃ bits fs, encAdds a cs prev = .ok (bits, fs) ∧ bits.length = a.length ∧
      StartsAligned fs ∧ (fs = [] → ∀ b ∈ bits, b = false) ∧
      ((∀ b ∈ bits, b = false) → ds = List.replicate a.length none) ∧ ∀ pos, Reads (decAdds a bits) pos (emit pos fs) ds
  | .nil, cs, ds, prev, h, _ => by
    cases h
    exact ⟨[], [], rfl, rfl, .inl rfl, fun _ => by simp, fun _ => rfl, fun pos => Reads.pure _ _⟩
  | .cons n k t r, cs, ds, prev, h, hg => by
    obtain ⟨d, ds', rfl, hr, hd⟩ := h
    simp only [Spec.gapless, Bool.and_eq_true, Bool.not_eq_true', held_eq, isOpt_eq, any_valued] at hg
    rw [held_eq] at hd
    obtain ⟨bs, fls, e2, hlen, hal, hz, hz', hrd⟩ := adds_arrive
      (prev := some ⟨Spec.substantial t (effective k (cs.head?.getD none)), k.isOptional⟩) hr (by simpa [Prev.gap] using hg.2)
    have hg1 := hg.1
    generalize hc : effective k (cs.head?.getD none) = c at hd hg1 e2
    have key : ∃ fl, additionComponent (encTy t) t prev c = .ok (Spec.substantial t c, fl) ∧
        (Spec.substantial t c = false → fl = [] ∧ d = none) ∧
        (Spec.substantial t c = true → (∃ w rest, fl = ⟨true, w⟩ :: rest) ∧ ∃ w, d = some w ∧
          ∀ pos, Reads (decodeOpenTypeField (decTy t)) pos (emit pos fl) w) := by
      by_cases hsub : Spec.substantial t c = true
      · rw [if_pos hsub] at hd
        obtain ⟨v, w, rfl, rfl, hm⟩ := hd
        obtain ⟨fl, ofl, m1, m2, m3, p', m4⟩ := message_open hm
        obtain ⟨o1, o2⟩ := openType_alone m2 m4 m3
        refine ⟨ofl, ?_, fun h => (by rw [hsub] at h; cases h), fun _ => ⟨o1, w, rfl, o2⟩⟩
        have hp := hsub
        rw [← present_eq] at hp
        simp only [present, Bool.and_eq_true] at hp
        simp only [isValueOpt, hp.1, Bool.and_true] at hg1
        rw [hsub]
        unfold additionComponent
        simp only [hp.1, hp.2, hg1, if_true, m1, m2, bind, Except.bind, Bool.false_eq_true, if_false]
        rfl
      · have hf : Spec.substantial t c = false := by simpa using hsub
        rw [if_neg hsub] at hd
        refine ⟨[], ?_, fun _ => ⟨rfl, hd⟩, fun h => absurd h hsub⟩
        rw [hf]
        rw [← present_eq] at hf
        unfold additionComponent
        cases c with
        | none => rfl
        | some v =>
          simp only [present] at hf
          dsimp only
          by_cases hv : isValue t v = true
          · simp only [isValueOpt, hv, Bool.and_true] at hg1
            simp only [hv, Bool.true_and] at hf
            simp only [hv, hf, hg1, if_true, Bool.false_eq_true, if_false]
            rfl
          · rw [if_neg hv]; rfl
    obtain ⟨fl, e1, k0, k1⟩ := key
    have he : encAdds (.cons n k t r) cs prev = .ok (Spec.substantial t c :: bs, fl ++ fls) := by
      simp only [encAdds, hc, e1, bind, Except.bind, e2]; rfl
    refine ⟨_, _, he, by simp [Fields.length, hlen], ?_⟩
    cases hsub : Spec.substantial t c with
    | false =>
      obtain ⟨rfl, rfl⟩ := k0 hsub
      refine ⟨hal, fun h0 x hx => ?_, fun h0 => ?_, fun pos => ?_⟩
      · rcases List.mem_cons.1 hx with rfl | hx
        · rfl
        · exact hz h0 x hx
      · rw [hz' (fun b hb => h0 b (List.mem_cons_of_mem _ hb))]; rfl
      · rw [decAdds]
        simp only [Bool.false_eq_true, if_false, List.nil_append]
        exact Reads.none_cons (hrd _)
    | true =>
      obtain ⟨⟨w', rest, ho⟩, w, rfl, o2⟩ := k1 hsub
      refine ⟨.inr ⟨w', rest ++ fls, by rw [ho]; rfl⟩, fun h0 => (by rw [ho] at h0; cases h0),
        fun h0 => (by have := h0 true (by simp); cases this), fun pos => ?_⟩
      rw [decAdds, emit_append]
      simp only [if_true]
      exact Reads.some_cons (o2 pos) (hrd _)

/-- A group is read like a SEQUENCE of its components. -/
theorem group_inner {f : Fields} {p p' : PerBytes} {d : List (Option Val)}
    (h : decTy (.sequence false f .nil .nil) p = .ok (.seq d, p')) :
    (do let opt ← decodeOptionalBits f.optionalCount
        decRoot f opt : Dec (List (Option Val))) p = .ok (d, p') := by
  rw [decTy] at h
  simp only [Bool.false_eq_true, if_false, pure_bind, ne_eq, not_true_eq_false] at h
  have assoc : ∀ {β : Type} (k : List (Option Val) → Dec β),
      (decodeOptionalBits f.optionalCount >>= fun o => decRoot f o >>= k)
        = ((decodeOptionalBits f.optionalCount >>= fun o => decRoot f o) >>= k) := by
    intro β k; rw [bind_assoc]
  rw [assoc] at h
  obtain ⟨⟨vs, q⟩, e1, e2⟩ := Except.bind_eq_ok h
  have e3 := Except.ok.inj e2
  simp only [Prod.mk.injEq, Val.seq.injEq, Fields.length, Groups.size, Nat.add_zero, List.replicate_zero, List.append_nil] at e3
  rw [← e3.1, ← e3.2]
  exact e1

theorem groups_arrive : ∀ {g : Groups} {cs ds : List (Option Val)} {prev : Option (List Prev)} {may : Bool}, GroupsArrive g cs ds →
    (may = true → prev.all (fun infos => infos.any (fun p => p.present || p.optional)) = true) →
    groupsGapless may g cs = true → ∃ bits fs, encGroups g cs prev = .ok (bits, fs) ∧ bits.length = g.length ∧
      StartsAligned fs ∧ (fs = [] → ∀ b ∈ bits, b = false) ∧
      ((∀ b ∈ bits, b = false) → ds = List.replicate g.size none) ∧ ∀ pos, Reads (decGroups g bits) pos (emit pos fs) ds
  | .nil, cs, ds, prev, may, h, _, _ => by
    cases h
    exact ⟨[], [], rfl, rfl, .inl rfl, fun _ => by simp, fun _ => rfl, fun pos => Reads.pure _ _⟩
  | .cons f g, cs, ds, prev, may, h, hm, hg => by
    obtain ⟨d, ds', rfl, hr, hd⟩ := h
    simp only [groupsGapless, Bool.and_eq_true] at hg
    obtain ⟨infos, e0, e00⟩ := scanGroup_ok f cs none hg.1.1
    have hany := scanGroup_any e0
    obtain ⟨bs, fls, e2, hlen, hal, hz, hz', hrd⟩ := groups_arrive (prev := some infos) hr
      (fun hh => by simpa [e00] using hh) hg.2
    have henc : ∀ b fl, groupComponent (fun _ => encRoot f cs) prev infos = .ok (b, fl) →
        encGroups (.cons f g) cs prev = .ok (b :: bs, fl ++ fls) := by
      intro b fl e1
      simp only [encGroups, e0, e1, bind, Except.bind, e2]; rfl
    cases hsub : Spec.anySubstantial f cs with
    | false =>
      rw [hsub] at hd
      simp only [Bool.false_eq_true, if_false] at hd
      subst hd
      refine ⟨_, _, henc false [] (by unfold groupComponent; rw [hany, hsub]; rfl), by simp [Groups.length, hlen], hal,
        fun h0 x hx => ?_, fun h0 => ?_, fun pos => ?_⟩
      · rcases List.mem_cons.1 hx with rfl | hx
        · rfl
        · exact hz h0 x hx
      · rw [hz' (fun b hb => h0 b (List.mem_cons_of_mem _ hb)), List.replicate_append_replicate]; rfl
      · rw [decGroups]
        simp only [Bool.false_eq_true, if_false, List.nil_append]
        exact (hrd _).bind_pure (Reads.pure _ _)
    | true =>
      rw [hsub] at hd
      simp only [if_true] at hd
      have hmay : may = true := by simpa [hsub] using hg.1.2
      have hprev : checkPreviousGroup prev = .ok () := by
        unfold checkPreviousGroup
        cases prev with
        | none => rfl
        | some i =>
          have := hm hmay
          simp only [Option.all_some] at this
          simp [this]
      obtain ⟨rf, ofl, m1, m2, m3, p', m4⟩ := message_open hd
      simp only [encTy] at m1
      obtain ⟨⟨opt, fl⟩, e3, m1⟩ := Except.bind_eq_ok m1
      obtain ⟨rf', e4, m1⟩ := Except.bind_eq_ok m1
      cases m1
      obtain ⟨⟨w, rest, ho⟩, o2⟩ := openType_alone m2 (group_inner m4) m3
      refine ⟨_, _, henc true ofl (by
          unfold groupComponent
          rw [hany, hsub]
          simp only [Bool.not_true, Bool.false_eq_true, if_false, hprev, e3, e4, m2, bind, Except.bind]; rfl),
        by simp [Groups.length, hlen], .inr ⟨w, rest ++ fls, by rw [ho]; rfl⟩, fun h0 => (by rw [ho] at h0; cases h0),
        fun h0 => (by have := h0 true (by simp); cases this), fun pos => ?_⟩
      rw [decGroups, emit_append]
      simp only [if_true]
      exact (o2 pos).bind ((hrd _).bind_pure (Reads.pure _ _))

/-- The message held by an open type, as the decoder of the type finds it. -/
def heldMessage : Dec PerBytes := decodeOpenTypeField fun p => .ok (p, p)

theorem openType_held {α : Type} (m : Dec α) : decodeOpenTypeField m = (do
    let inner ← heldMessage
    let r ← liftE (m inner)
    return r.1) := by
  unfold heldMessage decodeOpenTypeField
  simp only [bind_assoc, pure_bind]
  rfl

/-- Whatever is read from an open type is read from the message it holds. -/
theorem openType_inv {α : Type} {m : Dec α} {fs ofl : List BitField} {a : α} {p p' : PerBytes} {pos : Nat} {rest : Bits}
    (h : encodeOpenTypeField fs = .ok ofl) (hne : (produceCompleteEncoding fs).length / 8 ≠ 16384)
    (hat : At p pos (emit pos ofl ++ rest)) (hd : decodeOpenTypeField m p = .ok (a, p')) :
    ∃ p₁, m ⟨Offset.init 0 0, produceCompleteEncoding fs⟩ = .ok (a, p₁) := by
  obtain ⟨_, r1⟩ := openType_alone (m := fun p => .ok (p, p)) (fs := fs) h rfl hne
  obtain ⟨q, e1, _⟩ := r1 pos p rest hat
  rw [openType_held] at hd
  obtain ⟨⟨inner, q'⟩, e2, e3⟩ := Except.bind_eq_ok hd
  unfold heldMessage at e2
  rw [e1] at e2
  cases e2
  obtain ⟨⟨r, q''⟩, e4, e5⟩ := Except.bind_eq_ok e3
  cases e5
  unfold liftE at e4
  cases hm : m ⟨Offset.init 0 0, produceCompleteEncoding fs⟩ with
  | error e => rw [hm] at e4; cases e4
  | ok x =>
    rw [hm] at e4
    cases e4
    exact ⟨_, rfl⟩

/-- A message of 16384 octets is written behind a length of 17 bits that is read as 8192 (F5), and the reader never ends where
the writer did. -/
theorem openType_oversize {α : Type} {m : Dec α} {fs ofl : List BitField} {a : α} {p p' : PerBytes} {pos : Nat} {rest : Bits}
    (h : encodeOpenTypeField fs = .ok ofl) (hne : (produceCompleteEncoding fs).length / 8 = 16384)
    (hat : At p pos (emit pos ofl ++ rest)) (hd : decodeOpenTypeField m p = .ok (a, p')) :
    ¬ At p' (pos + (emit pos ofl).length) rest := by
  intro hend
  obtain ⟨h8, hp⟩ := produceCompleteEncoding_length fs
  have e1 : encodeLengthDeterminant false false 16384 none none = .ok [⟨true, [true, false] ++ natToBits 14 8192 ++ [false]⟩] := by
    decide +kernel
  have e2 : encodeLengthDeterminant false false 8192 none none = .ok [⟨true, [true, false] ++ natToBits 14 8192⟩] := by
    decide +kernel
  unfold encodeOpenTypeField at h
  dsimp only at h
  rw [hne] at h
  obtain ⟨ld, e3, e4⟩ := Except.bind_eq_ok h
  rw [show ((16384 : Nat) : Int) = 16384 from rfl, e1] at e3
  cases e3
  cases e4
  obtain ⟨w, e5, _, _, hr⟩ := lenDet_roundtrip (n := 8192) (by decide) (by decide) none none
  rw [e2] at e5
  cases e5
  have hlen : (produceCompleteEncoding fs).length = 131072 := by omega
  rw [List.singleton_append, emit_cons, emit_single] at hat hend
  simp only [List.append_assoc] at hat
  rw [← List.append_assoc [true, false], ← List.append_assoc (padTo true pos)] at hat
  obtain ⟨p2, d1, at2⟩ := hr none none pos p _ hat
  unfold decodeOpenTypeField at hd
  obtain ⟨⟨len, q⟩, d2, hd⟩ := Except.bind_eq_ok hd
  rw [d1] at d2
  cases d2
  dsimp only at hd
  obtain ⟨⟨v, q⟩, d3, hd⟩ := Except.bind_eq_ok hd
  obtain ⟨at3, e6⟩ := next_eq at2 ⟨(8192 : Int).toNat, 0⟩ true
  rw [e6] at d3
  rw [if_neg (by decide)] at d3
  split at d3
  · cases d3
  cases d3
  obtain ⟨⟨inner, q⟩, d4, hd⟩ := Except.bind_eq_ok hd
  obtain ⟨⟨r, q'⟩, d5, hd⟩ := Except.bind_eq_ok hd
  cases hd
  have same : ∀ {β : Type} {x : Except Err β} {y : β} {s s' : PerBytes}, liftE x s = .ok (y, s') → s' = s := by
    intro β x y s s' hx
    unfold liftE at hx
    cases x with
    | error e => cases hx
    | ok z => cases hx; rfl
  have s1 := same d4
  have s2 := same d5
  subst s2
  subst s1
  have := hend.unique at3
  have hpad := padTo_true_length
  simp only [alignPos_true, List.length_append, hlen, hpad, natToBits_length, List.length_cons, List.length_nil] at this
  have hp8 : ∀ n, padLen n ≤ 7 := fun n => by unfold padLen; omega
  have b1 := hp8 (pos + (padLen pos + (0 + 1 + 1 + 14)))
  rw [show (8192 : Int).toNat = 8192 from rfl] at this
  omega

/-- The `i`-th component of all groups. -/
def groupFieldAt : Groups → Nat → Option (String × Kind × Ty)
  | .nil, _ => none
  | .cons f g, i => if i < f.length then Spec.fieldAt f i else groupFieldAt g (i - f.length)

theorem altG_at : ∀ {g : Groups} {i : Nat} {n : String} {k : Kind} {t : Ty}, groupFieldAt g i = some (n, k, t) →
    g.length ≠ 0 ∧ (∀ v, encAltG g i v = encTy t v) ∧ decAltG g i = decTy t
  | .nil, _, _, _, _, h => by simp [groupFieldAt] at h
  | .cons f g, i, n, k, t, h => by
    simp only [groupFieldAt] at h
    by_cases hi : i < f.length
    · rw [if_pos hi] at h
      obtain ⟨_, h2, h3⟩ := alt_at h
      exact ⟨by simp [Groups.length], fun v => by rw [encAltG, if_pos hi]; exact h2 v, by rw [decAltG, if_pos hi]; exact h3⟩
    · rw [if_neg hi] at h
      obtain ⟨_, h2, h3⟩ := altG_at h
      exact ⟨by simp [Groups.length], fun v => by rw [encAltG, if_neg hi]; exact h2 v, by rw [decAltG, if_neg hi]; exact h3⟩

/-- An alternative behind the marker that arrives, arrives so as a message of its own. -/
theorem open_only {r a : Fields} {g : Groups} {i : Nat} {v w : Val} {t : Ty} (hno : ¬ (a.length = 0 ∧ g.length = 0))
    (hn : Spec.unsignedFits 16383 i = true) (hw : Spec.returnable w = true)
    (hsel : (if i < a.length then encAlt a i v else encAltG g (i - a.length) v) = encTy t v)
    (hdec : (if i < a.length then decAlt a i else decAltG g (i - a.length)) = decTy t)
    (hc : Spec.Carries (.choice true r a g) (.choice (r.length + i) v) (.choice (r.length + i) w)) : Alone t v w := by
  obtain ⟨fs, e0, hr⟩ := reads_everywhere hc
  have h1 : ¬ r.length + i < r.length := by omega
  have h3 : r.length + i - r.length = i := by omega
  have ha : (if r.length + i < r.length + a.length then encAlt a i v else encAltG g (r.length + i - (r.length + a.length)) v)
      = encTy t v := by
    rw [← hsel]
    by_cases hi : i < a.length
    · rw [if_pos (by omega), if_pos hi]
    · rw [if_neg (by omega), if_neg hi, show r.length + i - (r.length + a.length) = i - a.length by omega]
  have he : ∃ fl, encTy t v = .ok fl := by
    cases ht : encTy t v with
    | ok fl => exact ⟨fl, rfl⟩
    | error e =>
      simp only [encTy, h1, h3, if_false, ha, ht, bind, Except.bind] at e0
      cases e0
  obtain ⟨fl, e1⟩ := he
  obtain ⟨bs, e2⟩ := exists_bytes (produceCompleteEncoding fl) (produceCompleteEncoding_length fl).1
  have henc := (encode_eq t v bs).2 ⟨fl, e1, e2⟩
  obtain ⟨ixf, i1, i2⟩ := normallySmall_roundtrip (n := i) (of_decide_eq_true hn)
  have ho : ∃ ofl, encodeOpenTypeField fl = .ok ofl := by
    cases ho : encodeOpenTypeField fl with
    | ok ofl => exact ⟨ofl, rfl⟩
    | error e =>
      simp only [encTy, h1, h3, if_false, ha, e1, bind, Except.bind] at e0
      unfold assembleChoice at e0
      simp only [h1, h3, if_false, Bool.not_true, Bool.false_eq_true, hno, decide_false, i1, ho, bind, Except.bind] at e0
      cases e0
  obtain ⟨ofl, o1⟩ := ho
  have hfs : encTy (.choice true r a g) (.choice (r.length + i) v) = .ok (⟨false, [true]⟩ :: (ixf ++ ofl)) := by
    simp only [encTy, h1, h3, if_false, ha, e1, bind, Except.bind]
    unfold assembleChoice
    simp only [h1, h3, if_false, Bool.not_true, Bool.false_eq_true, hno, decide_false, i1, o1, bind, Except.bind]
    rfl
  rw [hfs] at e0
  cases e0
  obtain ⟨p₀, hat⟩ : ∃ p₀, At p₀ 0 (emit 0 (⟨false, [true]⟩ :: (ixf ++ ofl)) ++ []) := ⟨_, At.init _⟩
  obtain ⟨q, d0, atq⟩ := hr 0 _ _ hat
  rw [emit_bit, emit_append] at atq
  rw [emit_bit, emit_append, List.append_assoc, List.append_assoc] at hat
  obtain ⟨q1, d1, at1⟩ := Reads.bit 0 true _ _ hat
  obtain ⟨q2, d2, at2⟩ := i2 _ _ _ at1
  rw [decTy] at d0
  simp only [Bool.not_true, Bool.false_eq_true, if_false] at d0
  obtain ⟨⟨b, q1'⟩, d1', d0⟩ := Except.bind_eq_ok d0
  rw [d1] at d1'
  cases d1'
  simp only [if_true] at d0
  rw [if_neg (by decide)] at d0
  obtain ⟨⟨x, q2'⟩, d2', d0⟩ := Except.bind_eq_ok d0
  rw [d2] at d2'
  cases d2'
  dsimp only at d0
  rw [if_neg hno] at d0
  simp only [Int.toNat_natCast] at d0
  rw [hdec] at d0
  obtain ⟨⟨y, q3⟩, d3, d0⟩ := Except.bind_eq_ok d0
  cases d0
  have hle : (produceCompleteEncoding fl).length / 8 ≤ 16383 := by
    have hle : (produceCompleteEncoding fl).length / 8 ≤ 16384 := by
      have h := o1
      unfold encodeOpenTypeField at h
      obtain ⟨ld, e3, _⟩ := Except.bind_eq_ok h
      exact lenDet_bound e3
    by_cases h16 : (produceCompleteEncoding fl).length / 8 = 16384
    · refine absurd ?_ (openType_oversize o1 h16 at2 d3)
      simpa [Nat.add_assoc, Nat.add_comm, Nat.add_left_comm] using atq
    · omega
  obtain ⟨p₁, d4⟩ := openType_inv o1 (by omega) at2 d3
  rw [← e2] at d4
  refine ⟨bs, henc, by rw [← e2, bytesToBits_length] at hle; omega, decode_ok_of ?_ hw d4⟩
  rintro rfl
  have := (produceCompleteEncoding_length fl).2
  rw [← e2, bytesToBits_nil] at this
  simp at this

namespace Props
open Verif

/-- C07 for any alternative behind the extension marker: it arrives, at any place of any message, if it arrives as a message of
its own. -/
theorem C07_addition_alone {r a : Fields} {g : Groups} {i : Nat} {v w : Val} {n : String} {k : Kind} {t : Ty}
    (hp : Spec.fieldAt a i = some (n, k, t)) (hn : Spec.unsignedFits 16383 i = true) (h : Alone t v w) :
    Spec.Carries (.choice true r a g) (.choice (r.length + i) v) (.choice (r.length + i) w) := by
  obtain ⟨hi, ha, hdec⟩ := alt_at hp
  obtain ⟨fl, ofl, e1, o1, m3, p', m4⟩ := message_open h
  obtain ⟨_, o2⟩ := openType_alone o1 m4 m3
  rw [← ha] at e1
  rw [← hdec] at o2
  have h1 : ¬ r.length + i < r.length := by omega
  have h2 : r.length + i < r.length + a.length := by omega
  have h3 : r.length + i - r.length = i := by omega
  have hno : ¬ (a.length = 0 ∧ g.length = 0) := by omega
  obtain ⟨ixf, i1, i2⟩ := normallySmall_roundtrip (n := i) (of_decide_eq_true hn)
  refine carries_of_reads (fs := ⟨false, [true]⟩ :: (ixf ++ ofl)) ?_ fun pos => ?_
  · simp only [encTy, h1, h2, h3, if_true, if_false, e1, bind, Except.bind]
    unfold assembleChoice
    simp only [h1, h3, if_false, Bool.not_true, Bool.false_eq_true, hno, decide_false, i1, o1, bind, Except.bind]
    rfl
  · rw [decTy, emit_bit]
    simp only [Bool.not_true, Bool.false_eq_true, if_false]
    refine (Reads.bit pos true).bind ?_
    simp only [if_true]
    rw [if_neg (by decide), emit_append]
    refine (i2 _).bind ?_
    rw [if_neg hno]
    simp only [Int.toNat_natCast]
    rw [if_pos hi]
    exact (o2 _).bind_pure (Reads.pure _ _)

/-- The second addition, with a value that arrives changed. -/
example : Spec.Carries (.choice true (Fields.ofList [("a", .mandatory, .boolean)])
      (Fields.ofList [("b", .mandatory, .boolean), ("c", .mandatory, .bitString ⟨false, none, none⟩)]) .nil)
    (.choice 2 (.bits [])) (.choice 2 (.bits [false])) :=
  C07_addition_alone (r := Fields.ofList [("a", .mandatory, .boolean)]) (i := 1) (n := "c") (k := .mandatory)
    (t := .bitString ⟨false, none, none⟩) rfl (by decide +kernel) ⟨[1, 0], by decide +kernel, by decide, by decide +kernel⟩

/-- And only then: the alternative arrives exactly as its value arrives in a message of its own, of at most 16383 octets.  (Values
that are not returned as a message of their own, see F87, are left out.) -/
theorem C07_addition_exact {r a : Fields} {g : Groups} {i : Nat} {v w : Val} {n : String} {k : Kind} {t : Ty}
    (hp : Spec.fieldAt a i = some (n, k, t)) (hn : Spec.unsignedFits 16383 i = true) (hw : Spec.returnable w = true) :
    Spec.Carries (.choice true r a g) (.choice (r.length + i) v) (.choice (r.length + i) w) ↔ Alone t v w := by
  obtain ⟨hi, ha, hdec⟩ := alt_at hp
  exact ⟨open_only (by omega) hn hw (by rw [if_pos hi]; exact ha v) (by rw [if_pos hi]; exact hdec), C07_addition_alone hp hn⟩

/-- An empty BIT STRING does not arrive as one. -/
example : ¬ Spec.Carries (.choice true (Fields.ofList [("a", .mandatory, .boolean)])
      (Fields.ofList [("b", .mandatory, .bitString ⟨false, none, none⟩)]) .nil) (.choice 1 (.bits [])) (.choice 1 (.bits [])) := by
  intro h
  obtain ⟨bs, h1, _, h2⟩ := (C07_addition_exact (r := Fields.ofList [("a", .mandatory, .boolean)]) (i := 0) (n := "b")
    (k := .mandatory) (t := .bitString ⟨false, none, none⟩) rfl (by decide +kernel) rfl).1 h
  rw [show encode (.bitString ⟨false, none, none⟩) (.bits []) = .ok [1, 0] by decide +kernel] at h1
  cases h1
  revert h2
  decide +kernel

/-- C07 for any alternative of an extension addition group: likewise. -/
theorem C07_group_alone {r a : Fields} {g : Groups} {i : Nat} {v w : Val} {n : String} {k : Kind} {t : Ty}
    (hp : groupFieldAt g i = some (n, k, t)) (hn : Spec.unsignedFits 16383 (a.length + i : Nat) = true) (h : Alone t v w) :
    Spec.Carries (.choice true r a g) (.choice (r.length + a.length + i) v) (.choice (r.length + a.length + i) w) := by
  obtain ⟨hi, ha, hdec⟩ := altG_at hp
  obtain ⟨fl, ofl, e1, o1, m3, p', m4⟩ := message_open h
  obtain ⟨_, o2⟩ := openType_alone o1 m4 m3
  rw [← ha] at e1
  rw [← hdec] at o2
  have h1 : ¬ r.length + a.length + i < r.length := by omega
  have h2 : ¬ r.length + a.length + i < r.length + a.length := by omega
  have h3 : r.length + a.length + i - r.length = a.length + i := by omega
  have h4 : r.length + a.length + i - (r.length + a.length) = i := by omega
  have hno : ¬ (a.length = 0 ∧ g.length = 0) := by omega
  obtain ⟨ixf, i1, i2⟩ := normallySmall_roundtrip (n := a.length + i) (of_decide_eq_true hn)
  refine carries_of_reads (fs := ⟨false, [true]⟩ :: (ixf ++ ofl)) ?_ fun pos => ?_
  · simp only [encTy, h1, h2, h4, if_false, e1, bind, Except.bind]
    unfold assembleChoice
    simp only [h1, h3, if_false, Bool.not_true, Bool.false_eq_true, hno, decide_false, i1, o1, bind, Except.bind]
    rfl
  · rw [decTy, emit_bit]
    simp only [Bool.not_true, Bool.false_eq_true, if_false]
    refine (Reads.bit pos true).bind ?_
    simp only [if_true]
    rw [if_neg (by decide), emit_append]
    refine (i2 _).bind ?_
    rw [if_neg hno]
    simp only [Int.toNat_natCast]
    rw [if_neg (by omega), show a.length + i - a.length = i by omega]
    refine (o2 _).bind_pure ?_
    rw [← Nat.add_assoc]
    exact Reads.pure _ _

/-- The only alternative of the second group. -/
example : Spec.Carries (.choice true (Fields.ofList [("a", .mandatory, .boolean)]) (Fields.ofList [("b", .mandatory, .boolean)])
      (.cons (Fields.ofList [("c", .mandatory, .boolean)]) (.cons (Fields.ofList [("d", .mandatory, .bitString ⟨false, none, none⟩)]) .nil)))
    (.choice 3 (.bits [])) (.choice 3 (.bits [false])) :=
  C07_group_alone (r := Fields.ofList [("a", .mandatory, .boolean)]) (a := Fields.ofList [("b", .mandatory, .boolean)]) (i := 1)
    (n := "d") (k := .mandatory) (t := .bitString ⟨false, none, none⟩) rfl (by decide +kernel)
    ⟨[1, 0], by decide +kernel, by decide, by decide +kernel⟩

/-- And only then. -/
theorem C07_group_exact {r a : Fields} {g : Groups} {i : Nat} {v w : Val} {n : String} {k : Kind} {t : Ty}
    (hp : groupFieldAt g i = some (n, k, t)) (hn : Spec.unsignedFits 16383 (a.length + i : Nat) = true)
    (hw : Spec.returnable w = true) :
    Spec.Carries (.choice true r a g) (.choice (r.length + a.length + i) v) (.choice (r.length + a.length + i) w) ↔
      Alone t v w := by
  obtain ⟨hi, ha, hdec⟩ := altG_at hp
  refine ⟨fun h => ?_, C07_group_alone hp hn⟩
  rw [Nat.add_assoc] at h
  have h1 : ¬ a.length + i < a.length := by omega
  have h2 : a.length + i - a.length = i := by omega
  exact open_only (by omega) hn hw (by rw [if_neg h1, h2]; exact ha v) (by rw [if_neg h1, h2]; exact hdec) h

/-- The alternative of a group that is an empty BIT STRING does not arrive as one. -/
example : ¬ Spec.Carries (.choice true (Fields.ofList [("a", .mandatory, .boolean)]) .nil
      (.cons (Fields.ofList [("b", .mandatory, .bitString ⟨false, none, none⟩)]) .nil)) (.choice 1 (.bits [])) (.choice 1 (.bits [])) := by
  intro h
  obtain ⟨bs, h1, _, h2⟩ := (C07_group_exact (r := Fields.ofList [("a", .mandatory, .boolean)]) (a := .nil) (i := 0) (n := "b")
    (k := .mandatory) (t := .bitString ⟨false, none, none⟩) rfl (by decide +kernel) rfl).1 h
  rw [show encode (.bitString ⟨false, none, none⟩) (.bits []) = .ok [1, 0] by decide +kernel] at h1
  cases h1
  revert h2
  decide +kernel

/-- C09 for any additions and addition groups: if the root components arrive as something (see `C08_components`), and every
addition and group that is sent arrives as a message of its own, the SEQUENCE arrives with all of these. -/
theorem C09_additions_alone {r a : Fields} {g : Groups} {cs ds as gs : List (Option Val)} (hl : ds.length = r.length)
    (ho : Spec.optionals r < 65536)
    (h : ∀ i n k t, Spec.fieldAt r i = some (n, k, t) → Arrives k t (cs[i]?.getD none) (ds[i]?.getD none))
    (hno : ¬ (a.length = 0 ∧ g.length = 0)) (h64 : a.length + g.length ≤ 64)
    (ha : AddsArrive a (cs.drop r.length) as) (hga : Spec.gapless false a (cs.drop r.length) = true)
    (hg : GroupsArrive g (cs.drop (r.length + a.length)) gs)
    (hgg : groupsGapless true g (cs.drop (r.length + a.length)) = true) :
    Spec.Carries (.sequence true r a g) (.seq cs) (.seq (ds ++ as ++ gs)) := by
  obtain ⟨opt, fl, e1, hlen, hr⟩ := root_arrives hl h
  have hob := encRoot_bits_length r cs e1
  obtain ⟨rf, e2⟩ := optionalBits_ok (fl := fl) (opt := opt) (by omega)
  obtain ⟨abits, afl, e3, alen, aal, az, az', ar⟩ := adds_arrive (prev := none) ha hga
  obtain ⟨gbits, gfl, e4, glen, gal, gz, gz', gr⟩ := groups_arrive (prev := none) hg (fun _ => rfl) hgg
  have hbl : (abits ++ gbits).length = a.length + g.length := by rw [List.length_append, alen, glen]
  have hbne : abits ++ gbits ≠ [] := by
    intro h0
    have := congrArg List.length h0
    rw [hbl] at this; simp at this; omega
  have henc : ∀ fs, assembleSequence rf (abits ++ gbits) (afl ++ gfl) = .ok fs → encTy (.sequence true r a g) (.seq cs) = .ok fs := by
    intro fs hfs
    simp only [encTy, e1, bind, Except.bind, e2, hno, if_false, if_true, e3, e4, hfs]
  by_cases hpos : bitsToNat (abits ++ gbits) > 0
  · have hp1 := List.length_pos_iff.2 hbne
    obtain ⟨l1, l2⟩ := normallySmallLen_roundtrip (n := ((abits ++ gbits).length : Int)) (by omega) (by omega) none none
    generalize hld : [(⟨false, [false]⟩ : BitField),
      ⟨false, natToBits 6 (((abits ++ gbits).length : Int) - 1).toNat⟩] = ld at l1 l2
    refine carries_of_reads (fs := ⟨false, [true]⟩ :: (rf ++ (ld ++ ([⟨false, abits ++ gbits⟩] ++ (afl ++ gfl)))))
      (henc _ ?_) fun pos => ?_
    · unfold assembleSequence
      rw [pyInt2_of_ne hbne]
      simp only [bind, Except.bind]
      rw [if_pos hpos, l1]
      simp only [pure, Except.pure, List.append_assoc, List.singleton_append, List.cons_append, List.nil_append]
    have hfne : afl ++ gfl ≠ [] := by
      intro h0
      rw [List.append_eq_nil_iff] at h0
      have hm := bitsToNat_pos.1 hpos
      rw [List.mem_append] at hm
      rcases hm with hm | hm
      · exact absurd hm (fun hm => by have := az h0.1 _ hm; cases this)
      · exact absurd hm (fun hm => by have := gz h0.2 _ hm; cases this)
    have hal := aal.append gal
    rw [decTy, emit_bit]
    simp only [if_true]
    refine (Reads.bit pos true).bind ?_
    rw [emit_append, ← hlen]
    have hroot' := optionalBits_rt e2 (f := fun opt => decRoot r opt) hr (pos + 1)
    have assoc : ∀ {β : Type} (k : List (Option Val) → Dec β),
        (decodeOptionalBits opt.length >>= fun o => decRoot r o >>= k)
          = ((decodeOptionalBits opt.length >>= fun o => decRoot r o) >>= k) := by
      intro β k; rw [bind_assoc]
    rw [assoc]
    refine Reads.bind hroot' ?_
    simp only [if_true]
    rw [if_pos (by decide)]
    generalize pos + [true].length + (emit (pos + 1) rf).length = q
    unfold decodeExtensionBits
    have l3 := l2 none none q
    have s1 : ∀ q, emit q (ld ++ ([⟨false, abits ++ gbits⟩] ++ (afl ++ gfl)))
        = (emit q ld ++ (abits ++ gbits) ++
          padTo true (q + (emit q ld).length + (abits ++ gbits).length)) ++
          emit (q + (emit q ld ++ (abits ++ gbits) ++
          padTo true (q + (emit q ld).length + (abits ++ gbits).length)).length) (afl ++ gfl) := by
      intro q
      rw [emit_append, List.singleton_append, emit_cons, padTo_false, List.nil_append,
        hal.emit _ hfne]
      simp only [List.append_assoc, List.length_append, Nat.add_assoc]
    rw [s1]
    refine Reads.bind (a := abits ++ gbits) ?_ ?_
    · rw [List.append_assoc]
      refine l3.bind ?_
      simp only [Int.toNat_natCast]
      refine (Reads.next_plain ⟨0, (abits ++ gbits).length⟩ _ (abits ++ gbits) (by simp)).bind ?_
      refine (Reads.align _).bind_pure ?_
      rw [← hbl, zfill_pyBin_bitsToNat hbne]
      exact Reads.pure _ _
    · rw [emit_append]
      rw [show List.take a.length (abits ++ gbits) = abits by rw [← alen, List.take_left]]
      rw [show List.drop a.length (abits ++ gbits) = gbits by rw [← alen, List.drop_left]]
      refine (ar _).bind ?_
      refine (gr _).bind_pure ?_
      exact Reads.pure _ _
  · have hz := bits_of_zero hpos
    rw [az' (fun b hb => hz b (List.mem_append_left _ hb)), gz' (fun b hb => hz b (List.mem_append_right _ hb)),
      List.append_assoc, List.replicate_append_replicate]
    refine carries_of_reads (fs := ⟨false, [false]⟩ :: rf) (henc _ ?_) fun pos => ?_
    · unfold assembleSequence
      rw [pyInt2_of_ne hbne]
      simp only [bind, Except.bind]
      rw [if_neg hpos]; rfl
    · rw [decTy, emit_bit]
      simp only [if_true]
      refine (Reads.bit pos false).bind ?_
      rw [← hlen]
      refine optionalBits_rt e2 (fun p => ?_) _
      refine (hr p).bind_pure ?_
      exact Reads.pure _ _

/-- One addition that arrives changed, one that is absent, and a group of which one component is given. -/
example : Spec.Carries (.sequence true (Fields.ofList [("a", .mandatory, .boolean)])
      (Fields.ofList [("b", .optional, .bitString ⟨false, none, none⟩), ("c", .optional, .boolean)])
      (.cons (Fields.ofList [("d", .optional, .boolean), ("e", .optional, .boolean)]) .nil))
    (.seq [some (.bool true), some (.bits []), none, none, some (.bool true)])
    (.seq [some (.bool true), some (.bits [false]), none, none, some (.bool true)]) := by
  refine C09_additions_alone (r := Fields.ofList [("a", .mandatory, .boolean)]) (ds := [some (.bool true)])
    (as := [some (.bits [false]), none]) (gs := [none, some (.bool true)])
    rfl (by decide) (fun i n k t hf => ?_) (by decide) (by decide) ?_ (by decide +kernel) ?_ (by decide +kernel)
  · match i with
    | 0 => cases hf; exact ⟨rfl, _, rfl, (C03_boolean true).1⟩
    | i + 1 => cases hf
  · exact ⟨_, _, rfl, ⟨_, _, rfl, rfl, rfl⟩, _, _, rfl, rfl, [1, 0], by decide +kernel, by decide, by decide +kernel⟩
  · exact ⟨_, [], (List.append_nil _).symm, rfl, [0x60], by decide +kernel, by decide, by decide +kernel⟩

/-- C10, from the parts to the message: what arrives at any place of any message, arrives as a message of its own (unless it is
a CHOICE of nothing, F87), whatever follows it. -/
theorem C10_message {t : Ty} {v w : Val} (h : Spec.Carries t v w) (hw : Spec.returnable w = true) : Spec.RoundTrips t v w := by
  obtain ⟨fs, e, r⟩ := reads_everywhere h
  exact roundTrips_of_reads e hw r

/-- A message of its own of at most 16383 octets can be an addition (`C07_addition_alone`, `C09_additions_alone`) of another type,
which again arrives at any place of any message. -/
theorem C10_alone {t : Ty} {v w : Val} {bs : List UInt8} (h : Spec.RoundTrips t v w) (he : encode t v = .ok bs)
    (hl : bs.length ≤ 16383) : Alone t v w := by
  obtain ⟨bs', e, d⟩ := h
  rw [he] at e
  cases e
  exact ⟨bs, he, hl, by simpa using d []⟩

/-- Two levels: a list inside an addition of a SEQUENCE, as a message of its own. -/
example : Spec.RoundTrips (.sequence true (Fields.ofList [("a", .mandatory, .boolean)])
      (Fields.ofList [("b", .optional, .seqOf ⟨false, some 0, some 10⟩ (.bitString ⟨false, none, none⟩))]) .nil)
    (.seq [some (.bool true), some (.seqOf [.bits [], .bits [true]])])
    (.seq [some (.bool true), some (.seqOf [.bits [false], .bits [true]])]) := by
  refine C10_message ?_ rfl
  have hlist : Spec.Carries (.seqOf ⟨false, some 0, some 10⟩ (.bitString ⟨false, none, none⟩))
      (.seqOf [.bits [], .bits [true]]) (.seqOf [.bits [false], .bits [true]]) := by
    rw [C06_elements]
    · decide +kernel
    · rfl
    intro p hp
    simp only [List.zip_cons_cons, List.zip_nil_right, List.mem_cons, List.not_mem_nil, or_false] at hp
    rcases hp with rfl | rfl
    · exact empty_as_zero
    · exact (C04_exact_unconstrained _).2 (by decide)
  refine C09_additions_alone (r := Fields.ofList [("a", .mandatory, .boolean)]) (ds := [some (.bool true)])
    (as := [some (.seqOf [.bits [false], .bits [true]])]) (gs := [])
    rfl (by decide) (fun i n k t hf => ?_) (by decide) (by decide) ?_ (by decide +kernel) rfl rfl
  · match i with
    | 0 => cases hf; exact ⟨rfl, _, rfl, (C03_boolean true).1⟩
    | i + 1 => cases hf
  · exact ⟨_, _, rfl, rfl, _, _, rfl, rfl, C10_alone (bs := [0x20, 0x01, 0x00, 0x01, 0x80]) (C10_message hlist rfl)
      (by decide +kernel) (by decide)⟩

end Props
end Verif
