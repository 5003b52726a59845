import Verif.Lemmas.VersionsExact
import Verif.Props.Missing
/-!
# C26, C42-C44: versions of a schema
-/
namespace Verif.Props
open Verif

/-! ## C25 unused extensions, exactly -/

/-- The octets are those of the SEQUENCE with only the root and the extension marker exactly if no extension is given; an
extension with a DEFAULT is given always. -/
theorem C25_exact {r a : Fields} {g : Groups} {cs : List (Option Val)} {bs : List UInt8}
    (h : encode (.sequence true r a g) (.seq cs) = .ok bs) :
    encode (.sequence true r .nil .nil) (.seq (cs.take r.length)) = .ok bs ↔
      Spec.anyGiven a g (cs.drop r.length) = false := by
  obtain ⟨fs, i1, i2⟩ := (encode_eq _ _ bs).1 h
  have plain : ∀ {opt fl rf}, encRoot r cs = .ok (opt, fl) → withOptionalBits opt fl = .ok rf →
      encTy (.sequence true r .nil .nil) (.seq (cs.take r.length)) = .ok ([⟨false, [false]⟩] ++ rf) := by
    intro opt fl rf e1 e2
    simp only [encTy, encRoot_take, e1, e2, bind, Except.bind, Fields.length, Groups.length, and_self, if_true]
    rfl
  cases extFields i1 with
  | none e1 e2 e3 e4 hz =>
    have hnone : Spec.anyGiven a g (cs.drop r.length) = false := by
      by_cases h0 : Spec.anyGiven a g (cs.drop r.length) = true
      · have := hz _ ((encAdds_given (g := g) e3 (by rw [List.drop_drop]; exact e4)).2 h0); cases this
      · simpa using h0
    exact ⟨fun _ => hnone, fun _ => (encode_eq _ _ bs).2 ⟨_, plain e1 e2, i2⟩⟩
  | some e1 e2 e3 e4 hin hle hld =>
    have hany := (encAdds_given (g := g) e3 (by rw [List.drop_drop]; exact e4)).1 hin
    rw [hany]
    refine ⟨fun h' => ?_, fun h' => nomatch h'⟩
    obtain ⟨fs', j1, j2⟩ := (encode_eq _ _ bs).1 h'
    rw [plain e1 e2] at j1
    cases j1
    rw [i2, produceCompleteEncoding_eq, produceCompleteEncoding_eq, emit_bit'] at j2
    simp only [List.append_assoc] at j2
    rw [emit_bit'] at j2
    simp at j2

/-- An addition with a DEFAULT and an OPTIONAL one, both not set. -/
example : let r := Fields.ofList [("a", .mandatory, .boolean)]
    let v := Val.seq [some (.bool true), none]
    encode (.sequence true r (Fields.ofList [("b", .default (.int 5), .integer .noConstraint)]) .nil) v =
      .ok [0xC0, 0x40, 0x02, 0x01, 0x05] ∧
    encode (.sequence true r (Fields.ofList [("b", .optional, .integer .noConstraint)]) .nil) v = .ok [0x40] ∧
    encode (.sequence true r .nil .nil) (.seq [some (.bool true)]) = .ok [0x40] := by
  refine ⟨?_, ?_, ?_⟩ <;> decide +kernel

/-! ## C26 older receivers

The receiver fills the presence bits up to its own number of extensions after having read them as a number, so
a message whose first presence bit is 0 is misread by a receiver that knows fewer extensions
(`Findings.C26_first_absent`); extensions the receiver does not know are left unread, which is harmless at the
end of a message only (`Findings.C26_nested`).  Hence the hypothesis on the first extension, and hence the
statement for whole messages.  `Spec.safe` is about the parts known to the receiver: the others may hold
anything. -/

/-- A message of the newer version, read by a receiver that knows the older one. -/
theorem C26_older_receiver_partial {r a a' : Fields} {g g' : Groups} (hn : Spec.Newer a g a' g')
    {cs : List (Option Val)} {bs : List UInt8} (h : encode (.sequence true r a' g') (.seq cs) = .ok bs)
    (hs : Spec.safe (.sequence true r a g) (.seq cs) = true)
    (hfirst : Spec.firstGiven a' g' (cs.drop r.length) = true ∨ Spec.anyGiven a' g' (cs.drop r.length) = false ∨
      a.length + g.length = 0) (extra : List UInt8) :
    decode (.sequence true r a g) (bs ++ extra) = .ok (Spec.received (.sequence true r a g) (.seq cs)) :=
  decode_of_reads_prefix h (fun _ e => read_newer hn e hs hfirst 0) extra

/-- `bool, ..., first` and `bool, ..., first, second, [[third]]`. -/
def sampleOlder : Ty :=
  .sequence true (Fields.ofList [("flag", .mandatory, .boolean)])
    (Fields.ofList [("first", .optional, .integer .noConstraint)]) .nil
def sampleNewer : Ty :=
  .sequence true (Fields.ofList [("flag", .mandatory, .boolean)])
    (Fields.ofList [("first", .optional, .integer .noConstraint), ("second", .mandatory, .boolean)])
    (Groups.ofList [[("third", .mandatory, .octetString ⟨false, none, none⟩)]])
def sampleNewerValue : Val :=
  .seq [some (.bool true), some (.int (-5)), some (.bool true), some (.octets [0, 1, 2])]

example : Spec.Newer (Fields.ofList [("first", .optional, .integer .noConstraint)]) .nil
    (Fields.ofList [("first", .optional, .integer .noConstraint), ("second", .mandatory, .boolean)])
    (Groups.ofList [[("third", .mandatory, .octetString ⟨false, none, none⟩)]]) :=
  .additions (b := Fields.ofList [("second", .mandatory, .boolean)])
example : ∃ bs, encode sampleNewer sampleNewerValue = .ok bs ∧ Spec.safe sampleOlder sampleNewerValue = true ∧
    decode sampleOlder bs = .ok (.seq [some (.bool true), some (.int (-5))]) := by
  refine ⟨[0xC1, 0x70, 0x02, 0x01, 0xFB, 0x01, 0x80, 0x04, 0x03, 0x00, 0x01, 0x02], ?_, ?_, ?_⟩ <;> decide +kernel

/-- Otherwise the receiver goes wrong: if extensions are given, but not the first one, a receiver that knows some of them but
not all never returns what it should.  (Groups that the receiver knows are taken to have a mandatory component: what it makes of
one that it wrongly takes for present could otherwise be nothing, like an absent one.) -/
theorem C26_misread {r a a' : Fields} {g g' : Groups} (hn : Spec.Newer a g a' g')
    (hmore : a.length + g.length < a'.length + g'.length) (hknown : 0 < a.length + g.length) (hf : Spec.firm g = true)
    {cs : List (Option Val)} {bs : List UInt8} (h : encode (.sequence true r a' g') (.seq cs) = .ok bs)
    (hs : Spec.safeRoot r cs = true) (hfirst : Spec.firstGiven a' g' (cs.drop r.length) = false)
    (hany : Spec.anyGiven a' g' (cs.drop r.length) = true) (extra : List UInt8) :
    decode (.sequence true r a g) (bs ++ extra) ≠ .ok (Spec.received (.sequence true r a g) (.seq cs)) := by
  intro hd
  obtain ⟨fs, i1, i2⟩ := (encode_eq _ _ bs).1 h
  cases extFields i1 with
  | none e1 e2 e3 e4 hz =>
    have := (encAdds_given (g := g') e3 (by rw [List.drop_drop]; exact e4)).2 hany
    have := hz _ this; cases this
  | @some opt fl rf abits gbits afl gfl ld e1 e2 e3 e4 hin hle hld =>
    obtain ⟨hal, hne⟩ := extension_fields e3 e4 hin
    obtain ⟨x, hx, hlen, _, hx2⟩ := decode_extensions h i1 e1 e2 hs hld hal hne hd
    rw [Spec.received] at hx
    simp only [if_true] at hx
    have hx' := List.append_cancel_left (Val.seq.inj hx)
    subst hx'
    have hfb := first_given e3 (by rw [List.drop_drop]; exact e4) (by rintro rfl; rfl)
    rw [hfirst] at hfb
    obtain ⟨ab, af, gb, gf, j1, j2, ⟨more, hm⟩, _⟩ := newer_split hn e3 e4
    obtain ⟨_, hr, _⟩ := received_marks j1 j2
    have habl := (encAdds_shape a _ none j1).1
    have hgbl := (encGroups_shape g _ none j2).1
    have hl' : (abits ++ gbits).length = a'.length + g'.length := by
      rw [List.length_append, (encAdds_shape a' _ none e3).1, (encGroups_shape g' _ none e4).1]
    obtain ⟨j, t, hjt⟩ := first_true hin
    rw [hjt] at hl'
    simp only [List.length_append, List.length_replicate, List.length_cons] at hl'
    have hj : 0 < j := by
      cases j with
      | zero => rw [hjt] at hfb; simp [bitAt] at hfb
      | succ j => omega
    have hi := hx2 hf (a.length + g.length - (t.length + 1)) (by omega) (by rw [hjt, seen_bits]; exact bitAt_first _ _)
    have := hr _ hi
    rw [← bitAt_left (t := more) (bitAt_lt this), ← hm, hjt, bitAt_replicate _ _ _ (by omega)] at this
    cases this

/-- So a receiver that knows some of the extensions but not all understands exactly the messages that give the first
extension, and those that give none. -/
theorem C26_exact {r a a' : Fields} {g g' : Groups} (hn : Spec.Newer a g a' g')
    (hmore : a.length + g.length < a'.length + g'.length) (hknown : 0 < a.length + g.length) (hf : Spec.firm g = true)
    {cs : List (Option Val)} {bs : List UInt8} (h : encode (.sequence true r a' g') (.seq cs) = .ok bs)
    (hs : Spec.safe (.sequence true r a g) (.seq cs) = true) (extra : List UInt8) :
    decode (.sequence true r a g) (bs ++ extra) = .ok (Spec.received (.sequence true r a g) (.seq cs)) ↔
      Spec.firstGiven a' g' (cs.drop r.length) = true ∨ Spec.anyGiven a' g' (cs.drop r.length) = false := by
  constructor
  · intro hd
    have hs1 : Spec.safeRoot r cs = true := by
      have hs' := hs
      simp only [Spec.survives, Spec.faithful, Bool.and_eq_true] at hs'
      exact hs'.1
    by_cases h1 : Spec.firstGiven a' g' (cs.drop r.length) = true
    · exact .inl h1
    · by_cases h2 : Spec.anyGiven a' g' (cs.drop r.length) = true
      · exact absurd hd (C26_misread hn hmore hknown hf h hs1 (by simpa using h1) h2 extra)
      · exact .inr (by simpa using h2)
  · intro hg
    exact C26_older_receiver_partial hn h hs (hg.imp_right .inl) extra

/-- `bool, ..., first, second` and `bool, ..., first, second, third`: with `first` and `third` the message is understood, with
`third` alone it is not. -/
def sampleTwo : Fields := Fields.ofList [("first", .optional, .boolean), ("second", .optional, .boolean)]
def sampleThree : Fields := Spec.appendFields sampleTwo (Fields.ofList [("third", .optional, .boolean)])
example : let older : Ty := .sequence true (Fields.ofList [("flag", .mandatory, .boolean)]) sampleTwo .nil
    let newer : Ty := .sequence true (Fields.ofList [("flag", .mandatory, .boolean)]) sampleThree .nil
    let v := Val.seq [some (.bool true), none, none, some (.bool true)]
    let w := Val.seq [some (.bool true), some (.bool false), none, some (.bool true)]
    Spec.firm .nil = true ∧ Spec.safe older v = true ∧ Spec.safe older w = true ∧
    encode newer v = .ok [0xC1, 0x10, 0x01, 0x80] ∧
    decode older [0xC1, 0x10, 0x01, 0x80] = .ok (.seq [some (.bool true), none, some (.bool true)]) ∧
    encode newer w = .ok [0xC1, 0x50, 0x01, 0x00, 0x01, 0x80] ∧
    decode older [0xC1, 0x50, 0x01, 0x00, 0x01, 0x80] = .ok (.seq [some (.bool true), some (.bool false), none]) := by
  refine ⟨?_, ?_, ?_, ?_, ?_, ?_, ?_⟩ <;> decide +kernel

/-! ## C42 newer receivers

A message with some extension given is misread by a receiver that knows more extensions than the sender
(`Findings.C42_newer_receiver`): the presence bits end up at the wrong end. -/

/-- A message of the older version without extensions. -/
theorem C42_newer_receiver_partial {r a a' : Fields} {g g' : Groups}
    {cs : List (Option Val)} {bs : List UInt8} (h : encode (.sequence true r a g) (.seq cs) = .ok bs)
    (hs : Spec.safeRoot r cs = true) (hnone : Spec.anyGiven a g (cs.drop r.length) = false) (extra : List UInt8) :
    decode (.sequence true r a' g') (bs ++ extra) =
      .ok (.seq (Spec.receivedRoot r cs ++ List.replicate (a'.length + g'.size) none)) := by
  refine decode_of_reads_prefix h (fun fs e => ?_) extra
  cases extFields e with
  | none e1 e2 e3 e4 hz => exact ⟨_, [], (List.append_nil _).symm, read_root_only e1 e2 hs a' g' 0⟩
  | some e1 e2 e3 e4 hin _ _ =>
    rw [encAdds_given (g := g) e3 (by rw [List.drop_drop]; exact e4), hnone] at hin
    cases hin

example : encode sampleOlder (.seq [some (.bool true), none]) = .ok [0x40] ∧
    decode sampleNewer [0x40] = .ok (.seq [some (.bool true), none, none, none]) := by
  constructor <;> decide +kernel

/-- A receiver that knows further extensions never returns the sender's values from a message that gives any extension,
whatever it makes of the further ones.  (Groups of the sender are taken to have a mandatory component: one that holds nothing
but DEFAULTs is sent and arrives as if absent.) -/
theorem C42_misread {r a a' : Fields} {g g' : Groups} (hn : Spec.Newer a g a' g')
    (hmore : a.length + g.length < a'.length + g'.length) (hf : Spec.firm g = true)
    {cs : List (Option Val)} {bs : List UInt8} (h : encode (.sequence true r a g) (.seq cs) = .ok bs)
    (hs : Spec.safeRoot r cs = true) (hany : Spec.anyGiven a g (cs.drop r.length) = true) {vs : List (Option Val)}
    (hv : Spec.received (.sequence true r a g) (.seq cs) = .seq vs) (further : List (Option Val)) (extra : List UInt8) :
    decode (.sequence true r a' g') (bs ++ extra) ≠ .ok (.seq (vs ++ further)) := by
  intro hd
  obtain ⟨fs, i1, i2⟩ := (encode_eq _ _ bs).1 h
  cases extFields i1 with
  | none e1 e2 e3 e4 hz =>
    have := (encAdds_given (g := g) e3 (by rw [List.drop_drop]; exact e4)).2 hany
    have := hz _ this; cases this
  | @some opt fl rf abits gbits afl gfl ld e1 e2 e3 e4 hin hle hld =>
    obtain ⟨hal, hne⟩ := extension_fields e3 e4 hin
    obtain ⟨x, hx, hlen, hx1, _⟩ := decode_extensions h i1 e1 e2 hs hld hal hne hd
    rw [Spec.received] at hv
    simp only [if_true] at hv
    cases hv
    rw [List.append_assoc] at hx
    have hx' := List.append_cancel_left (Val.seq.inj hx)
    subst hx'
    obtain ⟨hrl, _, hr⟩ := received_marks e3 e4
    have hl' : (abits ++ gbits).length = a.length + g.length := by
      rw [List.length_append, (encAdds_shape a _ none e3).1, (encGroups_shape g _ none e4).1]
    obtain ⟨j, t, hjt⟩ := first_true hin
    rw [hjt] at hl'
    simp only [List.length_append, List.length_replicate, List.length_cons] at hl'
    have hi := hx1 j (marks_newer hn hrl (by rw [hr hf, hjt]; exact bitAt_first _ _))
    rw [hjt, seen_bits, bitAt_replicate _ _ _ (by omega)] at hi
    cases hi

/-- So a receiver that knows further extensions understands exactly the messages that give none. -/
theorem C42_exact {r a a' : Fields} {g g' : Groups} (hn : Spec.Newer a g a' g')
    (hmore : a.length + g.length < a'.length + g'.length) (hf : Spec.firm g = true)
    {cs : List (Option Val)} {bs : List UInt8} (h : encode (.sequence true r a g) (.seq cs) = .ok bs)
    (hs : Spec.safeRoot r cs = true) {vs : List (Option Val)}
    (hv : Spec.received (.sequence true r a g) (.seq cs) = .seq vs) (extra : List UInt8) :
    decode (.sequence true r a' g') (bs ++ extra) =
        .ok (.seq (vs ++ List.replicate (a'.length + g'.size - (a.length + g.size)) none)) ↔
      Spec.anyGiven a g (cs.drop r.length) = false := by
  constructor
  · intro hd
    by_cases h2 : Spec.anyGiven a g (cs.drop r.length) = true
    · exact absurd hd (C42_misread hn hmore hf h hs h2 hv _ extra)
    · simpa using h2
  · intro hnone
    rw [C42_newer_receiver_partial h hs hnone extra]
    obtain ⟨fs, i1, i2⟩ := (encode_eq _ _ bs).1 h
    cases extFields i1 with
    | @none opt fl rf abits gbits afl gfl e1 e2 e3 e4 hz =>
      rw [Spec.received] at hv
      simp only [if_true] at hv
      rw [az' a _ none abits afl e3 (fun b hb => hz b (List.mem_append_left _ hb)),
        gz' g _ none gbits gfl e4 (fun b hb => hz b (List.mem_append_right _ hb)), List.replicate_append_replicate] at hv
      cases hv
      have : a.length + g.size ≤ a'.length + g'.size := newer_size hn
      rw [List.append_assoc, List.replicate_append_replicate,
        show a.length + g.size + (a'.length + g'.size - (a.length + g.size)) = a'.length + g'.size by omega]
    | some e1 e2 e3 e4 hin _ _ =>
      rw [encAdds_given (g := g) e3 (by rw [List.drop_drop]; exact e4), hnone] at hin
      cases hin

/-- The groups have mandatory components; the message that gives the group is misread, the other one is understood. -/
example : let r := Fields.ofList [("flag", .mandatory, .boolean)]
    let g := Groups.ofList [[("first", .mandatory, .boolean)]]
    let h := Groups.ofList [[("second", .mandatory, .integer .noConstraint)]]
    let v := Val.seq [some (.bool true), some (.bool true)]
    Spec.firm g = true ∧ Spec.safeRoot r [some (.bool true), some (.bool true)] = true ∧
    encode (.sequence true r .nil g) v = .ok [0xC0, 0x40, 0x01, 0x80] ∧
    Spec.received (.sequence true r .nil g) v = v ∧
    (decode (.sequence true r .nil (Spec.appendGroups g h)) [0xC0, 0x40, 0x01, 0x80]).isOk = false ∧
    encode (.sequence true r .nil g) (.seq [some (.bool true), none]) = .ok [0x40] ∧
    decode (.sequence true r .nil (Spec.appendGroups g h)) [0x40] = .ok (.seq [some (.bool true), none, none]) := by
  refine ⟨?_, ?_, ?_, ?_, ?_, ?_, ?_⟩ <;> decide +kernel

/-! ## C43 known items and alternatives -/

theorem encode_congr {t t' : Ty} {v : Val} (h : encTy t v = encTy t' v) : encode t v = encode t' v := by
  unfold encode; rw [h]

/-- Adding items to an extensible ENUMERATED leaves the encodings of the known ones as they are. -/
theorem C43_enumerated {root add more : List (String × Int)} {z : Int}
    (h : ∃ p ∈ root ++ add, p.2 = z) :
    encode (.enumerated true root (add ++ more)) (.enum z) = encode (.enumerated true root add) (.enum z) := by
  apply encode_congr
  simp only [encTy, encodeEnumerated, Bool.not_true, Bool.false_eq_true, if_false]
  by_cases hr : (root.map (·.2)).contains z = true
  · rw [if_pos hr, if_pos hr]
  · rw [if_neg hr, if_neg hr]
    obtain ⟨p, hp, rfl⟩ := h
    have ha : p ∈ add := by
      rcases List.mem_append.1 hp with hp | hp
      · exact absurd (List.contains_iff_mem.2 (List.mem_map.2 ⟨p, hp, rfl⟩)) hr
      · exact hp
    have : ∃ n, (add.map (·.2)).findIdx? (· == p.2) = some n := by
      cases hf : (add.map (·.2)).findIdx? (· == p.2) with
      | some n => exact ⟨n, rfl⟩
      | none =>
        rw [List.findIdx?_eq_none_iff] at hf
        have := hf p.2 (List.mem_map.2 ⟨p, ha, rfl⟩)
        simp at this
    obtain ⟨n, hn⟩ := this
    rw [List.map_append, List.findIdx?_append, hn]
    rfl

theorem encAlt_append : ∀ (a b : Fields) (i : Nat) (v : Val), i < a.length →
    encAlt (Spec.appendFields a b) i v = encAlt a i v
  | .nil, _, _, _, h => absurd h (Nat.not_lt_zero _)
  | .cons n k t r, b, 0, v, _ => by simp only [Spec.appendFields, encAlt]
  | .cons n k t r, b, i + 1, v, h => by
    simp only [Spec.appendFields, encAlt]
    exact encAlt_append r b i v (by simpa [Fields.length] using h)

theorem encAltG_append : ∀ (g h : Groups) (i : Nat) (v : Val), i < g.size →
    encAltG (Spec.appendGroups g h) i v = encAltG g i v
  | .nil, _, _, _, h => absurd h (Nat.not_lt_zero _)
  | .cons f g, h, i, v, hi => by
    simp only [Spec.appendGroups, encAltG]
    by_cases hf : i < f.length
    · rw [if_pos hf, if_pos hf]
    · rw [if_neg hf, if_neg hf]
      exact encAltG_append g h _ v (by simp only [Groups.size] at hi; omega)

theorem appendGroups_length : ∀ (a b : Groups), (Spec.appendGroups a b).length = a.length + b.length
  | .nil, b => by simp [Spec.appendGroups, Groups.length]
  | .cons _ r, b => by
    simp only [Spec.appendGroups, Groups.length, appendGroups_length r b]; omega

/-- Adding alternatives to an extensible CHOICE leaves the encodings of the known ones as they are. -/
theorem C43_choice {r a a' : Fields} {g g' : Groups} (hn : Spec.Newer a g a' g') {pos : Nat} {v : Val}
    (h : pos < r.length + a.length + g.size) :
    encode (.choice true r a' g') (.choice pos v) = encode (.choice true r a g) (.choice pos v) := by
  apply encode_congr
  simp only [encTy]
  by_cases hr : pos < r.length
  · rw [if_pos hr, if_pos hr]
    refine bind_congr fun fl => ?_
    simp only [assembleChoice, hr, if_true]
  · rw [if_neg hr, if_neg hr]
    cases hn with
    | @additions b _ =>
      simp only [Groups.size] at h
      rw [appendFields_length, if_pos (by omega), if_pos (by omega), encAlt_append _ _ _ _ (by omega)]
      refine bind_congr fun fl => ?_
      simp only [assembleChoice, hr, if_false]
      rw [show (decide (a.length + b.length = 0 ∧ g'.length = 0)) = false by simp; omega,
        show (decide (a.length = 0 ∧ Groups.nil.length = 0)) = false by simp; omega]
    | groups =>
      rw [appendGroups_length]
      by_cases ha : pos < r.length + a.length
      · rw [if_pos ha, if_pos ha]
        refine bind_congr fun fl => ?_
        rw [show (decide (a.length = 0 ∧ g.length + _ = 0)) = false by simp; omega,
          show (decide (a.length = 0 ∧ g.length = 0)) = false by simp; omega]
      · rw [if_neg ha, if_neg ha, encAltG_append _ _ _ _ (by omega)]
        have : g.length ≠ 0 := by
          cases g with
          | nil => simp [Groups.size] at h; omega
          | cons => simp [Groups.length]
        refine bind_congr fun fl => ?_
        rw [show (decide (a.length = 0 ∧ g.length + _ = 0)) = false by simp; omega,
          show (decide (a.length = 0 ∧ g.length = 0)) = false by simp; omega]

example : encode (.enumerated true [("a", 0)] ([("b", 1)] ++ [("c", 2)])) (.enum 1) = .ok [0x80] := by decide +kernel
example : encode (.choice true (Fields.ofList [("a", .mandatory, .boolean)])
      (Fields.ofList [("b", .mandatory, .boolean)]) (Groups.ofList [[("c", .mandatory, .boolean)]]))
    (.choice 1 (.bool true)) = .ok [0x80, 0x01, 0x80] := by decide +kernel

/-! ## C44 unknown items and alternatives -/

/-- A reader that fails on whatever is left. -/
theorem Reads.bind_error {α β : Type} {m : Dec α} {f : α → Dec β} {pos : Nat} {w : Bits} {a : α}
    (h : Reads m pos w a) (hf : ∀ p, ∃ e, f a p = .error e) {p : PerBytes} {rest : Bits}
    (hp : At p pos (w ++ rest)) : ∃ e, (m >>= f) p = .error e := by
  obtain ⟨p', e1, _⟩ := h p rest hp
  obtain ⟨e, e2⟩ := hf p'
  refine ⟨e, ?_⟩
  show (m p >>= fun x => f x.1 x.2) = _
  rw [e1]; exact e2

theorem decode_fails {t t' : Ty} {v : Val} {bs : List UInt8} (hb : encode t v = .ok bs)
    (h : ∀ fs rest p, encTy t v = .ok fs → At p 0 (emit 0 fs ++ rest) → ∃ e, decTy t' p = .error e)
    (extra : List UInt8) : ∃ e, decode t' (bs ++ extra) = .error e := by
  obtain ⟨fs, e1, e2⟩ := (encode_eq t v bs).1 hb
  have hne : bs ≠ [] := by
    rintro rfl
    have := produceCompleteEncoding_ne_nil fs
    rw [← e2] at this; exact this rfl
  rw [decode_eq (by simp [hne]), bytesToBits_append, e2, produceCompleteEncoding_eq, List.append_assoc]
  obtain ⟨e, he⟩ := h fs _ _ e1 (At.init (emit 0 fs ++ _))
  exact ⟨e, by rw [he]; rfl⟩

theorem decAlt_beyond : ∀ (a : Fields) (i : Nat), a.length ≤ i → decAlt a i = raise .indexError
  | .nil, i, _ => by simp only [decAlt]
  | .cons n k t r, 0, h => by simp [Fields.length] at h
  | .cons n k t r, i + 1, h => by
    simp only [decAlt]
    exact decAlt_beyond r i (by simpa [Fields.length] using h)

theorem decAltG_beyond : ∀ (g : Groups) (i : Nat), g.size ≤ i → decAltG g i = raise .indexError
  | .nil, i, _ => by simp only [decAltG]
  | .cons f g, i, h => by
    simp only [Groups.size] at h
    simp only [decAltG]
    rw [if_neg (by omega)]
    exact decAltG_beyond g _ (by omega)

theorem openType_raises {α : Type} (e : Err) (p : PerBytes) :
    ∃ e', decodeOpenTypeField (raise e : Dec α) p = .error e' := by
  have fails : ∀ {β γ : Type} (m : Dec β) (f : β → Dec γ), (∀ b q, ∃ e', f b q = .error e') →
      ∀ q, ∃ e', (m >>= f) q = .error e' := by
    intro β γ m f hf q
    show ∃ e', (m q >>= fun x => f x.1 x.2) = .error e'
    cases hm : m q with
    | error e' => exact ⟨e', rfl⟩
    | ok x => exact hf x.1 x.2
  unfold decodeOpenTypeField
  refine fails _ _ (fun len q => fails _ _ (fun v q => fails _ _ (fun inner q => ?_) q) q) p
  exact ⟨e, rfl⟩

theorem log2_small {n m : Nat} (h : n < 2 ^ m) (hm : 0 < m) : n.log2 < m := by
  by_cases h0 : n = 0
  · subst h0; simpa using hm
  · exact (Nat.log2_lt h0).2 h

/-- An alternative the receiver does not know (of the first 2^64) is refused. -/
theorem C44_choice {r a a' : Fields} {g g' : Groups} {pos : Nat} {v : Val} {bs : List UInt8}
    (h : encode (.choice true r a' g') (.choice pos v) = .ok bs)
    (hpos : r.length + a.length + g.size ≤ pos) (h64 : pos < 2 ^ 64) (extra : List UInt8) :
    ∃ e, decode (.choice true r a g) (bs ++ extra) = .error e := by
  refine decode_fails h (fun fs rest p he hp => ?_) extra
  simp only [encTy] at he
  obtain ⟨fl, e1, he⟩ := Except.bind_eq_ok he
  have hr : ¬ pos < r.length := by omega
  simp only [assembleChoice, Bool.not_true, Bool.false_eq_true, if_false, hr] at he
  split at he
  · cases he
  obtain ⟨ixf, i1, i2⟩ := normallySmall_roundtrip (n := pos - r.length)
    (log2_small (Nat.lt_of_lt_of_le (Nat.lt_of_le_of_lt (Nat.sub_le _ _) h64)
      (Nat.pow_le_pow_right (by decide) (by decide))) (by decide))
  obtain ⟨ixf', i1', he⟩ := Except.bind_eq_ok he
  rw [i1] at i1'
  cases i1'
  obtain ⟨ofl, e2, he⟩ := Except.bind_eq_ok he
  cases he
  rw [List.append_assoc, emit_bit', List.append_assoc, emit_append] at hp
  rw [decTy]
  simp only [Bool.not_true, Bool.false_eq_true, if_false]
  obtain ⟨p1, q1, hp1⟩ := Reads.bit 0 true p _ hp
  have step : ∀ {β : Type} (f : Nat → Dec β), (∃ e, f 1 p1 = .error e) →
      ∃ e, (next ⟨0, 1⟩ false >>= f) p = .error e := by
    intro β f hf
    obtain ⟨e, hf⟩ := hf
    refine ⟨e, ?_⟩
    show (next ⟨0, 1⟩ false p >>= fun x => f x.1 x.2) = _
    rw [q1]; exact hf
  apply step
  rw [if_neg (by decide)]
  rw [List.append_assoc] at hp1
  refine Reads.bind_error (i2 _) (fun q => ?_) hp1
  by_cases hz : a.length = 0 ∧ g.length = 0
  · rw [if_pos hz]; exact ⟨.notImplemented, rfl⟩
  · rw [if_neg hz]
    simp only [Int.toNat_natCast]
    rw [if_neg (by omega), decAltG_beyond _ _ (by omega)]
    obtain ⟨e', he'⟩ := openType_raises (α := Val) .indexError q
    refine ⟨e', ?_⟩
    show (decodeOpenTypeField (raise .indexError : Dec Val) q >>= _) = _
    rw [he']; rfl

/-- An item the receiver does not know is refused, provided the items it knows are numbered from 0 on
(ENUMERATED types with other numbers: `Findings.C02_numbers`). -/
theorem C44_enumerated {root add add' : List (String × Int)} {z : Int} {bs : List UInt8}
    (hnum : ∀ p ∈ root ++ add, p.2 < root.length + add.length)
    (h : encode (.enumerated true root add') (.enum z) = .ok bs)
    (hroot : ∀ p ∈ root, p.2 ≠ z)
    (hpos : ∀ i, (add'.map (·.2)).findIdx? (· == z) = some i → add.length ≤ i ∧ i < 2 ^ 64) (extra : List UInt8) :
    ∃ e, decode (.enumerated true root add) (bs ++ extra) = .error e := by
  refine decode_fails h (fun fs rest p he hp => ?_) extra
  simp only [encTy, encodeEnumerated, Bool.not_true, Bool.false_eq_true, if_false] at he
  rw [if_neg (by
    intro hc
    obtain ⟨p, hp, rfl⟩ := List.mem_map.1 (List.contains_iff_mem.1 hc)
    exact hroot p hp rfl)] at he
  cases hf : (add'.map (·.2)).findIdx? (· == z) with
  | none => rw [hf] at he; cases he
  | some i =>
    obtain ⟨h1, h64⟩ := hpos i hf
    rw [hf] at he
    obtain ⟨ixf, i1, i2⟩ := normallySmall_roundtrip (n := i)
      (log2_small (Nat.lt_of_lt_of_le h64 (Nat.pow_le_pow_right (by decide) (by decide))) (by decide))
    simp only [i1] at he
    cases he
    rw [emit_bit', List.append_assoc] at hp
    rw [decTy]
    unfold decodeEnumerated
    simp only [Bool.not_true, Bool.false_eq_true, if_false]
    obtain ⟨p1, q1, hp1⟩ := Reads.bit 0 true p _ hp
    have step : ∀ {β : Type} (f : Nat → Dec β), (∃ e, f 1 p1 = .error e) →
        ∃ e, (next ⟨0, 1⟩ false >>= f) p = .error e := by
      intro β f hf
      obtain ⟨e, hf⟩ := hf
      refine ⟨e, ?_⟩
      show (next ⟨0, 1⟩ false p >>= fun x => f x.1 x.2) = _
      rw [q1]; exact hf
    apply step
    rw [if_neg (by decide)]
    refine Reads.bind_error (i2 _) (fun q => ⟨.typeError, ?_⟩) hp1
    have : mkEnum (root ++ add) ((i : Int) + root.length) = .error .typeError := by
      unfold mkEnum
      rw [if_neg]
      intro hc
      obtain ⟨p, hp, hpe⟩ := List.any_eq_true.1 hc
      have := hnum p hp
      rw [beq_iff_eq] at hpe
      omega
    rw [this]; rfl

example : encode (.enumerated true [("a", 0)] [("b", 1), ("c", 2)]) (.enum 2) = .ok [0x81] ∧
    decode (.enumerated true [("a", 0)] [("b", 1)]) [0x81] = .error .typeError := by
  constructor <;> decide +kernel

end Verif.Props
