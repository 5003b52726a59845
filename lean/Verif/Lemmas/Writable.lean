import Verif.SpecText
import Verif.Lemmas.Emit
import Verif.Lemmas.GenClass
/-!
# What is generated can be written down
-/
namespace Verif.Writing

open Spec

theorem bind_some {ε α β : Type} {x : Except ε α} {f : α → Except ε β} {b : β} (h : (x >>= f) = .ok b) :
    ∃ a, x = .ok a ∧ f a = .ok b := emit_bind h

/-! ## names -/

theorem identifier_word {s : String} (h : Word s) (hs : ∃ c r, s.toList = c :: r ∧ c.isAlpha = true) :
    identifier (pyName s) = true := by
  obtain ⟨c, r, e, hc⟩ := hs
  unfold identifier pyName
  rw [String.toList_map, e]
  have h1 : (c == '-') = false := by
    rw [beq_eq_false_iff_ne]; rintro rfl; exact absurd hc (by decide)
  simp only [List.map_cons, h1, Bool.false_eq_true, if_false, hc, Bool.true_or, Bool.true_and, List.all_eq_true, List.mem_map]
  rintro x ⟨y, hy, rfl⟩
  have := h y (by rw [e]; exact List.mem_cons_of_mem _ hy)
  split
  · rfl
  · next hn =>
    rcases this with h | h
    · rw [h]; rfl
    · exact absurd (beq_iff_eq.2 h) hn

theorem upper_imported : ∀ x ∈ imported, ∃ c r, x.toList = c :: r ∧ c.isLower = false := by
  intro x hx
  have : ∀ x ∈ imported, (match x.toList with | [] => false | c :: _ => !c.isLower) = true := by decide
  have := this x hx
  cases e : x.toList with
  | nil => rw [e] at this; cases this
  | cons c r => rw [e] at this; exact ⟨c, r, rfl, by simpa using this⟩

theorem fresh_lower {s : String} (h : LowerName s) : fresh (mangle s) = true := by
  rw [mangle_eq]
  obtain ⟨hw, c, r, e, hc⟩ := h
  unfold fresh
  rw [identifier_word hw ⟨c, r, e, by simp [Char.isAlpha, hc]⟩]
  simp only [Bool.true_and, Bool.not_eq_true', List.contains_eq_mem, decide_eq_false_iff_not]
  intro hm
  obtain ⟨d, q, e', hd⟩ := upper_imported _ hm
  unfold pyName at e'
  rw [String.toList_map, e] at e'
  have h1 : (c == '-') = false := by
    rw [beq_eq_false_iff_ne]; rintro rfl; exact absurd hc (by decide)
  simp only [List.map_cons, h1, Bool.false_eq_true, if_false, List.cons.injEq] at e'
  rw [e'.1] at hc
  rw [hc] at hd
  cases hd

theorem fresh_ident {s : String} (h : fresh s = true) : identifier s = true := by
  unfold fresh at h
  rw [Bool.and_eq_true] at h
  exact h.1

/-! ## components -/

theorem parseValue_quotable {t : TObj} {l : Lit} {e : Expr} (h : parseValue t l = some e) (hl : WordedPres (.default l)) :
    quotableValue e = true := by
  rcases t with ⟨k, c⟩ | items | ⟨c, u⟩ | items | items | n
  · cases k <;> cases l <;> simp only [parseValue, Option.some.injEq, reduceCtorEq] at h <;> first
      | (subst h; rfl)
      | (split at h <;> cases h; rfl)
  · cases l with
    | word s => simp only [parseValue, Option.some.injEq] at h; subst h; exact hl
    | _ => simp only [parseValue, Option.some.injEq] at h; subst h; rfl
  all_goals cases l <;> simp only [parseValue, Option.some.injEq] at h <;> subst h <;> rfl

theorem via_quotable {ctx : Ctx} {t : TObj} {l : Lit} {e : Expr} (he : quotableValue e = true) (hl : WordedPres (.default l))
    {x : Expr} (h : defaultKind.viaType ctx l t e = .default x) : quotableValue x = true := by
  unfold defaultKind.viaType at h
  split at h
  · split at h
    · next n t' _ =>
      injection h with h
      cases hp : parseValue t' l with
      | none => rw [hp] at h; subst h; rfl
      | some y => rw [hp] at h; subst h; exact parseValue_quotable hp hl
    · injection h with h; subst h; exact he
  · injection h with h; subst h; exact he

theorem writable_named {ctx : Ctx} {id : String} {t : TObj} {p : Pres} (hi : LowerName id) (hp : WordedPres p) :
    writableNT (fillNamed ctx id t p) = true := by
  unfold writableNT fillNamed
  rw [Bool.and_eq_true]
  refine ⟨quotable_word hi.1, ?_⟩
  cases p with
  | mandatory => rfl
  | optional => rfl
  | default l =>
    simp only
    split
    · next e he =>
      unfold defaultKind at he
      split at he
      · cases he
      · next e' hv =>
        have hq := parseValue_quotable hv hp
        split at he
        · split at he
          · cases he
          · exact via_quotable hq hp he
        · exact via_quotable hq hp he
    · rfl

theorem writable_alt {id : String} {t : TObj} {p : Pres} (hi : LowerName id) :
    (writableNT (fillNamedAlt id t p) && mandatory (fillNamedAlt id t p)) = true := by
  have h : Spec.quotable id = true := quotable_word hi.1
  unfold writableNT fillNamedAlt mandatory
  simpa using h

theorem step_all {α : Type} {P : α → Prop} {st st' : PartState α} {k : Tok α} (h : partStep st k = .ok st')
    (hs : (∀ x ∈ st.root ++ st.addition ++ st.groups.flatten, P x) ∧ ∀ x ∈ st.single, P x) (hk : ∀ x, k = .comp x → P x) :
    (∀ x ∈ st'.root ++ st'.addition ++ st'.groups.flatten, P x) ∧ ∀ x ∈ st'.single, P x := by
  obtain ⟨h1, h2⟩ := hs
  unfold partStep at h
  cases k with
  | left => cases h; exact ⟨h1, h2⟩
  | right =>
    cases h
    refine ⟨fun x hx => ?_, fun x hx => by cases hx⟩
    simp only [List.flatten_append, List.flatten_cons, List.flatten_nil, List.append_nil, List.mem_append] at hx
    rcases hx with hx | hx | hx
    · exact h1 x (List.mem_append_left _ (List.mem_append.2 hx))
    · exact h1 x (List.mem_append_right _ hx)
    · exact h2 x hx
  | marker =>
    simp only at h
    split at h
    · cases h
    · cases h; exact ⟨h1, h2⟩
  | comp c =>
    have hc := hk c rfl
    simp only at h
    split at h
    · cases h
      refine ⟨h1, fun x hx => ?_⟩
      rcases List.mem_append.1 hx with hx | hx
      · exact h2 x hx
      · rw [List.mem_singleton] at hx; exact hx ▸ hc
    · split at h
      all_goals
        cases h
        refine ⟨fun x hx => ?_, h2⟩
        simp only [List.mem_append, List.mem_singleton] at hx h1
      · rcases hx with ((hx | rfl) | hx) | hx
        · exact h1 x (.inl (.inl hx))
        · exact hc
        · exact h1 x (.inl (.inr hx))
        · exact h1 x (.inr hx)
      · rcases hx with (hx | hx | rfl) | hx
        · exact h1 x (.inl (.inl hx))
        · exact h1 x (.inl (.inr hx))
        · exact hc
        · exact h1 x (.inr hx)

theorem steps_all {α : Type} {P : α → Prop} : ∀ (l : List (Tok α)) {st st' : PartState α}, l.foldlM partStep st = .ok st' →
    (∀ x ∈ st.root ++ st.addition ++ st.groups.flatten, P x) ∧ (∀ x ∈ st.single, P x) → (∀ x, .comp x ∈ l → P x) →
    ∀ x ∈ st'.root ++ st'.addition ++ st'.groups.flatten, P x
  | [], _, _, h, hs, _ => by cases h; exact hs.1
  | k :: l, st, st', h, hs, hl => by
    rw [List.foldlM_cons] at h
    obtain ⟨s, h1, h2⟩ := bind_some h
    exact steps_all l h2 (step_all h1 hs fun x hx => hl x (hx ▸ List.mem_cons_self)) fun x hx => hl x (List.mem_cons_of_mem _ hx)

theorem partsOf_all {P : NT → Prop} {toks : List (Tok NT)} {st : PartState NT} (h : partsOf toks = .ok st)
    (hp : ∀ x, .comp x ∈ toks → P x) : ∀ x ∈ st.root ++ st.addition ++ st.groups.flatten, P x := by
  unfold partsOf at h
  split at h
  · next e =>
    cases h
    exact steps_all toks e ⟨fun x hx => by simp at hx, fun x hx => by simp at hx⟩ hp
  · cases h

theorem comps_toks_all {f : String → TObj → Pres → NT} {P : NT → Prop} (hf : ∀ id t p, LowerName id → WordedPres p → P (f id t p)) :
    ∀ (cs : Comps), WordedComps cs → ∀ x, .comp x ∈ cs.toks f → P x
  | .nil, _, x, hx => by rw [Comps.toks] at hx; cases hx
  | .cons id t p r, h, x, hx => by
    rw [Comps.toks] at hx
    rw [WordedComps] at h
    rcases List.mem_cons.1 hx with hx | hx
    · injection hx with hx; subst hx; exact hf _ _ _ h.1.1 h.1.2.2
    · exact comps_toks_all hf r h.2 x hx

theorem items_toks_all {f : String → TObj → Pres → NT} {P : NT → Prop} (hf : ∀ id t p, LowerName id → WordedPres p → P (f id t p)) :
    ∀ (i : Items), WordedItems i → ∀ x, .comp x ∈ i.toks f → P x
  | .nil, _, x, hx => by rw [Items.toks] at hx; cases hx
  | .comp id t p r, h, x, hx => by
    rw [Items.toks] at hx
    rw [WordedItems] at h
    rcases List.mem_cons.1 hx with hx | hx
    · injection hx with hx; subst hx; exact hf _ _ _ h.1.1 h.1.2.2
    · exact items_toks_all hf r h.2 x hx
  | .marker r, h, x, hx => by
    rw [Items.toks] at hx
    rw [WordedItems] at h
    rcases List.mem_cons.1 hx with hx | hx
    · cases hx
    · exact items_toks_all hf r h x hx
  | .group cs r, h, x, hx => by
    rw [Items.toks] at hx
    rw [WordedItems] at h
    rcases List.mem_cons.1 hx with hx | hx
    · cases hx
    · rcases List.mem_append.1 hx with hx | hx
      · exact comps_toks_all hf cs h.1 x hx
      · rcases List.mem_cons.1 hx with hx | hx
        · cases hx
        · exact items_toks_all hf r h.2 x hx

/-! ## classes -/

mutual
theorem writable_class (ctx : Ctx) : ∀ (t : TObj) {name : String} {c : Code}, identifier name = true → Worded t →
    classOf ctx name t = .ok c → writableCode c = true ∧ c.name = name ∧ base c = t.cls
  | .simple k con, name, c, hn, _, h => by
    rw [classOf] at h
    obtain ⟨x, _, h⟩ := bind_some h
    cases h
    exact ⟨by simpa [writableCode] using hn, rfl, rfl⟩
  | .enumerated items, name, c, hn, _, h => by
    rw [classOf] at h
    cases h
    exact ⟨by simpa [writableCode] using hn, rfl, rfl⟩
  | .seqOf con e, name, c, hn, _, h => by
    rw [classOf] at h
    obtain ⟨x, _, h⟩ := bind_some h
    cases h
    exact ⟨by simpa [writableCode] using hn, rfl, rfl⟩
  | .sequence items, name, c, hn, hw, h => by
    rw [classOf] at h
    rw [Worded] at hw
    obtain ⟨subs, h1, h⟩ := bind_some h
    obtain ⟨st, h2, h⟩ := bind_some h
    cases h
    refine ⟨?_, rfl, rfl⟩
    rw [writableCode, hn, writable_subs ctx items hw h1, List.all_eq_true.2]
    · rfl
    · exact partsOf_all h2 (items_toks_all (fun _ _ _ h1 h2 => writable_named h1 h2) items hw)
  | .choice items, name, c, hn, hw, h => by
    rw [classOf] at h
    rw [Worded] at hw
    obtain ⟨subs, h1, h⟩ := bind_some h
    obtain ⟨st, h2, h⟩ := bind_some h
    cases h
    refine ⟨?_, rfl, rfl⟩
    rw [writableCode, hn, writable_subs ctx items hw h1, List.all_eq_true.2]
    · rfl
    · exact partsOf_all (P := fun nt => (writableNT nt && mandatory nt) = true) h2
        (items_toks_all (fun _ _ _ h1 _ => writable_alt h1) items hw)
  | .ref _, _, _, _, _, h => by rw [classOf] at h; cases h
theorem writable_subs (ctx : Ctx) : ∀ (i : Items) {cs : Codes}, WordedItems i → subsItems ctx i = .ok cs →
    writableCodes cs = true
  | .nil, _, _, h => by rw [subsItems] at h; cases h; rw [writableCodes]
  | .comp id t p r, cs, hw, h => by
    rw [subsItems] at h
    rw [WordedItems] at hw
    obtain ⟨rest, h1, h⟩ := bind_some h
    have hr := writable_subs ctx r hw.2 h1
    split at h
    · obtain ⟨c, h2, h⟩ := bind_some h
      cases h
      have hf := fresh_lower hw.1.1
      obtain ⟨a, b, _⟩ := writable_class ctx t (fresh_ident hf) hw.1.2.1 h2
      rw [writableCodes, b, hf, a, hr]; rfl
    · cases h; exact hr
  | .marker r, cs, hw, h => by
    rw [subsItems] at h
    rw [WordedItems] at hw
    exact writable_subs ctx r hw h
  | .group g r, cs, hw, h => by
    rw [subsItems] at h
    rw [WordedItems] at hw
    obtain ⟨rest, h1, h⟩ := bind_some h
    exact writable_comps ctx g hw.1 (writable_subs ctx r hw.2 h1) h
theorem writable_comps (ctx : Ctx) : ∀ (g : Comps) {rest cs : Codes}, WordedComps g → writableCodes rest = true →
    subsComps ctx g rest = .ok cs → writableCodes cs = true
  | .nil, _, _, _, hr, h => by rw [subsComps] at h; cases h; exact hr
  | .cons id t p r, rest, cs, hw, hr, h => by
    rw [subsComps] at h
    rw [WordedComps] at hw
    obtain ⟨rest', h1, h⟩ := bind_some h
    have hr := writable_comps ctx r hw.2 hr h1
    split at h
    · obtain ⟨c, h2, h⟩ := bind_some h
      cases h
      have hf := fresh_lower hw.1.1
      obtain ⟨a, b, _⟩ := writable_class ctx t (fresh_ident hf) hw.1.2.1 h2
      rw [writableCodes, b, hf, a, hr]; rfl
    · cases h; exact hr
end

/-! ## statements -/

def Ok (s : Stmt) : Prop := writable s = true

theorem ok_class {ctx : Ctx} {t : TObj} {name : String} {c : Code} (hn : identifier name = true)
    (hb : fresh name = true ∨ name = t.cls) (hw : Worded t) (h : classOf ctx name t = .ok c) : Ok (.cls c) := by
  obtain ⟨h1, h2, h3⟩ := writable_class ctx t hn hw h
  unfold Ok
  rw [writable, h1, h2, h3]
  rcases hb with hb | hb
  · rw [hb]; rfl
  · simp [hb]

theorem cls_identifier : ∀ (t : TObj) {s : String}, s = t.cls → (∀ n, t ≠ .ref n) → identifier s = true
  | .simple .integer _, _, rfl, _ => (by decide : identifier "IntegerType" = true)
  | .simple .boolean _, _, rfl, _ => (by decide : identifier "BooleanType" = true)
  | .simple .octetString _, _, rfl, _ => (by decide : identifier "OctetStringType" = true)
  | .simple .bitString _, _, rfl, _ => (by decide : identifier "BitStringType" = true)
  | .enumerated _, _, rfl, _ => (by decide : identifier "EnumeratedType" = true)
  | .seqOf _ _, _, rfl, _ => (by decide : identifier "SequenceOfType" = true)
  | .sequence _, _, rfl, _ => (by decide : identifier "SequenceType" = true)
  | .choice _, _, rfl, _ => (by decide : identifier "ChoiceType" = true)
  | .ref n, _, _, h => absurd rfl (h n)

/-- What the generator remembers of values is in order. -/
def ObjsOk (objs : Objs) : Prop := ∀ p ∈ objs, fresh p.2.1 = true ∧ ∀ e, p.2.2.2 = some e → quotableValue e = true

/-- Names of types are names of their own. -/
def TypesOk (ctx : Ctx) : Prop := ∀ n t, lookupLast ctx.types n = some t → fresh (mangle n) = true

theorem ok_needs {ctx : Ctx} {n : String} {p : Pres} {l : List Plan} (h : needsType ctx n p = .ok l) : Plan.Alls Ok l := by
  unfold needsType at h
  split at h
  · cases h; trivial
  · split at h
    · cases h; trivial
    · cases h

theorem ok_ref {ctx : Ctx} {objs : Objs} {n : String} {l : List Plan} (ho : ObjsOk objs) (ht : TypesOk ctx)
    (h : refStmts ctx objs n = .ok l) : Plan.Alls Ok l := by
  unfold refStmts at h
  split at h
  · cases h
  · next e => cases h; exact ⟨ht _ _ e, trivial⟩
  · next e =>
    split at h
    · obtain ⟨c, _, h⟩ := bind_some h; cases h; exact ⟨trivial, trivial⟩
    · next v m x hl =>
      cases h
      obtain ⟨a, b⟩ := ho _ (mem_of_lookup hl)
      refine ⟨?_, trivial⟩
      rw [Plan.All, Ok, writable, a, b _ rfl]
      rfl
    · obtain ⟨c, _, h⟩ := bind_some h; cases h; exact ⟨trivial, trivial⟩
  · obtain ⟨c, _, h⟩ := bind_some h; cases h; exact ⟨trivial, trivial⟩

theorem ok_cls {c : Code} {pre : List Plan} (h : Ok (.cls c)) (hp : Plan.Alls Ok pre) : Plan.Alls Ok [.cls c pre] :=
  ⟨⟨h, hp⟩, trivial⟩

section
variable {ctx : Ctx} {objs : Objs} (ho : ObjsOk objs) (ht : TypesOk ctx)
include ho ht

mutual
theorem ok_elem : ∀ (t : TObj) {l : List Plan}, Worded t → elemStmts ctx objs t = .ok l → Plan.Alls Ok l
  | .simple k c, l, _, h => by rw [elemStmts] at h; cases h; trivial
  | .ref n, l, _, h => by rw [elemStmts] at h; exact ok_ref ho ht h
  | .enumerated items, l, hw, h => by
    rw [elemStmts] at h
    obtain ⟨c, h1, h⟩ := bind_some h
    cases h
    exact ok_cls (ok_class (cls_identifier _ rfl (fun _ h => by cases h)) (.inr rfl) hw h1) trivial
  | .seqOf con e, l, hw, h => by
    rw [elemStmts] at h
    obtain ⟨c, h1, h⟩ := bind_some h
    obtain ⟨pre, h2, h⟩ := bind_some h
    cases h
    exact ok_cls (ok_class (cls_identifier _ rfl (fun _ h => by cases h)) (.inr rfl) hw h1) (ok_elem e (by rw [Worded] at hw; exact hw) h2)
  | .sequence items, l, hw, h => by
    rw [elemStmts] at h
    obtain ⟨c, h1, h⟩ := bind_some h
    obtain ⟨pre, h2, h⟩ := bind_some h
    cases h
    exact ok_cls (ok_class (cls_identifier _ rfl (fun _ h => by cases h)) (.inr rfl) hw h1) (ok_items items (by rw [Worded] at hw; exact hw) h2)
  | .choice items, l, hw, h => by
    rw [elemStmts] at h
    obtain ⟨c, h1, h⟩ := bind_some h
    obtain ⟨pre, h2, h⟩ := bind_some h
    cases h
    exact ok_cls (ok_class (cls_identifier _ rfl (fun _ h => by cases h)) (.inr rfl) hw h1) (ok_items items (by rw [Worded] at hw; exact hw) h2)
theorem ok_comp : ∀ (t : TObj) {p : Pres} {l : List Plan}, Worded t → compStmts ctx objs p t = .ok l → Plan.Alls Ok l
  | .simple k c, _, l, _, h => by rw [compStmts] at h; cases h; trivial
  | .enumerated items, _, l, _, h => by rw [compStmts] at h; cases h; trivial
  | .ref n, _, l, _, h => by rw [compStmts] at h; exact ok_needs h
  | .seqOf c e, _, l, hw, h => by rw [compStmts] at h; exact ok_inner e (by rw [Worded] at hw; exact hw) h
  | .sequence items, _, l, hw, h => by rw [compStmts] at h; exact ok_items items (by rw [Worded] at hw; exact hw) h
  | .choice items, _, l, hw, h => by rw [compStmts] at h; exact ok_items items (by rw [Worded] at hw; exact hw) h
theorem ok_inner : ∀ (t : TObj) {l : List Plan}, Worded t → innerStmts ctx objs t = .ok l → Plan.Alls Ok l
  | .ref n, l, _, h => by rw [innerStmts] at h; exact ok_needs h
  | .simple k con, l, hw, h => by
    rw [innerStmts] at h
    obtain ⟨c, h1, h⟩ := bind_some h
    cases h
    exact ok_cls (ok_class (cls_identifier _ rfl (fun _ h => by cases h)) (.inr rfl) hw h1) trivial
  | .enumerated items, l, hw, h => by
    rw [innerStmts] at h
    obtain ⟨c, h1, h⟩ := bind_some h
    cases h
    exact ok_cls (ok_class (cls_identifier _ rfl (fun _ h => by cases h)) (.inr rfl) hw h1) trivial
  | .seqOf con e, l, hw, h => by
    rw [innerStmts] at h
    obtain ⟨c, h1, h⟩ := bind_some h
    obtain ⟨pre, h2, h⟩ := bind_some h
    cases h
    exact ok_cls (ok_class (cls_identifier _ rfl (fun _ h => by cases h)) (.inr rfl) hw h1) (ok_elem e (by rw [Worded] at hw; exact hw) h2)
  | .sequence items, l, hw, h => by
    rw [innerStmts] at h
    obtain ⟨c, h1, h⟩ := bind_some h
    obtain ⟨pre, h2, h⟩ := bind_some h
    cases h
    exact ok_cls (ok_class (cls_identifier _ rfl (fun _ h => by cases h)) (.inr rfl) hw h1) (ok_items items (by rw [Worded] at hw; exact hw) h2)
  | .choice items, l, hw, h => by
    rw [innerStmts] at h
    obtain ⟨c, h1, h⟩ := bind_some h
    obtain ⟨pre, h2, h⟩ := bind_some h
    cases h
    exact ok_cls (ok_class (cls_identifier _ rfl (fun _ h => by cases h)) (.inr rfl) hw h1) (ok_items items (by rw [Worded] at hw; exact hw) h2)
theorem ok_items : ∀ (i : Items) {l : List Plan}, WordedItems i → itemsStmts ctx objs i = .ok l → Plan.Alls Ok l
  | .nil, l, _, h => by rw [itemsStmts] at h; cases h; trivial
  | .comp id t p r, l, hw, h => by
    rw [itemsStmts] at h
    rw [WordedItems] at hw
    obtain ⟨a, h1, h⟩ := bind_some h
    obtain ⟨b, h2, h⟩ := bind_some h
    cases h
    exact (ok_comp t hw.1.2.1 h1).append (ok_items r hw.2 h2)
  | .marker r, l, hw, h => by
    rw [itemsStmts] at h
    rw [WordedItems] at hw
    exact ok_items r hw h
  | .group cs r, l, hw, h => by
    rw [itemsStmts] at h
    rw [WordedItems] at hw
    obtain ⟨a, h1, h⟩ := bind_some h
    obtain ⟨b, h2, h⟩ := bind_some h
    cases h
    exact (ok_comps cs hw.1 h1).append (ok_items r hw.2 h2)
theorem ok_comps : ∀ (cs : Comps) {l : List Plan}, WordedComps cs → compsStmts ctx objs cs = .ok l → Plan.Alls Ok l
  | .nil, l, _, h => by rw [compsStmts] at h; cases h; trivial
  | .cons id t p r, l, hw, h => by
    rw [compsStmts] at h
    rw [WordedComps] at hw
    obtain ⟨a, h1, h⟩ := bind_some h
    obtain ⟨b, h2, h⟩ := bind_some h
    cases h
    exact (ok_comp t hw.1.2.1 h1).append (ok_comps r hw.2 h2)
end

theorem ok_top (t : TObj) {name : String} {l : List Plan} (hn : fresh name = true) (hw : Worded t)
    (h : fillTop ctx objs name t = .ok l) : Plan.Alls Ok l := by
  cases t with
  | simple k con =>
    rw [fillTop] at h
    obtain ⟨c, h1, h⟩ := bind_some h
    cases h
    exact ok_cls (ok_class (fresh_ident hn) (.inl hn) hw h1) trivial
  | enumerated items =>
    rw [fillTop] at h
    obtain ⟨c, h1, h⟩ := bind_some h
    cases h
    exact ok_cls (ok_class (fresh_ident hn) (.inl hn) hw h1) trivial
  | seqOf con e =>
    rw [fillTop] at h
    obtain ⟨c, h1, h⟩ := bind_some h
    obtain ⟨pre, h2, h⟩ := bind_some h
    cases h
    exact ok_cls (ok_class (fresh_ident hn) (.inl hn) hw h1) (ok_elem ho ht e (by rw [Worded] at hw; exact hw) h2)
  | sequence items =>
    rw [fillTop] at h
    obtain ⟨c, h1, h⟩ := bind_some h
    obtain ⟨pre, h2, h⟩ := bind_some h
    cases h
    exact ok_cls (ok_class (fresh_ident hn) (.inl hn) hw h1) (ok_items ho ht items (by rw [Worded] at hw; exact hw) h2)
  | choice items =>
    rw [fillTop] at h
    obtain ⟨c, h1, h⟩ := bind_some h
    obtain ⟨pre, h2, h⟩ := bind_some h
    cases h
    exact ok_cls (ok_class (fresh_ident hn) (.inl hn) hw h1) (ok_items ho ht items (by rw [Worded] at hw; exact hw) h2)
  | ref n => rw [fillTop] at h; cases h

theorem ok_assign {a : Assign} {r : Objs × List Plan} (hw : WordedAssign a) (h : fillAssign ctx objs a = .ok r) :
    ObjsOk r.1 ∧ Plan.Alls Ok r.2 := by
  unfold fillAssign at h
  split at h
  · next n m =>
    have hf : fresh (mangle n) = true := by rw [mangle_eq]; exact hw.1
    split at h
    · cases h; exact ⟨ho, hf, trivial⟩
    · split at h
      · cases h
      · cases h; exact ⟨ho, hf, trivial⟩
  · next n t _ =>
    obtain ⟨l, h1, h⟩ := bind_some h
    cases h
    exact ⟨ho, ok_top ho ht t (by rw [mangle_eq]; exact hw.1) hw.2 h1⟩
  · next n k l =>
    split at h
    · next e he =>
      cases h
      refine ⟨ho, ?_, trivial⟩
      rw [Plan.All, Ok, writable, mangle_eq, hw.1, parseValue_quotable he hw.2]; rfl
    · cases h
      exact ⟨ho, ⟨ok_class (ctx := ctx) (t := .simple k none) (cls_identifier _ rfl (fun _ h => by cases h)) (.inr rfl) trivial
        (by cases k <;> rfl), trivial⟩, trivial⟩
  · next n m l =>
    obtain ⟨⟨b, t⟩, _, h⟩ := bind_some h
    cases h
    have hq : ∀ e, parseValue t l = some e → quotableValue e = true := fun e he => parseValue_quotable he hw.2
    have hf : fresh (mangle n) = true := by rw [mangle_eq]; exact hw.1
    refine ⟨?_, ?_, trivial⟩
    · intro p hp
      rcases List.mem_cons.1 hp with rfl | hp
      · exact ⟨hf, hq⟩
      · exact ho p hp
    · rw [Plan.All, Ok, writable, hf]
      cases e : parseValue t l with
      | none => rfl
      | some x => simpa using hq x e
end

theorem ok_steps {ctx : Ctx} (ht : TypesOk ctx) : ∀ (as : List Assign) {st st' : Objs × List Plan},
    ObjsOk st.1 → Plan.Alls Ok st.2 → (∀ a ∈ as, WordedAssign a) → as.foldlM (genStep ctx) st = .ok st' →
    Plan.Alls Ok st'.2
  | [], st, st', _, hs, _, h => by cases h; exact hs
  | a :: as, st, st', ho, hs, hw, h => by
    rw [List.foldlM_cons] at h
    obtain ⟨s, h1, h⟩ := bind_some h
    unfold genStep at h1
    obtain ⟨⟨o, l⟩, h2, h1⟩ := bind_some h1
    cases h1
    obtain ⟨a1, a2⟩ := ok_assign ho ht (hw a List.mem_cons_self) h2
    exact ok_steps (st := (o, st.2 ++ l)) ht as a1 (hs.append a2) (fun a ha => hw a (List.mem_cons_of_mem _ ha)) h

/-- The statements generated for a schema whose words are words can be written down. -/
theorem generate_writable {as : List Assign} {prog : List Stmt} (hw : ∀ a ∈ as, WordedAssign a)
    (h : generate as = .ok prog) : ∀ s ∈ prog, writable s = true := by
  unfold generate at h
  obtain ⟨st, h1, h⟩ := bind_some h
  unfold emitted at h
  obtain ⟨⟨d, l⟩, h2, h⟩ := bind_some h
  cases h
  have ht : TypesOk (ctxOf as) := by
    intro n t e
    have := mem_of_lookupLast e
    rw [ctxOf, List.mem_filterMap] at this
    obtain ⟨a, ha, e⟩ := this
    cases a with
    | type m u => cases e; rw [mangle_eq]; exact (hw _ ha).1
    | value => cases e
    | constant => cases e
  exact emitPlans_all _ (ok_steps (st := ([], [])) ht as (fun p hp => by cases hp) trivial hw h1) h2

end Verif.Writing
