import Verif.SpecRecursion
import Verif.Lemmas.Compiled
/-!
# A module that can be imported has no type that contains itself
-/
namespace Verif.Recursion

open Spec Writing

/-! ## names -/

/-- The name a statement binds. -/
def bound : Stmt → String
  | .cls c => c.name
  | .alias n _ => n
  | .value n _ _ => n

theorem loadStmt_env {st st' : Loaded} {s : Stmt} (h : loadStmt st s = .ok st') : ∃ o, st'.env = (bound s, o) :: st.env := by
  cases s with
  | cls c =>
    rw [loadStmt] at h
    obtain ⟨_, _, h⟩ := bind_some h
    obtain ⟨t, _, h⟩ := bind_some h
    cases h
    exact ⟨_, rfl⟩
  | alias n m =>
    rw [loadStmt] at h
    obtain ⟨_, _, h⟩ := bind_some h
    split at h
    · cases h; exact ⟨_, rfl⟩
    · cases h
  | value n m e =>
    rw [loadStmt] at h
    obtain ⟨_, _, h⟩ := bind_some h
    obtain ⟨t, _, h⟩ := bind_some h
    obtain ⟨v, _, h⟩ := bind_some h
    cases h
    exact ⟨_, rfl⟩

theorem load_names : ∀ (prog : List Stmt) {st st' : Loaded}, prog.foldlM loadStmt st = .ok st' → ∀ x,
    (st'.env.lookup x).isSome = true → (st.env.lookup x).isSome = true ∨ x ∈ prog.map bound
  | [], st, st', h, x, hx => by cases h; exact .inl hx
  | s :: prog, st, st', h, x, hx => by
    rw [List.foldlM_cons] at h
    obtain ⟨s1, h1, h⟩ := bind_some h
    rcases load_names prog h x hx with h2 | h2
    · obtain ⟨o, ho⟩ := loadStmt_env h1
      rw [ho, List.lookup_cons] at h2
      cases hb : x == bound s with
      | true => exact .inr (by rw [eq_of_beq hb]; exact List.mem_cons_self)
      | false => rw [hb] at h2; exact .inl h2
    · exact .inr (List.mem_cons_of_mem _ h2)

/-! ## what a class mentions is there when it is defined -/

def codeList : Codes → List Code
  | .nil => []
  | .cons c r => c :: codeList r

theorem loadCodes_each {env : List (String × PyObj)} : ∀ (cs : Codes) {l : List (String × PyObj)}, loadCodes env cs = .ok l →
    (∀ c ∈ codeList cs, ∃ T, loadCode env c = .ok T) ∧ ∀ p ∈ l, ∃ c ∈ codeList cs, p.1 = c.name
  | .nil, l, h => by rw [loadCodes] at h; cases h; exact ⟨fun _ h => (nomatch h), fun _ h => (nomatch h)⟩
  | .cons c r, l, h => by
    rw [loadCodes] at h
    obtain ⟨_, _, h⟩ := bind_some h
    obtain ⟨T, h1, h⟩ := bind_some h
    obtain ⟨rest, h2, h⟩ := bind_some h
    cases h
    obtain ⟨a, b⟩ := loadCodes_each r h2
    refine ⟨fun x hx => ?_, fun p hp => ?_⟩
    · rcases List.mem_cons.1 hx with rfl | hx
      · exact ⟨T, h1⟩
      · exact a x hx
    · rcases List.mem_append.1 hp with hp | hp
      · obtain ⟨x, hx, e⟩ := b p hp; exact ⟨x, List.mem_cons_of_mem _ hx, e⟩
      · rw [List.mem_singleton] at hp; subst hp; exact ⟨c, List.mem_cons_self, rfl⟩

theorem classOf_named {ctx : Ctx} {name : String} {t : TObj} {c : Code} (h : classOf ctx name t = .ok c) : c.name = name := by
  cases t with
  | simple k con => rw [classOf] at h; obtain ⟨_, _, h⟩ := bind_some h; cases h; rfl
  | enumerated items => rw [classOf] at h; cases h; rfl
  | seqOf con e => rw [classOf] at h; obtain ⟨_, _, h⟩ := bind_some h; cases h; rfl
  | sequence items =>
    rw [classOf] at h
    obtain ⟨_, _, h⟩ := bind_some h
    obtain ⟨_, _, h⟩ := bind_some h
    cases h; rfl
  | choice items =>
    rw [classOf] at h
    obtain ⟨_, _, h⟩ := bind_some h
    obtain ⟨_, _, h⟩ := bind_some h
    cases h; rfl
  | ref n => rw [classOf] at h; cases h

theorem subsComps_each {ctx : Ctx} : ∀ (g : Comps) {rest cs : Codes}, subsComps ctx g rest = .ok cs →
    (∀ c ∈ codeList rest, c ∈ codeList cs) ∧
    (∀ c ∈ compList g, nested c.2.1 = true → ∃ code ∈ codeList cs, classOf ctx (mangle c.1) c.2.1 = .ok code) ∧
    ∀ code ∈ codeList cs, code ∈ codeList rest ∨ ∃ c ∈ compList g, code.name = mangle c.1
  | .nil, rest, cs, h => by
    rw [subsComps] at h; cases h
    exact ⟨fun _ h => h, fun _ h => (nomatch h), fun _ h => .inl h⟩
  | .cons id t p r, rest, cs, h => by
    rw [subsComps] at h
    obtain ⟨cs', h1, h⟩ := bind_some h
    obtain ⟨a, b, d⟩ := subsComps_each r h1
    split at h
    · obtain ⟨code, h2, h⟩ := bind_some h
      cases h
      refine ⟨fun c hc => List.mem_cons_of_mem _ (a c hc), fun c hc hn => ?_, fun c hc => ?_⟩
      · rcases List.mem_cons.1 hc with rfl | hc
        · exact ⟨code, List.mem_cons_self, h2⟩
        · obtain ⟨x, hx, e⟩ := b c hc hn; exact ⟨x, List.mem_cons_of_mem _ hx, e⟩
      · rcases List.mem_cons.1 hc with rfl | hc
        · exact .inr ⟨_, List.mem_cons_self, classOf_named h2⟩
        · exact (d c hc).imp (fun h => h) fun ⟨x, hx, e⟩ => ⟨x, List.mem_cons_of_mem _ hx, e⟩
    · next hnn =>
      cases h
      refine ⟨a, fun c hc hn => ?_, fun c hc => (d c hc).imp (fun h => h) fun ⟨x, hx, e⟩ => ⟨x, List.mem_cons_of_mem _ hx, e⟩⟩
      rcases List.mem_cons.1 hc with rfl | hc
      · exact absurd hn hnn
      · exact b c hc hn

theorem subsItems_each {ctx : Ctx} : ∀ (i : Items) {cs : Codes}, subsItems ctx i = .ok cs →
    (∀ c ∈ declared (itemList i), nested c.2.1 = true → ∃ code ∈ codeList cs, classOf ctx (mangle c.1) c.2.1 = .ok code) ∧
    ∀ code ∈ codeList cs, ∃ c ∈ declared (itemList i), code.name = mangle c.1
  | .nil, cs, h => by rw [subsItems] at h; cases h; exact ⟨fun _ h => (nomatch h), fun _ h => (nomatch h)⟩
  | .comp id t p r, cs, h => by
    rw [subsItems] at h
    obtain ⟨cs', h1, h⟩ := bind_some h
    obtain ⟨b, d⟩ := subsItems_each r h1
    split at h
    · obtain ⟨code, h2, h⟩ := bind_some h
      cases h
      refine ⟨fun c hc hn => ?_, fun c hc => ?_⟩
      · rcases List.mem_cons.1 hc with rfl | hc
        · exact ⟨code, List.mem_cons_self, h2⟩
        · obtain ⟨x, hx, e⟩ := b c hc hn; exact ⟨x, List.mem_cons_of_mem _ hx, e⟩
      · rcases List.mem_cons.1 hc with rfl | hc
        · exact ⟨_, List.mem_cons_self, classOf_named h2⟩
        · obtain ⟨x, hx, e⟩ := d c hc; exact ⟨x, List.mem_cons_of_mem _ hx, e⟩
    · next hnn =>
      cases h
      refine ⟨fun c hc hn => ?_, fun c hc => ?_⟩
      · rcases List.mem_cons.1 hc with rfl | hc
        · exact absurd hn hnn
        · exact b c hc hn
      · obtain ⟨x, hx, e⟩ := d c hc; exact ⟨x, List.mem_cons_of_mem _ hx, e⟩
  | .marker r, cs, h => by rw [subsItems] at h; exact subsItems_each r h
  | .group g r, cs, h => by
    rw [subsItems] at h
    obtain ⟨cs', h1, h⟩ := bind_some h
    obtain ⟨b, d⟩ := subsItems_each r h1
    obtain ⟨x, y, z⟩ := subsComps_each g h
    simp only [itemList, declared]
    refine ⟨fun c hc hn => ?_, fun c hc => ?_⟩
    · rcases List.mem_append.1 hc with hc | hc
      · exact y c hc hn
      · obtain ⟨code, h1, h2⟩ := b c hc hn; exact ⟨code, x _ h1, h2⟩
    · rcases z c hc with h | ⟨e, he, h⟩
      · obtain ⟨e, he, h⟩ := d c h; exact ⟨e, List.mem_append_right _ he, h⟩
      · exact ⟨e, List.mem_append_left _ he, h⟩

theorem declared_map {α β : Type} (f : α → β) : ∀ l : List (Item α), declared (l.map (mapItem f)) = (declared l).map f
  | [] => rfl
  | .comp x :: r => by simp [mapItem, declared, declared_map f r]
  | .marker :: r => by simp [mapItem, declared, declared_map f r]
  | .group xs :: r => by simp [mapItem, declared, declared_map f r]

/-- Every component is in one of the lists. -/
theorem parts_each {f : String → TObj → Pres → NT} {items : Items} {st : PartState NT} (h : partsOf (items.toks f) = .ok st)
    {c : String × TObj × Pres} (hc : c ∈ declared (itemList items)) :
    onComp f c ∈ st.root ∨ onComp f c ∈ st.addition ∨ ∃ g ∈ st.groups, onComp f c ∈ g := by
  rw [partsOf, items_toks, Props.C36_parts] at h
  cases h
  have : onComp f c ∈ declared ((itemList items).map (mapItem (onComp f))) := by
    rw [declared_map]; exact List.mem_map.2 ⟨c, hc, rfl⟩
  have := (Props.C36_perm _).mem_iff.2 this
  simp only [List.mem_append, List.mem_flatten, or_assoc] at this
  exact this

theorem mapM_each {α β : Type} {f : α → Except GenErr β} : ∀ {l : List α} {r : List β}, l.mapM f = .ok r → ∀ x ∈ l,
    ∃ y, f x = .ok y
  | [], _, _, _, hx => (nomatch hx)
  | a :: l, r, h, x, hx => by
    rw [List.mapM_cons] at h
    obtain ⟨y, h1, h⟩ := bind_some h
    obtain ⟨ys, h2, h⟩ := bind_some h
    rcases List.mem_cons.1 hx with rfl | hx
    · exact ⟨y, h1⟩
    · exact mapM_each h2 x hx

theorem loadNTs_each {env : List (String × PyObj)} {l : List NT} {f : Fields} (h : loadNTs env l = .ok f) :
    ∀ nt ∈ l, ∃ y, loadNT env nt = .ok y := by
  unfold loadNTs at h
  obtain ⟨y, h1, h⟩ := bind_some h
  exact mapM_each h1

theorem classNamed_bound {env : List (String × PyObj)} {n : String} {T : Ty} (h : classNamed env n = .ok T) :
    (env.lookup n).isSome = true := by
  unfold classNamed at h
  split at h
  · next e => rw [e]; rfl
  · cases h
  · cases h

section
variable {ctx : Ctx} {env : List (String × PyObj)} {b : String} (hb : UpperName b)

/-- What is known of a component of a class that has been defined. -/
def CompOk (ctx : Ctx) (env : List (String × PyObj)) (c : String × TObj × Pres) : Prop :=
  (nested c.2.1 = true → ∃ name code T, classOf ctx name c.2.1 = .ok code ∧ loadCode env code = .ok T) ∧
  ∀ n, c.2.1 = .ref n → UpperName n → (∀ l, c.2.2 ≠ .default l) → (env.lookup (mangle n)).isSome = true

theorem loadNT_ref {env' : List (String × PyObj)} {nt : NT} {y : String × Kind × Ty} (h : loadNT env' nt = .ok y)
    (hk : nt.kind = .mandatory ∨ nt.kind = .optional) : (env'.lookup nt.fieldType).isSome = true := by
  unfold loadNT at h
  rcases hk with hk | hk <;>
  · simp only [hk] at h
    obtain ⟨T, h1, _⟩ := bind_some h
    exact classNamed_bound h1

theorem comps_ok {items : Items} {subs : Codes} {st : PartState NT} {f : String → TObj → Pres → NT}
    {l : List (String × PyObj)} {r a : Fields} {g : List (List (String × Kind × Ty))}
    (hf : ∀ id t p, (f id t p).fieldType = fieldType id t)
    (hk : ∀ id t p, (∀ l, p ≠ .default l) → (f id t p).kind = .mandatory ∨ (f id t p).kind = .optional)
    (hs : subsItems ctx items = .ok subs) (hp : partsOf (items.toks f) = .ok st) (hl : loadCodes env subs = .ok l)
    (hr : loadNTs (l ++ env) st.root = .ok r) (ha : loadNTs (l ++ env) st.addition = .ok a)
    (hg : st.groups.mapM (fun g => g.mapM (loadNT (l ++ env))) = .ok g)
    (hid : ∀ c ∈ declared (itemList items), LowerName c.1) : ∀ c ∈ declared (itemList items), CompOk ctx env c := by
  obtain ⟨s1, s2⟩ := subsItems_each items hs
  obtain ⟨l1, l2⟩ := loadCodes_each subs hl
  intro c hc
  refine ⟨fun hn => ?_, fun n hn hu hd => ?_⟩
  · obtain ⟨code, h1, h2⟩ := s1 c hc hn
    obtain ⟨T, h3⟩ := l1 code h1
    exact ⟨_, code, T, h2, h3⟩
  · have key : ∃ y, loadNT (l ++ env) (onComp f c) = .ok y := by
      rcases parts_each hp hc with h | h | ⟨gg, h, h'⟩
      · exact loadNTs_each hr _ h
      · exact loadNTs_each ha _ h
      · obtain ⟨y, hy⟩ := mapM_each hg _ h
        exact mapM_each hy _ h'
    obtain ⟨y, hy⟩ := key
    have := loadNT_ref hy (hk _ _ _ hd)
    rw [onComp, hf, hn, fieldType, lookup_append', Option.isSome_or, Bool.or_eq_true] at this
    refine this.resolve_left fun hx => ?_
    obtain ⟨o, ho⟩ := Option.isSome_iff_exists.1 hx
    obtain ⟨code, h1, h2⟩ := l2 _ (mem_of_lookup ho)
    obtain ⟨e, h3, h4⟩ := s2 code h1
    rw [h4, mangle_eq, mangle_eq] at h2
    exact lower_ne_upper (hid e h3) hu h2.symm

theorem worded_comps : ∀ (cs : Comps), WordedComps cs → ∀ c ∈ compList cs, LowerName c.1
  | .nil, _, _, h => (nomatch h)
  | .cons id t p r, hw, c, h => by
    rw [WordedComps] at hw
    rcases List.mem_cons.1 h with rfl | h
    · exact hw.1.1
    · exact worded_comps r hw.2 c h

theorem worded_items : ∀ (i : Items), WordedItems i → ∀ c ∈ declared (itemList i), LowerName c.1
  | .nil, _, _, h => (nomatch h)
  | .comp id t p r, hw, c, h => by
    rw [WordedItems] at hw
    rcases List.mem_cons.1 h with rfl | h
    · exact hw.1.1
    · exact worded_items r hw.2 c h
  | .marker r, hw, c, h => by rw [WordedItems] at hw; exact worded_items r hw c h
  | .group cs r, hw, c, h => by
    rw [WordedItems] at hw
    rcases List.mem_append.1 h with h | h
    · exact worded_comps cs hw.1 c h
    · exact worded_items r hw.2 c h

theorem fillNamed_plain (ctx : Ctx) (id : String) (t : TObj) (p : Pres) (h : ∀ l, p ≠ .default l) :
    (fillNamed ctx id t p).kind = .mandatory ∨ (fillNamed ctx id t p).kind = .optional := by
  cases p with
  | mandatory => exact .inl rfl
  | optional => exact .inr rfl
  | default l => exact absurd rfl (h l)

include hb

mutual
/-- What a class mentions was there when it was defined. -/
theorem mentioned : ∀ (t : TObj) {name : String} {c : Code} {T : Ty}, classOf ctx name t = .ok c → loadCode env c = .ok T →
    Worded t → b ∈ builtFrom t → (env.lookup (mangle b)).isSome = true
  | .simple k con, _, _, _, _, _, _, hm => by rw [builtFrom] at hm; cases hm
  | .enumerated items, _, _, _, _, _, _, hm => by rw [builtFrom] at hm; cases hm
  | .seqOf con e, _, c, T, h, hl, _, hm => by
    rw [builtFrom] at hm
    rw [classOf] at h
    obtain ⟨sp, _, h⟩ := bind_some h
    cases h
    have he : e = .ref b := by
      cases e with
      | ref n => rw [named, List.mem_singleton] at hm; rw [hm]
      | _ => exact (nomatch (show b ∈ ([] : List String) from hm))
    subst he
    rw [loadCode] at hl
    obtain ⟨T1, _, hl⟩ := bind_some hl
    split at hl
    · have key : ∀ {x : Except GenErr SizeC} {T : Ty},
          (x >>= fun c => do return .seqOf c (← classNamed env (mangle (TObj.ref b).cls))) = Except.ok T →
          (env.lookup (mangle b)).isSome = true := by
        intro x T h
        obtain ⟨c1, _, h⟩ := bind_some h
        obtain ⟨T2, h2, h⟩ := bind_some h
        exact classNamed_bound h2
      dsimp only at hl
      split at hl
      · exact key (x := .ok _) hl
      · obtain ⟨_, _, hl⟩ := bind_some hl
        exact key hl
    · cases hl
  | .sequence items, _, c, T, h, hl, hw, hm => by
    rw [builtFrom] at hm
    rw [Worded] at hw
    rw [classOf] at h
    obtain ⟨subs, h1, h⟩ := bind_some h
    obtain ⟨st, h2, h⟩ := bind_some h
    cases h
    rw [loadCode] at hl
    obtain ⟨T1, _, hl⟩ := bind_some hl
    split at hl
    · obtain ⟨l, e1, hl⟩ := bind_some hl
      obtain ⟨r, e2, hl⟩ := bind_some hl
      obtain ⟨a, e3, hl⟩ := bind_some hl
      obtain ⟨g, e4, hl⟩ := bind_some hl
      exact mentionedItems items hw (comps_ok (fun _ _ _ => rfl) (fillNamed_plain ctx) h1 h2 e1 e2 e3 e4 (worded_items items hw)) hm
    · cases hl
  | .choice items, _, c, T, h, hl, hw, hm => by
    rw [builtFrom] at hm
    rw [Worded] at hw
    rw [classOf] at h
    obtain ⟨subs, h1, h⟩ := bind_some h
    obtain ⟨st, h2, h⟩ := bind_some h
    cases h
    rw [loadCode] at hl
    obtain ⟨T1, _, hl⟩ := bind_some hl
    split at hl
    · obtain ⟨l, e1, hl⟩ := bind_some hl
      obtain ⟨r, e2, hl⟩ := bind_some hl
      obtain ⟨a, e3, hl⟩ := bind_some hl
      obtain ⟨g, e4, hl⟩ := bind_some hl
      exact mentionedItems items hw (comps_ok (fun _ _ _ => rfl) (fun _ _ _ _ => .inl rfl) h1 h2 e1 e2 e3 e4 (worded_items items hw)) hm
    · cases hl
  | .ref n, _, _, _, h, _, _, _ => by rw [classOf] at h; cases h
theorem mentionedItems : ∀ (i : Items), WordedItems i → (∀ c ∈ declared (itemList i), CompOk ctx env c) →
    b ∈ builtFromItems i → (env.lookup (mangle b)).isSome = true
  | .nil, _, _, hm => by rw [builtFromItems] at hm; cases hm
  | .comp id t p r, hw, hc, hm => by
    rw [builtFromItems] at hm
    rw [WordedItems] at hw
    rcases List.mem_append.1 hm with hm | hm
    · exact mentionedComp t id p hw.1.2.1 (hc _ List.mem_cons_self) hm
    · exact mentionedItems r hw.2 (fun c h => hc c (List.mem_cons_of_mem _ h)) hm
  | .marker r, hw, hc, hm => by
    rw [builtFromItems] at hm
    rw [WordedItems] at hw
    exact mentionedItems r hw hc hm
  | .group cs r, hw, hc, hm => by
    rw [builtFromItems] at hm
    rw [WordedItems] at hw
    rcases List.mem_append.1 hm with hm | hm
    · exact mentionedComps cs hw.1 (fun c h => hc c (List.mem_append_left _ h)) hm
    · exact mentionedItems r hw.2 (fun c h => hc c (List.mem_append_right _ h)) hm
theorem mentionedComps : ∀ (cs : Comps), WordedComps cs → (∀ c ∈ compList cs, CompOk ctx env c) →
    b ∈ builtFromComps cs → (env.lookup (mangle b)).isSome = true
  | .nil, _, _, hm => by rw [builtFromComps] at hm; cases hm
  | .cons id t p r, hw, hc, hm => by
    rw [builtFromComps] at hm
    rw [WordedComps] at hw
    rcases List.mem_append.1 hm with hm | hm
    · exact mentionedComp t id p hw.1.2.1 (hc _ List.mem_cons_self) hm
    · exact mentionedComps r hw.2 (fun c h => hc c (List.mem_cons_of_mem _ h)) hm
theorem mentionedComp : ∀ (t : TObj) (id : String) (p : Pres), Worded t → CompOk ctx env (id, t, p) →
    b ∈ (if defaulted p then [] else builtFrom t) → (env.lookup (mangle b)).isSome = true
  | t, id, p, hw, hc, hm => by
    have hd : ∀ l, p ≠ .default l := by rintro l rfl; cases hm
    have hm : b ∈ builtFrom t := by
      cases p with
      | default l => exact absurd rfl (hd l)
      | mandatory => exact hm
      | optional => exact hm
    by_cases hn : nested t = true
    · obtain ⟨name, code, T, h1, h2⟩ := hc.1 hn
      exact mentioned t h1 h2 hw hm
    · cases t with
      | simple k c => rw [builtFrom] at hm; cases hm
      | ref n =>
        rw [builtFrom, List.mem_singleton] at hm
        subst hm
        exact hc.2 _ rfl hb hd
      | _ => exact absurd rfl hn
end

end

/-! ## what is generated -/

/-- The statements of a generated module: classes of assigned types, classes of types written in place (which have the names
of the library), other names for types, values. -/
def Known (ctx : Ctx) (vals : List String) : Stmt → Prop
  | .cls c => c.name ∈ header.map Prod.fst ∨ ∃ n t, (n, t) ∈ ctx.types ∧ classOf ctx (mangle n) t = .ok c
  | .alias x y => ∃ n t, (n, t) ∈ ctx.types ∧ x = mangle n ∧ (y = x ∨ ∃ m, t = .ref m ∧ y = mangle m)
  | .value x _ _ => x ∈ vals

theorem simple_header (k : Simple) : k.cls ∈ header.map Prod.fst := by cases k <;> decide

theorem known_cls {P : Stmt → Prop} {c : Code} {pre : List Plan} (h : P (.cls c)) (hp : Plan.Alls P pre) :
    Plan.Alls P [.cls c pre] := ⟨⟨h, hp⟩, trivial⟩

theorem known_needs {P : Stmt → Prop} {ctx : Ctx} {n : String} {p : Pres} {l : List Plan} (h : needsType ctx n p = .ok l) :
    Plan.Alls P l := by
  unfold needsType at h
  split at h
  · cases h; trivial
  · split at h
    · cases h; trivial
    · cases h

/-! Everything that is planned on the way: classes with the names of classes of the library, and what references need. -/

section
variable {ctx : Ctx} {objs : Objs} {P : Stmt → Prop} (hlib : ∀ c : Code, c.name ∈ header.map Prod.fst → P (.cls c))
  (href : ∀ n l, refStmts ctx objs n = .ok l → Plan.Alls P l)
include hlib href

mutual
theorem known_elem : ∀ (t : TObj) {l : List Plan}, elemStmts ctx objs t = .ok l → Plan.Alls P l
  | .simple k c, l, h => by rw [elemStmts] at h; cases h; trivial
  | .ref n, l, h => by rw [elemStmts] at h; exact href _ _ h
  | .enumerated items, l, h => by
    rw [elemStmts] at h
    obtain ⟨c, h1, h⟩ := bind_some h
    cases h
    exact known_cls (hlib _ (by rw [classOf_named h1]; decide)) trivial
  | .seqOf con e, l, h => by
    rw [elemStmts] at h
    obtain ⟨c, h1, h⟩ := bind_some h
    obtain ⟨pre, h2, h⟩ := bind_some h
    cases h
    exact known_cls (hlib _ (by rw [classOf_named h1]; decide)) (known_elem e h2)
  | .sequence items, l, h => by
    rw [elemStmts] at h
    obtain ⟨c, h1, h⟩ := bind_some h
    obtain ⟨pre, h2, h⟩ := bind_some h
    cases h
    exact known_cls (hlib _ (by rw [classOf_named h1]; decide)) (known_items items h2)
  | .choice items, l, h => by
    rw [elemStmts] at h
    obtain ⟨c, h1, h⟩ := bind_some h
    obtain ⟨pre, h2, h⟩ := bind_some h
    cases h
    exact known_cls (hlib _ (by rw [classOf_named h1]; decide)) (known_items items h2)
theorem known_comp : ∀ (t : TObj) {p : Pres} {l : List Plan}, compStmts ctx objs p t = .ok l → Plan.Alls P l
  | .simple k c, _, l, h => by rw [compStmts] at h; cases h; trivial
  | .enumerated items, _, l, h => by rw [compStmts] at h; cases h; trivial
  | .ref n, _, l, h => by rw [compStmts] at h; exact known_needs h
  | .seqOf c e, _, l, h => by rw [compStmts] at h; exact known_inner e h
  | .sequence items, _, l, h => by rw [compStmts] at h; exact known_items items h
  | .choice items, _, l, h => by rw [compStmts] at h; exact known_items items h
theorem known_inner : ∀ (t : TObj) {l : List Plan}, innerStmts ctx objs t = .ok l → Plan.Alls P l
  | .ref n, l, h => by rw [innerStmts] at h; exact known_needs h
  | .simple k con, l, h => by
    rw [innerStmts] at h
    obtain ⟨c, h1, h⟩ := bind_some h
    cases h
    exact known_cls (hlib _ (by rw [classOf_named h1]; exact simple_header k)) trivial
  | .enumerated items, l, h => by
    rw [innerStmts] at h
    obtain ⟨c, h1, h⟩ := bind_some h
    cases h
    exact known_cls (hlib _ (by rw [classOf_named h1]; decide)) trivial
  | .seqOf con e, l, h => by
    rw [innerStmts] at h
    obtain ⟨c, h1, h⟩ := bind_some h
    obtain ⟨pre, h2, h⟩ := bind_some h
    cases h
    exact known_cls (hlib _ (by rw [classOf_named h1]; decide)) (known_elem e h2)
  | .sequence items, l, h => by
    rw [innerStmts] at h
    obtain ⟨c, h1, h⟩ := bind_some h
    obtain ⟨pre, h2, h⟩ := bind_some h
    cases h
    exact known_cls (hlib _ (by rw [classOf_named h1]; decide)) (known_items items h2)
  | .choice items, l, h => by
    rw [innerStmts] at h
    obtain ⟨c, h1, h⟩ := bind_some h
    obtain ⟨pre, h2, h⟩ := bind_some h
    cases h
    exact known_cls (hlib _ (by rw [classOf_named h1]; decide)) (known_items items h2)
theorem known_items : ∀ (i : Items) {l : List Plan}, itemsStmts ctx objs i = .ok l → Plan.Alls P l
  | .nil, l, h => by rw [itemsStmts] at h; cases h; trivial
  | .comp id t p r, l, h => by
    rw [itemsStmts] at h
    obtain ⟨a, h1, h⟩ := bind_some h
    obtain ⟨b, h2, h⟩ := bind_some h
    cases h
    exact (known_comp t h1).append (known_items r h2)
  | .marker r, l, h => by
    rw [itemsStmts] at h
    exact known_items r h
  | .group cs r, l, h => by
    rw [itemsStmts] at h
    obtain ⟨a, h1, h⟩ := bind_some h
    obtain ⟨b, h2, h⟩ := bind_some h
    cases h
    exact (known_comps cs h1).append (known_items r h2)
theorem known_comps : ∀ (cs : Comps) {l : List Plan}, compsStmts ctx objs cs = .ok l → Plan.Alls P l
  | .nil, l, h => by rw [compsStmts] at h; cases h; trivial
  | .cons id t p r, l, h => by
    rw [compsStmts] at h
    obtain ⟨a, h1, h⟩ := bind_some h
    obtain ⟨b, h2, h⟩ := bind_some h
    cases h
    exact (known_comp t h1).append (known_comps r h2)
end

end

section
variable {ctx : Ctx} {vals : List String} {objs : Objs} (ho : ∀ p ∈ objs, p.2.1 ∈ vals)

theorem known_library (c : Code) (h : c.name ∈ header.map Prod.fst) : Known ctx vals (.cls c) := .inl h

include ho

theorem known_ref {n : String} {l : List Plan} (h : refStmts ctx objs n = .ok l) : Plan.Alls (Known ctx vals) l := by
  unfold refStmts at h
  split at h
  · cases h
  · next e => cases h; exact ⟨⟨n, _, mem_of_lookupLast e, rfl, .inl rfl⟩, trivial⟩
  · next e =>
    split at h
    · obtain ⟨c, _, h⟩ := bind_some h; cases h; exact ⟨trivial, trivial⟩
    · next v m x hl =>
      cases h
      exact ⟨ho _ (mem_of_lookup hl), trivial⟩
    · obtain ⟨c, _, h⟩ := bind_some h; cases h; exact ⟨trivial, trivial⟩
  · obtain ⟨c, _, h⟩ := bind_some h; cases h; exact ⟨trivial, trivial⟩

/-- A type that is assigned: its class is planned, and nothing unknown. -/
theorem known_top {n : String} {t : TObj} {l : List Plan} (hm : (n, t) ∈ ctx.types) (h : fillTop ctx objs (mangle n) t = .ok l) :
    Plan.Alls (Known ctx vals) l ∧ ∃ c pre, c.name = mangle n ∧ .cls c pre ∈ l := by
  cases t with
  | simple k con =>
    rw [fillTop] at h
    obtain ⟨c, h1, h⟩ := bind_some h
    cases h
    exact ⟨known_cls (.inr ⟨n, _, hm, h1⟩) trivial, c, [], classOf_named h1, List.mem_singleton.2 rfl⟩
  | enumerated items =>
    rw [fillTop] at h
    obtain ⟨c, h1, h⟩ := bind_some h
    cases h
    exact ⟨known_cls (.inr ⟨n, _, hm, h1⟩) trivial, c, [], classOf_named h1, List.mem_singleton.2 rfl⟩
  | seqOf con e =>
    rw [fillTop] at h
    obtain ⟨c, h1, h⟩ := bind_some h
    obtain ⟨pre, h2, h⟩ := bind_some h
    cases h
    exact ⟨known_cls (.inr ⟨n, _, hm, h1⟩) (known_elem known_library (fun _ _ => known_ref ho) e h2), c, pre, classOf_named h1, List.mem_singleton.2 rfl⟩
  | sequence items =>
    rw [fillTop] at h
    obtain ⟨c, h1, h⟩ := bind_some h
    obtain ⟨pre, h2, h⟩ := bind_some h
    cases h
    exact ⟨known_cls (.inr ⟨n, _, hm, h1⟩) (known_items known_library (fun _ _ => known_ref ho) items h2), c, pre, classOf_named h1, List.mem_singleton.2 rfl⟩
  | choice items =>
    rw [fillTop] at h
    obtain ⟨c, h1, h⟩ := bind_some h
    obtain ⟨pre, h2, h⟩ := bind_some h
    cases h
    exact ⟨known_cls (.inr ⟨n, _, hm, h1⟩) (known_items known_library (fun _ _ => known_ref ho) items h2), c, pre, classOf_named h1, List.mem_singleton.2 rfl⟩
  | ref m => rw [fillTop] at h; cases h

/-- The plan that is made for the assigned name. -/
def Planned (x : String) (l : List Plan) : Prop := (∃ c pre, c.name = x ∧ .cls c pre ∈ l) ∨ ∃ y, .alias x y ∈ l

theorem known_assign {a : Assign} {r : Objs × List Plan} (hm : ∀ n t, a = .type n t → (n, t) ∈ ctx.types)
    (hv : ∀ n, n ∈ valueNames [a] → mangle n ∈ vals) (h : fillAssign ctx objs a = .ok r) :
    (∀ p ∈ r.1, p.2.1 ∈ vals) ∧ Plan.Alls (Known ctx vals) r.2 ∧ ∀ n t, a = .type n t → Planned (mangle n) r.2 := by
  unfold fillAssign at h
  split at h
  · next n m =>
    split at h
    · cases h
      refine ⟨ho, ⟨⟨n, _, hm n _ rfl, rfl, .inl rfl⟩, trivial⟩, ?_⟩
      rintro n' t' ⟨⟩
      exact .inr ⟨_, List.mem_singleton.2 rfl⟩
    · split at h
      · cases h
      · cases h
        refine ⟨ho, ⟨⟨n, _, hm n _ rfl, rfl, .inr ⟨m, rfl, rfl⟩⟩, trivial⟩, ?_⟩
        rintro n' t' ⟨⟩
        exact .inr ⟨_, List.mem_singleton.2 rfl⟩
  · next n t _ =>
    obtain ⟨l, h1, h⟩ := bind_some h
    cases h
    obtain ⟨k1, k2⟩ := known_top ho (hm n t rfl) h1
    refine ⟨ho, k1, ?_⟩
    rintro n' t' ⟨⟩
    exact .inl k2
  · next n k l =>
    split at h
    · next e he =>
      cases h
      exact ⟨ho, ⟨hv n List.mem_cons_self, trivial⟩, fun _ _ h => nomatch h⟩
    · cases h
      exact ⟨ho, ⟨⟨.inl (simple_header k), trivial⟩, trivial⟩, fun _ _ h => nomatch h⟩
  · next n m l =>
    obtain ⟨⟨b, t⟩, _, h⟩ := bind_some h
    cases h
    have := hv n List.mem_cons_self
    refine ⟨fun p hp => ?_, ⟨this, trivial⟩, fun _ _ h => nomatch h⟩
    rcases List.mem_cons.1 hp with rfl | hp
    · exact this
    · exact ho p hp

end

theorem known_steps {ctx : Ctx} {vals : List String} : ∀ (as : List Assign) {st st' : Objs × List Plan},
    (∀ p ∈ st.1, p.2.1 ∈ vals) → Plan.Alls (Known ctx vals) st.2 → (∀ n t, .type n t ∈ as → (n, t) ∈ ctx.types) →
    (∀ n ∈ valueNames as, mangle n ∈ vals) → as.foldlM (genStep ctx) st = .ok st' →
    Plan.Alls (Known ctx vals) st'.2 ∧ (∀ p ∈ st.2, p ∈ st'.2) ∧ ∀ n t, .type n t ∈ as → Planned (mangle n) st'.2
  | [], st, st', _, hs, _, _, h => by cases h; exact ⟨hs, fun _ h => h, fun _ _ h => (nomatch h)⟩
  | a :: as, st, st', ho, hs, hm, hv, h => by
    rw [List.foldlM_cons] at h
    obtain ⟨s, h1, h⟩ := bind_some h
    unfold genStep at h1
    obtain ⟨⟨o, l⟩, h2, h1⟩ := bind_some h1
    cases h1
    have hv' : valueNames (a :: as) = valueNames [a] ++ valueNames as := valueNames_append [a] as
    rw [hv'] at hv
    obtain ⟨a1, a2, a3⟩ := known_assign ho (fun n t e => hm n t (e ▸ List.mem_cons_self))
      (fun n hn => hv n (List.mem_append_left _ hn)) h2
    obtain ⟨b1, b2, b3⟩ := known_steps (st := (o, st.2 ++ l)) as a1 (hs.append a2) (fun n t h => hm n t (List.mem_cons_of_mem _ h))
      (fun n hn => hv n (List.mem_append_right _ hn)) h
    refine ⟨b1, fun p hp => b2 p (List.mem_append_left _ hp), fun n t hnt => ?_⟩
    rcases List.mem_cons.1 hnt with e | hnt
    · rcases a3 n t e.symm with ⟨c, pre, h1, h2⟩ | ⟨y, h1⟩
      · exact .inl ⟨c, pre, h1, b2 _ (List.mem_append_right _ h2)⟩
      · exact .inr ⟨y, b2 _ (List.mem_append_right _ h1)⟩
    · exact b3 n t hnt

/-! ## what is planned is emitted -/

mutual
theorem emitPlan_done : ∀ (p : Plan) {done done' : List Code} {l : List Stmt}, emitPlan done p = .ok (done', l) →
    (∀ c ∈ done, c ∈ done') ∧ (∀ c ∈ done', c ∈ done ∨ .cls c ∈ l) ∧ (∀ c pre, p = .cls c pre → c ∈ done') ∧
      ∀ x y, p = .alias x y → .alias x y ∈ l
  | .cls c pre, done, done', l, h => by
    rw [emitPlan] at h
    split at h
    · next hc =>
      cases h
      refine ⟨fun _ h => h, fun _ h => .inl h, ?_, fun _ _ h => nomatch h⟩
      rintro c' pre' ⟨⟩
      exact List.contains_iff_mem.1 hc
    · obtain ⟨⟨d, l'⟩, h1, h⟩ := bind_some h
      cases h
      obtain ⟨a, b, _⟩ := emitPlans_done pre h1
      refine ⟨fun x hx => a x (List.mem_cons_of_mem _ hx), fun x hx => ?_, ?_, fun _ _ h => nomatch h⟩
      · rcases b x hx with h | h
        · rcases List.mem_cons.1 h with rfl | h
          · exact .inr (List.mem_append_right _ (List.mem_singleton.2 rfl))
          · exact .inl h
        · exact .inr (List.mem_append_left _ h)
      · rintro c' pre' ⟨⟩
        exact a c List.mem_cons_self
  | .again c, done, done', l, h => by
    rw [emitPlan] at h
    split at h
    · cases h; exact ⟨fun _ h => h, fun _ h => .inl h, (fun _ _ h => nomatch h), fun _ _ h => nomatch h⟩
    · cases h
  | .alias n m, done, done', l, h => by
    rw [emitPlan] at h
    cases h
    refine ⟨fun _ h => h, fun _ h => .inl h, (fun _ _ h => nomatch h), ?_⟩
    rintro x y ⟨⟩
    exact List.mem_singleton.2 rfl
  | .value n m e, done, done', l, h => by
    rw [emitPlan] at h
    cases h
    exact ⟨fun _ h => h, fun _ h => .inl h, (fun _ _ h => nomatch h), fun _ _ h => nomatch h⟩
theorem emitPlans_done : ∀ (ps : List Plan) {done done' : List Code} {l : List Stmt}, emitPlans done ps = .ok (done', l) →
    (∀ c ∈ done, c ∈ done') ∧ (∀ c ∈ done', c ∈ done ∨ .cls c ∈ l) ∧ (∀ c pre, .cls c pre ∈ ps → c ∈ done') ∧
      ∀ x y, .alias x y ∈ ps → .alias x y ∈ l
  | [], done, done', l, h => by
    rw [emitPlans] at h
    cases h
    exact ⟨fun _ h => h, fun _ h => .inl h, fun _ _ h => (nomatch h), fun _ _ h => (nomatch h)⟩
  | p :: ps, done, done', l, h => by
    rw [emitPlans] at h
    obtain ⟨⟨d, l1⟩, h1, h⟩ := bind_some h
    obtain ⟨⟨d2, l2⟩, h2, h⟩ := bind_some h
    cases h
    obtain ⟨a1, a2, a3, a4⟩ := emitPlan_done p h1
    obtain ⟨b1, b2, b3, b4⟩ := emitPlans_done ps h2
    refine ⟨fun c h => b1 c (a1 c h), fun c h => ?_, fun c pre h => ?_, fun x y h => ?_⟩
    · rcases b2 c h with h | h
      · exact (a2 c h).imp (fun h => h) (List.mem_append_left _)
      · exact .inr (List.mem_append_right _ h)
    · rcases List.mem_cons.1 h with e | h
      · exact b1 c (a3 c pre e.symm)
      · exact b3 c pre h
    · rcases List.mem_cons.1 h with e | h
      · exact List.mem_append_left _ (a4 x y e.symm)
      · exact List.mem_append_right _ (b4 x y h)
end

/-! ## element types that are written in place -/

mutual
theorem worded_elements : ∀ (t : TObj), Worded t → ∀ e ∈ elementsIn t, Worded e
  | .simple _ _, _, e, h => by rw [elementsIn] at h; cases h
  | .enumerated _, _, e, h => by rw [elementsIn] at h; cases h
  | .ref _, _, e, h => by rw [elementsIn] at h; cases h
  | .seqOf _ x, hw, e, h => by
    rw [elementsIn] at h
    rw [Worded] at hw
    cases x with
    | simple => cases h
    | ref => cases h
    | _ => cases List.mem_singleton.1 h; exact hw
  | .sequence items, hw, e, h => by
    rw [elementsIn] at h
    rw [Worded] at hw
    exact worded_elementsItems items hw e h
  | .choice items, hw, e, h => by
    rw [elementsIn] at h
    rw [Worded] at hw
    exact worded_elementsItems items hw e h
theorem worded_elementsItems : ∀ (i : Items), WordedItems i → ∀ e ∈ elementsInItems i, Worded e
  | .nil, _, e, h => by rw [elementsInItems] at h; cases h
  | .comp id t p r, hw, e, h => by
    rw [elementsInItems] at h
    rw [WordedItems] at hw
    rcases List.mem_append.1 h with h | h
    · split at h
      · cases h
      · exact worded_elements t hw.1.2.1 e h
    · exact worded_elementsItems r hw.2 e h
  | .marker r, hw, e, h => by
    rw [elementsInItems] at h
    rw [WordedItems] at hw
    exact worded_elementsItems r hw e h
  | .group cs r, hw, e, h => by
    rw [elementsInItems] at h
    rw [WordedItems] at hw
    rcases List.mem_append.1 h with h | h
    · exact worded_elementsComps cs hw.1 e h
    · exact worded_elementsItems r hw.2 e h
theorem worded_elementsComps : ∀ (cs : Comps), WordedComps cs → ∀ e ∈ elementsInComps cs, Worded e
  | .nil, _, e, h => by rw [elementsInComps] at h; cases h
  | .cons id t p r, hw, e, h => by
    rw [elementsInComps] at h
    rw [WordedComps] at hw
    rcases List.mem_append.1 h with h | h
    · split at h
      · cases h
      · exact worded_elements t hw.1.2.1 e h
    · exact worded_elementsComps r hw.2 e h
end

section
variable {ctx : Ctx} {objs : Objs}

/-- The class of an element type is planned. -/
def Planning (ctx : Ctx) (l : List Plan) (e : TObj) : Prop :=
  ∃ c pre, e.cls ∈ header.map Prod.fst ∧ classOf ctx e.cls e = .ok c ∧ .cls c pre ∈ l

theorem Planning.left {a b : List Plan} {e : TObj} : Planning ctx a e → Planning ctx (a ++ b) e
  | ⟨c, pre, h0, h1, h2⟩ => ⟨c, pre, h0, h1, List.mem_append_left _ h2⟩

theorem Planning.right {a b : List Plan} {e : TObj} : Planning ctx b e → Planning ctx (a ++ b) e
  | ⟨c, pre, h0, h1, h2⟩ => ⟨c, pre, h0, h1, List.mem_append_right _ h2⟩

theorem elem_planned {t : TObj} {l : List Plan} (h : elemStmts ctx objs t = .ok l) : ∀ e ∈ inPlace t, Planning ctx l e := by
  intro e he
  cases t with
  | simple k c => cases he
  | ref n => cases he
  | enumerated items =>
    cases List.mem_singleton.1 he
    rw [elemStmts] at h
    obtain ⟨c, h1, h⟩ := bind_some h
    cases h
    exact ⟨_, _, by rw [TObj.cls]; decide, h1, List.mem_singleton.2 rfl⟩
  | seqOf con x =>
    cases List.mem_singleton.1 he
    rw [elemStmts] at h
    obtain ⟨c, h1, h⟩ := bind_some h
    obtain ⟨pre, h2, h⟩ := bind_some h
    cases h
    exact ⟨_, _, by rw [TObj.cls]; decide, h1, List.mem_singleton.2 rfl⟩
  | sequence items =>
    cases List.mem_singleton.1 he
    rw [elemStmts] at h
    obtain ⟨c, h1, h⟩ := bind_some h
    obtain ⟨pre, h2, h⟩ := bind_some h
    cases h
    exact ⟨_, _, by rw [TObj.cls]; decide, h1, List.mem_singleton.2 rfl⟩
  | choice items =>
    cases List.mem_singleton.1 he
    rw [elemStmts] at h
    obtain ⟨c, h1, h⟩ := bind_some h
    obtain ⟨pre, h2, h⟩ := bind_some h
    cases h
    exact ⟨_, _, by rw [TObj.cls]; decide, h1, List.mem_singleton.2 rfl⟩

theorem inner_planned {t : TObj} {l : List Plan} (h : innerStmts ctx objs t = .ok l) : ∀ e ∈ inPlace t, Planning ctx l e := by
  intro e he
  cases t with
  | simple k c => cases he
  | ref n => cases he
  | enumerated items =>
    cases List.mem_singleton.1 he
    rw [innerStmts] at h
    obtain ⟨c, h1, h⟩ := bind_some h
    cases h
    exact ⟨_, _, by rw [TObj.cls]; decide, h1, List.mem_singleton.2 rfl⟩
  | seqOf con x =>
    cases List.mem_singleton.1 he
    rw [innerStmts] at h
    obtain ⟨c, h1, h⟩ := bind_some h
    obtain ⟨pre, h2, h⟩ := bind_some h
    cases h
    exact ⟨_, _, by rw [TObj.cls]; decide, h1, List.mem_singleton.2 rfl⟩
  | sequence items =>
    cases List.mem_singleton.1 he
    rw [innerStmts] at h
    obtain ⟨c, h1, h⟩ := bind_some h
    obtain ⟨pre, h2, h⟩ := bind_some h
    cases h
    exact ⟨_, _, by rw [TObj.cls]; decide, h1, List.mem_singleton.2 rfl⟩
  | choice items =>
    cases List.mem_singleton.1 he
    rw [innerStmts] at h
    obtain ⟨c, h1, h⟩ := bind_some h
    obtain ⟨pre, h2, h⟩ := bind_some h
    cases h
    exact ⟨_, _, by rw [TObj.cls]; decide, h1, List.mem_singleton.2 rfl⟩

mutual
theorem comp_planned : ∀ (t : TObj) {p : Pres} {l : List Plan}, compStmts ctx objs p t = .ok l →
    ∀ e ∈ elementsIn t, Planning ctx l e
  | .simple _ _, _, _, _, e, he => by rw [elementsIn] at he; cases he
  | .enumerated _, _, _, _, e, he => by rw [elementsIn] at he; cases he
  | .ref _, _, _, _, e, he => by rw [elementsIn] at he; cases he
  | .seqOf _ x, _, _, h, e, he => by
    rw [elementsIn] at he
    rw [compStmts] at h
    exact inner_planned h e he
  | .sequence items, _, _, h, e, he => by
    rw [elementsIn] at he
    rw [compStmts] at h
    exact items_planned items h e he
  | .choice items, _, _, h, e, he => by
    rw [elementsIn] at he
    rw [compStmts] at h
    exact items_planned items h e he
theorem items_planned : ∀ (i : Items) {l : List Plan}, itemsStmts ctx objs i = .ok l → ∀ e ∈ elementsInItems i, Planning ctx l e
  | .nil, _, _, e, he => by rw [elementsInItems] at he; cases he
  | .comp id t p r, l, h, e, he => by
    rw [elementsInItems] at he
    rw [itemsStmts] at h
    obtain ⟨a, h1, h⟩ := bind_some h
    obtain ⟨b, h2, h⟩ := bind_some h
    cases h
    rcases List.mem_append.1 he with he | he
    · split at he
      · cases he
      · exact (comp_planned t h1 e he).left
    · exact (items_planned r h2 e he).right
  | .marker r, l, h, e, he => by
    rw [elementsInItems] at he
    rw [itemsStmts] at h
    exact items_planned r h e he
  | .group cs r, l, h, e, he => by
    rw [elementsInItems] at he
    rw [itemsStmts] at h
    obtain ⟨a, h1, h⟩ := bind_some h
    obtain ⟨b, h2, h⟩ := bind_some h
    cases h
    rcases List.mem_append.1 he with he | he
    · exact (comps_planned cs h1 e he).left
    · exact (items_planned r h2 e he).right
theorem comps_planned : ∀ (cs : Comps) {l : List Plan}, compsStmts ctx objs cs = .ok l → ∀ e ∈ elementsInComps cs, Planning ctx l e
  | .nil, _, _, e, he => by rw [elementsInComps] at he; cases he
  | .cons id t p r, l, h, e, he => by
    rw [elementsInComps] at he
    rw [compsStmts] at h
    obtain ⟨a, h1, h⟩ := bind_some h
    obtain ⟨b, h2, h⟩ := bind_some h
    cases h
    rcases List.mem_append.1 he with he | he
    · split at he
      · cases he
      · exact (comp_planned t h1 e he).left
    · exact (comps_planned r h2 e he).right
end

/-- Classes that are planned on the way have names of classes of the library. -/
def Inner : Stmt → Prop
  | .cls c => c.name ∈ header.map Prod.fst
  | _ => True

theorem inner_ref {n : String} {l : List Plan} (h : refStmts ctx objs n = .ok l) : Plan.Alls Inner l := by
  unfold refStmts at h
  split at h
  · cases h
  · cases h; exact ⟨trivial, trivial⟩
  · split at h
    · obtain ⟨c, _, h⟩ := bind_some h; cases h; exact ⟨trivial, trivial⟩
    · cases h; exact ⟨trivial, trivial⟩
    · obtain ⟨c, _, h⟩ := bind_some h; cases h; exact ⟨trivial, trivial⟩
  · obtain ⟨c, _, h⟩ := bind_some h; cases h; exact ⟨trivial, trivial⟩

/-- What is planned for an assignment: before the class of the type, the classes of its element types. -/
def Top (ctx : Ctx) (p : Plan) : Prop := ∀ c pre, p = .cls c pre → Plan.Alls Inner pre ∧
  (c.name ∈ header.map Prod.fst ∨
    ∃ n t, (n, t) ∈ ctx.types ∧ classOf ctx (mangle n) t = .ok c ∧ ∀ e ∈ elementsIn t, Planning ctx pre e)

theorem top_cls {c : Code} {pre : List Plan} {n : String} {t : TObj} (hm : (n, t) ∈ ctx.types)
    (h : classOf ctx (mangle n) t = .ok c) (h1 : Plan.Alls Inner pre) (h2 : ∀ e ∈ elementsIn t, Planning ctx pre e) :
    ∀ p ∈ [Plan.cls c pre], Top ctx p := by
  intro p hp
  cases List.mem_singleton.1 hp
  rintro c' pre' ⟨⟩
  exact ⟨h1, .inr ⟨n, t, hm, h, h2⟩⟩

theorem top_fill {n : String} {t : TObj} {l : List Plan} (hm : (n, t) ∈ ctx.types)
    (h : fillTop ctx objs (mangle n) t = .ok l) : ∀ p ∈ l, Top ctx p := by
  cases t with
  | simple k con =>
    rw [fillTop] at h
    obtain ⟨c, h1, h⟩ := bind_some h
    cases h
    exact top_cls hm h1 trivial (fun e he => by rw [elementsIn] at he; cases he)
  | enumerated items =>
    rw [fillTop] at h
    obtain ⟨c, h1, h⟩ := bind_some h
    cases h
    exact top_cls hm h1 trivial (fun e he => by rw [elementsIn] at he; cases he)
  | seqOf con e =>
    rw [fillTop] at h
    obtain ⟨c, h1, h⟩ := bind_some h
    obtain ⟨pre, h2, h⟩ := bind_some h
    cases h
    exact top_cls hm h1 (known_elem (fun _ h => h) (fun _ _ => inner_ref) e h2)
      (fun e he => by rw [elementsIn] at he; exact elem_planned h2 e he)
  | sequence items =>
    rw [fillTop] at h
    obtain ⟨c, h1, h⟩ := bind_some h
    obtain ⟨pre, h2, h⟩ := bind_some h
    cases h
    exact top_cls hm h1 (known_items (fun _ h => h) (fun _ _ => inner_ref) items h2)
      (fun e he => by rw [elementsIn] at he; exact items_planned items h2 e he)
  | choice items =>
    rw [fillTop] at h
    obtain ⟨c, h1, h⟩ := bind_some h
    obtain ⟨pre, h2, h⟩ := bind_some h
    cases h
    exact top_cls hm h1 (known_items (fun _ h => h) (fun _ _ => inner_ref) items h2)
      (fun e he => by rw [elementsIn] at he; exact items_planned items h2 e he)
  | ref m => rw [fillTop] at h; cases h

theorem top_other {p : Plan} (h : ∀ c pre, p ≠ .cls c pre) : ∀ q ∈ [p], Top ctx q := by
  intro q hq
  cases List.mem_singleton.1 hq
  exact fun c pre e => absurd e (h c pre)

theorem top_assign {a : Assign} {r : Objs × List Plan} (hm : ∀ n t, a = .type n t → (n, t) ∈ ctx.types)
    (h : fillAssign ctx objs a = .ok r) : ∀ p ∈ r.2, Top ctx p := by
  unfold fillAssign at h
  split at h
  · split at h
    · cases h
      exact top_other (fun _ _ h => nomatch h)
    · split at h
      · cases h
      · cases h
        exact top_other (fun _ _ h => nomatch h)
  · next n t _ =>
    obtain ⟨l, h1, h⟩ := bind_some h
    cases h
    exact top_fill (hm n t rfl) h1
  · next n k l =>
    split at h
    · cases h
      exact top_other (fun _ _ h => nomatch h)
    · cases h
      intro p hp
      cases List.mem_singleton.1 hp
      rintro c pre ⟨⟩
      exact ⟨trivial, .inl (simple_header k)⟩
  · obtain ⟨⟨b, t⟩, _, h⟩ := bind_some h
    cases h
    exact top_other (fun _ _ h => nomatch h)

end

theorem top_steps {ctx : Ctx} : ∀ (as : List Assign) {st st' : Objs × List Plan}, (∀ p ∈ st.2, Top ctx p) →
    (∀ n t, .type n t ∈ as → (n, t) ∈ ctx.types) → as.foldlM (genStep ctx) st = .ok st' → ∀ p ∈ st'.2, Top ctx p
  | [], st, st', hs, _, h => by cases h; exact hs
  | a :: as, st, st', hs, hm, h => by
    rw [List.foldlM_cons] at h
    obtain ⟨s, h1, h⟩ := bind_some h
    unfold genStep at h1
    obtain ⟨⟨o, l⟩, h2, h1⟩ := bind_some h1
    cases h1
    refine top_steps as (fun p hp => ?_) (fun n t h => hm n t (List.mem_cons_of_mem _ h)) h
    rcases List.mem_append.1 hp with hp | hp
    · exact hs p hp
    · exact top_assign (fun n t e => hm n t (e ▸ List.mem_cons_self)) h2 p hp

/-- What is planned before a class is in the module before the class. -/
theorem emitted_before {c : Code} (hc : c.name ∉ header.map Prod.fst) {need : Code → Prop}
    (hn : ∀ x, need x → x.name ∈ header.map Prod.fst) : ∀ (ps : List Plan) {done done' : List Code} {l : List Stmt},
    (∀ c' pre, .cls c' pre ∈ ps → Plan.Alls Inner pre ∧ (c' = c → ∀ x, need x → ∃ q, .cls x q ∈ pre)) →
    emitPlans done ps = .ok (done', l) → c ∉ done → .cls c ∈ l →
    (∃ pre, .cls c pre ∈ ps) ∧ ∃ l1 l2, l = l1 ++ .cls c :: l2 ∧ .cls c ∉ l1 ∧ ∀ x, need x → x ∈ done ∨ .cls x ∈ l1
  | [], done, done', l, _, h, _, hl => by rw [emitPlans] at h; cases h; cases hl
  | p :: ps, done, done', l, hp, h, hd, hl => by
    rw [emitPlans] at h
    obtain ⟨⟨d, a⟩, h1, h⟩ := bind_some h
    obtain ⟨⟨d2, b⟩, h2, h⟩ := bind_some h
    cases h
    obtain ⟨-, e2, -⟩ := emitPlan_done p h1
    -- otherwise the class is not among what is emitted for `p`
    have key : .cls c ∉ a → (∃ pre, .cls c pre ∈ p :: ps) ∧ ∃ l1 l2, a ++ b = l1 ++ .cls c :: l2 ∧ .cls c ∉ l1 ∧ ∀ x, need x → x ∈ done ∨ .cls x ∈ l1 := by
      intro ha
      have hcd : c ∉ d := fun h => (e2 c h).elim hd ha
      obtain ⟨⟨pre, k0⟩, l1, l2, rfl, k2, k3⟩ := emitted_before hc hn ps (fun c' pre h => hp c' pre (List.mem_cons_of_mem _ h)) h2 hcd
        ((List.mem_append.1 hl).resolve_left ha)
      refine ⟨⟨pre, List.mem_cons_of_mem _ k0⟩, a ++ l1, l2, (List.append_assoc ..).symm, fun h => (List.mem_append.1 h).elim ha k2, fun x hx => ?_⟩
      rcases k3 x hx with h | h
      · exact (e2 x h).imp id (List.mem_append_left _)
      · exact .inr (List.mem_append_right _ h)
    cases p with
    | alias n m => rw [emitPlan] at h1; cases h1; exact key fun h => (nomatch List.mem_singleton.1 h)
    | value n m e => rw [emitPlan] at h1; cases h1; exact key fun h => (nomatch List.mem_singleton.1 h)
    | again c' =>
      rw [emitPlan] at h1
      split at h1
      · cases h1; exact key fun h => (nomatch h)
      · cases h1
    | cls c' pre =>
      obtain ⟨p1, p2⟩ := hp c' pre List.mem_cons_self
      rw [emitPlan] at h1
      split at h1
      · cases h1; exact key fun h => (nomatch h)
      · obtain ⟨⟨d3, l'⟩, h3, h1⟩ := bind_some h1
        cases h1
        have hno : .cls c ∉ l' := fun h => hc (emitPlans_all (P := Inner) pre p1 h3 _ h)
        by_cases e : c' = c
        · subst e
          obtain ⟨f1, f2, f3, _⟩ := emitPlans_done pre h3
          refine ⟨⟨pre, List.mem_cons_self⟩, l', b, by rw [List.append_assoc]; rfl, hno, fun x hx => ?_⟩
          obtain ⟨q, hq⟩ := p2 rfl x hx
          rcases f2 x (f3 x q hq) with h | h
          · rcases List.mem_cons.1 h with rfl | h
            · exact absurd (hn x hx) hc
            · exact .inl h
          · exact .inr h
        · refine key fun h => (List.mem_append.1 h).elim hno fun h => ?_
          cases List.mem_singleton.1 h
          exact e rfl

theorem split_unique {α : Type} {x : α} : ∀ {p q p' q' : List α}, p ++ x :: q = p' ++ x :: q' → x ∉ p → x ∉ p' → p = p'
  | [], q, [], q', _, _, _ => rfl
  | [], q, y :: p', q', h, _, h2 => by injection h with h _; exact absurd (h ▸ List.mem_cons_self) h2
  | y :: p, q, [], q', h, h1, _ => by injection h with h _; exact absurd (h ▸ List.mem_cons_self) h1
  | y :: p, q, z :: p', q', h, h1, h2 => by
    injection h with e h
    rw [e, split_unique h (fun h => h1 (List.mem_cons_of_mem _ h)) (fun h => h2 (List.mem_cons_of_mem _ h))]

/-- The statements of a generated module; every type that is assigned is bound by one of them. -/
theorem generated {as : List Assign} {prog : List Stmt} (h : generate as = .ok prog) :
    (∀ s ∈ prog, Known (ctxOf as) ((valueNames as).map mangle) s) ∧ (∀ n ∈ typeNames as, mangle n ∈ prog.map bound) ∧
      ∃ ps d, (∀ p ∈ ps, Top (ctxOf as) p) ∧ emitPlans [] ps = .ok (d, prog) := by
  unfold generate at h
  obtain ⟨st, h1, h⟩ := bind_some h
  unfold emitted at h
  obtain ⟨⟨d, l⟩, h2, h⟩ := bind_some h
  cases h
  obtain ⟨k1, _, k3⟩ := known_steps (vals := (valueNames as).map mangle) as (st := ([], [])) (fun p hp => by cases hp) trivial
    (fun n t h => by rw [ctxOf]; exact List.mem_filterMap.2 ⟨.type n t, h, rfl⟩) (fun n hn => List.mem_map.2 ⟨n, hn, rfl⟩) h1
  obtain ⟨_, e2, e3, e4⟩ := emitPlans_done _ h2
  refine ⟨emitPlans_all _ k1 h2, fun n hn => ?_, st.2, d, top_steps as (st := ([], [])) (fun p hp => by cases hp)
    (fun n t h => by rw [ctxOf]; exact List.mem_filterMap.2 ⟨.type n t, h, rfl⟩) h1, h2⟩
  obtain ⟨t, ht⟩ := typeNames_mem.1 hn
  rcases k3 n t ht with ⟨c, pre, hc, hp⟩ | ⟨y, hp⟩
  · rcases e2 c (e3 c pre hp) with h | h
    · cases h
    · exact List.mem_map.2 ⟨_, h, hc⟩
  · exact List.mem_map.2 ⟨_, e4 _ y hp, rfl⟩

/-! ## order -/

theorem first_bound {β : Type} [DecidableEq β] {α : Type} (f : α → β) {x : β} : ∀ {l : List α}, x ∈ l.map f →
    ∃ p s q, l = p ++ s :: q ∧ f s = x ∧ x ∉ p.map f
  | a :: l, h => by
    by_cases e : f a = x
    · exact ⟨[], a, l, rfl, e, fun h => (nomatch h)⟩
    · have : x ∈ l.map f := by
        rw [List.map_cons] at h
        exact (List.mem_cons.1 h).resolve_left (Ne.symm e)
      obtain ⟨p, s, q, rfl, h2, h3⟩ := first_bound f this
      exact ⟨a :: p, s, q, rfl, h2, by
        rw [List.map_cons]
        intro h
        exact (List.mem_cons.1 h).elim (fun h => e h.symm) h3⟩

section
variable {as : List Assign} (hd : (typeNames as).Nodup) (ht : ∀ n ∈ typeNames as, UpperName n)
  (hv : ∀ n ∈ valueNames as, LowerName n) (hl : ∀ n ∈ typeNames as, n ∉ header.map Prod.fst)
  (hw : ∀ n t, .type n t ∈ as → Worded t)
include hd ht hv hl hw

omit hd ht hv hw in
theorem not_header {n : String} (hn : n ∈ typeNames as) : mangle n ∉ header.map Prod.fst := by
  intro h
  rw [mangle_eq] at h
  have hu : ∀ x ∈ header.map Prod.fst, '_' ∉ x.toList := by decide
  refine hl n hn ?_
  rw [pyName_plain rfl (hu _ h)]
  exact h

/-- What a type mentions is bound before it. -/
theorem earlier {prog : List Stmt} {st : Loaded} (hg : generate as = .ok prog) (hs : load prog = .ok st) {a b : String} {t : TObj}
    (ha : .type a t ∈ as) (hb : b ∈ mentions t) (hbt : b ∈ typeNames as) :
    (prog.map bound).idxOf (mangle b) < (prog.map bound).idxOf (mangle a) := by
  obtain ⟨g1, g2, ps, d, g3, g4⟩ := generated hg
  have hat : a ∈ typeNames as := typeNames_mem.2 ⟨t, ha⟩
  obtain ⟨p, s, q, rfl, h1, h2⟩ := first_bound bound (g2 a hat)
  unfold load at hs
  rw [List.foldlM_append, ] at hs
  obtain ⟨st1, e1, hs⟩ := bind_some hs
  rw [List.foldlM_cons] at hs
  obtain ⟨st2, e2, _⟩ := bind_some hs
  have hin : ∀ x, x ∈ typeNames as → (st1.env.lookup (mangle x)).isSome = true → mangle x ∈ p.map bound := by
    intro x hx h
    refine (load_names p e1 _ h).resolve_left fun h => not_header hl hx ?_
    obtain ⟨o, ho⟩ := Option.isSome_iff_exists.1 h
    exact List.mem_map.2 ⟨_, mem_of_lookup ho, rfl⟩
  have huniq : ∀ n t', (n, t') ∈ (ctxOf as).types → mangle n = mangle a → n = a ∧ t' = t := by
    intro n t' hm e
    have hm' : .type n t' ∈ as := by
      rw [ctxOf, List.mem_filterMap] at hm
      obtain ⟨x, hx, e⟩ := hm
      cases x with
      | type => cases e; exact hx
      | value => cases e
      | constant => cases e
    rw [mangle_eq, mangle_eq] at e
    have hna : n = a := pyName_inj (ht n (typeNames_mem.2 ⟨t', hm'⟩)).1 (ht a hat).1 e
    subst hna
    exact ⟨rfl, by
      have := filterMap_unique hd hm' ha rfl rfl
      injection this⟩
  have key : mangle b ∈ p.map bound := by
    have hk := g1 s (List.mem_append_right _ List.mem_cons_self)
    cases s with
    | cls c =>
      rcases hk with hk | ⟨n, t', hm, hc⟩
      · exact absurd (h1 ▸ hk) (not_header hl hat)
      · obtain ⟨rfl, rfl⟩ := huniq n t' hm ((classOf_named hc).symm.trans h1)
        rw [loadStmt] at e2
        obtain ⟨_, _, e2⟩ := bind_some e2
        obtain ⟨T, e3, _⟩ := bind_some e2
        rcases List.mem_append.1 hb with hb | hb
        · exact hin b hbt (mentioned (ht b hbt) t' hc e3 (hw _ _ ha) hb)
        obtain ⟨x, hx, hb⟩ := List.mem_flatMap.1 hb
        have hcn : c.name ∉ header.map Prod.fst := by
          rw [show c.name = mangle n from h1]
          exact not_header hl hat
        have htop : ∀ c' pre, .cls c' pre ∈ ps → c' = c → Planning (ctxOf as) pre x := by
          rintro c' pre h rfl
          rcases (g3 _ h c' pre rfl).2 with h | ⟨n', t'', hm', hc', hpl⟩
          · exact absurd h hcn
          · obtain ⟨rfl, rfl⟩ := huniq n' t'' hm' ((classOf_named hc').symm.trans h1)
            exact hpl x hx
        obtain ⟨⟨pre, k0⟩, l1, l2, k1, k2, k3⟩ := emitted_before hcn
          (need := fun y => x.cls ∈ header.map Prod.fst ∧ classOf (ctxOf as) x.cls x = .ok y)
          (fun y ⟨hz, hy⟩ => by rw [classOf_named hy]; exact hz) ps
          (fun c' pre h => ⟨(g3 _ h c' pre rfl).1, fun e y hy => by
            obtain ⟨y', q, _, q1, q2⟩ := htop c' pre h e
            cases q1.symm.trans hy.2
            exact ⟨q, q2⟩⟩) g4 (fun h => (nomatch h)) (List.mem_append_right _ List.mem_cons_self)
        have hp : p = l1 := split_unique k1 (fun h => h2 (List.mem_map.2 ⟨_, h, h1⟩)) k2
        obtain ⟨y, q, q0, q1, _⟩ := htop c pre k0 rfl
        have hy : .cls y ∈ p := hp ▸ (k3 y ⟨q0, q1⟩).resolve_left fun h => (nomatch h)
        obtain ⟨p1, p2, rfl⟩ := List.append_of_mem hy
        rw [List.foldlM_append] at e1
        obtain ⟨st3, f1, e1⟩ := bind_some e1
        rw [List.foldlM_cons] at e1
        obtain ⟨st4, f2, _⟩ := bind_some e1
        rw [loadStmt] at f2
        obtain ⟨_, _, f2⟩ := bind_some f2
        obtain ⟨T', f3, _⟩ := bind_some f2
        have hsome := mentioned (ht b hbt) x q1 f3 (worded_elements t' (hw _ _ ha) x hx) hb
        rw [List.map_append]
        refine List.mem_append_left _ ((load_names p1 f1 _ hsome).resolve_left fun h => not_header hl hbt ?_)
        obtain ⟨o, ho⟩ := Option.isSome_iff_exists.1 h
        exact List.mem_map.2 ⟨_, mem_of_lookup ho, rfl⟩
    | alias x y =>
      obtain ⟨n, t', hm, hx, hy⟩ := hk
      obtain ⟨rfl, rfl⟩ := huniq n t' hm (hx.symm.trans h1)
      rw [loadStmt] at e2
      obtain ⟨_, _, e2⟩ := bind_some e2
      have hsome : (st1.env.lookup y).isSome = true := by
        split at e2
        · next e => rw [e]; rfl
        · cases e2
      rcases hy with hy | ⟨m, rfl, hy⟩
      · rw [hy, hx] at hsome
        exact absurd (hin _ hat hsome) h2
      · rw [mentions, builtFrom, elementsIn, List.flatMap_nil, List.append_nil, List.mem_singleton] at hb
        subst hb
        rw [hy] at hsome
        exact hin _ hbt hsome
    | value x m e =>
      obtain ⟨v, hvm, e⟩ := List.mem_map.1 (show x ∈ (valueNames as).map mangle from hk)
      have : mangle v = mangle a := e.trans h1
      rw [mangle_eq, mangle_eq] at this
      exact absurd this (lower_ne_upper (hv v hvm) (ht a hat))
  rw [List.map_append, List.map_cons, List.idxOf_append, List.idxOf_append, if_pos key, if_neg h2, h1]
  exact Nat.lt_of_lt_of_le (List.idxOf_lt_length_iff.2 key) (Nat.le_add_left ..)

theorem contains_assigned {a b : String} (h : Contains as a b) : a ∈ typeNames as := by
  induction h with
  | direct h _ => exact typeNames_mem.2 ⟨_, h⟩
  | through _ _ h _ => exact h

/-- A module that can be imported has no type that contains itself. -/
theorem no_recursion {st : Loaded} (h : compile as = .ok st) (a : String) : ¬ Contains as a a := by
  unfold compile at h
  obtain ⟨prog, hg, hs⟩ := bind_some h
  have key : ∀ {a b}, Contains as a b → b ∈ typeNames as →
      (prog.map bound).idxOf (mangle b) < (prog.map bound).idxOf (mangle a) := by
    intro a b hc
    induction hc with
    | direct h1 h2 => exact earlier hd ht hv hl hw hg hs h1 h2
    | through h1 h2 ih1 ih2 =>
      intro hb
      exact Nat.lt_trans (ih2 hb) (ih1 (contains_assigned hd ht hv hl hw h2))
  intro hc
  exact Nat.lt_irrefl _ (key hc (contains_assigned hd ht hv hl hw hc))

end

end Verif.Recursion
