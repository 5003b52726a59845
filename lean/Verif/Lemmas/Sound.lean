import Verif.SpecSound
import Verif.Lemmas.GenConstraint
import Verif.Lemmas.Emit
import Verif.Props.Template
/-!
# What an imported module consists of
-/
namespace Verif.Accepted

open Verif Spec

/-! ## generated code -/

mutual
/-- ENUMERATEDs are numbered by position. -/
def CodeOk : Code → Prop
  | .simple _ _ _ => True
  | .enumerated _ _ root add => Numbered root add
  | .seqOf _ _ _ => True
  | .sequence _ subs _ _ _ _ => CodesOk subs
  | .choice _ subs _ _ _ _ => CodesOk subs
def CodesOk : Codes → Prop
  | .nil => True
  | .cons c r => CodeOk c ∧ CodesOk r
end

def StmtOk : Stmt → Prop
  | .cls c => CodeOk c
  | _ => True

theorem bind_ok {ε α β : Type} {x : Except ε α} {f : α → Except ε β} {b : β} (h : (x >>= f) = .ok b) :
    ∃ a, x = .ok a ∧ f a = .ok b := by
  cases x with
  | error e => cases h
  | ok a => exact ⟨a, rfl, h⟩

mutual
theorem classOf_ok (ctx : Ctx) (name : String) : ∀ (t : TObj) {c : Code}, classOf ctx name t = .ok c → CodeOk c
  | .simple k c, _, h => by
    simp only [classOf] at h
    obtain ⟨_, _, h⟩ := bind_ok h
    cases h
    trivial
  | .enumerated items, _, h => by
    simp only [classOf, Except.ok.injEq] at h
    subst h
    exact Props.C35_numbered items
  | .seqOf c e, _, h => by
    simp only [classOf] at h
    obtain ⟨_, _, h⟩ := bind_ok h
    cases h
    trivial
  | .sequence items, _, h => by
    simp only [classOf] at h
    obtain ⟨_, h1, h⟩ := bind_ok h
    obtain ⟨_, _, h⟩ := bind_ok h
    cases h
    exact subsItems_ok ctx items h1
  | .choice items, _, h => by
    simp only [classOf] at h
    obtain ⟨_, h1, h⟩ := bind_ok h
    obtain ⟨_, _, h⟩ := bind_ok h
    cases h
    exact subsItems_ok ctx items h1
  | .ref _, _, h => by simp [classOf] at h
theorem subsItems_ok (ctx : Ctx) : ∀ (i : Items) {cs : Codes}, subsItems ctx i = .ok cs → CodesOk cs
  | .nil, _, h => by
    simp only [subsItems, Except.ok.injEq] at h
    subst h
    trivial
  | .comp id t _ r, _, h => by
    simp only [subsItems] at h
    obtain ⟨_, h1, h⟩ := bind_ok h
    split at h
    · obtain ⟨_, h2, h⟩ := bind_ok h
      cases h
      exact ⟨classOf_ok ctx _ t h2, subsItems_ok ctx r h1⟩
    · cases h
      exact subsItems_ok ctx r h1
  | .marker r, _, h => by
    simp only [subsItems] at h
    exact subsItems_ok ctx r h
  | .group cs r, _, h => by
    simp only [subsItems] at h
    obtain ⟨_, h1, h⟩ := bind_ok h
    exact subsComps_ok ctx cs (subsItems_ok ctx r h1) h
theorem subsComps_ok (ctx : Ctx) : ∀ (i : Comps) {rest cs : Codes}, CodesOk rest → subsComps ctx i rest = .ok cs → CodesOk cs
  | .nil, _, _, hr, h => by
    simp only [subsComps, Except.ok.injEq] at h
    subst h
    exact hr
  | .cons id t _ r, _, _, hr, h => by
    simp only [subsComps] at h
    obtain ⟨_, h1, h⟩ := bind_ok h
    split at h
    · obtain ⟨_, h2, h⟩ := bind_ok h
      cases h
      exact ⟨classOf_ok ctx _ t h2, subsComps_ok ctx r hr h1⟩
    · cases h
      exact subsComps_ok ctx r hr h1
end

/-- All statements are in order. -/
abbrev PlansOk (l : List Plan) : Prop := Plan.Alls StmtOk l

theorem plansOk_one {p : Plan} (h : Plan.All StmtOk p) : PlansOk [p] := ⟨h, trivial⟩

theorem plansOk_nil : PlansOk [] := trivial

theorem needsType_ok {ctx : Ctx} {n : String} {p : Pres} {l : List Plan} (h : needsType ctx n p = .ok l) : PlansOk l := by
  unfold needsType at h
  split at h
  · cases h; exact plansOk_nil
  · split at h
    · cases h; exact plansOk_nil
    · cases h

theorem refStmts_ok {ctx : Ctx} {objs : Objs} {n : String} {l : List Plan} (h : refStmts ctx objs n = .ok l) : PlansOk l := by
  unfold refStmts at h
  split at h
  · cases h
  · cases h; exact plansOk_one trivial
  · split at h
    · obtain ⟨_, _, h⟩ := bind_ok h; cases h; exact plansOk_one trivial
    · cases h; exact plansOk_one trivial
    · obtain ⟨_, _, h⟩ := bind_ok h; cases h; exact plansOk_one trivial
  · obtain ⟨_, _, h⟩ := bind_ok h; cases h; exact plansOk_one trivial

/-- A class after the statements it needs. -/
theorem preCls_ok {ctx : Ctx} {name : String} {t : TObj} {m : Except GenErr (List Plan)} {l : List Plan}
    (hm : ∀ {l}, m = .ok l → PlansOk l)
    (h : (do let code ← classOf ctx name t; let pre ← m; return [.cls code pre]) = Except.ok l) : PlansOk l := by
  obtain ⟨_, h1, h⟩ := bind_ok h
  obtain ⟨_, h2, h⟩ := bind_ok h
  cases h
  exact plansOk_one ⟨classOf_ok ctx _ t h1, hm h2⟩

theorem onlyCls_ok {ctx : Ctx} {name : String} {t : TObj} {l : List Plan}
    (h : (do return [.cls (← classOf ctx name t) []]) = Except.ok l) : PlansOk l := by
  obtain ⟨_, h1, h⟩ := bind_ok h
  cases h
  exact plansOk_one ⟨classOf_ok ctx _ t h1, trivial⟩

theorem both_ok {a b : Except GenErr (List Plan)} {l : List Plan} (ha : ∀ {l}, a = .ok l → PlansOk l)
    (hb : ∀ {l}, b = .ok l → PlansOk l) (h : (do let x ← a; let y ← b; return x ++ y) = Except.ok l) : PlansOk l := by
  obtain ⟨_, h1, h⟩ := bind_ok h
  obtain ⟨_, h2, h⟩ := bind_ok h
  cases h
  exact (ha h1).append (hb h2)

mutual
theorem elemStmts_ok (ctx : Ctx) (objs : Objs) : ∀ (t : TObj) {l : List Plan}, elemStmts ctx objs t = .ok l → PlansOk l
  | .simple _ _, _, h => by simp only [elemStmts, Except.ok.injEq] at h; subst h; exact plansOk_nil
  | .ref n, _, h => by simp only [elemStmts] at h; exact refStmts_ok h
  | .enumerated items, _, h => by simp only [elemStmts] at h; exact onlyCls_ok h
  | .seqOf c e, _, h => by simp only [elemStmts] at h; exact preCls_ok (elemStmts_ok ctx objs e) h
  | .sequence items, _, h => by simp only [elemStmts] at h; exact preCls_ok (itemsStmts_ok ctx objs items) h
  | .choice items, _, h => by simp only [elemStmts] at h; exact preCls_ok (itemsStmts_ok ctx objs items) h
theorem compStmts_ok (ctx : Ctx) (objs : Objs) (p : Pres) : ∀ (t : TObj) {l : List Plan}, compStmts ctx objs p t = .ok l → PlansOk l
  | .simple _ _, _, h => by simp only [compStmts, Except.ok.injEq] at h; subst h; exact plansOk_nil
  | .enumerated _, _, h => by simp only [compStmts, Except.ok.injEq] at h; subst h; exact plansOk_nil
  | .ref n, _, h => by simp only [compStmts] at h; exact needsType_ok h
  | .seqOf _ e, _, h => by simp only [compStmts] at h; exact innerStmts_ok ctx objs e h
  | .sequence items, _, h => by simp only [compStmts] at h; exact itemsStmts_ok ctx objs items h
  | .choice items, _, h => by simp only [compStmts] at h; exact itemsStmts_ok ctx objs items h
theorem innerStmts_ok (ctx : Ctx) (objs : Objs) : ∀ (t : TObj) {l : List Plan}, innerStmts ctx objs t = .ok l → PlansOk l
  | .simple _ _, _, h => by simp only [innerStmts] at h; exact onlyCls_ok h
  | .ref n, _, h => by simp only [innerStmts] at h; exact needsType_ok h
  | .enumerated items, _, h => by simp only [innerStmts] at h; exact onlyCls_ok h
  | .seqOf c e, _, h => by simp only [innerStmts] at h; exact preCls_ok (elemStmts_ok ctx objs e) h
  | .sequence items, _, h => by simp only [innerStmts] at h; exact preCls_ok (itemsStmts_ok ctx objs items) h
  | .choice items, _, h => by simp only [innerStmts] at h; exact preCls_ok (itemsStmts_ok ctx objs items) h
theorem itemsStmts_ok (ctx : Ctx) (objs : Objs) : ∀ (i : Items) {l : List Plan}, itemsStmts ctx objs i = .ok l → PlansOk l
  | .nil, _, h => by simp only [itemsStmts, Except.ok.injEq] at h; subst h; exact plansOk_nil
  | .comp _ t p r, _, h => by
    simp only [itemsStmts] at h; exact both_ok (compStmts_ok ctx objs p t) (itemsStmts_ok ctx objs r) h
  | .marker r, _, h => by simp only [itemsStmts] at h; exact itemsStmts_ok ctx objs r h
  | .group cs r, _, h => by
    simp only [itemsStmts] at h; exact both_ok (compsStmts_ok ctx objs cs) (itemsStmts_ok ctx objs r) h
theorem compsStmts_ok (ctx : Ctx) (objs : Objs) : ∀ (i : Comps) {l : List Plan}, compsStmts ctx objs i = .ok l → PlansOk l
  | .nil, _, h => by simp only [compsStmts, Except.ok.injEq] at h; subst h; exact plansOk_nil
  | .cons _ t p r, _, h => by
    simp only [compsStmts] at h; exact both_ok (compStmts_ok ctx objs p t) (compsStmts_ok ctx objs r) h
end

theorem fillTop_ok (ctx : Ctx) (objs : Objs) (name : String) : ∀ (t : TObj) {l : List Plan},
    fillTop ctx objs name t = .ok l → PlansOk l
  | .simple _ _, _, h => by simp only [fillTop] at h; exact onlyCls_ok h
  | .ref _, _, h => by simp [fillTop] at h
  | .enumerated items, _, h => by simp only [fillTop] at h; exact onlyCls_ok h
  | .seqOf c e, _, h => by simp only [fillTop] at h; exact preCls_ok (elemStmts_ok ctx objs e) h
  | .sequence items, _, h => by simp only [fillTop] at h; exact preCls_ok (itemsStmts_ok ctx objs items) h
  | .choice items, _, h => by simp only [fillTop] at h; exact preCls_ok (itemsStmts_ok ctx objs items) h

theorem fillAssign_ok {ctx : Ctx} {objs : Objs} {a : Assign} {r : Objs × List Plan} (h : fillAssign ctx objs a = .ok r) :
    PlansOk r.2 := by
  cases a with
  | type n t =>
    cases t with
    | ref m =>
      simp only [fillAssign] at h
      split at h
      · cases h; exact plansOk_one trivial
      · split at h
        · cases h
        · cases h; exact plansOk_one trivial
    | _ =>
      simp only [fillAssign] at h
      obtain ⟨_, h1, h⟩ := bind_ok h
      cases h
      exact fillTop_ok ctx objs _ _ h1
  | value n k l =>
    simp only [fillAssign] at h
    split at h <;> cases h
    · exact plansOk_one trivial
    · exact plansOk_one ⟨trivial, trivial⟩
  | constant n m l =>
    simp only [fillAssign] at h
    obtain ⟨_, _, h⟩ := bind_ok h
    cases h
    exact plansOk_one trivial

theorem steps_ok {ctx : Ctx} : ∀ (l : List Assign) (s s' : Objs × List Plan), PlansOk s.2 → l.foldlM (genStep ctx) s = .ok s' → PlansOk s'.2 := by
  intro l
  induction l with
  | nil => intro s s' hs h; cases h; exact hs
  | cons a l ih =>
    intro s s' hs h
    rw [List.foldlM_cons] at h
    obtain ⟨x, hx, h⟩ := bind_ok h
    refine ih x s' ?_ h
    unfold genStep at hx
    obtain ⟨⟨o, ss⟩, h2, hx⟩ := bind_ok hx
    cases hx
    exact hs.append (fillAssign_ok h2)

theorem emitted_ok {l : List Plan} {prog : List Stmt} (hp : PlansOk l) (h : emitted l = .ok prog) : ∀ s ∈ prog, StmtOk s := by
  unfold emitted at h
  obtain ⟨⟨d, x⟩, h2, h⟩ := bind_ok h
  cases h
  exact emitPlans_all _ hp h2

theorem generate_ok {as : List Assign} {prog : List Stmt} (h : generate as = .ok prog) : ∀ s ∈ prog, StmtOk s := by
  unfold generate at h
  obtain ⟨st, h1, h⟩ := bind_ok h
  exact emitted_ok (steps_ok as _ st plansOk_nil h1) h

/-! ## loading -/

/-- Everything in the environment makes sense. -/
def EnvOk (env : List (String × PyObj)) : Prop := ∀ x o, env.lookup x = some o → SoundObj o

theorem EnvOk.cons {env : List (String × PyObj)} (h : EnvOk env) {x : String} {o : PyObj} (ho : SoundObj o) :
    EnvOk ((x, o) :: env) := by
  intro y p hp
  rw [List.lookup_cons] at hp
  split at hp
  · cases hp; exact ho
  · exact h y p hp

theorem EnvOk.append {a b : List (String × PyObj)} (ha : EnvOk a) (hb : EnvOk b) : EnvOk (a ++ b) := by
  intro y p hp
  rw [List.lookup_append] at hp
  cases h : a.lookup y with
  | none => rw [h] at hp; exact hb y p (by simpa using hp)
  | some o => rw [h] at hp; cases hp; exact ha y _ h

theorem header_ok : EnvOk header := by
  intro x o h
  have := mem_of_lookup h
  simp only [header, List.mem_cons, Prod.mk.injEq, List.not_mem_nil, or_false] at this
  rcases this with ⟨_, rfl⟩ | ⟨_, rfl⟩ | ⟨_, rfl⟩ | ⟨_, rfl⟩ | ⟨_, rfl⟩ | ⟨_, rfl⟩ | ⟨_, rfl⟩ | ⟨_, rfl⟩ <;>
    simp [SoundObj, Sound, SoundFields, SoundGroups, Ordered, Numbered]

theorem classNamed_ok {env : List (String × PyObj)} (he : EnvOk env) {n : String} {t : Ty} (h : classNamed env n = .ok t) :
    Sound t := by
  unfold classNamed at h
  split at h
  · rename_i h1; cases h; exact he _ _ h1
  · cases h
  · cases h

theorem checked_sound {p q : Option Int × Option Int} (h : checked p = .ok q) : q = p ∧ Ordered p.1 p.2 := by
  unfold checked at h
  split at h
  · rename_i l hh
    split at h
    · rename_i hle; cases h; exact ⟨rfl, fun a b ha hb => by cases ha; cases hb; exact hle⟩
    · cases h
  · rename_i hno
    cases h
    refine ⟨rfl, fun a b ha hb => ?_⟩
    exact absurd (show p = (some a, some b) from Prod.ext ha hb) (hno a b)

theorem sizeConstraint_ok {e : Bool} {p : Option Int × Option Int} {c : SizeC} (ho : Ordered p.1 p.2)
    (h : sizeConstraint e p = .ok c) : Ordered c.lower c.upper := by
  unfold sizeConstraint at h
  obtain ⟨a, ha, h⟩ := bind_ok h
  obtain ⟨b, hb, h⟩ := bind_ok h
  cases h
  intro l u hl hu
  change a = some l at hl
  change b = some u at hu
  have key : ∀ {o : Option Int} {n : Nat}, sizeEnd o = .ok (some n) → ∃ z, o = some z ∧ 0 ≤ z ∧ n = z.toNat := by
    intro o n h
    cases o with
    | none => simp [sizeEnd] at h
    | some z =>
      simp only [sizeEnd] at h
      split at h
      · rename_i hz; cases h; exact ⟨z, rfl, hz, rfl⟩
      · cases h
  subst hl hu
  obtain ⟨y, hy, hy0, rfl⟩ := key ha
  obtain ⟨z, hz, hz0, rfl⟩ := key hb
  have := ho y z hy hz
  omega

theorem construct_ok {env : List (String × PyObj)} (t : Ty) (e : Expr) {v : Val} (h : construct env t e = .ok v) :
    conforms t v = true := by
  unfold construct at h
  split at h
  · split at h
    · rename_i ht; cases h; simpa [conforms, hasShape] using ht
    · cases h
  · cases h; simp [conforms, hasShape]
  · split at h
    · rename_i hl
      cases h
      simp only [conforms, hasShape, List.any_eq_true]
      exact ⟨_, mem_of_lookup hl, by simp⟩
    · cases h
  · split at h
    · rename_i ht; cases h; simpa [conforms, hasShape] using ht
    · cases h
  · split at h
    · rename_i ht; cases h; simpa [conforms, hasShape] using ht
    · cases h
  · split at h
    · rename_i ht; cases h; simpa [conforms, hasShape] using ht
    · cases h
  · split at h
    · rename_i ht; cases h; simpa [conforms, hasShape] using ht
    · cases h
  · split at h
    · split at h
      · rename_i ht; cases h; simpa [conforms, hasShape] using ht
      · cases h
    · cases h; simp [conforms, hasShape]
    · split at h
      · rename_i ht; cases h; simpa [conforms, hasShape] using ht
      · cases h
    · split at h
      · rename_i ht; cases h; simpa [conforms, hasShape] using ht
      · cases h
    · cases h
    · cases h
  · cases h

/-- What a component of a class is. -/
def FieldOk (x : String × Kind × Ty) : Prop := Sound x.2.2 ∧ ∀ d, x.2.1 = .default d → conforms x.2.2 d = true

theorem loadNT_ok {env : List (String × PyObj)} (he : EnvOk env) {nt : NT} {x : String × Kind × Ty}
    (h : loadNT env nt = .ok x) : FieldOk x := by
  unfold loadNT at h
  split at h
  · obtain ⟨_, h1, h⟩ := bind_ok h; cases h; exact ⟨classNamed_ok he h1, nofun⟩
  · obtain ⟨_, h1, h⟩ := bind_ok h; cases h; exact ⟨classNamed_ok he h1, nofun⟩
  · obtain ⟨_, h1, h⟩ := bind_ok h
    obtain ⟨_, h2, h⟩ := bind_ok h
    cases h
    exact ⟨classNamed_ok he h1, fun d hd => by cases hd; exact construct_ok _ _ h2⟩
  · split at h
    · rename_i hl
      cases h
      have := he _ _ hl
      exact ⟨this.1, fun d hd => by cases hd; exact this.2⟩
    · cases h
    · cases h

theorem mapM_all {α β : Type} {f : α → Except GenErr β} {P : β → Prop} (hf : ∀ {a b}, f a = .ok b → P b) :
    ∀ {l : List α} {r : List β}, l.mapM f = .ok r → ∀ b ∈ r, P b := by
  intro l
  induction l with
  | nil => intro r h b hb; rw [List.mapM_nil] at h; cases h; cases hb
  | cons a l ih =>
    intro r h b hb
    rw [List.mapM_cons] at h
    obtain ⟨x, h1, h⟩ := bind_ok h
    obtain ⟨xs, h2, h⟩ := bind_ok h
    cases h
    rcases List.mem_cons.1 hb with rfl | hb
    · exact hf h1
    · exact ih h2 b hb

theorem soundFields_ofList : ∀ {l : List (String × Kind × Ty)}, (∀ x ∈ l, FieldOk x) → SoundFields (Fields.ofList l)
  | [], _ => trivial
  | (n, k, t) :: l, h =>
    ⟨(h _ (List.mem_cons_self ..)).1, (h _ (List.mem_cons_self ..)).2, soundFields_ofList fun x hx => h x (List.mem_cons_of_mem _ hx)⟩

theorem soundGroups_ofList : ∀ {l : List (List (String × Kind × Ty))}, (∀ g ∈ l, ∀ x ∈ g, FieldOk x) →
    SoundGroups (Groups.ofList l)
  | [], _ => trivial
  | g :: l, h => ⟨soundFields_ofList (h g (List.mem_cons_self ..)), soundGroups_ofList fun x hx => h x (List.mem_cons_of_mem _ hx)⟩

theorem loadNTs_ok {env : List (String × PyObj)} (he : EnvOk env) {l : List NT} {f : Fields} (h : loadNTs env l = .ok f) :
    SoundFields f := by
  unfold loadNTs at h
  obtain ⟨_, h1, h⟩ := bind_ok h
  cases h
  exact soundFields_ofList (mapM_all (loadNT_ok he) h1)

mutual
theorem loadCode_ok (env : List (String × PyObj)) (he : EnvOk env) : ∀ (c : Code) {t : Ty}, CodeOk c → loadCode env c = .ok t → Sound t
  | .simple _ k spec, t, _, h => by
    simp only [loadCode] at h
    obtain ⟨base, hb, h⟩ := bind_ok h
    split at h
    · cases h; exact classNamed_ok he hb
    · cases h; exact classNamed_ok he hb
    · obtain ⟨p, _, h⟩ := bind_ok h
      obtain ⟨q, hq, h⟩ := bind_ok h
      cases h
      obtain ⟨rfl, ho⟩ := checked_sound hq
      exact .inr ⟨_, _, _, rfl, ho⟩
    · obtain ⟨p, _, h⟩ := bind_ok h
      obtain ⟨q, hq, h⟩ := bind_ok h
      obtain ⟨s, hs, h⟩ := bind_ok h
      cases h
      obtain ⟨rfl, ho⟩ := checked_sound hq
      exact sizeConstraint_ok ho hs
    · obtain ⟨p, _, h⟩ := bind_ok h
      obtain ⟨q, hq, h⟩ := bind_ok h
      obtain ⟨s, hs, h⟩ := bind_ok h
      cases h
      obtain ⟨rfl, ho⟩ := checked_sound hq
      exact sizeConstraint_ok ho hs
  | .enumerated _ marker root add, t, hc, h => by
    simp only [loadCode] at h
    obtain ⟨base, hb, h⟩ := bind_ok h
    split at h
    · split at h
      · obtain ⟨_, hd, h⟩ := bind_ok h
        cases h
        unfold distinct at hd
        split at hd
        · next hd' => exact ⟨hc, hd'.1⟩
        · cases hd
      · cases h
    · cases h
  | .seqOf _ spec f, t, _, h => by
    simp only [loadCode] at h
    obtain ⟨base, hb, h⟩ := bind_ok h
    split at h
    · cases spec with
      | none =>
        obtain ⟨c, _, h⟩ := bind_ok h
        obtain ⟨e, hh, h⟩ := bind_ok h
        cases h
        exact show Sound e from classNamed_ok he hh
      | some s =>
        obtain ⟨p, _, h⟩ := bind_ok h
        obtain ⟨c, _, h⟩ := bind_ok h
        obtain ⟨e, hh, h⟩ := bind_ok h
        cases h
        exact show Sound e from classNamed_ok he hh
    · cases h
  | .sequence _ subs marker root add groups, t, hc, h => by
    simp only [loadCode] at h
    obtain ⟨base, hb, h⟩ := bind_ok h
    split at h
    · obtain ⟨l, hl, h⟩ := bind_ok h
      have he' : EnvOk (l ++ env) := (loadCodes_ok env he subs hc hl).append he
      obtain ⟨r, hr, h⟩ := bind_ok h
      obtain ⟨a, ha, h⟩ := bind_ok h
      obtain ⟨g, hg, h⟩ := bind_ok h
      cases h
      exact ⟨loadNTs_ok he' hr, loadNTs_ok he' ha, soundGroups_ofList (mapM_all (fun h => mapM_all (loadNT_ok he') h) hg)⟩
    · cases h
  | .choice _ subs marker root add groups, t, hc, h => by
    simp only [loadCode] at h
    obtain ⟨base, hb, h⟩ := bind_ok h
    split at h
    · obtain ⟨l, hl, h⟩ := bind_ok h
      have he' : EnvOk (l ++ env) := (loadCodes_ok env he subs hc hl).append he
      obtain ⟨r, hr, h⟩ := bind_ok h
      obtain ⟨a, ha, h⟩ := bind_ok h
      obtain ⟨g, hg, h⟩ := bind_ok h
      cases h
      exact ⟨loadNTs_ok he' hr, loadNTs_ok he' ha, soundGroups_ofList (mapM_all (fun h => mapM_all (loadNT_ok he') h) hg)⟩
    · cases h
theorem loadCodes_ok (env : List (String × PyObj)) (he : EnvOk env) : ∀ (c : Codes) {l : List (String × PyObj)}, CodesOk c →
    loadCodes env c = .ok l → EnvOk l
  | .nil, l, _, h => by
    simp only [loadCodes, Except.ok.injEq] at h
    subst h
    intro x o h; cases h
  | .cons c r, l, hc, h => by
    simp only [loadCodes] at h
    obtain ⟨_, _, h⟩ := bind_ok h
    obtain ⟨t, ht, h⟩ := bind_ok h
    obtain ⟨rest, hr, h⟩ := bind_ok h
    cases h
    refine (loadCodes_ok env he r hc.2 hr).append (EnvOk.cons (fun x o h => by cases h) ?_)
    exact loadCode_ok env he c hc.1 ht
end

theorem loadStmt_ok {st st' : Loaded} {s : Stmt} (hs : StmtOk s) (he : EnvOk st.env) (h : loadStmt st s = .ok st') :
    EnvOk st'.env := by
  cases s with
  | cls c =>
    simp only [loadStmt] at h
    obtain ⟨_, _, h⟩ := bind_ok h
    obtain ⟨t, ht, h⟩ := bind_ok h
    cases h
    exact he.cons (loadCode_ok _ he c hs ht)
  | alias n m =>
    simp only [loadStmt] at h
    obtain ⟨_, _, h⟩ := bind_ok h
    split at h
    · rename_i hl; cases h; exact he.cons (he _ _ hl)
    · cases h
  | value n m e =>
    simp only [loadStmt] at h
    obtain ⟨_, _, h⟩ := bind_ok h
    obtain ⟨t, ht, h⟩ := bind_ok h
    obtain ⟨v, hv, h⟩ := bind_ok h
    cases h
    exact he.cons ⟨classNamed_ok he ht, construct_ok _ _ hv⟩

theorem load_ok {prog : List Stmt} {st : Loaded} (hp : ∀ s ∈ prog, StmtOk s) (h : load prog = .ok st) : EnvOk st.env := by
  unfold load at h
  have : ∀ (l : List Stmt) (s s' : Loaded), (∀ x ∈ l, StmtOk x) → EnvOk s.env → l.foldlM loadStmt s = .ok s' → EnvOk s'.env := by
    intro l
    induction l with
    | nil => intro s s' _ hs h; cases h; exact hs
    | cons a l ih =>
      intro s s' hl hs h
      rw [List.foldlM_cons] at h
      obtain ⟨x, hx, h⟩ := bind_ok h
      exact ih x s' (fun y hy => hl y (List.mem_cons_of_mem _ hy)) (loadStmt_ok (hl a (List.mem_cons_self ..)) hs hx) h
  exact this prog _ st hp header_ok h

theorem compile_ok {as : List Assign} {st : Loaded} (h : compile as = .ok st) : EnvOk st.env := by
  unfold compile at h
  obtain ⟨prog, hg, h⟩ := bind_ok h
  exact load_ok (generate_ok hg) h

end Verif.Accepted
