import Verif.Generate
/-!
# What is emitted
-/
namespace Verif

mutual
/-- All statements that may come of it are in order. -/
def Plan.All (P : Stmt → Prop) : Plan → Prop
  | .cls c pre => P (.cls c) ∧ Plan.Alls P pre
  | .again _ => True
  | .alias n m => P (.alias n m)
  | .value n m e => P (.value n m e)
def Plan.Alls (P : Stmt → Prop) : List Plan → Prop
  | [] => True
  | p :: l => Plan.All P p ∧ Plan.Alls P l
end

theorem Plan.Alls.append {P : Stmt → Prop} : ∀ {a b : List Plan}, Plan.Alls P a → Plan.Alls P b → Plan.Alls P (a ++ b)
  | [], _, _, hb => hb
  | _ :: _, _, ha, hb => ⟨ha.1, ha.2.append hb⟩

theorem emit_bind {ε α β : Type} {x : Except ε α} {f : α → Except ε β} {b : β} (h : (x >>= f) = .ok b) :
    ∃ a, x = .ok a ∧ f a = .ok b := by
  cases x with
  | error e => cases h
  | ok a => exact ⟨a, rfl, h⟩

mutual
theorem emitPlan_all {P : Stmt → Prop} : ∀ (p : Plan) {done done' : List Code} {l : List Stmt}, Plan.All P p →
    emitPlan done p = .ok (done', l) → ∀ s ∈ l, P s
  | .cls c pre, done, done', l, hp, h => by
    rw [emitPlan] at h
    split at h
    · cases h; intro s hs; cases hs
    · obtain ⟨⟨d, x⟩, h1, h⟩ := emit_bind h
      cases h
      intro s hs
      rcases List.mem_append.1 hs with hs | hs
      · exact emitPlans_all pre hp.2 h1 s hs
      · rw [List.mem_singleton] at hs
        exact hs ▸ hp.1
  | .again c, done, done', l, hp, h => by
    rw [emitPlan] at h
    split at h
    · cases h; intro s hs; cases hs
    · cases h
  | .alias n m, done, done', l, hp, h => by
    rw [emitPlan] at h
    cases h
    intro s hs
    rw [List.mem_singleton] at hs
    exact hs ▸ hp
  | .value n m e, done, done', l, hp, h => by
    rw [emitPlan] at h
    cases h
    intro s hs
    rw [List.mem_singleton] at hs
    exact hs ▸ hp
theorem emitPlans_all {P : Stmt → Prop} : ∀ (ps : List Plan) {done done' : List Code} {l : List Stmt}, Plan.Alls P ps →
    emitPlans done ps = .ok (done', l) → ∀ s ∈ l, P s
  | [], _, _, _, _, h => by
    rw [emitPlans] at h
    cases h
    intro s hs; cases hs
  | p :: ps, done, done', l, hp, h => by
    rw [emitPlans] at h
    obtain ⟨⟨d, x⟩, h1, h⟩ := emit_bind h
    obtain ⟨⟨d', y⟩, h2, h⟩ := emit_bind h
    cases h
    intro s hs
    rcases List.mem_append.1 hs with hs | hs
    · exact emitPlan_all p hp.1 h1 s hs
    · exact emitPlans_all ps hp.2 h2 s hs
end

end Verif
