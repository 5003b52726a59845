import Verif.Spec
/-!
# Constraint endpoints cover the accepted values
-/
namespace Verif

theorem pyMin_le {z : Int} : ∀ {l : List (Option Int)} {m : Option Int}, pyMin l = .ok m →
    (∃ x ∈ l, leLo x z = true) → leLo m z = true
  | [], _, h, _ => by simp [pyMin] at h
  | [x], m, h, ⟨y, hy, hz⟩ => by
    simp [pyMin] at h; subst h
    simp at hy; subst hy; exact hz
  | x :: y :: r, m, h, ⟨w, hw, hz⟩ => by
    rw [pyMin] at h
    case x_2 => simp
    cases hm : pyMin (y :: r) with
    | error e => rw [hm] at h; simp [bind, Except.bind] at h
    | ok m' =>
      rw [hm] at h
      simp only [bind, Except.bind] at h
      cases x with
      | none => simp at h
      | some a =>
        cases m' with
        | none => simp at h
        | some b =>
          simp only [Except.ok.injEq] at h
          subst h
          rcases List.mem_cons.1 hw with rfl | hw
          · simp only [leLo, decide_eq_true_eq] at hz ⊢
            split <;> omega
          · have := pyMin_le hm ⟨w, hw, hz⟩
            simp only [leLo, decide_eq_true_eq] at this ⊢
            split <;> omega

theorem pyMax_le {z : Int} : ∀ {l : List (Option Int)} {m : Option Int}, pyMax l = .ok m →
    (∃ x ∈ l, leHi z x = true) → leHi z m = true
  | [], _, h, _ => by simp [pyMax] at h
  | [x], m, h, ⟨y, hy, hz⟩ => by
    simp [pyMax] at h; subst h
    simp at hy; subst hy; exact hz
  | x :: y :: r, m, h, ⟨w, hw, hz⟩ => by
    rw [pyMax] at h
    case x_2 => simp
    cases hm : pyMax (y :: r) with
    | error e => rw [hm] at h; simp [bind, Except.bind] at h
    | ok m' =>
      rw [hm] at h
      simp only [bind, Except.bind] at h
      cases x with
      | none => simp at h
      | some a =>
        cases m' with
        | none => simp at h
        | some b =>
          simp only [Except.ok.injEq] at h
          subst h
          rcases List.mem_cons.1 hw with rfl | hw
          · simp only [leHi, decide_eq_true_eq] at hz ⊢
            split <;> omega
          · have := pyMax_le hm ⟨w, hw, hz⟩
            simp only [leHi, decide_eq_true_eq] at this ⊢
            split <;> omega

/-- The two steps of a composite constructor. -/
theorem composite_endpoints {es : List (Option Int × Option Int)} {lo hi : Option Int} {z : Int}
    (h : (do
      let lo ← pyMin (es.map (·.1))
      let hi ← pyMax (es.map (·.2))
      return (lo, hi) : Except Err (Option Int × Option Int)) = .ok (lo, hi))
    (hz : ∃ e ∈ es, leLo e.1 z = true ∧ leHi z e.2 = true) :
    leLo lo z = true ∧ leHi z hi = true := by
  cases h1 : pyMin (es.map (·.1)) with
  | error e => rw [h1] at h; simp [bind, Except.bind] at h
  | ok lo' =>
    cases h2 : pyMax (es.map (·.2)) with
    | error e => rw [h1, h2] at h; simp [bind, Except.bind] at h
    | ok hi' =>
      rw [h1, h2] at h
      simp only [bind, Except.bind, pure, Except.pure, Except.ok.injEq, Prod.mk.injEq] at h
      obtain ⟨rfl, rfl⟩ := h
      obtain ⟨e, he, a, b⟩ := hz
      exact ⟨pyMin_le h1 ⟨e.1, List.mem_map_of_mem he, a⟩, pyMax_le h2 ⟨e.2, List.mem_map_of_mem he, b⟩⟩

theorem endpointsList_nil_of {es : List (Option Int × Option Int)} {lo hi : Option Int}
    (h : (do
      let lo ← pyMin (es.map (·.1))
      let hi ← pyMax (es.map (·.2))
      return (lo, hi) : Except Err (Option Int × Option Int)) = .ok (lo, hi)) : es ≠ [] := by
  rintro rfl
  simp [pyMin, bind, Except.bind] at h

theorem endpointsList_cons {c : Constr} {cs : List Constr} {es : List (Option Int × Option Int)}
    (h : Constr.endpointsList (c :: cs) = .ok es) :
    ∃ e es', Constr.endpoints c = .ok e ∧ Constr.endpointsList cs = .ok es' ∧ es = e :: es' := by
  rw [Constr.endpointsList] at h
  cases h1 : Constr.endpoints c with
  | error e => rw [h1] at h; simp [bind, Except.bind] at h
  | ok e =>
    cases h2 : Constr.endpointsList cs with
    | error e' => rw [h1, h2] at h; simp [bind, Except.bind] at h
    | ok es' =>
      rw [h1, h2] at h
      simp only [bind, Except.bind, pure, Except.pure, Except.ok.injEq] at h
      exact ⟨e, es', rfl, rfl, h.symm⟩

mutual
/-- Every value accepted by a constraint lies between its endpoints, unless extension markers make it accept
everything. -/
theorem endpoints_cover (z : Int) : ∀ (c : Constr) {lo hi : Option Int}, c.endpoints = .ok (lo, hi) →
    Spec.marked c = false → c.test z = true → leLo lo z = true ∧ leHi z hi = true
  | .noConstraint, lo, hi, h, _, _ => by
    simp [Constr.endpoints] at h; obtain ⟨rfl, rfl⟩ := h; exact ⟨rfl, rfl⟩
  | .extensionMarker _, lo, hi, h, _, _ => by
    simp [Constr.endpoints] at h; obtain ⟨rfl, rfl⟩ := h; exact ⟨rfl, rfl⟩
  | .valueRange l u e, lo, hi, h, he, ht => by
    simp [Constr.endpoints] at h; obtain ⟨rfl, rfl⟩ := h
    simp only [Spec.marked, Constr.ext] at he; subst he
    simp [Constr.test] at ht; exact ht
  | .singleValue e vals, lo, hi, h, he, ht => by
    simp only [Spec.marked, Constr.ext] at he; subst he
    have hm : z ∈ vals := by simpa [Constr.test] using ht
    rw [Constr.endpoints] at h
    have := composite_endpoints (es := vals.map (fun v => (some v, some v))) (lo := lo) (hi := hi) (z := z)
      (by simpa [List.map_map, Function.comp_def] using h)
      ⟨(some z, some z), List.mem_map_of_mem hm, by simp [leLo], by simp [leHi]⟩
    exact this
  | .union e cs, lo, hi, h, he, ht => by
    simp only [Spec.marked, Bool.or_eq_false_iff] at he
    obtain ⟨rfl, hp⟩ := he
    rw [Constr.endpoints] at h
    cases hes : Constr.endpointsList cs with
    | error e => rw [hes] at h; simp [bind, Except.bind] at h
    | ok es =>
      rw [hes] at h
      exact composite_endpoints h (endpointsList_any z cs hes hp (by simpa [Constr.test] using ht))
  | .inter e cs, lo, hi, h, he, ht => by
    simp only [Spec.marked, Bool.or_eq_false_iff] at he
    obtain ⟨rfl, hp⟩ := he
    rw [Constr.endpoints] at h
    cases hes : Constr.endpointsList cs with
    | error e => rw [hes] at h; simp [bind, Except.bind] at h
    | ok es =>
      rw [hes] at h
      exact composite_endpoints h (endpointsList_all z cs hes hp (by simpa [Constr.test] using ht))
theorem endpointsList_any (z : Int) : ∀ (cs : List Constr) {es : List (Option Int × Option Int)},
    Constr.endpointsList cs = .ok es → Spec.markedAny cs = false → Constr.testAny cs z = true →
    ∃ e ∈ es, leLo e.1 z = true ∧ leHi z e.2 = true
  | [], _, _, _, ht => by simp [Constr.testAny] at ht
  | c :: cs, es, h, hp, ht => by
    obtain ⟨e, es', h1, h2, rfl⟩ := endpointsList_cons h
    simp only [Spec.markedAny, Bool.or_eq_false_iff] at hp
    simp only [Constr.testAny, Bool.or_eq_true] at ht
    rcases ht with ht | ht
    · exact ⟨e, List.mem_cons_self, endpoints_cover z c (lo := e.1) (hi := e.2) h1 hp.1 ht⟩
    · obtain ⟨e', he', hh⟩ := endpointsList_any z cs h2 hp.2 ht
      exact ⟨e', List.mem_cons_of_mem _ he', hh⟩
theorem endpointsList_all (z : Int) : ∀ (cs : List Constr) {es : List (Option Int × Option Int)},
    Constr.endpointsList cs = .ok es → Spec.markedAll cs = false → Constr.testAll cs z = true →
    ∃ e ∈ es, leLo e.1 z = true ∧ leHi z e.2 = true
  | [], _, _, hp, _ => by simp [Spec.markedAll] at hp
  | c :: cs, es, h, hp, ht => by
    obtain ⟨e, es', h1, h2, rfl⟩ := endpointsList_cons h
    simp only [Spec.markedAll, Bool.and_eq_false_iff] at hp
    simp only [Constr.testAll, Bool.and_eq_true] at ht
    rcases hp with hp | hp
    · exact ⟨e, List.mem_cons_self, endpoints_cover z c (lo := e.1) (hi := e.2) h1 hp ht.1⟩
    · obtain ⟨e', he', hh⟩ := endpointsList_all z cs h2 hp ht.2
      exact ⟨e', List.mem_cons_of_mem _ he', hh⟩
end

mutual
/-- Extension markers among the members make the constraint accept every value. -/
theorem marked_test (z : Int) : ∀ c : Constr, Spec.marked c = true → c.test z = true
  | .noConstraint, _ => rfl
  | .extensionMarker _, _ => rfl
  | .valueRange _ _ _, h => by simp only [Spec.marked, Constr.ext] at h; simp [Constr.test, h]
  | .singleValue _ _, h => by simp only [Spec.marked, Constr.ext] at h; simp [Constr.test, h]
  | .union _ cs, h => by
    simp only [Spec.marked, Bool.or_eq_true] at h
    rw [Constr.test, Bool.or_eq_true]
    exact h.imp id (markedAny_test z cs)
  | .inter _ cs, h => by
    simp only [Spec.marked, Bool.or_eq_true] at h
    rw [Constr.test, Bool.or_eq_true]
    exact h.imp id (markedAll_test z cs)
theorem markedAny_test (z : Int) : ∀ cs : List Constr, Spec.markedAny cs = true → Constr.testAny cs z = true
  | [], h => by simp [Spec.markedAny] at h
  | c :: cs, h => by
    simp only [Spec.markedAny, Bool.or_eq_true] at h
    rw [Constr.testAny, Bool.or_eq_true]
    exact h.imp (marked_test z c) (markedAny_test z cs)
theorem markedAll_test (z : Int) : ∀ cs : List Constr, Spec.markedAll cs = true → Constr.testAll cs z = true
  | [], _ => rfl
  | c :: cs, h => by
    simp only [Spec.markedAll, Bool.and_eq_true] at h
    rw [Constr.testAll, Bool.and_eq_true]
    exact h.imp (marked_test z c) (markedAll_test z cs)
end

/-- The endpoints of the object cover what it accepts, unless extension markers make it accept everything. -/
theorem unmarked_cover {c : Constr} {z : Int} (hm : Spec.marked c = false) (ht : c.test z = true) :
    leLo c.lower z = true ∧ leHi z c.upper = true := by
  unfold Constr.lower Constr.upper
  cases h : c.endpoints with
  | error e => exact ⟨rfl, rfl⟩
  | ok p => exact endpoints_cover z c (lo := p.1) (hi := p.2) h hm ht

theorem lower_upper_cover {c : Constr} {z : Int} (hp : Spec.plain c = true) (he : c.ext = false)
    (ht : c.test z = true) : leLo c.lower z = true ∧ leHi z c.upper = true :=
  unmarked_cover (by simpa [Spec.plain, he] using hp) ht

end Verif
