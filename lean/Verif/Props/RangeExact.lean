import Verif.Props.Generate
import Verif.Props.FindingsGenerate
/-!
# C47: exactly which unions get the bounds they should
-/
namespace Verif.Props
open Verif Spec Findings

/-- C47, exactly, for unions of values and ranges without `<` and without hyphens in the names of the outer ends: the class
has the bounds of the constraint if and only if the first element has the least end and the last one the greatest (F39). -/
theorem C47_exact {env : List (String × PyObj)} {ν : List (String × Ty × Val)} {n : Notation} {es : List Verif.Elem}
    {first last : Verif.Elem} {lo hi : Option Int} {ext : Bool} {base : Ty}
    (hbase : env.lookup "IntegerType" = some (.cls base))
    (hν : ∀ s T v, ν.lookup s = some (T, v) → env.lookup (pyName s) = some (.val T v))
    (hroot : n.root = es.map (fun e => [e])) (hadd : n.additional = [])
    (hc : ∀ e ∈ es, Spec.Elem.closed e ∧ ∃ z, InElem ν e z) (hf : es.head? = some first) (hl : es.getLast? = some last)
    (hn : ∀ s, Spec.Elem.lower first = .ref s ∨ Spec.Elem.upper last = .ref s → '-' ∉ s.toList)
    (hr : RangeOf ν n lo hi ext) (ctx : Ctx) (name : String) :
    (∃ code, classOf ctx name (.simple .integer (some (.value n))) = .ok code ∧
      loadCode env code = .ok (.integer (.valueRange lo hi ext))) ↔
    ∀ z, InSet ν n.root z → Above ν (Spec.Elem.lower first) false z ∧ Below ν (Spec.Elem.upper last) false z := by
  constructor
  · rintro ⟨code, h1, h2⟩ z hz
    have ht := tuple_ok hroot hadd hf hl
    have hlow : ∃ l, EndOpt ν .min (Spec.Elem.lower first) l := by
      obtain ⟨hcl, y, hy⟩ := hc first (List.mem_of_head? hf)
      rcases inElem_lower hcl hy with ⟨e, _⟩ | ⟨a, ha, _⟩
      · exact ⟨none, .inl ⟨e, rfl⟩⟩
      · exact ⟨some a, .inr ⟨a, ha, rfl⟩⟩
    have hupp : ∃ h, EndOpt ν .max (Spec.Elem.upper last) h := by
      obtain ⟨hcl, y, hy⟩ := hc last (List.mem_of_getLast? hl)
      rcases inElem_upper hcl hy with ⟨e, _⟩ | ⟨a, ha, _⟩
      · exact ⟨none, .inl ⟨e, rfl⟩⟩
      · exact ⟨some a, .inr ⟨a, ha, rfl⟩⟩
    obtain ⟨l, hlow⟩ := hlow
    obtain ⟨u, hupp⟩ := hupp
    have he := endpoints_ok (m := n.marker) hν hlow hupp hn
    have hcode : code = .simple name .integer (some ⟨Spec.Elem.lower first, Spec.Elem.upper last, n.marker⟩) := by
      simp only [classOf, constraintOf, Con.tuple, ht] at h1
      cases h1
      rfl
    subst hcode
    simp only [loadCode, Simple.cls, classNamed, hbase, he, bind, Except.bind, pure, Except.pure] at h2
    have heq : l = lo ∧ u = hi := by
      have hck : ∀ p, checked (l, u) = .ok p → p = (l, u) := by
        intro p hp
        cases l <;> cases u <;> simp only [checked] at hp
        case some.some => split at hp <;> cases hp; rfl
        all_goals (cases hp; rfl)
      cases hx : checked (l, u) with
      | error e => rw [hx] at h2; cases h2
      | ok p =>
        rw [hx, hck p hx] at h2
        cases h2
        exact ⟨rfl, rfl⟩
    obtain ⟨rfl, rfl⟩ := heq
    obtain ⟨⟨_, hh1, hh2⟩, _⟩ := hr
    constructor
    · rcases hlow with ⟨e, _⟩ | ⟨a, ha, rfl⟩
      · exact .inl e
      · exact .inr ⟨a, ha, by simpa using hh1.2 z hz⟩
    · rcases hupp with ⟨e, _⟩ | ⟨a, ha, rfl⟩
      · exact .inl e
      · exact .inr ⟨a, ha, by simpa using hh2.2 z hz⟩
  · intro hb
    exact C47_range_partial hbase hν ⟨⟨es, hroot, hc, first, last, hf, hl, hb, hn⟩, hadd⟩ hr ctx name

/-- `(1 | 5)` gets its bounds, `(5 | 1)` does not. -/
example (env : List (String × PyObj)) (h : env.lookup "IntegerType" = some (.cls (.integer .noConstraint))) (ctx : Ctx) :
    (∃ code, classOf ctx "A" (.simple .integer (some (.value ⟨[[.value (.num 1)], [.value (.num 5)]], false, []⟩))) =
      .ok code ∧ loadCode env code = .ok (.integer (.valueRange (some 1) (some 5) false))) ∧
    ¬ ∃ code, classOf ctx "A" (.simple .integer (some (.value ⟨[[.value (.num 5)], [.value (.num 1)]], false, []⟩))) =
      .ok code ∧ loadCode env code = .ok (.integer (.valueRange (some 1) (some 5) false)) := by
  have key := fun (a b : Int) (hab : RangeOf [] ⟨[[.value (.num a)], [.value (.num b)]], false, []⟩ (some 1) (some 5) false) =>
    C47_exact (ν := []) (n := ⟨[[.value (.num a)], [.value (.num b)]], false, []⟩)
    (es := [.value (.num a), .value (.num b)]) h (fun _ _ _ h => by simp at h) rfl rfl
    (by
      intro e he
      simp only [List.mem_cons, List.not_mem_nil, or_false] at he
      rcases he with rfl | rfl
      · exact ⟨trivial, a, .num⟩
      · exact ⟨trivial, b, .num⟩) rfl rfl (fun s hs => by simp [Spec.Elem.lower, Spec.Elem.upper] at hs) hab ctx "A"
  rw [key 1 5 ⟨by apply hull_some <;> simp [InSet, InElem, endIs_num], rfl⟩,
    key 5 1 ⟨by apply hull_some <;> simp [InSet, InElem, endIs_num], rfl⟩]
  simp [InSet, InElem, endIs_num, Spec.Elem.lower, Spec.Elem.upper, above_num, below_num]

end Verif.Props
