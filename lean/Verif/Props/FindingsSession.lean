import Verif.Props.Session
/-!
# Where schemas compiled in the same process meet
-/
namespace Verif.Props.Findings

open Verif Spec

/-- F77: `red A ::= 5` of an earlier module.  In the second one `red` is an item of `C`, the DEFAULT of `x`, and also a value;
alone it is compiled to an ENUMERATED component, after the first module to an INTEGER. -/
theorem C54_captured : ∃ ms as, SchemaNames as ∧ Closed as ∧ ∃ T T',
    (compileModule as).map (fun st => st.env.lookup "S") = .ok (some (.cls T)) ∧
    ((session .fresh (ms ++ [as])).getLast?.map fun r => r.map fun st => st.env.lookup "S") = some (.ok (some (.cls T'))) ∧
    T ≠ T' := by
  refine ⟨[[.type "A" (.simple .integer none), .constant "red" "A" (.num 5)]],
    [.value "red" .integer (.num 7), .type "C" (.enumerated [.id "red", .id "green"]),
     .type "S" (.sequence (.comp "x" (.ref "C") (.default (.word "red")) .nil))], ⟨?_, ?_, by decide⟩, ⟨?_, ?_⟩,
    .sequence false (.cons "x" (.default (.enum 0)) (.enumerated false [("red", 0), ("green", 1)] []) .nil) .nil .nil,
    .sequence false (.cons "x" (.default (.int 7)) (.integer .noConstraint) .nil) .nil .nil,
    by decide +kernel, by decide +kernel, by decide +kernel⟩
  · intro n hn
    have : n ∈ ["C", "S"] := hn
    simp only [List.mem_cons, List.not_mem_nil, or_false] at this
    rcases this with rfl | rfl <;> exact upper_of (by decide) (by decide)
  · intro n hn
    have : n ∈ ["red"] := hn
    rw [List.mem_singleton] at this
    subst this
    exact lower_of (by decide) (by decide)
  · intro n t h m hm
    simp only [List.mem_cons, Assign.type.injEq, reduceCtorEq, List.not_mem_nil, false_or, or_false] at h
    rcases h with ⟨_, rfl⟩ | ⟨_, rfl⟩
    · simp [typesIn] at hm
    · simp only [typesIn, typesInItems, List.append_nil, List.mem_singleton] at hm
      subst hm
      decide
  · intro n m l h
    simp at h

/-- F78: a type that is not assigned raises `KeyError`; not so if an earlier module has assigned it, then the generated
module cannot be imported. -/
theorem C54_foreign_type : ∃ ms as, (compileModule as).map (fun st => st.env.length) = .error .keyError ∧
    ((session .fresh (ms ++ [as])).getLast?.map fun r => r.map fun st => st.env.length) = some (.error .nameError) :=
  ⟨[[.type "A" (.simple .integer none)]], [.type "S" (.sequence (.comp "x" (.ref "A") .mandatory .nil))],
    by decide +kernel, by decide +kernel⟩

end Verif.Props.Findings
