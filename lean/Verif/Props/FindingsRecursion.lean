import Verif.Props.Recursion
import Verif.Props.FindingsGenerate
/-!
# Findings: types that contain themselves
-/
namespace Verif.Props.Findings

open Verif Spec

/-- `A ::= SEQUENCE { next A OPTIONAL }`, a type of X.680 -/
def linkedList : List Assign := [.type "A" (.sequence (.comp "next" (.ref "A") .optional .nil))]

/-- X.680 allows a type to mention itself; the module generated for it cannot be imported. -/
theorem C59_linked_list : Contains linkedList "A" "A" ∧ compiledTo linkedList "A" = .error .nameError := by
  refine ⟨.direct (List.mem_cons_self ..) (by decide +kernel), by decide +kernel⟩

/-- `A ::= SEQUENCE OF SEQUENCE OF SEQUENCE OF SEQUENCE OF A` -/
def deepList : List Assign := [.type "A" (.seqOf none (.seqOf none (.seqOf none (.seqOf none (.ref "A")))))]

/-- The elements of the elements are forgotten, and with them the reference: the class can be imported, it is that of
`SEQUENCE OF SEQUENCE OF SEQUENCE OF BOOLEAN`. -/
theorem C59_forgotten : WellNamed deepList ∧
    compiledTo deepList "A" = .ok (some (.cls (.seqOf ⟨false, some 0, none⟩ (.seqOf ⟨false, some 0, none⟩ (.seqOf ⟨false, some 0, none⟩ .boolean))))) := by
  refine ⟨⟨by decide, fun n hn => ?_, fun n hn => (nomatch hn), fun n t hn => ?_⟩, by decide +kernel⟩
  · rw [List.mem_singleton.1 hn]
    exact upper_of (by decide) (by decide)
  · cases List.mem_singleton.1 hn
    simp only [Worded]

/-- `B ::= SEQUENCE OF SEQUENCE OF SEQUENCE OF BOOLEAN  C ::= SEQUENCE OF SEQUENCE OF SEQUENCE OF C` -/
def twoLists : List Assign :=
  [.type "B" (.seqOf none (.seqOf none (.seqOf none (.simple .boolean none)))),
   .type "C" (.seqOf none (.seqOf none (.seqOf none (.ref "C"))))]

/-- The class of the elements of `C` looks like that of `B` and is not generated again: `C` becomes another name for `B`. -/
theorem C59_borrowed : WellNamed twoLists ∧ compiledTo twoLists "C" = compiledTo twoLists "B" ∧
    compiledTo twoLists "B" = .ok (some (.cls (.seqOf ⟨false, some 0, none⟩ (.seqOf ⟨false, some 0, none⟩ (.seqOf ⟨false, some 0, none⟩ .boolean))))) := by
  refine ⟨⟨by decide, fun n hn => ?_, fun n hn => (nomatch hn), fun n t hn => ?_⟩, by decide +kernel, by decide +kernel⟩
  · have : ∀ n ∈ ["B", "C"], UpperName n := by
      intro n hn
      simp only [List.mem_cons, List.not_mem_nil, or_false] at hn
      rcases hn with rfl | rfl <;> exact upper_of (by decide) (by decide)
    exact this n hn
  · simp only [twoLists, List.mem_cons, List.not_mem_nil, or_false, Assign.type.injEq] at hn
    rcases hn with ⟨_, rfl⟩ | ⟨_, rfl⟩ <;> simp only [Worded]

end Verif.Props.Findings
