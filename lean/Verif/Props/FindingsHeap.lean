import Verif.Props.Heap
/-!
# Findings about the object that is passed to `decode`
-/
namespace Verif.Props.Findings

open Verif Spec Heap

/-- F90: the CHOICE in the object that is passed as `asn1Spec` (5, which holds 7) is asked for the alternative of the
message, and drops what it held; the value is not replaced by the decoded one either.  Every object that shares the CHOICE
loses it too, and it is lost also if decoding raises afterwards. -/
theorem C65_choice_lost : WellFormed heapSample ∧
    (heapSample[5]?.map fun c => c.sel) = some (some (1, 6)) ∧
    (decodeAt 5 4 [177, 9] heapSample).1.toOption.isSome = true ∧
    ((decodeAt 5 4 [177, 9] heapSample).2[5]?.map fun c => c.sel) = some (some (0, 0)) ∧
    ((decodeAt 5 4 [177, 9] heapSample).2[0]?.map fun c => c.value) = some none ∧
    (decodeAt 5 4 [177] heapSample).1 = .error .valueError ∧
    ((decodeAt 5 4 [177] heapSample).2[5]?.map fun c => c.sel) = some (some (0, 0)) := by
  refine ⟨heapSample_wf, ?_, ?_, ?_, ?_, ?_, ?_⟩ <;> decide +kernel

/-- F90: the list that the object did not have is there afterwards, and the CHOICE that the class of the list consists of
has selected something, for all objects of the class. -/
theorem C65_grown : (heapSample[4]?.map fun c => c.slots) = some [some 5, none] ∧
    ((decodeAt 5 4 [177, 9] heapSample).2[4]?.map fun c => c.slots) = some [some 5, some 8] ∧
    (heapSample[2]?.map fun c => c.sel) = some none ∧
    ((decodeAt 5 4 [177, 9] heapSample).2[2]?.map fun c => c.sel) = some (some (1, 1)) := by
  refine ⟨?_, ?_, ?_, ?_⟩ <;> decide +kernel

end Verif.Props.Findings
