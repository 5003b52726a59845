import Verif.Props.Names
import Verif.Props.FindingsParse
/-!
# Findings about names
-/
namespace Verif.Props.Findings
open Verif

/-- A type in which a name occurs twice is compiled without complaint; only using the class raises (`C63_twice_encode`). -/
theorem C63_twice_accepted : compiledAs "A ::= SEQUENCE { a INTEGER, a BOOLEAN }" "A" =
    .ok (some (.cls (.sequence false (.cons "a" .mandatory (.integer .noConstraint) (.cons "a" .mandatory .boolean .nil))
      .nil .nil))) := by decide +kernel

/-- If an alternative of a CHOICE in which the name occurs twice is set by its position, the message says that it is the
first one of that name. -/
theorem C63_wrong_alternative :
    let t : Ty := .choice false (.cons "a" .mandatory .boolean (.cons "a" .mandatory .boolean .nil)) .nil .nil
    Named.encode t (.choice 1 (.bool true)) = Named.encode t (.choice 0 (.bool true)) ∧
      (Named.encode t (.choice 1 (.bool true))).isOk = true := by
  refine ⟨?_, ?_⟩ <;> decide +kernel

end Verif.Props.Findings
