import Verif.Props.FindingsShared
import Verif.Props.Received
/-!
# Where a received object is not sent on as the value it holds (F92)
-/
namespace Verif.Props.Findings
open Verif Spec Shared

/-- F92: a message in which nothing is set arrives, and the object is used as a mandatory and as an OPTIONAL component of one
object: `80` is sent, whereas the encoding of the value is `00`. -/
theorem C68_twice : decode objectInner [0x00] = .ok (.seq [none]) ∧
    (receive objectInner [0x00] [⟨sharedOptional, .seq none⟩]).1 = .ok 1 ∧
    performed [.set 0 0 1, .set 0 1 1, .encode 0] (receive objectInner [0x00] [⟨sharedOptional, .seq none⟩]).2 = [.ok [0x80]] ∧
    encode sharedOptional (.seq [some (.seq [none]), some (.seq [none])]) = .ok [0x00] := by
  refine ⟨?_, ?_, ?_, ?_⟩ <;> decide +kernel

end Verif.Props.Findings
