import Verif.Props.Size
/-!
# Findings about the size of what is received

What a message stands for should not be larger than the message, up to a factor of the type.  It can be: `Spec.cost` has
to count announced lengths (`fixed` of lists whose elements take no bits, and `short`).
-/
namespace Verif.Props.Findings

open Verif Spec

/-- F83: elements that take no bits are made in any number that is announced, up to 65535; one octet makes 255 of them. -/
theorem C56_empty_elements : decode (.seqOf ⟨false, some 0, some 255⟩ (.integer (.singleValue false [5]))) [0xFF] =
    .ok (.seqOf (List.replicate 255 (.int 5))) := by decide +kernel

/-- F84: missing octets are supplied as zeros, and in front: an open type field that announces 100 octets and has one
makes 800 BOOLEANs, the octet received being the last of the field. -/
theorem C56_supplied :
    decode (.sequence true .nil (.cons "o" .mandatory (.seqOf ⟨false, some 800, some 800⟩ .boolean) .nil) .nil) [0x80, 0x80, 100, 0xFF] =
    .ok (.seq [some (.seqOf (List.replicate 792 (.bool false) ++ List.replicate 8 (.bool true)))]) := by decide +kernel

end Verif.Props.Findings
