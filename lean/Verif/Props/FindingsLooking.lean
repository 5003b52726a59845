import Verif.Props.Looking
/-!
# Where looking at an object changes what is sent (F91)
-/
namespace Verif.Props.Findings
open Verif Spec

/-- `SEQUENCE { a BOOLEAN, o SEQUENCE { x BOOLEAN OPTIONAL } OPTIONAL }` -/
def lookOptional : Ty :=
  .sequence false (.cons "a" .mandatory .boolean (.cons "o" .optional objectInner .nil)) .nil .nil

/-- F91: only `a` is set, so `encode` gives `40`.  After `to_dict`, or after reading `obj['o']['x']`, it gives `C0`: the component
`o` that nobody has set is sent. -/
theorem C66_look_sent :
    spaced lookOptional (ofVal lookOptional (.seq [some (.bool true), none])) = true ∧
    encodings lookOptional [.encode, .dict, .encode] (ofVal lookOptional (.seq [some (.bool true), none])) =
      [.ok [0x40], .ok [0xC0]] ∧
    encodings lookOptional [.encode, .look [1, 0], .encode] (ofVal lookOptional (.seq [some (.bool true), none])) =
      [.ok [0x40], .ok [0xC0]] ∧
    encodingsAlone lookOptional [.encode, .dict, .encode] (ofVal lookOptional (.seq [some (.bool true), none])) =
      [.ok [0x40], .ok [0x40]] := by
  refine ⟨?_, ?_, ?_, ?_⟩ <;> decide +kernel

/-- `SEQUENCE { a BOOLEAN, o SEQUENCE { m BOOLEAN, d INTEGER (0..7) DEFAULT 5 } OPTIONAL }` -/
def lookDefault : Ty :=
  .sequence false (.cons "a" .mandatory .boolean (.cons "o" .optional
    (.sequence false (.cons "m" .mandatory .boolean (.cons "d" (.default (.int 5)) (.integer (.valueRange (some 0) (some 7) false)) .nil)) .nil .nil)
      .nil)) .nil .nil

/-- F91: `encode` of an object that can be sent raises once `to_dict` was called. -/
theorem C66_look_breaks :
    encodings lookDefault [.encode, .dict, .encode] (ofVal lookDefault (.seq [some (.bool true), none])) =
      [.ok [0x40], .error .noValue] := by decide +kernel

/-- `CHOICE { p SEQUENCE { x BOOLEAN OPTIONAL } }` -/
def lookChoice : Ty := .choice false (.cons "p" .mandatory objectInner .nil) .nil .nil

/-- F91: the dictionary is `None`, and `{}` after `obj['p']['x']` was read. -/
theorem C66_dict_changes :
    dictionaries lookChoice [.dict, .look [0, 0], .dict] (ofVal lookChoice (.choice 0 (.seq [none]))) =
      [.ok (some .none), .ok (some (.dict []))] := by decide +kernel

end Verif.Props.Findings
