import Verif.Lemmas.ExtentTypes
import Verif.Props.Compound
/-!
# C61: how long a message can be

`Spec.extent` and `Spec.largest` (SpecExtent.lean) are computed from the value and its type, and from the type alone, without
any function of the encoder.
-/
namespace Verif.Props
open Verif

/-- C61, from the value: every message, of any type, for any value that encode takes (conforming or not), has at most the
octets that hold `Spec.extent` bits. -/
theorem C61_extent {t : Ty} {v : Val} {bs : List UInt8} (h : encode t v = .ok bs) :
    bs.length ≤ Spec.octetsFor (Spec.extent t v) := by
  obtain ⟨fs, e1, e2⟩ := (encode_eq t v bs).1 h
  have := (sized_ty t v fs e1).complete
  rw [← e2, bytesToBits_length] at this
  omega

/-- Inside a message: behind any bits written before, encode writes at most `Spec.extent` bits. -/
theorem C61_inside {t : Ty} {v : Val} {fs : List BitField} (h : encTy t v = .ok fs) (before : Bits) :
    (fs.foldl appendField before).length ≤ before.length + Spec.extent t v :=
  Nat.le_trans (foldl_extent fs false before (by simp)) (Nat.add_le_add_left (sized_ty t v fs h) _)

/-- C61, from the type: if the type has a limit, then every message for a value that does not go beyond the upper ends of its
constraints has at most the octets that hold so many bits. -/
theorem C61_largest {t : Ty} {v : Val} {n : Nat} {bs : List UInt8} (hn : Spec.largest t = some n)
    (hi : Spec.inside t v = true) (h : encode t v = .ok bs) : bs.length ≤ Spec.octetsFor n :=
  Nat.le_trans (C61_extent h) (octetsFor_mono (largest_ty t v n hi hn))

/-- In particular for every value that conforms to the type. -/
theorem C61_conforms {t : Ty} {v : Val} {n : Nat} {bs : List UInt8} (hn : Spec.largest t = some n)
    (hc : Spec.conforms t v = true) (h : encode t v = .ok bs) : bs.length ≤ Spec.octetsFor n :=
  C61_largest hn (conforms_inside t v n hn hc) h

/-- Nothing in it is without a limit; `e` is an extension addition with DEFAULT. -/
def limitedSequence : Ty :=
  .sequence true
    (Fields.ofList
      [("a", .mandatory, .integer (.valueRange (some 1) (some 70001) false)),
       ("b", .optional, .bitString ⟨false, some 1, some 4⟩),
       ("c", .mandatory, .seqOf ⟨false, some 0, some 3⟩
          (.choice true (Fields.ofList [("x", .mandatory, .boolean), ("y", .mandatory, .octetString ⟨false, some 0, some 20⟩)])
            (Fields.ofList [("z", .mandatory, .integer (.valueRange (some 0) (some 300) false))]) .nil))])
    (Fields.ofList [("e", .default (.enum 0), .enumerated true [("p", 0), ("q", 1)] [("r", 2)])])
    (Groups.ofList [[("f", .mandatory, .boolean), ("g", .optional, .octetString ⟨false, some 3, some 3⟩)]])

def limitedValue : Val :=
  .seq [some (.int 70000), some (.bits [true, false, true]),
    some (.seqOf [.choice 0 (.bool true), .choice 1 (.octets [1, 2]), .choice 2 (.int 129)]), some (.enum 2),
    some (.bool true), some (.octets [7, 8, 9])]

example : Spec.largest limitedSequence = some 659 ∧ Spec.conforms limitedSequence limitedValue = true ∧
    Spec.inside limitedSequence limitedValue = true ∧ (encode limitedSequence limitedValue).isOk = true := by
  refine ⟨?_, ?_, ?_, ?_⟩ <;> decide +kernel

/-- The bounds are reached: an INTEGER of three octets with its length behind seven bits, and an unlimited OCTET STRING
behind a bit. -/
example : let t : Ty := .sequence false (Fields.ofList ((List.replicate 7 ("a", .mandatory, .boolean)) ++
      [("b", .mandatory, .integer (.valueRange (some 0) (some 65536) false))])) .nil .nil
    let v : Val := .seq (List.replicate 7 (some (.bool true)) ++ [some (.int 65536)])
    Spec.largest t = some 40 ∧ Spec.conforms t v = true ∧ (encode t v).map List.length = .ok 5 := by
  decide +kernel
example : let t : Ty := .sequence false (Fields.ofList [("a", .mandatory, .boolean),
      ("b", .mandatory, .octetString ⟨false, some 0, none⟩)]) .nil .nil
    let v : Val := .seq [some (.bool true), some (.octets [1, 2, 3])]
    Spec.largest t = none ∧ Spec.extent t v = 40 ∧ (encode t v).map List.length = .ok 5 := by
  decide +kernel
/-- A value beyond its constraint makes a longer message. -/
example : Spec.largest (.bitString ⟨false, some 1, some 4⟩) = some 13 ∧
    (encode (.bitString ⟨false, some 1, some 4⟩) (.bits (List.replicate 20 true))).map List.length = .ok 4 := by
  constructor <;> decide +kernel

end Verif.Props
