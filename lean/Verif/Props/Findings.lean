import Verif.SpecObject
import Verif.Props.Versions
import Verif.Props.Schema
import Verif.Props.Dict
import Verif.Props.Module
import Verif.Props.Template
import Verif.Props.Standard
/-!
# Findings: where the code does not do what a property says

Each theorem is a concrete counterexample to the full statement of a property and shows that an exclusion in the
corresponding `_partial` theorem cannot be dropped.  DESIGN.md section 4 lists them (F1, F2, ...).
-/
namespace Verif.Props.Findings
open Verif Spec

/-- A SEQUENCE without extensions. -/
def seqOfFields (l : List (String × Kind × Ty)) : Ty := .sequence false (Fields.ofList l) .nil .nil

/-! ## simple types -/

/-- F4: `INTEGER (5..5, ...)` arrives as 0. -/
theorem C01_single_value_root :
    encode (.integer (.valueRange (some 5) (some 5) true)) (.int 5) = .ok [0x00] ∧
    decode (.integer (.valueRange (some 5) (some 5) true)) [0x00] = .ok (.int 0) := by
  constructor <;> decide +kernel

/-- F16: ENUMERATED with numbers other than 0, 1, 2, ...: another item arrives, or none. -/
theorem C02_numbers :
    encode (.enumerated true [("a", 0), ("b", 5)] [("c", 1)]) (.enum 5) = .ok [0x50] ∧
    decode (.enumerated true [("a", 0), ("b", 5)] [("c", 1)]) [0x50] = .ok (.enum 1) ∧
    encode (.enumerated false [("a", 0), ("b", 5)] []) (.enum 5) = .ok [0xA0] ∧
    decode (.enumerated false [("a", 0), ("b", 5)] []) [0xA0] = .error .typeError := by
  refine ⟨?_, ?_, ?_, ?_⟩ <;> decide +kernel

/-- F3: an empty BIT STRING arrives as one 0 bit, with and without SIZE. -/
theorem C04_empty :
    encode (.bitString ⟨false, none, none⟩) (.bits []) = .ok [0x01, 0x00] ∧
    decode (.bitString ⟨false, none, none⟩) [0x01, 0x00] = .ok (.bits [false]) ∧
    encode (.bitString ⟨false, some 0, some 3⟩) (.bits []) = .ok [0x40, 0x00] ∧
    decode (.bitString ⟨false, some 0, some 3⟩) [0x40, 0x00] = .ok (.bits [false]) := by
  refine ⟨?_, ?_, ?_, ?_⟩ <;> decide +kernel

/-- Hence an empty and a one bit string have one encoding. -/
theorem C12_empty_bit_string :
    encode (.bitString ⟨false, none, none⟩) (.bits []) = encode (.bitString ⟨false, none, none⟩) (.bits [false]) := by
  decide +kernel

/-- F16: two items of one ENUMERATED have one encoding, 11 and 110 filled up with zeros. -/
theorem C12_numbers :
    let t := Ty.enumerated false [("a", 0), ("b", 3), ("c", 6)] []
    encode t (.enum 3) = .ok [0xC0] ∧ encode t (.enum 6) = .ok [0xC0] := by
  decide +kernel

/-- F7: behind a BIT STRING longer than its extensible SIZE the decoder skips to the next octet, the encoder
does not: what follows is lost. -/
theorem C04_outside_then_boolean :
    let t := seqOfFields [("a", .mandatory, .bitString ⟨true, some 1, some 2⟩), ("b", .mandatory, .boolean)]
    let v (b : Bool) := Val.seq [some (.bits (List.replicate 17 true)), some (.bool b)]
    encode t (v true) = .ok [0x80, 0x11, 0xFF, 0xFF, 0xC0] ∧
    decode t [0x80, 0x11, 0xFF, 0xFF, 0xC0] = .error .valueError ∧
    encode t (v false) = .ok [0x80, 0x11, 0xFF, 0xFF, 0x80] ∧
    decode t [0x80, 0x11, 0xFF, 0xFF, 0x80, 0xFF] = .ok (v true) := by
  refine ⟨?_, ?_, ?_, ?_⟩ <;> decide +kernel

/-- The last part of F7 in terms of C11: the same SEQUENCE, its encoding followed by another octet. -/
theorem C11_bit_string_overrun :
    let t := seqOfFields [("a", .mandatory, .bitString ⟨true, some 1, some 2⟩), ("b", .mandatory, .boolean)]
    let v := Val.seq [some (.bits (List.replicate 17 true)), some (.bool false)]
    ∃ bs, encode t v = .ok bs ∧ decode t bs ≠ decode t (bs ++ [0xFF]) := by
  refine ⟨[0x80, 0x11, 0xFF, 0xFF, 0x80], ?_, ?_⟩ <;> decide +kernel

/-- F1: OCTET STRING (SIZE(1..4)) whose first octet is below 16 arrives shifted by a hexadecimal digit. -/
theorem C05_leading_zero_digit :
    encode (.octetString ⟨false, some 1, some 4⟩) (.octets [0x01, 0x00, 0x00]) = .ok [0x80, 0x01, 0x00, 0x00] ∧
    decode (.octetString ⟨false, some 1, some 4⟩) [0x80, 0x01, 0x00, 0x00] = .ok (.octets [0x10, 0x00, 0x00]) ∧
    encode (.octetString ⟨false, some 1, some 4⟩) (.octets [0x00, 0x01]) = .ok [0x40, 0x00, 0x01] ∧
    decode (.octetString ⟨false, some 1, some 4⟩) [0x40, 0x00, 0x01] = .ok (.octets [0x10]) := by
  refine ⟨?_, ?_, ?_, ?_⟩ <;> decide +kernel

/-- F2: an empty OCTET STRING without SIZE arrives as one zero octet. -/
theorem C05_empty :
    encode (.octetString ⟨false, none, none⟩) (.octets []) = .ok [0x00] ∧
    decode (.octetString ⟨false, none, none⟩) [0x00] = .ok (.octets [0]) := by
  constructor <;> decide +kernel

/-- F8: an empty OCTET STRING (SIZE(0..4)) in front of other components. -/
theorem C05_empty_then_boolean :
    let t := seqOfFields [("a", .mandatory, .octetString ⟨false, some 0, some 4⟩), ("b", .mandatory, .boolean)]
    encode t (.seq [some (.octets []), some (.bool true)]) = .ok [0x00, 0x80] ∧
    decode t [0x00, 0x80] = .ok (.seq [some (.octets []), some (.bool false)]) := by
  constructor <;> decide +kernel

/-- F9: an empty OCTET STRING (SIZE(0, ...)) is sent without its extension bit. -/
theorem C05_size_zero_extensible :
    let t := seqOfFields [("a", .mandatory, .octetString ⟨true, some 0, some 0⟩), ("b", .mandatory, .boolean)]
    encode t (.seq [some (.octets []), some (.bool false)]) = .ok [0x00] ∧
    decode t [0x00] = .ok (.seq [some (.octets []), some (.bool false)]) ∧
    encode t (.seq [some (.octets []), some (.bool true)]) = .ok [0x80] ∧
    decode t [0x80] = .error .valueError := by
  refine ⟨?_, ?_, ?_, ?_⟩ <;> decide +kernel

/-! ## constructed types -/

/-- F4: SEQUENCE (SIZE(2, ...)) OF arrives empty. -/
theorem C06_fixed_size_extensible :
    encode (.seqOf ⟨true, some 2, some 2⟩ .boolean) (.seqOf [.bool true, .bool false]) = .ok [0x40] ∧
    decode (.seqOf ⟨true, some 2, some 2⟩ .boolean) [0x40] = .ok (.seqOf []) := by
  constructor <;> decide +kernel

/-- F18: SEQUENCE (SIZE(2..MAX, ...)) OF cannot be encoded at all. -/
theorem C06_extensible_max :
    encode (.seqOf ⟨true, some 2, none⟩ .boolean) (.seqOf [.bool true, .bool false]) = .error .typeError := by
  decide +kernel

/-- F15: an OPTIONAL empty SEQUENCE OF arrives absent. -/
theorem C08_optional_empty_list :
    let t := seqOfFields [("a", .optional, .seqOf ⟨false, some 0, some 4⟩ .boolean)]
    encode t (.seq [some (.seqOf [])]) = .ok [0x00] ∧ decode t [0x00] = .ok (.seq [none]) := by
  constructor <;> decide +kernel

/-- F23: sending what was received gives another message. -/
theorem C41_reencode :
    let t := seqOfFields [("a", .optional, seqOfFields [("b", .optional, .seqOf ⟨false, some 0, some 4⟩ .boolean)])]
    encode t (.seq [some (.seq [some (.seqOf [])])]) = .ok [0x80] ∧
    decode t [0x80] = .ok (.seq [some (.seq [none])]) ∧
    encode t (.seq [some (.seq [none])]) = .ok [0x00] := by
  refine ⟨?_, ?_, ?_⟩ <;> decide +kernel

/-- F79: what was received cannot be sent on.  The SEQUENCE `m` holds an empty list, which is reason enough to
send it; it arrives holding nothing, and then `n` may not follow it. -/
theorem C41_refused :
    let t := Ty.sequence true (Fields.ofList [("a", .mandatory, .boolean)]) .nil
      (Groups.ofList [[("m", .mandatory, seqOfFields [("l", .optional, .seqOf ⟨false, some 0, some 4⟩ .boolean)]),
        ("n", .mandatory, .boolean)]])
    let w := Val.seq [some (.bool true), some (.seq [none]), some (.bool true)]
    encode t (.seq [some (.bool true), some (.seq [some (.seqOf [])]), some (.bool true)]) =
      .ok [0xC0, 0x40, 0x01, 0x40] ∧
    decode t [0xC0, 0x40, 0x01, 0x40] = .ok w ∧ encode t w = .error .mandatoryFieldNotPresentInGroup := by
  refine ⟨?_, ?_, ?_⟩ <;> decide +kernel

/-! ## streams -/

/-- F10: the last octet of the encoding of `01 02 03` is missing, and `00 01 02` arrives. -/
theorem C27_truncated :
    encode (.octetString ⟨false, none, none⟩) (.octets [1, 2, 3]) = .ok [3, 1, 2, 3] ∧
    decode (.octetString ⟨false, none, none⟩) [3, 1, 2] = .ok (.octets [0, 1, 2]) := by
  constructor <;> decide +kernel

/-! ## constraints and formats -/

/-- F21: a SEQUENCE OF with more, or fewer, elements than allowed is accepted by the decoder. -/
theorem C15_sequence_of_too_long :
    decode (.seqOf ⟨false, some 0, some 2⟩ .boolean) [0xFF] =
      .ok (.seqOf [.bool true, .bool true, .bool true]) ∧
    decode (.seqOf ⟨false, some 2, none⟩ .boolean) [0x01, 0x80] = .ok (.seqOf [.bool true]) := by
  constructor <;> decide +kernel

/-- F11: `INTEGER (0..2, ...)` with the extension bit 0 may arrive outside the root. -/
theorem C15_outside_root :
    decode (.integer (.valueRange (some 0) (some 2) true)) [0x60] = .ok (.int 3) := by decide +kernel

/-- F6: the length of an unconstrained INTEGER of 256 octets takes nine bits; and from 128 octets on the length
is not the two octet form of X.691. -/
theorem C18_length_not_an_octet :
    (∃ w, encTy (.integer .noConstraint) (.int (2 ^ 2046)) = .ok [⟨true, natToBits 9 256 ++ w⟩] ∧ w.length = 8 * 256) ∧
    (∃ w, encTy (.integer .noConstraint) (.int (2 ^ 1022)) = .ok [⟨true, natToBits 8 128 ++ w⟩] ∧ w.length = 8 * 128) := by
  refine ⟨⟨natToBits 2048 (2 ^ 2046), ?_, by simp [natToBits_length]⟩,
    ⟨natToBits 1024 (2 ^ 1022), ?_, by simp [natToBits_length]⟩⟩ <;> decide +kernel

/-- F6: such an INTEGER does not arrive. -/
theorem C01_256_octets : ∀ bs, encode (.integer .noConstraint) (.int (2 ^ 2046)) = .ok bs →
    decode (.integer .noConstraint) bs ≠ .ok (.int (2 ^ 2046)) := by
  intro bs h
  have : (encode (.integer .noConstraint) (.int (2 ^ 2046)) >>= decode (.integer .noConstraint)) ≠
      .ok (.int (2 ^ 2046)) := by decide +kernel
  rw [h] at this
  exact this

/-- F5: the length 16384 is accepted, takes 17 bits, and is read as 8192. -/
theorem C19_length_16384 :
    encodeLengthDeterminant false false 16384 none none = .ok [⟨true, [true, false] ++ natToBits 15 16384⟩] ∧
    (decodeLengthDeterminant false false none none ⟨Offset.init 0 0, [true, false] ++ natToBits 15 16384⟩).map (·.1)
      = .ok 8192 := by
  constructor <;> decide +kernel

/-- F13: a BIT STRING that differs from its DEFAULT in leading zeros is not sent. -/
theorem C21_bitstring_default :
    let t := seqOfFields [("a", .default (.bits [false, true]), .bitString ⟨false, none, none⟩)]
    encode t (.seq [some (.bits [true])]) = .ok [0x00] ∧ decode t [0x00] = .ok (.seq [none]) := by
  constructor <;> decide +kernel

/-- F14: an extension addition equal to its DEFAULT is sent. -/
theorem C21_addition_default :
    encode (.sequence true (Fields.ofList [("a", .mandatory, .boolean)])
        (Fields.ofList [("b", .default (.int 3), .integer .noConstraint)]) .nil)
      (.seq [some (.bool true), some (.int 3)]) = .ok [0xC0, 0x40, 0x02, 0x01, 0x03] := by decide +kernel

/-- F17: SEQUENCE (SIZE(0)) OF with two elements is encoded (and arrives empty). -/
theorem C22_size_zero :
    encode (.seqOf ⟨false, some 0, some 0⟩ .boolean) (.seqOf [.bool true, .bool false]) = .ok [0x80] ∧
    decode (.seqOf ⟨false, some 0, some 0⟩ .boolean) [0x80] = .ok (.seqOf []) := by
  constructor <;> decide +kernel

/-- F24: a mandatory SEQUENCE OF or SEQUENCE that was never touched is encoded as an empty one. -/
theorem C23_untouched_list :
    encode (seqOfFields [("a", .mandatory, .seqOf ⟨false, some 0, some 4⟩ .boolean)]) (.seq [none]) = .ok [0x00] ∧
    encode (seqOfFields [("a", .mandatory, seqOfFields [("b", .optional, .boolean)])]) (.seq [none]) = .ok [0x00] := by
  constructor <;> decide +kernel

/-- F14: the missing mandatory addition `b` is hidden by the absent OPTIONAL addition `c`. -/
theorem C24_hidden_gap :
    encode (.sequence true (Fields.ofList [("a", .mandatory, .boolean)])
        (Fields.ofList [("b", .mandatory, .boolean), ("c", .optional, .boolean), ("d", .mandatory, .boolean)]) .nil)
      (.seq [some (.bool true), none, none, some (.bool true)]) = .ok [0xC1, 0x10, 0x01, 0x80] := by decide +kernel

/-- F14: a group is given although the mandatory addition before it is not. -/
theorem C24_group_after_gap :
    encode (.sequence true (Fields.ofList [("a", .mandatory, .boolean)])
        (Fields.ofList [("b", .mandatory, .boolean)]) (Groups.ofList [[("c", .mandatory, .boolean)]]))
      (.seq [some (.bool true), none, some (.bool true)]) = .ok [0xC0, 0xA0, 0x01, 0x80] := by decide +kernel

/-- F14: an addition with a DEFAULT makes the extensions present although nothing was set. -/
theorem C25_default_addition :
    let r := Fields.ofList [("a", .mandatory, .boolean)]
    encode (.sequence true r .nil .nil) (.seq [some (.bool true)]) = .ok [0x40] ∧
    encode (.sequence true r (Fields.ofList [("b", .default (.int 3), .integer .noConstraint)]) .nil)
      (.seq [some (.bool true), none]) = .ok [0xC0, 0x40, 0x02, 0x01, 0x03] := by
  constructor <;> decide +kernel

/-- F25: a member with an extension marker makes a constraint without one accept everything, and what is outside
the endpoints is written as if it was inside. -/
theorem C38_marked_member :
    let c := Constr.union false [.valueRange (some 0) (some 3) true, .valueRange (some 4) (some 6) false]
    c.ext = false ∧ Spec.Allows c 50 ∧ c.upper = some 6 ∧
    encode (.integer c) (.int 50) = .ok [0xC8] ∧ decode (.integer c) [0xC8] = .ok (.int 6) := by
  refine ⟨rfl, ?_, ?_, ?_, ?_⟩
  · rw [← test_iff_allows]; decide +kernel
  all_goals decide +kernel

/-! ## versions -/

/-- F12: the first addition is absent, the second one is given; a receiver that knows the first addition only
takes the second one for it. -/
theorem C26_first_absent :
    let r := Fields.ofList [("a", .mandatory, .boolean)]
    let v := Val.seq [some (.bool true), none, some (.bool true)]
    encode (.sequence true r (Fields.ofList [("b", .optional, .boolean), ("c", .mandatory, .boolean)]) .nil) v =
      .ok [0xC0, 0xA0, 0x01, 0x80] ∧
    decode (.sequence true r (Fields.ofList [("b", .optional, .boolean)]) .nil) [0xC0, 0xA0, 0x01, 0x80] =
      .ok (.seq [some (.bool true), some (.bool true)]) := by
  constructor <;> decide +kernel

/-- F12: the extensible SEQUENCE `s` is followed by a BOOLEAN, which is read from the unknown addition. -/
theorem C26_nested :
    let s (a : Fields) := Ty.sequence true (Fields.ofList [("a", .mandatory, .boolean)]) a .nil
    let t (a : Fields) := seqOfFields [("s", .mandatory, s a), ("flag", .mandatory, .boolean)]
    let b := Fields.ofList [("b", .mandatory, .boolean)]
    encode (t b) (.seq [some (.seq [some (.bool true), some (.bool false)]), some (.bool true)]) =
      .ok [0xC0, 0x40, 0x01, 0x00, 0x80] ∧
    decode (t .nil) [0xC0, 0x40, 0x01, 0x00, 0x80] =
      .ok (.seq [some (.seq [some (.bool true)]), some (.bool false)]) := by
  constructor <;> decide +kernel

/-- F12: the addition `b` of the sender is taken for `c` by a receiver that knows both. -/
theorem C42_newer_receiver :
    let r := Fields.ofList [("a", .mandatory, .boolean)]
    encode (.sequence true r (Fields.ofList [("b", .mandatory, .boolean)]) .nil)
      (.seq [some (.bool true), some (.bool true)]) = .ok [0xC0, 0x40, 0x01, 0x80] ∧
    decode (.sequence true r (Fields.ofList [("b", .mandatory, .boolean), ("c", .mandatory, .boolean)]) .nil)
      [0xC0, 0x40, 0x01, 0x80] = .ok (.seq [some (.bool true), none, some (.bool true)]) := by
  constructor <;> decide +kernel

/-! ## `to_dict` -/

/-- F26: BIT STRINGs of different length look alike. -/
theorem C29_bit_string_length :
    let t := Ty.bitString ⟨false, none, none⟩
    toDict t true (.bits [true]) = toDict t true (.bits [false, true]) := by decide +kernel

/-- F27: an OPTIONAL CHOICE that is absent has an entry. -/
theorem C28_absent_choice :
    toDict (seqOfFields [("c", .optional, .choice false (Fields.ofList [("x", .mandatory, .boolean)]) .nil .nil)]) true
      (.seq [none]) = .ok (some (.dict [("c", .none)])) := by decide +kernel

/-- F27: an OPTIONAL SEQUENCE that is absent has an entry if there is a DEFAULT inside. -/
theorem C28_absent_sequence :
    toDict (seqOfFields [("s", .optional, seqOfFields [("x", .default (.int 5), .integer .noConstraint)])]) true
      (.seq [none]) = .ok (some (.dict [("s", .dict [("x", .int 5)])])) := by decide +kernel

/-- F27: a SEQUENCE OF that is present and empty has no entry. -/
theorem C28_empty_list :
    toDict (seqOfFields [("l", .mandatory, .seqOf ⟨false, some 0, none⟩ .boolean)]) true
      (.seq [some (.seqOf [])]) = .ok (some (.dict [])) := by decide +kernel

/-- F27: elements that are empty SEQUENCEs are missing from the list. -/
theorem C28_empty_elements :
    toDict (.seqOf ⟨false, none, none⟩ (seqOfFields [("x", .optional, .boolean)])) true
      (.seqOf [.seq [none], .seq [some (.bool true)]]) = .ok (some (.list [.dict [("x", .bool true)]])) := by
  decide +kernel

/-- F27: a CHOICE does not show which alternative was chosen if it holds an empty list. -/
theorem C28_choice_empty_list :
    toDict (.choice false (Fields.ofList [("a", .mandatory, .boolean),
        ("l", .mandatory, .seqOf ⟨false, some 0, none⟩ .boolean)]) .nil .nil) true
      (.choice 1 (.seqOf [])) = .ok (some .none) := by decide +kernel

/-- F28: a chosen SEQUENCE whose only component has its DEFAULT value arrives as one that shows nothing. -/
theorem C30_choice_default :
    let s := seqOfFields [("x", .default (.int 5), .integer .noConstraint)]
    let t := Ty.choice false (Fields.ofList [("a", .mandatory, .boolean), ("s", .mandatory, s)]) .nil .nil
    let v := Val.choice 1 (.seq [some (.int 5)])
    toDict t true v = .ok (some (.dict [("s", .dict [("x", .int 5)])])) ∧
    encode t v = .ok [0x80] ∧ decode t [0x80] = .ok (.choice 1 (.seq [none])) ∧
    toDict t true (.choice 1 (.seq [none])) = .ok (some .none) := by
  refine ⟨?_, ?_, ?_, ?_⟩ <;> decide +kernel

/-- F15, F28: an OPTIONAL SEQUENCE OF with a valueless element is not sent at all, so its other elements are
missing from the dictionary of what arrives. -/
theorem C30_optional_list_dropped :
    let t := seqOfFields [("l", .optional, .seqOf ⟨false, none, none⟩ (seqOfFields [("x", .optional, .boolean)]))]
    let v := Val.seq [some (.seqOf [.seq [some (.bool true)], .seq [none]])]
    toDict t true v = .ok (some (.dict [("l", .list [.dict [("x", .bool true)]])])) ∧
    encode t v = .ok [0x00] ∧ decode t [0x00] = .ok (.seq [none]) ∧
    toDict t true (.seq [none]) = .ok (some (.dict [])) := by
  refine ⟨?_, ?_, ?_, ?_⟩ <;> decide +kernel

/-- F15: elements that were set do not arrive. -/
theorem C08_optional_list_dropped :
    let t := seqOfFields [("l", .optional, .seqOf ⟨false, none, none⟩ (seqOfFields [("x", .optional, .boolean)]))]
    encode t (.seq [some (.seqOf [.seq [some (.bool true)], .seq [none]])]) = encode t (.seq [none]) := by
  decide +kernel

/-! ## schema compiler -/

/-- F29: with two component types of the same name one of them is lost. -/
theorem C31_same_name :
    (sortAssignments id [sequenceNode "A" [], sequenceNode "A" []]).1.map Node.typereference = ["A"] := by decide +kernel

/-- A name for each number: `A`, `Ax`, `Axx`, ... -/
def numbered : Nat → String
  | 0 => "A"
  | n + 1 => numbered n ++ "x"

theorem numbered_length (n : Nat) : (numbered n).length = n + 1 := by
  induction n with
  | zero => rfl
  | succ n ih => rw [numbered, String.length_append, ih]; rfl

theorem numbered_head (n : Nat) : (numbered n).toList.head? = some 'A' := by
  induction n with
  | zero => rfl
  | succ n ih => rw [numbered, String.toList_append, List.head?_append, ih]; rfl

theorem numbered_own (n : Nat) : numbered n ∉ simpleNames ∧ numbered n ∉ constructedNames := by
  have h := numbered_head n
  generalize numbered n = s at h
  constructor <;> intro hs <;> simp only [simpleNames, constructedNames, List.mem_cons, List.not_mem_nil, or_false] at hs
  · rcases hs with rfl | rfl | rfl | rfl | rfl <;> exact absurd h (by decide)
  · rcases hs with rfl | rfl | rfl <;> exact absurd h (by decide)

/-- The `i`th of a chain of SEQUENCE types, each with one component of the next type. -/
def link (i : Nat) : Node := sequenceNode (numbered i) [definedNode "c" (numbered (i + 1))]

/-- `A ::= SEQUENCE { c Ax }`, `Ax ::= SEQUENCE { c Axx }`, ...: 100 types (the last one mentions a type that is not
in the list). -/
def links : List Node := (List.range 100).map link

theorem link_chain : Chain Node.typereference Node.refs link 100 := by
  refine ⟨fun {i j} h => ?_, fun i => ?_⟩
  · have := congrArg String.length h
    simp only [link, sequenceNode, Node.typereference, numbered_length] at this
    omega
  · obtain ⟨h1, h2⟩ := numbered_own (i + 1)
    simp [link, sequenceNode, definedNode, Node.refs, getSubcomponents, getSubcomponentsOf, Node.typereference, h1, h2]

theorem links_unordered : Unordered Node.typereference link 100 0 links := by
  refine ⟨fun c => ?_, ?_, fun j _ hj => ?_⟩
  · simp only [links, List.mem_map, List.mem_range]
    exact ⟨fun ⟨i, hi, h⟩ => ⟨i, hi, h.symm⟩, fun ⟨i, hi, h⟩ => ⟨i, hi, h.symm⟩⟩
  · rw [links, List.map_map]
    refine List.pairwise_map.2 (List.Pairwise.imp ?_ (List.nodup_range (n := 100)))
    intro a b hab h
    exact hab (link_chain.inj h)
  · have h : ∀ j < 99, [j, j + 1].Sublist (List.range 100) := by decide +kernel
    exact (h j (by omega)).map link

/-- F30: the warning "Could not sort components properly" is logged although the order has been established: the
hundredth pass would have been the one that finds nothing left to do, and `while ... else` does not look. -/
theorem C32_warning : (sortComponents id links).2 = true ∧ InOrder Node.typereference Node.refs (sortComponents id links).1 := by
  have hw : (sortComponents id links).2 = true := chain_loop link_chain 100 0 links_unordered (by omega)
  refine ⟨hw, ?_⟩
  have hp : (sortComponents id links).1.Perm links := sortLoop_perm 100 false links_unordered.nodup
  have hl := sortLoop_low (ref := Node.typereference) (refs := Node.refs) (floor := String.length) 100 0
    (comps := links) links_unordered.nodup (List.pairwise_iff_forall_sublist.2 fun _ _ => Nat.zero_le _) (by
      rintro a b ⟨_, _, c, hc, rfl, hb⟩
      obtain ⟨i, _, rfl⟩ := (links_unordered.mem c).1 hc
      rw [link_chain.next, List.mem_singleton] at hb
      rw [hb]
      show (numbered i).length < (numbered (i + 1)).length
      rw [numbered_length, numbered_length]; omega) hw
  refine List.Pairwise.imp_of_mem ?_ hl
  intro a b ha hb h hm
  have h1 := h hm
  obtain ⟨i, hi, rfl⟩ := (links_unordered.mem a).1 (hp.mem_iff.1 ha)
  obtain ⟨j, hj, rfl⟩ := (links_unordered.mem b).1 (hp.mem_iff.1 hb)
  rw [link_chain.next, List.mem_singleton] at hm
  have := link_chain.inj hm
  change 0 + 100 ≤ (numbered i).length at h1
  rw [numbered_length] at h1
  omega

/-- F31: an alias of an alias may come before what it names. -/
theorem C33_alias_of_alias :
    (sortAssignments id [definedNode "Baz" "Foo", definedNode "Foo" "Bar", sequenceNode "Bar" []]).1.map
      (fun n => (n.typereference, n.cls)) = [("Foo", .defined), ("Bar", .component), ("Bar", .defined)] := by
  decide +kernel

/-- F31: a component type that has a component of an alias comes before the alias and the type. -/
theorem C32_alias_component :
    (sortAssignments id [sequenceNode "C" [definedNode "f" "Foo"], definedNode "Foo" "Bar", sequenceNode "Bar" []]).1.map
      (fun n => (n.typereference, n.cls)) = [("C", .component), ("Bar", .component), ("Bar", .defined)] := by
  decide +kernel

/-- F32: other line ends than LF do not survive, and a last line without line end gets one. -/
theorem C34_line_ends : removeComments "a\r\nb\x0bc".toList = "a\nb\nc\n".toList := by decide +kernel

/-- F33: a single addition that is declared after a group comes before the group in the generated class, and its
presence bit before the bit of the group. -/
theorem C36_mixed :
    (parts (written [.comp "a", .marker, .group ["b"], .comp "c"])).map componentType = .ok ["a", "c", "b"] := by
  decide +kernel

/-- F33: components after a second marker belong to the root, but become additions. -/
theorem C36_second_marker :
    (parts (written [.comp "a", .marker, .comp "b", .marker, .comp "c"])).map (fun st => (st.root, st.addition)) =
      .ok (["a"], ["b", "c"]) := by
  decide +kernel

/-- F34: numbers given in the schema, `ENUMERATED { a(5), b(2) }`, end up in the name of the item. -/
theorem C35_given_numbers :
    (enumItems [.number "5" "a", .number "2" "b"]).root = [("{'5': 'a'}", 0), ("{'2': 'b'}", 1)] := by decide +kernel

/-! ## histories of calls -/

def touchedGroup : Ty :=
  .sequence true (.cons "r" .mandatory .boolean .nil) .nil
    (.cons (.cons "a" .optional .boolean (.cons "b" .mandatory (.seqOf ⟨false, some 0, none⟩ .boolean)
      (.cons "c" .mandatory (.sequence false (.cons "x" .optional .boolean .nil) .nil .nil) .nil))) .nil)

/-- F35: `SEQUENCE { r BOOLEAN, ..., [[ a BOOLEAN OPTIONAL, b SEQUENCE OF BOOLEAN, c SEQUENCE { x BOOLEAN OPTIONAL } ]] }`
with `r` and `a` set: the first `encode` returns bytes, the second raises, since the first turned `c` into a value. -/
theorem C40_second_call :
    calls touchedGroup 2 (ofVal touchedGroup (.seq [some (.bool true), some (.bool true), none, none])) =
      [.ok [0xC0, 0x40, 3, 0xC0, 0, 0], .error .mandatoryFieldNotPresentInGroup] := by
  decide +kernel

/-- F35: a SEQUENCE with only OPTIONAL components, none of them set, becomes a value by being encoded. -/
theorem C40_becomes_value :
    let t : Ty := .sequence false (.cons "x" .optional .boolean .nil) .nil .nil
    objValue t (ofVal t (.seq [none])) = false ∧ objValue t (after t 1 (ofVal t (.seq [none]))) = true := by
  decide +kernel

/-! ## the standard -/

/-- What `encode` returns differs from what X.691 prescribes. -/
def Deviates (t : Ty) (v : Val) : Prop := ∃ bs, encode t v = .ok bs ∧ Spec.octetsToBits bs ≠ X691.message t v

/-- F3: `X691.regularBits` cannot include empty strings. -/
theorem C45_empty_bit_string : Deviates (.bitString ⟨false, none, none⟩) (.bits []) ∧
    Deviates (.bitString ⟨false, some 0, some 3⟩) (.bits []) :=
  ⟨⟨[0x01, 0x00], by decide +kernel, by decide +kernel⟩, ⟨[0x40, 0x00], by decide +kernel, by decide +kernel⟩⟩

/-- F6: `X691.regularInt` cannot include 128 octets. -/
theorem C45_128_octets : ∀ bs, encode (.integer .noConstraint) (.int (2 ^ 1023)) = .ok bs →
    Spec.octetsToBits bs ≠ X691.message (.integer .noConstraint) (.int (2 ^ 1023)) := by
  intro bs h
  have : (match encode (.integer .noConstraint) (.int (2 ^ 1023)) with
    | .ok bs => Spec.octetsToBits bs != X691.message (.integer .noConstraint) (.int (2 ^ 1023))
    | .error _ => false) = true := by decide +kernel
  rw [h] at this
  simpa using this

/-- F9: nor an empty OCTET STRING of an extensible size. -/
theorem C45_size_zero_extensible :
    Deviates (seqOfFields [("a", .mandatory, .octetString ⟨true, some 0, some 0⟩), ("b", .mandatory, .boolean)])
      (.seq [some (.octets []), some (.bool true)]) :=
  ⟨[0x80], by decide +kernel, by decide +kernel⟩

/-- F13 -/
theorem C45_bit_string_default :
    Deviates (seqOfFields [("a", .default (.bits [true]), .bitString ⟨false, none, none⟩)])
      (.seq [some (.bits [false, true])]) :=
  ⟨[0x00], by decide +kernel, by decide +kernel⟩

/-- F14 -/
theorem C45_addition_default :
    Deviates (.sequence true .nil (Fields.ofList [("a", .default (.int 3), .integer (.valueRange (some 0) (some 7) false))])
      .nil) (.seq [none]) :=
  ⟨[0x80, 0x80, 0x01, 0x60], by decide +kernel, by decide +kernel⟩

/-- F15 -/
theorem C45_optional_empty_list :
    Deviates (seqOfFields [("a", .optional, .seqOf ⟨false, some 0, some 2⟩ .boolean)]) (.seq [some (.seqOf [])]) :=
  ⟨[0x00], by decide +kernel, by decide +kernel⟩

/-- F16 -/
theorem C45_numbers : Deviates (.enumerated false [("a", 0), ("b", 5)] []) (.enum 5) :=
  ⟨[0xA0], by decide +kernel, by decide +kernel⟩

/-- F18: a SIZE up to 64K or more counts as constrained for OCTET STRING. -/
theorem C45_octet_string_64k : Deviates (.octetString ⟨false, some 1, some 65536⟩) (.octets [0xAB]) :=
  ⟨[0x00, 0x00, 0xAB], by decide +kernel, by decide +kernel⟩

/-! ## decode compares what it has read with a text -/

/-- F87: a CHOICE of an empty BIT STRING. -/
def emptyChoice : Ty :=
  .choice false (Fields.ofList [("a", .mandatory, .bitString ⟨false, some 0, some 0⟩), ("b", .mandatory, .boolean)]) .nil .nil

/-- F87: a safe value in canonical form, but nothing that arrives... -/
theorem C10_empty_choice :
    let v : Val := .choice 0 (.bits [])
    Spec.safe emptyChoice v = true ∧ Spec.sendable emptyChoice v = true ∧ Spec.canonical emptyChoice v = true ∧
      encode emptyChoice v = .ok [0x00] ∧ decode emptyChoice [0x00] = .error .typeError := by
  decide +kernel

/-- ... as a message of its own: inside of another value it does. -/
theorem C10_empty_choice_inside :
    let t := seqOfFields [("a", .mandatory, emptyChoice), ("b", .mandatory, .boolean)]
    let v : Val := .seq [some (.choice 0 (.bits [])), some (.bool true)]
    encode t v = .ok [0x40] ∧ decode t [0x40] = .ok v := by
  decide +kernel

end Verif.Props.Findings
