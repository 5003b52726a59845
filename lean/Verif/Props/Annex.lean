import Verif.Props.Standard
/-!
# Samples for C45, C46: the examples of X.691 Annex A

The reference `X691.message` and the encoder are compared with encodings which the standard itself gives (ALIGNED
variant).  Character strings do not exist in the project; the ones of the examples that use 8 bits for each
character are OCTET STRINGs here and the NumericString of three characters is the BIT STRING of its 12 bits, which
the standard encodes alike.  These are tests of the reference, not theorems.
-/
namespace Verif.Props
open Verif

/-! ## A.1: the personnel record -/

/-- VisibleString without constraint. -/
def annexText : Ty := .octetString ⟨false, none, none⟩
def annexName : Ty :=
  .sequence false (Fields.ofList [("givenName", .mandatory, annexText), ("initial", .mandatory, annexText),
    ("familyName", .mandatory, annexText)]) .nil .nil
def annexChild : Ty :=
  .sequence false (Fields.ofList [("name", .mandatory, annexName), ("dateOfBirth", .mandatory, annexText)]) .nil .nil
/-- A SET is written in the order of the tags: this is that order.  `DEFAULT {}` is written as OPTIONAL here, which is
the same on the wire for a list that is not empty (the encoder refuses a DEFAULT that is a list, `Findings.C08_annex`). -/
def annexRecord : Ty :=
  .sequence false (Fields.ofList [("name", .mandatory, annexName), ("number", .mandatory, .integer .noConstraint),
    ("title", .mandatory, annexText), ("dateOfHire", .mandatory, annexText), ("nameOfSpouse", .mandatory, annexName),
    ("children", .optional, .seqOf ⟨false, some 0, none⟩ annexChild)]) .nil .nil
def annexOctets (s : String) : Option Val := some (.octets (s.toList.map fun c => UInt8.ofNat c.toNat))
def annexNamed (g i f : String) : Val := .seq [annexOctets g, annexOctets i, annexOctets f]
/-- The value of A.1.1. -/
def annexPerson : Val :=
  .seq [some (annexNamed "John" "P" "Smith"), some (.int 51), annexOctets "Director", annexOctets "19710917", some (annexNamed "Mary" "T" "Smith"),
    some (.seqOf [.seq [some (annexNamed "Ralph" "T" "Smith"), annexOctets "19571111"],
      .seq [some (annexNamed "Susan" "B" "Jones"), annexOctets "19590717"]])]
example : X691.message annexRecord annexPerson = Spec.octetsToBits
    [0x80, 0x04, 0x4A, 0x6F, 0x68, 0x6E, 0x01, 0x50, 0x05, 0x53, 0x6D, 0x69, 0x74, 0x68, 0x01, 0x33, 0x08, 0x44,
     0x69, 0x72, 0x65, 0x63, 0x74, 0x6F, 0x72, 0x08, 0x31, 0x39, 0x37, 0x31, 0x30, 0x39, 0x31, 0x37, 0x04, 0x4D,
     0x61, 0x72, 0x79, 0x01, 0x54, 0x05, 0x53, 0x6D, 0x69, 0x74, 0x68, 0x02, 0x05, 0x52, 0x61, 0x6C, 0x70, 0x68,
     0x01, 0x54, 0x05, 0x53, 0x6D, 0x69, 0x74, 0x68, 0x08, 0x31, 0x39, 0x35, 0x37, 0x31, 0x31, 0x31, 0x31, 0x05,
     0x53, 0x75, 0x73, 0x61, 0x6E, 0x01, 0x42, 0x05, 0x4A, 0x6F, 0x6E, 0x65, 0x73, 0x08, 0x31, 0x39, 0x35, 0x39,
     0x30, 0x37, 0x31, 0x37] := by decide +kernel
example : X691.regular annexRecord annexPerson = true ∧ Spec.safe annexRecord annexPerson = true ∧
    (encode annexRecord annexPerson).map Spec.octetsToBits = .ok (X691.message annexRecord annexPerson) := by
  refine ⟨?_, ?_, ?_⟩ <;> decide +kernel

/-! ## A.4: extension additions and groups -/

/-- The type of A.4.1. -/
def annexType : Ty :=
  .sequence true
    (Fields.ofList
      [("a", .mandatory, .integer (.valueRange (some 250) (some 253) false)),
       ("b", .mandatory, .boolean),
       ("c", .mandatory, .choice true (Fields.ofList [("d", .mandatory, .integer .noConstraint)]) .nil
          (Groups.ofList [[("e", .mandatory, .boolean), ("f", .mandatory, .octetString ⟨false, none, none⟩)]])),
       ("i", .optional, .octetString ⟨false, none, none⟩),
       ("j", .optional, .octetString ⟨false, none, none⟩)])
    .nil
    (Groups.ofList [[("g", .mandatory, .bitString ⟨false, some 12, some 12⟩), ("h", .optional, .boolean)]])
/-- The value of A.4.1: `{a 253, b TRUE, c e: TRUE, g "123", h TRUE}`. -/
def annexValue : Val :=
  .seq [some (.int 253), some (.bool true), some (.choice 1 (.bool true)), none, none,
    some (.bits (X691.bin 4 2 ++ X691.bin 4 3 ++ X691.bin 4 4)), some (.bool true)]
example : X691.message annexType annexValue =
    Spec.octetsToBits [0x9E, 0x00, 0x01, 0x80, 0x01, 0x02, 0x91, 0xA4] := by decide +kernel
example : X691.regular annexType annexValue = true ∧ Spec.safe annexType annexValue = true ∧
    encode annexType annexValue = .ok [0x9E, 0x00, 0x01, 0x80, 0x01, 0x02, 0x91, 0xA4] ∧
    decode annexType [0x9E, 0x00, 0x01, 0x80, 0x01, 0x02, 0x91, 0xA4] = .ok annexValue := by
  refine ⟨?_, ?_, ?_, ?_⟩ <;> decide +kernel

end Verif.Props
