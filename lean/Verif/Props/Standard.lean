import Verif.Lemmas.X691
import Verif.Lemmas.Stream
import Verif.Lemmas.Repaired
import Verif.Props.Compound
/-!
# C45, C46: the bytes are those of X.691 ALIGNED PER

`Verif.X691` (SpecX691.lean) is a reference written down from the standard, with no function of the encoder or the
decoder in it.  The round trip properties hold as well for a codec in which encoder and decoder are wrong in the
same way; the theorems here do not.
-/
namespace Verif.Props
open Verif

/-! ## C45 -/

/-- C45 for every type the project has, nested to any depth: whatever `encode` returns for a regular value is, bit by
bit, the encoding the standard prescribes.  Missing: the values `X691.regular` leaves out (lengths of 16K and
more, and the deviations of `Findings.C45_*`). -/
theorem C45_encode_partial {t : Ty} {v : Val} {bs : List UInt8} (hr : X691.regular t v = true)
    (h : encode t v = .ok bs) : Spec.octetsToBits bs = X691.message t v := by
  obtain ⟨fs, e1, e2⟩ := (encode_eq t v bs).1 h
  rw [octetsToBits_eq, e2]
  exact (complete_eq (em_ty t v fs e1 hr)).symm

/-- The same inside a message: behind any bits written before, `encode` writes what the standard prescribes for that
position (the padding of aligned fields depends on it). -/
theorem C45_inside_partial {t : Ty} {v : Val} {fs : List BitField} (hr : X691.regular t v = true)
    (h : encTy t v = .ok fs) (before : Bits) :
    fs.foldl appendField before = before ++ X691.value t v before.length := by
  rw [← em_ty t v fs h hr before.length]
  exact foldl_appendField fs before

/-- INTEGER without, with one, or with both bounds, extensible or not. -/
theorem C45_integer_partial {c : Constr} {z : Int} {bs : List UInt8} (hr : X691.regularInt c z = true)
    (h : encode (.integer c) (.int z) = .ok bs) :
    Spec.octetsToBits bs = X691.complete (X691.integer c.ext c.lower c.upper z) := by
  have := C45_encode_partial (t := .integer c) (v := .int z) (by simpa only [X691.regular] using hr) h
  simpa only [X691.message, X691.value] using this

/-- A component list, an alternative, an open type: the same SEQUENCE for all parts at once. -/
def standardSequence : Ty :=
  .sequence true
    (Fields.ofList
      [("a", .optional, .integer (.valueRange (some 1) (some 70000) false)),
       ("b", .mandatory, .bitString ⟨true, some 1, some 4⟩),
       ("c", .default (.int 3), .integer (.valueRange (some 0) (some 7) true)),
       ("d", .mandatory, .seqOf ⟨false, some 0, some 300⟩
          (.choice true (Fields.ofList [("x", .mandatory, .boolean), ("y", .mandatory, .octetString ⟨false, none, none⟩)])
            (Fields.ofList [("z", .mandatory, .integer .noConstraint)]) .nil))])
    (Fields.ofList [("e", .optional, .enumerated true [("p", 0), ("q", 1)] [("r", 2)])])
    (Groups.ofList [[("f", .mandatory, .boolean), ("g", .optional, .octetString ⟨false, some 3, some 3⟩)]])

def standardValue : Val :=
  .seq [some (.int 69999), some (.bits [true, false, true, false, true]), none,
    some (.seqOf [.choice 0 (.bool true), .choice 1 (.octets [1, 2]), .choice 2 (.int (-129))]), some (.enum 2),
    some (.bool true), some (.octets [7, 8, 9])]

example : X691.regular standardSequence standardValue = true ∧ (encode standardSequence standardValue).isOk = true := by
  constructor <;> decide +kernel
example : X691.regularInt (.valueRange (some (-5)) (some 70000) true) 100000 = true ∧
    encode (.integer (.valueRange (some (-5)) (some 70000) true)) (.int 100000) = .ok [0x80, 0x03, 0x01, 0x86, 0xA0] := by
  constructor <;> decide +kernel

/-! Samples of the reference itself (tests): these are the vectors of the project's
own tests, those of X.691 Annex A are in Annex.lean (`test_per_encode_sequence.py`, `test_per_encode_integer.py`). -/
example : X691.message (.sequence true (Fields.ofList [("i0", .mandatory, .integer .noConstraint),
      ("i1", .mandatory, .integer .noConstraint)]) .nil .nil) (.seq [some (.int 34567), some (.int (-845))]) =
    Spec.octetsToBits [0x00, 0x03, 0x00, 0x87, 0x07, 0x02, 0xFC, 0xB3] := by decide +kernel
example : X691.message (.integer (.valueRange (some 0) (some 65536) false)) (.int 65536) =
    Spec.octetsToBits [0x80, 0x01, 0x00, 0x00] := by decide +kernel

/-! ## C46 -/

/-- C46: `decode` reads the standard's encoding of a value (followed by anything) back as the value that counts as
received.  Missing: values that are not `X691.regular` or not `Spec.safe`. -/
theorem C46_decode_partial {t : Ty} {v : Val} (hn : Spec.returnable v = true) (hr : X691.regular t v = true) (hs : Spec.safe t v = true)
    (hp : Spec.sendable t v = true) {bs : List UInt8} (hb : Spec.octetsToBits bs = X691.message t v)
    (extra : List UInt8) : decode t (bs ++ extra) = .ok (Spec.received t v) := by
  obtain ⟨bs', e1, e2⟩ := (safe_carries hs hp hn).2
  have : bs = bs' := by
    apply bytesToBits_inj
    rw [← octetsToBits_eq, ← octetsToBits_eq, hb, C45_encode_partial hr e1]
  subst this
  exact e2 extra

/-- As `standardValue`, the BIT STRING within its SIZE (F7). -/
def standardSafe (n : Int) : Val :=
  .seq [some (.int 69999), some (.bits [true, false, true]), some (.int n),
    some (.seqOf [.choice 0 (.bool true), .choice 1 (.octets [1, 2]), .choice 2 (.int (-129))]), some (.enum 2),
    some (.bool true), some (.octets [7, 8, 9])]

example : X691.regular standardSequence (standardSafe 9) = true ∧ Spec.safe standardSequence (standardSafe 9) = true ∧
    Spec.sendable standardSequence (standardSafe 9) = true := by
  refine ⟨?_, ?_, ?_⟩ <;> decide +kernel
/-- The DEFAULT given and not given have one encoding. -/
def standardDefault (c : Option Val) : Val := .seq [none, some (.bits [true]), c, some (.seqOf []), none, none, none]

example : ∀ c ∈ [none, some (.int 3)], X691.regular standardSequence (standardDefault c) = true ∧
    Spec.safe standardSequence (standardDefault c) = true ∧ Spec.sendable standardSequence (standardDefault c) = true ∧
    X691.message standardSequence (standardDefault c) = X691.message standardSequence (standardDefault none) := by
  decide +kernel

/-- The encodings of the standard tell the values apart: two values with one encoding count as the same received
value.  The values need not come back from this decoder, `Spec.legible` is enough. -/
theorem C46_unique_partial {t : Ty} {v w : Val} (hv : X691.regular t v = true) (hw : X691.regular t w = true)
    (sv : Spec.legible t v = true) (sw : Spec.legible t w = true) (pv : Spec.sendable t v = true)
    (pw : Spec.sendable t w = true) (h : X691.message t v = X691.message t w) :
    Spec.received t v = Spec.received t w := by
  obtain ⟨bs, e1⟩ := legible_encodable sv pv
  obtain ⟨bs', e2⟩ := legible_encodable sw pw
  have : bs = bs' := by
    apply bytesToBits_inj
    rw [← octetsToBits_eq, ← octetsToBits_eq, C45_encode_partial hv e1, C45_encode_partial hw e2, h]
  subst this
  exact (C12_injective_partial sv sw e1 e2).1

end Verif.Props
