import Verif.Lemmas.Refusal
/-!
# C60: which values can be encoded
-/
namespace Verif.Props

open Verif Spec

/-- `encode` returns octets for exactly the values described by `encodable`. -/
theorem C60_domain (t : Ty) (v : Val) : (∃ bs, encode t v = .ok bs) ↔ encodable t v = true := by
  rw [← done_ty]
  constructor
  · rintro ⟨bs, h⟩
    obtain ⟨fs, h, _⟩ := (encode_eq t v bs).1 h
    exact ⟨fs, h⟩
  · rintro ⟨fs, h⟩
    exact encode_of_encTy h

/-- A value of the type that satisfies the constraints of its simple components is encoded, or refused by one of six exceptions;
two of them are about numbers of elements and one about mandatory components that are missing. -/
theorem C60_refusals {counts complete : Bool} {t : Ty} {v : Val} {e : Err} (hf : fair counts complete t v = true)
    (h : encode t v = .error e) : refusal counts complete e = true := by
  refine fails_ty t v hf e ?_
  cases he : encTy t v with
  | ok fs =>
    obtain ⟨bs, hb⟩ := encode_of_encTy he
    rw [hb] at h; cases h
  | error e' =>
    unfold encode at h
    rw [he] at h
    cases h; rfl

/-- The six in full. -/
theorem C60_six {t : Ty} {v : Val} {e : Err} (hf : fair false false t v = true) (h : encode t v = .error e) :
    e ∈ [.notImplemented, .noValue, .mandatoryExtensionFieldNotPresent, .mandatoryFieldNotPresentInGroup, .sizeConstrainViolated,
      .invalidComponentIndex] := by
  have := C60_refusals hf h
  cases e <;> simp [refusal] at this ⊢

/-- If the numbers of elements are right and all mandatory components are given, three are left. -/
theorem C60_three {t : Ty} {v : Val} {e : Err} (hf : fair true true t v = true) (h : encode t v = .error e) :
    e ∈ [.notImplemented, .mandatoryExtensionFieldNotPresent, .mandatoryFieldNotPresentInGroup] := by
  have := C60_refusals hf h
  cases e <;> simp [refusal] at this ⊢

/-- SEQUENCE { n INTEGER (0..5), b BIT STRING (SIZE (0..4, ...)) OPTIONAL, l SEQUENCE (SIZE (1..3)) OF OCTET STRING,
..., x INTEGER, y BOOLEAN, [[ g BOOLEAN, h INTEGER DEFAULT 7 ]] } -/
private def msg : Ty := .sequence true
  (Fields.ofList [("n", .mandatory, .integer (.valueRange (some 0) (some 5) false)), ("b", .optional, .bitString ⟨true, some 0, some 4⟩),
    ("l", .mandatory, .seqOf ⟨false, some 1, some 3⟩ (.octetString ⟨false, none, none⟩))])
  (Fields.ofList [("x", .mandatory, .integer .noConstraint), ("y", .mandatory, .boolean)])
  (.cons (Fields.ofList [("g", .mandatory, .boolean), ("h", .default (.int 7), .integer .noConstraint)]) .nil)

private def list (n : Nat) : Option Val := some (.seqOf (List.replicate n (.octets [1, 2])))

/-- Taken: everything given. -/
example : encodable msg (.seq [some (.int 5), some (.bits [true]), list 2, some (.int (-3)), some (.bool true), some (.bool false), none]) = true ∧
    fair true true msg (.seq [some (.int 5), some (.bits [true]), list 2, some (.int (-3)), some (.bool true), some (.bool false), none]) = true := by
  decide +kernel

/-- Refused: an addition without the one before it, a group of which only what has a default is there (this is what one
gets if nothing is set), a mandatory component missing, too few elements, too many elements. -/
example :
    let v (n l x y g : Option Val) : Val := .seq [n, none, l, x, y, g, none]
    let n := some (Val.int 1)
    let z := some (Val.int 0)
    let b := some (Val.bool true)
    [v n (list 1) none b b, v n (list 1) z b none, v none (list 1) z b b, v n (list 0) z b b, v n (list 4) z b b].map
        (fun w => (encodable msg w, fair true true msg w, fair false false msg w)) =
      [(false, true, true), (false, false, true), (false, false, true), (false, false, true), (false, false, true)] ∧
    [v n (list 1) none b b, v n (list 1) z b none, v none (list 1) z b b, v n (list 0) z b b, v n (list 4) z b b].map (encode msg) =
      [.error .mandatoryExtensionFieldNotPresent, .error .mandatoryFieldNotPresentInGroup, .error .noValue, .error .sizeConstrainViolated,
       .error .invalidComponentIndex] := by
  constructor <;> decide +kernel

/-- Too long. -/
example {o : List UInt8} (h : o.length = 16385) : encodable (.octetString ⟨false, none, none⟩) (.octets o) = false ∧
    fair true true (.octetString ⟨false, none, none⟩) (.octets o) = true := by
  simp [encodable, fair, takesOctets, takesSize, takesSizeRoot, takesLength, fairSize, SizeC.test, h]

/-- Outside `fair`: a DEFAULT of a constructed type, and a range without lower end. -/
example : encode (.sequence false (Fields.ofList [("a", .default (.seqOf []), .seqOf ⟨false, some 0, none⟩ .boolean)]) .nil .nil) (.seq [none]) =
      .error .attributeError ∧ encode (.integer (.valueRange none (some 5) true)) (.int 3) = .error .typeError := by
  constructor <;> decide +kernel

end Verif.Props
