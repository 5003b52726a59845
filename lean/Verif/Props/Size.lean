import Verif.Lemmas.SizeTypes
/-!
# C56: the size of what is received
-/
namespace Verif.Props

open Verif Spec

/-- Where decoding begins. -/
private theorem decode_starts {t : Ty} {bs : List UInt8} {w : Val} (h : decode t bs = .ok w) :
    ∃ q p', q.offset.currBits < 8 ∧ q.binaryString.length = 8 * bs.length ∧ decTy t q = .ok (w, p') := by
  obtain ⟨p', hd, _⟩ := decode_ok h
  exact ⟨⟨Offset.init 0 0, bytesToBits bs⟩, p', by show (0 : Nat) < 8; omega, bytesToBits_length bs, hd⟩

/-- Whatever octets are received: the value returned is at most as large as a number fixed by the type, another such
number for each bit received, and a third once if the message ends too early. -/
theorem C56_size {t : Ty} {bs : List UInt8} {w : Val} (h : decode t bs = .ok w) :
    weight w ≤ (cost t).fixed + (cost t).perBit * (8 * bs.length) + (cost t).short := by
  obtain ⟨q, p', hq1, hq2, hd⟩ := decode_starts h
  have hB := (bound_ty t).bound q w p' hq1 hd
  obtain ⟨i1, _, _, _⟩ := (bound_ty t).run q w p' hq1 hd
  have hs : p'.seen - q.seen ≤ 8 * bs.length := by
    unfold PerBytes.seen; rw [i1, hq2]; omega
  have := Nat.mul_le_mul_left (cost t).perBit hs
  split at hB <;> omega

/-- Elements that take a bit: there are not more of them than bits received. -/
theorem C56_elements {c : SizeC} {t : Ty} {bs : List UInt8} {vs : List Val} (ht : needsBit t = true)
    (h : decode (.seqOf c t) bs = .ok (.seqOf vs)) : vs.length ≤ 8 * bs.length := by
  obtain ⟨q, p', hq1, hq2, hd⟩ := decode_starts h
  unfold decTy at hd
  obtain ⟨n, p1, e1, e2⟩ := bind_eq_ok hd
  obtain ⟨ws, p2, e3, e4⟩ := bind_eq_ok e2
  cases e4
  obtain ⟨a1, a2, a3, _⟩ := (tame_seqOfCount c).run _ _ _ hq1 e1
  have := count_le (eats_ty t ht) (tame_ty t) n.toNat p1 vs _ a2 e3
  obtain ⟨b1, _, _, _⟩ := (tame_repeat (tame_ty t) n.toNat).run _ _ _ a2 e3
  unfold PerBytes.seen at this
  rw [b1, a1, hq2] at this
  omega

private def mixed : Ty := .sequence true
  (.cons "n" .mandatory (.integer .noConstraint)
    (.cons "l" .optional (.seqOf ⟨false, some 0, some 9⟩ .boolean) .nil))
  (.cons "o" .mandatory (.octetString ⟨false, none, none⟩) .nil) .nil

private def mixedValue : Val := .seq [some (.int 300), some (.seqOf [.bool true, .bool false]), some (.octets [1, 2, 3])]

private def okOf {α : Type} (d : α) : Except Err α → α
  | .ok a => a
  | .error _ => d

private def mixedBytes : List UInt8 := okOf [] (encode mixed mixedValue)

private theorem mixed_decodes : decode mixed mixedBytes = .ok mixedValue := by decide +kernel

example : weight mixedValue = 41 ∧ mixedBytes.length = 11 ∧ cost mixed = ⟨524312, 1, 524288⟩ := by decide +kernel
example : weight mixedValue ≤ (cost mixed).fixed + (cost mixed).perBit * (8 * mixedBytes.length) + (cost mixed).short :=
  C56_size mixed_decodes

private def flags : Ty := .seqOf ⟨false, some 0, some 20⟩ .boolean

example : needsBit (.boolean) = true ∧ decode flags [0x1D, 0x40] = .ok (.seqOf [.bool true, .bool false, .bool true]) := by
  decide +kernel
example : ([.bool true, .bool false, .bool true] : List Val).length ≤ 8 * ([0x1D, 0x40] : List UInt8).length :=
  C56_elements (c := ⟨false, some 0, some 20⟩) (t := .boolean) rfl (by decide +kernel)

end Verif.Props
