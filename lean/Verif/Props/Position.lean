import Verif.Lemmas.Moved
import Verif.Lemmas.Message
/-!
# C70: what is read depends only on what follows and on the place within the octet
-/
namespace Verif.Props
open Verif

/-- C70: two readers, of the same or of different messages, that have the same bits before them and stand at the same place within
an octet: both raise the same exception, or both return the same value, have read the same number of bits, and have the same
bits before them again. -/
theorem C70_position (t : Ty) {p q : PerBytes} {n k : Nat} {rest : Bits} (hp : Spec.ReaderAt p n rest)
    (hq : Spec.ReaderAt q k rest) (h : n % 8 = k % 8) :
    (∃ e, decTy t p = .error e ∧ decTy t q = .error e) ∨
    ∃ w p' q' read rest', decTy t p = .ok (w, p') ∧ decTy t q = .ok (w, q') ∧
      Spec.ReaderAt p' (n + read) rest' ∧ Spec.ReaderAt q' (k + read) rest' := by
  rw [readerAt_iff] at hp hq
  have hm := (moved_ty t).run p q n k rest hp hq h
  cases e1 : decTy t p with
  | error e =>
    cases e2 : decTy t q with
    | error e' => rw [e1, e2] at hm; obtain rfl : e = e' := hm; exact .inl ⟨e, rfl, rfl⟩
    | ok r => rw [e1, e2] at hm; exact hm.elim
  | ok r =>
    cases e2 : decTy t q with
    | error e' => rw [e1, e2] at hm; exact hm.elim
    | ok r' =>
      rw [e1, e2] at hm
      obtain ⟨a, p1⟩ := r
      obtain ⟨b, q1⟩ := r'
      obtain ⟨rfl, j, s1, a1, a2⟩ := hm
      exact .inr ⟨a, p1, q1, j, s1, rfl, rfl, readerAt_iff.2 a1, readerAt_iff.2 a2⟩

/-- C70 for whole messages: at the beginning of an octet, however much was read before, a reader obtains from what remains what
`decode` returns for what remains as a message of its own. -/
theorem C70_message (t : Ty) {q : PerBytes} {k : Nat} {bs : List UInt8} {w : Val}
    (hq : Spec.ReaderAt q (8 * k) (bytesToBits bs)) (hb : bs ≠ []) (hr : Spec.returnable w = true) :
    decode t bs = .ok w ↔ ∃ q', decTy t q = .ok (w, q') := by
  have h0 : Spec.ReaderAt ⟨Offset.init 0 0, bytesToBits bs⟩ 0 (bytesToBits bs) := readerAt_iff.2 (At.init _)
  constructor
  · intro h
    obtain ⟨p', e, _, _⟩ := decode_ok h
    rcases C70_position t h0 hq (by omega) with ⟨e', e1, _⟩ | ⟨w', p1, q1, j, r', e1, e2, _, _⟩
    · rw [e1] at e; cases e
    · rw [e1] at e; cases e; exact ⟨q1, e2⟩
  · rintro ⟨q', e⟩
    rcases C70_position t h0 hq (by omega) with ⟨e', _, e1⟩ | ⟨w', p1, q1, j, r', e1, e2, _, _⟩
    · rw [e1] at e; cases e
    · rw [e2] at e; cases e; exact decode_ok_of hb hr e1

/-- The message `01 80` behind three octets of another: an INTEGER without constraints, read there and alone. -/
example : decode (.integer .noConstraint) [1, 0x80] = .ok (.int (-128)) ∧
    ∃ q', decTy (.integer .noConstraint) ⟨⟨2, 7, 3, 0⟩, bytesToBits [7, 8, 9, 1, 0x80]⟩ = .ok (.int (-128), q') := by
  have h : decode (.integer .noConstraint) [1, 0x80] = .ok (.int (-128)) := by decide +kernel
  exact ⟨h, (C70_message _ (k := 3) ⟨rfl, rfl, by decide +kernel⟩ (by decide) rfl).1 h⟩

/-- The place within the octet does count: the same bits one bit further on are read as another number. -/
example : ∃ rest v w p' q', v ≠ w ∧
    decTy (.integer .noConstraint) ⟨Offset.init 0 0, rest⟩ = .ok (.int v, p') ∧
    decTy (.integer .noConstraint) ⟨⟨0, 0, 0, 1⟩, true :: rest⟩ = .ok (.int w, q') :=
  by
  have h1 : ((decTy (.integer .noConstraint) ⟨Offset.init 0 0, bytesToBits [2, 2, 4]⟩).map Prod.fst) = .ok (.int 516) := by decide +kernel
  have h2 : ((decTy (.integer .noConstraint) ⟨⟨0, 0, 0, 1⟩, true :: bytesToBits [2, 2, 4]⟩).map Prod.fst) = .ok (.int 2) := by decide +kernel
  refine ⟨bytesToBits [2, 2, 4], 516, 2, ?_⟩
  cases e1 : decTy (.integer .noConstraint) ⟨Offset.init 0 0, bytesToBits [2, 2, 4]⟩ with
  | error e => rw [e1] at h1; cases h1
  | ok r =>
    cases e2 : decTy (.integer .noConstraint) ⟨⟨0, 0, 0, 1⟩, true :: bytesToBits [2, 2, 4]⟩ with
    | error e => rw [e2] at h2; cases h2
    | ok r' =>
      obtain ⟨a, p⟩ := r
      obtain ⟨b, q⟩ := r'
      rw [e1] at h1; rw [e2] at h2
      cases h1; cases h2
      exact ⟨p, q, by decide, rfl, rfl⟩

end Verif.Props
