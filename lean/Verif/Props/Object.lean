import Verif.Lemmas.Object
import Verif.Props.Standard
/-!
# Histories of calls on one object (C40)
-/
namespace Verif.Props
open Verif Spec

/-- Any number of `encode` calls on one newly built object give what the first gives, bytes or exception.

What is missing: values that are not `steady`, see `Findings.C40_second_call`. -/
theorem C40_repeat_partial {t : Ty} {v : Val} (h : steady t v = true) (n : Nat) :
    calls t n (ofVal t v) = List.replicate n (encode t v) := by
  suffices ∀ o, Shows t v o → calls t n o = List.replicate n (encode t v) from this _ (shows_fresh t v)
  induction n with
  | zero => exact fun _ _ => rfl
  | succ n ih =>
    intro o ho
    obtain ⟨h1, h2⟩ := shows_encode h ho
    rw [calls, h1, ih _ h2, List.replicate_succ]

def objectInner : Ty := .sequence false (.cons "x" .optional .boolean .nil) .nil .nil

/-- `SEQUENCE { a SEQUENCE { x BOOLEAN OPTIONAL }, b SEQUENCE (SIZE(0..MAX)) OF BOOLEAN OPTIONAL, ...,
c SEQUENCE (SIZE(0..MAX)) OF BOOLEAN, [[ d BOOLEAN, e SEQUENCE { x BOOLEAN OPTIONAL } OPTIONAL ]] }` -/
def objectSequence : Ty :=
  .sequence true (.cons "a" .mandatory objectInner (.cons "b" .optional (.seqOf ⟨false, some 0, none⟩ .boolean) .nil))
    (.cons "c" .mandatory (.seqOf ⟨false, some 0, none⟩ .boolean) .nil)
    (.cons (.cons "d" .mandatory .boolean (.cons "e" .optional objectInner .nil)) .nil)

/-- `a` and `b` were never set; encoding instantiates them, `e` and its component `x`. -/
def objectValue : List (Option Val) :=
  [none, none, some (.seqOf [.bool true]), some (.bool true), some (.seq [none])]

example : steady objectSequence (.seq objectValue) = true ∧
    calls objectSequence 2 (ofVal objectSequence (.seq objectValue)) =
      [.ok [0x80, 0x70, 2, 1, 0x80, 1, 0x40], .ok [0x80, 0x70, 2, 1, 0x80, 1, 0x40]] := by
  decide +kernel

/-- `encode` calls between assignments to the components of a SEQUENCE outside groups each give what a newly built
object with the same components gives. -/
theorem C40_history_partial {ext : Bool} {r a : Fields} {g : Groups} {cs : List (Option Val)} {ops : List Op}
    (h : proper (.sequence ext r a g) (r.length + a.length) ops cs = true) :
    history (.sequence ext r a g) ops (ofVal (.sequence ext r a g) (.seq cs)) =
      expected (.sequence ext r a g) ops cs := by
  suffices ∀ o, Shows (.sequence ext r a g) (.seq cs) o →
      history (.sequence ext r a g) ops o = expected (.sequence ext r a g) ops cs from this _ (shows_fresh _ _)
  induction ops generalizing cs with
  | nil => exact fun _ _ => rfl
  | cons op ops ih =>
    intro o ho
    cases op with
    | encode =>
      simp only [proper, Bool.and_eq_true] at h
      obtain ⟨h1, h2⟩ := shows_encode h.1 ho
      rw [history, expected, h1, ih h.2 _ h2]
    | assign i v =>
      simp only [proper, Bool.and_eq_true, decide_eq_true_eq] at h
      have hl : cs.length = r.length + a.length + g.size := by
        have := h.1.1
        simp only [steady, Bool.and_eq_true, beq_iff_eq] at this
        exact this.1.1.1
      rw [history, expected, ih h.2 _ (shows_assign hl h.1.2 ho)]

example : proper objectSequence 3 [.encode, .assign 1 (.seqOf [.bool true]), .encode, .encode,
    .assign 0 (.seq [some (.bool true)]), .encode] objectValue = true := by decide +kernel

/-- An object that counts as a value before a number of `encode` calls does so afterwards. -/
theorem C40_value_partial {t : Ty} {v : Val} (h : steady t v = true) (hv : valued t v = true) (n : Nat) :
    objValue t (after t n (ofVal t v)) = true := by
  rw [valued_eq] at hv
  suffices ∀ o, Shows t v o → objValue t (after t n o) = true from this _ (shows_fresh t v)
  induction n with
  | zero => exact fun o ho => shows_value t v o h ho hv
  | succ n ih => exact fun o ho => ih _ (shows_encode h ho).2

example : steady objectSequence (.seq objectValue) = true ∧ valued objectSequence (.seq objectValue) = true := by
  decide +kernel

end Verif.Props
