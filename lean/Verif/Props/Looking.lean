import Verif.Lemmas.LookingFresh
import Verif.Props.Object
/-!
# Looking at an object (C66)
-/
namespace Verif.Props
open Verif Spec

/-- `to_dict`, reading components and `encode` itself make no difference to later calls of `encode`, whatever else is done to
the object: each gives what it gives for an object that was only assigned to.

What is missing: types in which an OPTIONAL component or an extension is a SEQUENCE without mandatory components or with a
DEFAULT, see `Findings.C66_look_sent` and `Findings.C66_look_breaks`. -/
theorem C66_look_partial {t : Ty} {o : Obj} (q : quiet t = true) (w : spaced t o = true) (l : List Act) :
    encodings t l o = encodingsAlone t l o :=
  encodings_like q l o o w w (like_refl t o)

/-- The same for the dictionaries.

What is missing: types in which an alternative of a CHOICE is a SEQUENCE without mandatory components or with a DEFAULT, see
`Findings.C66_dict_changes`. -/
theorem C66_dict_partial {t : Ty} {o : Obj} (q : clear t = true) (w : spaced t o = true) (l : List Act) :
    dictionaries t l o = dictionariesAlone t l o :=
  dictionaries_like q l o o w w (like_refl t o)

/-- Any number of `encode` calls on an object in any state give what the first gives. -/
theorem C40_any_partial {t : Ty} (q : quiet t = true) (n : Nat) (o : Obj) :
    calls t n o = List.replicate n (encodeObj t o).1 := by
  suffices ∀ o', Like t o' o → calls t n o' = List.replicate n (encodeObj t o).1 from this o (like_refl t o)
  induction n with
  | zero => exact fun _ _ => rfl
  | succ n ih =>
    intro o' h
    rw [calls, ih (encodeObj t o').2 (like_trans t _ _ _ (like_symm t _ _ (encObj_like t o')) h), List.replicate_succ]
    simp only [encodeObj, encObj_same t o' o q h]

/-- `SEQUENCE { y BOOLEAN, z BOOLEAN OPTIONAL }` -/
def lookInner : Ty := .sequence false (.cons "y" .mandatory .boolean (.cons "z" .optional .boolean .nil)) .nil .nil

/-- `SEQUENCE { a SEQUENCE { x BOOLEAN OPTIONAL }, b SEQUENCE { y BOOLEAN, z BOOLEAN OPTIONAL } OPTIONAL,
c CHOICE { p SEQUENCE { y BOOLEAN, z BOOLEAN OPTIONAL }, q BOOLEAN } OPTIONAL, d INTEGER (0..7) DEFAULT 5, ...,
e SEQUENCE (SIZE(0..MAX)) OF BOOLEAN, [[ f BOOLEAN, h SEQUENCE { y BOOLEAN, z BOOLEAN OPTIONAL } OPTIONAL ]] }` -/
def lookSequence : Ty :=
  .sequence true
    (.cons "a" .mandatory objectInner (.cons "b" .optional lookInner
      (.cons "c" .optional (.choice false (.cons "p" .mandatory lookInner (.cons "q" .mandatory .boolean .nil)) .nil .nil)
        (.cons "d" (.default (.int 5)) (.integer (.valueRange (some 0) (some 7) false)) .nil))))
    (.cons "e" .mandatory (.seqOf ⟨false, some 0, none⟩ .boolean) .nil)
    (.cons (.cons "f" .mandatory .boolean (.cons "h" .optional lookInner .nil)) .nil)

/-- Only `c.p.y`, `e` and `f` are set. -/
def lookValue : Val :=
  .seq [none, none, some (.choice 0 (.seq [some (.bool true), none])), none, some (.seqOf [.bool true]), some (.bool true), none]

/-- Reads the unset `b.z`, `h.y`, `c.p.z` and `a.x`, builds the dictionary, encodes, sets `b`, and so on. -/
def lookActs : List Act :=
  [.look [1, 1], .encode, .dict, .look [6, 0], .look [2, 0, 1], .encode, .assign 1 (.seq [some (.bool false), none]), .dict, .look [0, 0],
    .encode, .dict]

example : quiet lookSequence = true ∧ clear lookSequence = true ∧ spaced lookSequence (ofVal lookSequence lookValue) = true ∧
    encodings lookSequence lookActs (ofVal lookSequence lookValue) =
      [.ok [0xA1, 0x03, 0x80, 0x02, 0x01, 0x80, 0x01, 0x40], .ok [0xA1, 0x03, 0x80, 0x02, 0x01, 0x80, 0x01, 0x40],
        .ok [0xE0, 0x40, 0xE0, 0x02, 0x01, 0x80, 0x01, 0x40]] := by
  decide +kernel

/-- With a value that `encode` always gives the same for, looking gives that of the value. -/
theorem C66_value_partial {t : Ty} {v : Val} (q : quiet t = true) (h : steady t v = true) {l : List Act}
    (hl : ∀ a ∈ l, ∀ i w, a ≠ .assign i w) : ∀ x ∈ encodings t l (ofVal t v), x = encode t v := by
  have w : spaced t (ofVal t v) = true := by
    cases t <;> first | rfl | skip
    cases v <;> first | cases h | skip
    rename_i e r a g cs
    simp only [steady, Bool.and_eq_true, beq_iff_eq] at h
    simp only [ofVal]
    split
    · refine spaced_of ?_
      simp only [List.length_append, ofSlots_length, ofSlotsG_length]
      omega
    · simp [spaced]
  rw [C66_look_partial q w]
  have first := (shows_encode h (shows_fresh t v)).1
  induction l with
  | nil => exact fun _ hx => nomatch hx
  | cons a l ih =>
    have ih := ih fun b hb => hl b (List.mem_cons_of_mem _ hb)
    cases a with
    | encode =>
      simp only [encodingsAlone, List.mem_cons]
      rintro x (rfl | hx)
      · exact first
      · exact ih x hx
    | dict => simpa only [encodingsAlone] using ih
    | look p => simpa only [encodingsAlone] using ih
    | assign i w => exact (hl _ List.mem_cons_self i w rfl).elim

example : quiet lookSequence = true ∧ steady lookSequence lookValue = true ∧
    encode lookSequence lookValue = .ok [0xA1, 0x03, 0x80, 0x02, 0x01, 0x80, 0x01, 0x40] := by decide +kernel

/-- The first `to_dict` of a newly built object gives the dictionary of the value (`toDict`, of which C28 and C29 speak). -/
theorem C66_agrees_partial {t : Ty} {v : Val} (h : steady t v = true) : (dictObj t true (ofVal t v)).1 = toDict t true v :=
  dict_fresh t true v h

example : steady lookSequence lookValue = true ∧ (dictObj lookSequence true (ofVal lookSequence lookValue)).1 =
    .ok (some (.dict [("c", .dict [("p", .dict [("y", .bool true)])]), ("d", .int 5), ("e", .list [.bool true]), ("f", .bool true)])) := by
  decide +kernel

end Verif.Props
