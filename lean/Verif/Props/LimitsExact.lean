import Verif.Props.Sequence
import Verif.Props.Dict
import Verif.Props.Module
/-!
# C22, C29, C34: exactly which lists are refused, which BIT STRINGs look the same, and which texts are left alone
-/
namespace Verif.Props
open Verif

/-- C22, exactly: a non-extensible SEQUENCE OF with a SIZE whose ends are in order, all of whose elements can be encoded, is
refused if and only if it is too short, or too long for an upper end that is not 0 (F17). -/
theorem C22_exact {t : Ty} {vs : List Val} {lb ub : Nat} (hb : lb ≤ ub) (he : ∀ v ∈ vs, ∃ fs, encTy t v = .ok fs) :
    (∃ e, encode (.seqOf ⟨false, some lb, some ub⟩ t) (.seqOf vs) = .error e) ↔
      vs.length < lb ∨ (ub ≠ 0 ∧ ub < vs.length) := by
  constructor
  · rintro ⟨e, h⟩
    rcases Nat.lt_or_ge vs.length lb with h1 | h1
    · exact .inl h1
    · rcases Nat.lt_or_ge ub vs.length with h2 | h2
      · refine .inr ⟨fun h0 => ?_, h2⟩
        subst h0
        have : lb = 0 := by omega
        subst this
        obtain ⟨fl, hfl⟩ := seqOf_eq (c := ⟨false, some 0, some 0⟩) he
        have : encodeSequenceOf ⟨false, some 0, some 0⟩ vs.length fl = .ok fl := by
          unfold encodeSequenceOf
          simp [pure, Except.pure]
        obtain ⟨bs, hbs⟩ := encode_of_encTy (hfl.trans this)
        rw [h] at hbs
        cases hbs
      · obtain ⟨bs, hbs⟩ := C22_inside (c := ⟨false, some lb, some ub⟩) rfl rfl rfl h1 h2 he
        rw [h] at hbs
        cases hbs
  · rintro (h | ⟨h0, h⟩)
    · exact ⟨_, C22_too_few (c := ⟨false, some lb, some ub⟩) rfl rfl h he⟩
    · exact ⟨_, C22_too_many_partial (c := ⟨false, some lb, some ub⟩) rfl rfl rfl hb h0 h he⟩

example : (∃ e, encode (.seqOf ⟨false, some 1, some 2⟩ .boolean) (.seqOf [.bool true, .bool true, .bool false]) = .error e) ∧
    ¬ ∃ e, encode (.seqOf ⟨false, some 0, some 0⟩ .boolean) (.seqOf [.bool true, .bool true, .bool false]) = .error e := by
  have he : ∀ v ∈ [Val.bool true, .bool true, .bool false], ∃ fs, encTy .boolean v = .ok fs := by
    intro v hv
    simp only [List.mem_cons, List.not_mem_nil, or_false] at hv
    rcases hv with rfl | rfl | rfl <;> exact ⟨_, rfl⟩
  constructor
  · rw [C22_exact (by omega) he]; decide
  · rw [C22_exact (by omega) he]; decide

/-- C29, exactly, for BIT STRINGs: two have the same representation if and only if they are the same number, i.e. differ in
leading zeros at most. -/
theorem C29_bit_string_exact {c : SizeC} {b b' : Bool} {x y : Bits} :
    toDict (.bitString c) b (.bits x) = toDict (.bitString c) b' (.bits y) ↔ Spec.number x = Spec.number y := by
  simp only [toDict, Except.ok.injEq, Option.some.injEq, Dict.int.injEq, Int.natCast_inj, number_eq]

example : toDict (.bitString ⟨false, none, none⟩) true (.bits [false, true, true]) =
    toDict (.bitString ⟨false, none, none⟩) true (.bits [true, true]) := C29_bit_string_exact.2 rfl

/-- C34, exactly: a text is left as it is if and only if it consists of lines without `--`, each ended by a line feed and
containing no other line end. -/
theorem C34_exact {text : List Char} : removeComments text = text ↔
    ∃ ls : List (List Char), (∀ l ∈ ls, ∀ c ∈ l, isBreak c = false) ∧ (∀ l ∈ ls, ¬ Spec.HasComment l) ∧
      text = (ls.map (· ++ ['\n'])).flatten := by
  constructor
  · intro h
    refine ⟨(splitLines [] text).map stripComment, ?_, ?_, h.symm.trans (removeComments_eq text)⟩
    · intro l hl c hc
      obtain ⟨m, hm, rfl⟩ := List.mem_map.1 hl
      exact lines_plain (lines_exist text) m hm c ((uncommented_sublist (stripComment_spec m)).subset hc)
    · intro l hl
      obtain ⟨m, _, rfl⟩ := List.mem_map.1 hl
      exact uncommented_clean (stripComment_spec m)
  · rintro ⟨ls, h1, h2, rfl⟩
    exact C34_kept_partial h1 h2

example : removeComments "A ::= - INTEGER\n\nB".toList ≠ "A ::= - INTEGER\n\nB".toList ∧
    removeComments "A ::= - INTEGER\n\n".toList = "A ::= - INTEGER\n\n".toList := by
  constructor <;> decide +kernel

end Verif.Props
