import Verif.Props.Parse
/-!
# Schemas that the parser refuses or misreads
-/
namespace Verif.Props.Findings

open Verif Spec Parse

def failure {α : Type} : Except PErr α → Option PErr
  | .ok _ => none
  | .error e => some e

/-- The parts of `OCTET STRING`, `AUTOMATIC TAGS`, ... are items of their own. -/
def words (items : List String) : List String :=
  items.flatMap fun l =>
    if l = "OCTET STRING" then ["OCTET", "STRING"]
    else if l = "BIT STRING" then ["BIT", "STRING"]
    else if l = "SEQUENCE OF" then ["SEQUENCE", "OF"]
    else if l = "AUTOMATIC TAGS" then ["AUTOMATIC", "TAGS"]
    else [l]

/-- F60: `OCTET  STRING` is not recognised with two spaces, nor with a line end in it; likewise the other three. -/
theorem C52_one_space : ∃ name tags as text, (UpperName name ∧ Ends name) ∧ (∀ a ∈ as, WritableAssign a) ∧
    Laid (words (moduleItems name tags as)) text ∧ failure (parseModule text) = some .noMatch := by
  refine ⟨"M", false, [.type "A" (.simple .octetString none)], "M DEFINITIONS ::= BEGIN A ::= OCTET  STRING END".toList,
    ⟨upper_of (by decide) (by decide), by unfold Ends; decide⟩, ?_, laid_of (by decide +kernel), by decide +kernel⟩
  intro a ha
  rw [List.mem_singleton.1 ha]
  refine ⟨⟨upper_of (by decide) (by decide), by unfold Ends; decide, by decide⟩, ?_⟩
  unfold Writable
  trivial

/-- The text between `BEGIN` and `END`. -/
def moduleText (s : String) : List Char := ("M DEFINITIONS ::= BEGIN " ++ s ++ " END").toList

def parsed (s : String) : Except PErr (List Assign) := parseModule (moduleText s)

/-- The name `x` in the module compiled from the text. -/
def compiledAs (s x : String) : Except PErr (Option PyObj) := compiledText (moduleText s) x

/-- F61: an intersection of three. -/
theorem C52_three : failure (parsed "A ::= INTEGER (1..9 ^ 2..8 ^ 3..7)") = some .noMatch := by decide +kernel

/-- F62: `|` can be left out; without it `(1 7)` is `(1..7)`. -/
theorem C52_no_bar : compiledAs "A ::= INTEGER (1 7)" "A" = .ok (some (.cls (.integer (.valueRange (some 1) (some 7) false)))) := by
  decide +kernel

/-- F63: the constraint of the elements becomes the size.  That of a type that is not referenced stays with the elements
(`C52_parsed_partial`). -/
theorem C52_element_constraint : compiledAs "B ::= INTEGER A ::= SEQUENCE OF B (0..3)" "A" =
    .ok (some (.cls (.seqOf ⟨false, some 0, some 3⟩ (.integer .noConstraint)))) := by decide +kernel

/-- F64: elsewhere referenced types cannot be constrained, nor any type twice. -/
theorem C52_constrained_reference : failure (parsed "A ::= B (0..3)") = some .noMatch ∧
    failure (parsed "A ::= SEQUENCE { a B (0..3) }") = some .noMatch ∧
    failure (parsed "A ::= INTEGER (0..9) (0..3)") = some .noMatch := by decide +kernel

/-- F65: `SEQUENCE SIZE (1..5) OF` without parentheses around it. -/
theorem C52_size_of : failure (parsed "A ::= SEQUENCE SIZE (1..5) OF B") = some .noMatch := by decide +kernel

/-- F66: a component with `DEFAULT {}` is mandatory. -/
theorem C52_default_empty : compiledAs "B ::= SEQUENCE { a INTEGER OPTIONAL } A ::= SEQUENCE { x B DEFAULT {} }" "A" =
    .ok (some (.cls (.sequence false (.cons "x" .mandatory
      (.sequence false (.cons "a" .optional (.integer .noConstraint) .nil) .nil .nil) .nil) .nil .nil))) := by decide +kernel

/-- F67: the value is whatever comes after `EXCEPT`, as if it were the upper end. -/
theorem C52_except : compiledAs "A ::= INTEGER (1..9 EXCEPT 5)" "A" =
    .ok (some (.cls (.integer (.valueRange (some 1) (some 5) false)))) := by decide +kernel

/-- F68: a second `SIZE` is not seen. -/
theorem C52_second_size : compiledAs "A ::= OCTET STRING (SIZE(1..9) ^ SIZE(2..5))" "A" =
    .ok (some (.cls (.octetString ⟨false, some 1, some 9⟩))) := by decide +kernel

/-- F69: `INTEGER (SIZE(1..5))` is `INTEGER (1..5)` and `OCTET STRING (1..5)` is `OCTET STRING (SIZE(1..5))`. -/
theorem C52_kind : compiledAs "A ::= INTEGER (SIZE(1..5))" "A" =
      .ok (some (.cls (.integer (.valueRange (some 1) (some 5) false)))) ∧
    compiledAs "A ::= OCTET STRING (1..5)" "A" = .ok (some (.cls (.octetString ⟨false, some 1, some 5⟩))) := by decide +kernel

/-- F70: `NULL`, tags, `SEQUENCE OF` with a name, groups with a version number are in the grammar, but have no
class. -/
theorem C52_attribute : failure (parsed "A ::= NULL") = some (.raised .attributeError) ∧
    failure (parsed "A ::= [0] B") = some (.raised .attributeError) ∧
    failure (parsed "A ::= SEQUENCE OF x B") = some (.raised .attributeError) ∧
    failure (parsed "A ::= SEQUENCE { ..., [[ 2: x B ]] }") = some (.raised .attributeError) := by decide +kernel

/-- F71: parentheses in a constraint. -/
theorem C52_parentheses : failure (parsed "A ::= INTEGER ((1..5))") = some (.raised .typeError) := by decide +kernel

/-- F72: names of numbers are not kept, so that they cannot be used. -/
theorem C52_named_number : failure (compiledAs "A ::= INTEGER { one(1) } B ::= SEQUENCE { x A DEFAULT one }" "B") =
    some (.raised .nameError) := by decide +kernel

/-- F73: the constraint of the type of a value is not kept: `a` is not in its type. -/
theorem C52_value_constraint : compiledAs "a INTEGER (0..5) ::= 7" "a" =
    .ok (some (.val (.integer .noConstraint) (.int 7))) := by decide +kernel

/-- F74: keywords need no space behind them, and what follows `END` is not looked at. -/
theorem C52_end : (parseModule "M DEFINITIONSAUTOMATIC TAGS::=BEGINA ::= B ENDED C ::= D".toList).toOption.map (·.map assignItems) =
    some [["A", "::=", "B"]] := by decide +kernel

/-- F75: a comment that ends on its line hides the rest of it. -/
theorem C53_inner_comment : compiledAs "A ::= SEQUENCE { a INTEGER -- first --, b BOOLEAN\n}" "A" =
    .ok (some (.cls (.sequence false (.cons "a" .mandatory (.integer .noConstraint) .nil) .nil .nil))) := by decide +kernel

/-- F76: `IMPORTS`, `EXPORTS`, other ways of tagging, the identification of the module, `EXTENSIBILITY IMPLIED`. -/
theorem C52_header : failure (parsed "IMPORTS B FROM N; A ::= B") = some .noMatch ∧
    failure (parsed "EXPORTS ALL; A ::= INTEGER") = some .noMatch ∧
    failure (parseModule "M DEFINITIONS IMPLICIT TAGS ::= BEGIN END".toList) = some .noMatch ∧
    failure (parseModule "M {1 2 3} DEFINITIONS ::= BEGIN END".toList) = some .noMatch ∧
    failure (parseModule "M DEFINITIONS EXTENSIBILITY IMPLIED ::= BEGIN END".toList) = some .noMatch := by decide +kernel

end Verif.Props.Findings
