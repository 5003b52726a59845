import Verif.Props.Text
/-!
# Findings about the text that is generated
-/
namespace Verif.Props.Findings

open Verif Spec Parse

def schemaText (s : String) : List Char := ("M DEFINITIONS ::= BEGIN " ++ s ++ " END").toList

/-- F81: the grammar takes the dash U+2013 for a hyphen, but only hyphens are replaced; what is generated is not Python. -/
theorem C55_dash : compiledText (schemaText "A–B ::= INTEGER (0..7)") "A–B" =
      .ok (some (.cls (.integer (.valueRange (some 0) (some 7) false)))) ∧
    imports (schemaText "A–B ::= INTEGER (0..7)") "A–B" = .ok (.error .syntaxError) := by decide +kernel

/-- Running a text whose lines are given. -/
theorem run_lines {ls : List (List Char)} {L lg : List Python.Line} {ss : List Python.PStmt} (hn : ∀ l ∈ ls, ∀ c ∈ l, c ≠ '\n')
    (h1 : ls.mapM Python.physical = some L)
    (h2 : Python.logical none (Python.headPhysical ++ (L ++ [(0, [])])) = some lg)
    (h3 : Python.parseBlock (2 * lg.length + 1) 0 lg = some (ss, [])) :
    Python.run (Python.closed (Python.headLines ++ ls)) = Python.execAll [] ss := by
  have hp : Python.physicals (Python.closed (Python.headLines ++ ls)) = some (Python.headPhysical ++ (L ++ [(0, [])])) := by
    unfold Python.physicals
    have := Python.splitBy_closed (Python.headLines ++ ls) ?_ []
    · rw [List.append_nil, Python.splitBy_nil] at this
      rw [this, List.append_assoc, List.mapM_append, Python.head_physical, List.mapM_append, h1]
      rfl
    · intro l hl
      rcases List.mem_append.1 hl with hl | hl
      · exact (by decide +kernel : ∀ l ∈ Python.headLines, ∀ c ∈ l, c ≠ '\n') l hl
      · exact hn l hl
  unfold Python.run Python.parse
  rw [hp]
  simp only [Option.bind_eq_bind, Option.bind_some]
  rw [h2]
  simp only [Option.bind_some]
  rw [h3]
  rfl

/-- The lines that `a INTEGER ::= 9`, `b INTEGER ::= 2`, `a-b INTEGER ::= 8`, `T ::= INTEGER (0..a-b)` become. -/
def differenceLines : List (List Char) :=
  ["a = IntegerType(9)".toList, [], [], "b = IntegerType(2)".toList, [], [], "a_b = IntegerType(8)".toList, [], [],
   "class T(IntegerType):".toList, "    subtypeSpec = ValueRange(0, a-b)".toList, [], []]

/-- F82: the name of a value is not mangled where it is an end of a range; Python reads a subtraction.  Where it is defined
it is mangled.  So the range is `0..7` instead of `0..8`. -/
theorem C55_difference : ∃ py env,
    Render.pythonOf (schemaText "a INTEGER ::= 9 b INTEGER ::= 2 a-b INTEGER ::= 8 T ::= INTEGER (0..a-b)") = .ok (some py) ∧
    Python.run py = .ok env ∧ env.lookup "a_b" = some (.obj (.val (.integer .noConstraint) (.int 8))) ∧
    env.lookup "T" = some (.obj (.cls (.integer (.valueRange (some 0) (some 7) false)))) := by
  have h1 : Render.pythonOf (schemaText "a INTEGER ::= 9 b INTEGER ::= 2 a-b INTEGER ::= 8 T ::= INTEGER (0..a-b)") =
      .ok (some (Python.closed (Python.headLines ++ differenceLines))) := by decide +kernel
  refine ⟨_, Python.objs [("T", .cls (.integer (.valueRange (some 0) (some 7) false))), ("a_b", .val (.integer .noConstraint) (.int 8)),
    ("b", .val (.integer .noConstraint) (.int 2)), ("a", .val (.integer .noConstraint) (.int 9))] ++ Python.headEnv, h1, ?_, rfl, rfl⟩
  rw [run_lines (ls := differenceLines)
    (L := [(0, [.name "a", .op '=', .name "IntegerType", .op '(', .num 9, .op ')']), (0, []), (0, []),
      (0, [.name "b", .op '=', .name "IntegerType", .op '(', .num 2, .op ')']), (0, []), (0, []),
      (0, [.name "a_b", .op '=', .name "IntegerType", .op '(', .num 8, .op ')']), (0, []), (0, []),
      (0, [.name "class", .name "T", .op '(', .name "IntegerType", .op ')', .op ':']),
      (4, [.name "subtypeSpec", .op '=', .name "ValueRange", .op '(', .num 0, .op ',', .name "a", .op '-', .name "b", .op ')']),
      (0, []), (0, [])])
    (lg := Python.headLog ++ [(0, [.name "a", .op '=', .name "IntegerType", .op '(', .num 9, .op ')']),
      (0, [.name "b", .op '=', .name "IntegerType", .op '(', .num 2, .op ')']),
      (0, [.name "a_b", .op '=', .name "IntegerType", .op '(', .num 8, .op ')']),
      (0, [.name "class", .name "T", .op '(', .name "IntegerType", .op ')', .op ':']),
      (4, [.name "subtypeSpec", .op '=', .name "ValueRange", .op '(', .num 0, .op ',', .name "a", .op '-', .name "b", .op ')'])])
    (ss := Python.headAst ++ [.assign "a" (.call "IntegerType" [(none, .num 9)]), .assign "b" (.call "IntegerType" [(none, .num 2)]),
      .assign "a_b" (.call "IntegerType" [(none, .num 8)]), .cls "T" "IntegerType" [.assign "subtypeSpec"
        (.call "ValueRange" [(none, .num 0), (none, .sub (.name "a") (.name "b"))])]])
    (by decide +kernel) (by decide +kernel) (by decide +kernel) (by rfl)]
  rfl

end Verif.Props.Findings
