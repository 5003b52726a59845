import Verif.Lemmas.PyParse
/-!
# The statements of a generated module
-/
namespace Verif.Python
open Jinja (renderNode renderNodes Value)

/-! ## statements that are not classes -/

def StmtGood : Stmt → Prop
  | .cls c => CodeGood c
  | .alias n m => Nm n ∧ Nm m
  | .value n m e => Nm n ∧ Nm m ∧ ExprGood e

theorem alias_text (n m : String) : IsText (Render.stmtText (.alias n m)) (stmtLines (.alias n m)) := by
  refine IsText.of_render ?_
  rw [Render.stmtText, Jinja.fill_eq alias_template]
  unfold aliasNodes
  rw [render_cons (render_var (s := n.toList) rfl) (render_cons (render_text _ _) (render_cons (render_var (s := m.toList) rfl)
    (render_cons (render_text _ _) (render_nil _))))]
  simp [Piece.text]

theorem value_text (n m : String) {e : Expr} (h : ExprGood e) :
    IsText (Render.stmtText (.value n m e)) (stmtLines (.value n m e)) := by
  refine IsText.of_render ?_
  rw [Render.stmtText, exprText_eq h, Option.bind_eq_bind, Option.bind_some, Jinja.fill_eq value_template]
  unfold valueNodes
  rw [render_cons (render_var (s := n.toList) rfl) (render_cons (render_text _ _) (render_cons (render_var (s := m.toList) rfl)
    (render_cons (render_text _ _) (render_cons (render_var (s := textOf (exprPieces e)) rfl)
      (render_cons (render_text _ _) (render_nil _))))))]
  simp [Piece.text]

theorem stmtText_is (s : Stmt) (h : StmtGood s) : IsText (Render.stmtText s) (stmtLines s) := by
  cases s with
  | cls c => exact codeText_is c h
  | alias n m => exact alias_text n m
  | value n m e => exact value_text n m h.2.2

theorem whole_stmt (s : Stmt) (h : StmtGood s) : Wholes (stmtLines s) := by
  cases s with
  | cls c => exact whole_code c h
  | alias n m =>
    intro l hl
    rw [stmtLines, List.mem_singleton] at hl
    subst hl
    exact ⟨good_set h.1.1 (goods_name h.2.1 goods_nil), apart_set _ (by simp [Apart]), by simp [setTo]⟩
  | value n m e =>
    intro l hl
    rw [stmtLines, List.mem_singleton] at hl
    subst hl
    refine ⟨good_set h.1.1 (goods_append (goods_name h.2.1.1 (goods_op (by decide) goods_nil))
      (goods_append (good_expr h.2.2) (goods_op (by decide) goods_nil))),
      apart_set _ ⟨next_op (by decide) _, ?_⟩, by simp [setTo]⟩
    exact apart_append (apart_expr e) (b := [.op ')']) trivial (next_op (by decide) _)

def stmtLog : Stmt → List Line
  | .cls c => codeLog 0 c
  | .alias n m => [(0, [.name n, .op '=', .name m])]
  | .value n m e => [(0, .name n :: .op '=' :: .name m :: .op '(' :: (toksOf (exprPieces e) ++ [.op ')']))]

theorem joins_stmt (s : Stmt) : Joins (readAt 0 (stmtLines s)) (stmtLog s) := by
  cases s with
  | cls c => exact joins_code 0 c
  | alias n m => exact joins_one (by simp [setTo, shift]) (by simp [setTo, shift, backslash]) (by simp [setTo, shift, depth])
  | value n m e =>
    have e1 : readAt 0 (stmtLines (.value n m e)) =
        [(0, toksOf (setTo n ++ ([.name m, .op '('] ++ (exprPieces e ++ [.op ')']))))] := rfl
    have e2 : toksOf (setTo n ++ ([.name m, .op '('] ++ (exprPieces e ++ [.op ')']))) =
        .name n :: .op '=' :: .name m :: .op '(' :: (toksOf (exprPieces e) ++ [.op ')']) := by
      simp [setTo, toks_append]
    rw [e1, e2]
    refine joins_one (by simp) ?_ ?_
    · exact backslash_append (.name n :: .op '=' :: .name m :: .op '(' :: toksOf (exprPieces e)) _ (by decide)
    · simp [depth, depth_append, depth_expr]

theorem seg_stmt (s : Stmt) (h : StmtGood s) : Seg 0 (stmtLog s) [stmtAst s] := by
  cases s with
  | cls c => exact seg_code 0 c h
  | alias n m => exact seg_line (parseLine_assign h.1.2 (usable_nm h.2).reads)
  | value n m e => exact seg_line (parseLine_assign h.1.2 (unary_call h.2.1.2 (args_expr h.2.2) (ordered_expr e)).reads)

/-! ## lines of the module -/

/-- Lines, each before a line end. -/
def closed (ls : List (List Char)) : List Char := ls.flatMap (· ++ ['\n'])

theorem splitBy_closed (ls : List (List Char)) (h : ∀ l ∈ ls, ∀ c ∈ l, c ≠ '\n') (t : List Char) :
    Jinja.splitBy Jinja.isLineEnd (closed ls ++ t) = ls ++ Jinja.splitBy Jinja.isLineEnd t := by
  induction ls with
  | nil => rfl
  | cons l ls ih =>
    have : closed (l :: ls) ++ t = l ++ '\n' :: (closed ls ++ t) := by simp [closed]
    rw [this, splitBy_line _ _ (h l (by simp)), ih fun x hx => h x (by simp [hx])]
    rfl

theorem closed_body (ls : List SLine) : '\n' :: closed (ls.map lineText) = body ls ++ ['\n'] := by
  induction ls with
  | nil => rfl
  | cons l ls ih =>
    have e : closed ((l :: ls).map lineText) = lineText l ++ '\n' :: closed (ls.map lineText) := by simp [closed]
    rw [e, ih, body_cons]
    simp

theorem IsText.closed {t : Option (List Char)} {ls : List SLine} (h : IsText t ls) :
    t = some (closed ((ls ++ [(0, []), (0, [])]).map lineText)) := by
  obtain ⟨s, rfl, e⟩ := h
  congr 1
  have := closed_body (ls ++ [(0, []), (0, [])])
  rw [body_append] at this
  have h2 : body ls ++ body [(0, []), (0, [])] ++ ['\n'] = body ls ++ ends := by
    simp [body, lineText, ends]
  rw [h2, ← e] at this
  injection this with _ this
  exact this.symm

/-- The lines of the statements. -/
def stmtsLines (prog : List Stmt) : List SLine := prog.flatMap fun s => stmtLines s ++ [(0, []), (0, [])]

theorem stmtsText_is (prog : List Stmt) (h : ∀ s ∈ prog, StmtGood s) :
    Render.stmtsText prog = some (closed ((stmtsLines prog).map lineText)) := by
  induction prog with
  | nil => rfl
  | cons s prog ih =>
    rw [Render.stmtsText, (stmtText_is s (h s (by simp))).closed, ih fun x hx => h x (by simp [hx])]
    simp [stmtsLines, Python.closed]

theorem whole_stmts (prog : List Stmt) (h : ∀ s ∈ prog, StmtGood s) : Wholes (stmtsLines prog) := by
  intro l hl
  obtain ⟨s, hs, hl⟩ := List.mem_flatMap.1 hl
  rcases List.mem_append.1 hl with hl | hl
  · exact whole_stmt s (h s hs) l hl
  · have : l = (0, []) := by simpa using hl
    subst this
    exact ⟨goods_nil, trivial, by simp⟩

theorem tokLine_read (ls : List SLine) : ls.map tokLine = readAt 0 ls := rfl

theorem joins_stmts (prog : List Stmt) : Joins (readAt 0 (stmtsLines prog)) (prog.flatMap stmtLog) := by
  induction prog with
  | nil => exact joins_nil
  | cons s prog ih =>
    have : stmtsLines (s :: prog) = stmtLines s ++ ((0, []) :: (0, []) :: stmtsLines prog) := by simp [stmtsLines]
    rw [this, readAt_append, readAt_blank, readAt_blank, List.flatMap_cons]
    exact joins_append (joins_stmt s) (joins_cons (x := []) (joins_blank 0) (joins_cons (x := []) (joins_blank 0) ih))

theorem seg_stmts (prog : List Stmt) (h : ∀ s ∈ prog, StmtGood s) : Seg 0 (prog.flatMap stmtLog) (prog.map stmtAst) := by
  induction prog with
  | nil => exact seg_nil 0
  | cons s prog ih => exact seg_append (seg_stmt s (h s (by simp))) (ih fun x hx => h x (by simp [hx]))

/-! ## the header -/

def headLines : List (List Char) :=
  ["from pyasn1.type.namedtype import NamedType, NamedTypes, OptionalNamedType, DefaultedNamedType".toList,
   "from pyasn1.type.namedval import NamedValues".toList,
   "from asn1PERser.classes.data.builtin import *".toList,
   "from asn1PERser.classes.types.type import AdditiveNamedTypes".toList,
   "from asn1PERser.classes.types.constraint import MIN, MAX, NoConstraint, ExtensionMarker, SequenceOfValueSize, \\".toList,
   "    ValueRange, SingleValue, ValueSize, ConstraintOr, ConstraintAnd".toList, [], []]

theorem header_template : Jinja.isTemplate "header.txt" [.text (closed headLines)] = true := by decide +kernel

/-- Tokens of an import. -/
def dotted : List String → List Tok
  | [] => []
  | [x] => [.name x]
  | x :: r => .name x :: .op '.' :: dotted r

def commas : List String → List Tok
  | [] => []
  | [x] => [.name x]
  | x :: r => .name x :: .op ',' :: commas r

def importToks (m ns : List String) : List Tok := .name "from" :: (dotted m ++ .name "import" :: commas ns)

def constraintNames : List String :=
  ["MIN", "MAX", "NoConstraint", "ExtensionMarker", "SequenceOfValueSize", "ValueRange", "SingleValue", "ValueSize",
   "ConstraintOr", "ConstraintAnd"]

def headLog : List Line :=
  [(0, importToks ["pyasn1", "type", "namedtype"] ["NamedType", "NamedTypes", "OptionalNamedType", "DefaultedNamedType"]),
   (0, importToks ["pyasn1", "type", "namedval"] ["NamedValues"]),
   (0, .name "from" :: (dotted ["asn1PERser", "classes", "data", "builtin"] ++ [.name "import", .op '*'])),
   (0, importToks ["asn1PERser", "classes", "types", "type"] ["AdditiveNamedTypes"]),
   (0, importToks ["asn1PERser", "classes", "types", "constraint"] constraintNames)]

def headAst : List PStmt :=
  [.importNames ["pyasn1", "type", "namedtype"] ["NamedType", "NamedTypes", "OptionalNamedType", "DefaultedNamedType"],
   .importNames ["pyasn1", "type", "namedval"] ["NamedValues"],
   .importAll ["asn1PERser", "classes", "data", "builtin"],
   .importNames ["asn1PERser", "classes", "types", "type"] ["AdditiveNamedTypes"],
   .importNames ["asn1PERser", "classes", "types", "constraint"] constraintNames]

/-- The lines of the header as they are read. -/
def headPhysical : List Line :=
  headLog.take 4 ++ [(0, importToks ["asn1PERser", "classes", "types", "constraint"]
      ["MIN", "MAX", "NoConstraint", "ExtensionMarker", "SequenceOfValueSize"] ++ [.op ',', .op '\\']),
    (4, commas ["ValueRange", "SingleValue", "ValueSize", "ConstraintOr", "ConstraintAnd"]), (0, []), (0, [])]

theorem head_physical : headLines.mapM physical = some headPhysical := by decide +kernel

theorem joins_backslash {i j : Nat} {t t' : List Tok} (hn : t ≠ []) (hb : backslash t = true) (hd : depth 0 t.dropLast = some 0)
    (hb' : backslash t' = false) (hd' : depth 0 t' = some 0) : Joins [(i, t), (j, t')] [(i, t.dropLast ++ t')] := by
  intro r
  rw [List.cons_append, logical]
  simp only [List.isEmpty_iff, hn, if_false]
  unfold joinLine
  simp only [hb, hd, if_true, Option.bind_eq_bind, Option.bind_some, Bool.not_true, Bool.and_false, Bool.false_eq_true, if_false]
  rw [List.singleton_append, logical_last hb' hd']
  rfl

theorem joins_head : Joins headPhysical headLog := by
  have h1 : Joins (headLog.take 4) (headLog.take 4) :=
    joins_cons (x := [_]) (joins_one (by decide) (by decide) (by decide)) (joins_cons (x := [_]) (joins_one (by decide) (by decide)
      (by decide)) (joins_cons (x := [_]) (joins_one (by decide) (by decide) (by decide))
        (joins_one (by decide) (by decide) (by decide))))
  refine joins_append h1 (joins_append (a := [_, _]) (x := headLog.drop 4) (y := []) ?_
    (joins_cons (x := []) (joins_blank 0) (joins_blank 0)))
  exact joins_backslash (by decide) (by decide) (by decide) (by decide) (by decide)

theorem seg_head : Seg 0 headLog headAst :=
  seg_cons rfl (seg_cons rfl (seg_cons rfl (seg_cons rfl (seg_line rfl))))

theorem parse_module (prog : List Stmt) (h : ∀ s ∈ prog, StmtGood s) :
    ∃ text, Render.moduleText prog = some text ∧ parse text = some (headAst ++ prog.map stmtAst) := by
  refine ⟨closed (headLines ++ (stmtsLines prog).map lineText), ?_, ?_⟩
  · rw [Render.moduleText, Jinja.fill_eq header_template, stmtsText_is prog h, render_cons (render_text _ _) (render_nil _)]
    simp [closed]
  · have hp : physicals (closed (headLines ++ (stmtsLines prog).map lineText)) =
        some (headPhysical ++ (readAt 0 (stmtsLines prog) ++ [(0, [])])) := by
      unfold physicals
      have := splitBy_closed (headLines ++ (stmtsLines prog).map lineText) ?_ []
      · rw [List.append_nil, splitBy_nil] at this
        rw [this, List.append_assoc, List.mapM_append, head_physical, List.mapM_append,
          physicals_lines _ (whole_stmts prog h)]
        rfl
      · intro l hl
        rcases List.mem_append.1 hl with hl | hl
        · exact (by decide +kernel : ∀ l ∈ headLines, ∀ c ∈ l, c ≠ '\n') l hl
        · obtain ⟨x, hx, rfl⟩ := List.mem_map.1 hl
          exact (whole_stmts prog h x hx).1.no_line
    have hl : logical none (headPhysical ++ (readAt 0 (stmtsLines prog) ++ [(0, [])])) = some (headLog ++ prog.flatMap stmtLog) := by
      have := joins_append joins_head (joins_append (joins_stmts prog) (joins_blank 0)) []
      simpa [logical] using this
    have hb : Block 0 (headLog ++ prog.flatMap stmtLog) (headAst ++ prog.map stmtAst) [] := by
      have := (seg_append seg_head (seg_stmts prog h)).2 [] [] [] (headLe_nil 0) (block_nil 0)
      simpa using this
    unfold parse
    rw [hp]
    simp only [Option.bind_eq_bind, Option.bind_some]
    rw [hl]
    simp only [Option.bind_some]
    rw [hb _ (by omega)]
    rfl

end Verif.Python
