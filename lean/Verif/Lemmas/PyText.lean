import Verif.Lemmas.PyRender
/-!
# The text of a class, line by line
-/
namespace Verif.Python
open Jinja (renderNode renderNodes Value)

/-! ### lists of components -/

theorem truthy_list {α : Type} (l : List α) (f : α → Value) : (Value.list (l.map f)).truthy = !l.isEmpty := by
  cases l <;> rfl

theorem render_add {env : Jinja.Vars} {l : String} {add : List NT} {val : NT → Value} {ns : List Jinja.Node} {i j : Nat}
    (h : env.lookup l = some (.list (add.map val)))
    (hf : ∀ nt ∈ add, renderNodes (("named_type", val nt) :: env) ns = some (body [ntLine i j nt])) :
    renderNode env (addNode l ns) = some (body (if add.isEmpty then [] else
      (4, setTo "extensionAddition" ++ [.name "AdditiveNamedTypes", .op '(']) ::
        (add.map (ntLine i j) ++ [(4, [.op ')'])]))) := by
  unfold addNode
  rw [render_cond (eval_path h), truthy_list]
  cases he : add.isEmpty with
  | true => simp [render_nil]
  | false =>
    simp only [Bool.not_false, if_true, Bool.false_eq_true, if_false, addText]
    rw [render_cons (render_text _ _) (render_cons (render_each (eval_path h) hf) (render_cons (render_text _ _) (render_nil _))),
      flatMap_line]
    simp [ln, lineText, setTo]

theorem render_groups {env : Jinja.Vars} {groups : List (List NT)} {val : NT → Value} {ns : List Jinja.Node}
    (h : env.lookup "extension_addition_groups" = some (.list (groups.map fun g => .list (g.map val))))
    (hf : ∀ g ∈ groups, ∀ nt ∈ g, ∀ env', renderNodes (("named_type", val nt) :: env') ns = some (body [ntLine 12 16 nt])) :
    renderNode env (groupsNode ns) = some (body (if groups.isEmpty then [] else
      (4, setTo "extensionAdditionGroups" ++ [.op '[']) :: (groups.flatMap groupLines ++ [(4, [.op ']'])]))) := by
  unfold groupsNode
  rw [render_cond (eval_path h), truthy_list]
  cases he : groups.isEmpty with
  | true => simp [render_nil]
  | false =>
    simp only [Bool.not_false, if_true, Bool.false_eq_true, if_false]
    rw [render_cons (render_text _ _) (render_cons (render_each (eval_path h) (f := fun g => body (groupLines g)) ?_)
      (render_cons (render_text _ _) (render_nil _))), flatMap_body]
    · simp [ln, lineText, setTo]
    · intro g hg
      have hl : List.lookup "extenion_addition_group" (("extenion_addition_group", Value.list (g.map val)) :: env) =
          some (.list (g.map val)) := by simp [List.lookup]
      rw [render_cons (render_text _ _) (render_cons (render_each (eval_path hl) fun nt hn => hf g hg nt hn _)
        (render_cons (render_text _ _) (render_nil _))), flatMap_line]
      simp [ln, lineText, groupLines]

theorem render_sums {env : Jinja.Vars} {l : String} {A G : Value} {a g : Bool} (h : env.lookup l = some A)
    (h' : env.lookup "extension_addition_groups" = some G) (t : A.truthy = !a) (t' : G.truthy = !g) :
    renderNode env (sumNode l) = some (body [(4, setTo "componentType" ++ (.name "rootComponent" ::
      ((if a then [] else plusPieces "extensionAddition") ++
       (if g then [] else plusPieces "extensionAdditionGroups"))))]) := by
  have e := eval_path h
  have e' := eval_path h'
  have one : ∀ ps : List Piece, renderNodes env [sumText ps] =
      some (body [(4, setTo "componentType" ++ (.name "rootComponent" :: ps))]) := by
    intro ps
    unfold sumText
    rw [render_cons (render_text _ _) (render_nil _)]
    simp [ln, lineText, setTo]
  have n : (Jinja.Expr.not (.path l [])).eval env = some (.bool a) := by
    rw [Jinja.Expr.eval, e]; simp [t]
  have n' : (Jinja.Expr.not (.path "extension_addition_groups" [])).eval env = some (.bool g) := by
    rw [Jinja.Expr.eval, e']; simp [t']
  have tb : ∀ b, (Value.bool b).truthy = b := fun _ => rfl
  have and_eval : ∀ {x y : Jinja.Expr} {v w : Value}, x.eval env = some v → y.eval env = some w →
      (Jinja.Expr.and x y).eval env = some (if v.truthy then w else v) := by
    intro x y v w hx hy
    rw [Jinja.Expr.eval, hx]
    simp only [Option.bind_eq_bind, Option.bind_some, Option.pure_def]
    split <;> simp [hy]
  unfold sumNode
  rw [render_cond (and_eval n n')]
  cases a <;> cases g <;>
    simp only [tb, if_true, Bool.false_eq_true, if_false, List.append_nil, List.nil_append, one, Bool.not_true, Bool.not_false] at t t' ⊢
  · rw [render_cons (b := []) ?_ (render_nil _), List.append_nil]
    rw [render_cond (and_eval e n')]
    simp only [t, tb, if_true, Bool.false_eq_true, if_false]
    rw [render_cons (b := []) ?_ (render_nil _), List.append_nil]
    rw [render_cond (and_eval n e')]
    simp only [tb, Bool.false_eq_true, if_false, one]
  · rw [render_cons (b := []) ?_ (render_nil _), List.append_nil]
    rw [render_cond (and_eval e n')]
    simp only [t, tb, if_true, one]
  · rw [render_cons (b := []) ?_ (render_nil _), List.append_nil]
    rw [render_cond (and_eval e n')]
    simp only [t, Bool.false_eq_true, if_false]
    rw [render_cons (b := []) ?_ (render_nil _), List.append_nil]
    rw [render_cond (and_eval n e')]
    simp only [tb, if_true, t', one]

theorem render_sum {env : Jinja.Vars} {l : String} {add : List NT} {groups : List (List NT)} {val : NT → Value}
    (h : env.lookup l = some (.list (add.map val)))
    (h' : env.lookup "extension_addition_groups" = some (.list (groups.map fun g => .list (g.map val)))) :
    renderNode env (sumNode l) = some (body [(4, setTo "componentType" ++ (.name "rootComponent" ::
      ((if add.isEmpty then [] else plusPieces "extensionAddition") ++
       (if groups.isEmpty then [] else plusPieces "extensionAdditionGroups"))))]) :=
  render_sums h h' (truthy_list _ _) (truthy_list _ _)

/-! ### classes -/

/-- A text of these lines. -/
def IsText (t : Option (List Char)) (ls : List SLine) : Prop := ∃ s, t = some s ∧ '\n' :: s = body ls ++ ends

theorem IsText.of_render {t : Option (List Char)} {p : Piece} {ps : List Piece} {ls : List SLine}
    (h : t = some (textOf (p :: ps) ++ (body ls ++ ends))) : IsText t ((0, p :: ps) :: ls) :=
  ⟨_, h, by simp [lineText]⟩

theorem render_subs {env : Jinja.Vars} {vs : List Value} {ls : List SLine} (h : env.lookup "subtemplates" = some (.list vs))
    (hv : vs.mapM (fun v => v.text.map ('\n' :: ·)) = some (ss)) (hb : ss.flatten = body ls) (hg : LinesGood ls) :
    renderNode env subNodes = some (body (ls.map (shift 4))) := by
  have : vs.mapM (fun v => renderNodes (("template", v) :: env) [.text ['\n'], var "template"]) = some ss := by
    rw [← hv]; congr; funext v
    have : List.lookup "template" (("template", v) :: env) = some v := by simp [List.lookup]
    simp only [renderNodes, renderNode, var, eval_path this, Option.bind_eq_bind, Option.bind_some, Option.pure_def]
    cases v.text <;> simp
  have e := eval_path h
  have : renderNode env (.loop "template" (.path "subtemplates" []) [.text ['\n'], var "template"]) = some (body ls) := by
    simp [renderNode, e, this, hb]
  unfold subNodes
  rw [renderNode, render_cons this (render_nil _), List.append_nil]
  simp [indent_body ls hg]

/-- The lines of nested classes before they are indented. -/
def flatLines : Codes → List SLine
  | .nil => []
  | .cons c r => codeLines c ++ ((0, []) :: flatLines r)

theorem body_flat (c : Codes) : body ((flatLines c).map (shift 4)) = body (codesLines c) := by
  match c with
  | .nil => rfl
  | .cons c r =>
    simp only [flatLines, codesLines, List.map_append, List.map_cons, body_append, body_cons, body_flat r]
    rfl

theorem flat_good : ∀ c : Codes, CodesGood c → LinesGood (flatLines c)
  | .nil, _ => lines_nil
  | .cons c r, h => lines_append (codeLines_good c h.1) (lines_cons goods_nil (flat_good r h.2))

theorem take_ends (t : List Char) (s : List Char) (h : '\n' :: t = s ++ ends) :
    '\n' :: t.take (t.length - 2) = s ++ ['\n'] := by
  have hl : t.length + 1 = s.length + 3 := by simpa [ends] using congrArg List.length h
  have : '\n' :: t.take (t.length - 2) = ('\n' :: t).take (s.length + 1) := by
    rw [List.take_succ_cons]; congr 2; omega
  rw [this, h]
  simp [ends, List.take_append, List.take_of_length_le]

theorem fill_simple {name x b f : String} {spec : Option CTuple} (ht : Jinja.isTemplate name (simpleNodes f) = true)
    (hg : SpecGood spec) :
    IsText (Render.fill name [("class_name", Render.str x), ("class_type", Render.str b),
      ("constraint", Render.constraintValue spec)]) ((0, classLine x b) :: specLines f spec) := by
  refine IsText.of_render ?_
  rw [Jinja.fill_eq ht]
  unfold simpleNodes
  rw [render_append (render_class rfl rfl) (render_cons (render_spec (spec := spec) rfl hg f
    (render_cons (render_text _ _) (render_nil _))) (render_cons (render_text _ _) (render_nil _)))]
  cases spec <;> simp [specLines, ln, lineText, classLine]

theorem mapM_ntValue {l : List NT} (h : ∀ nt ∈ l, NTGood nt) :
    l.mapM Render.ntValue = some (l.map fun nt => (Render.ntValue nt).getD .undefined) := by
  induction l with
  | nil => rfl
  | cons nt l ih =>
    obtain ⟨v, hv⟩ := ntValue_some (h nt (by simp))
    rw [List.mapM_cons, ih fun x hx => h x (by simp [hx])]
    simp [hv]

theorem mapM_groups {l : List (List NT)} (h : ∀ g ∈ l, ∀ nt ∈ g, NTGood nt) :
    l.mapM (fun g => g.mapM Render.ntValue) =
      some (l.map fun g => g.map fun nt => (Render.ntValue nt).getD .undefined) := by
  induction l with
  | nil => rfl
  | cons g l ih =>
    rw [List.mapM_cons, ih fun x hx => h x (by simp [hx]), mapM_ntValue (h g (by simp))]
    simp

theorem render_nt_val {env : Jinja.Vars} {nt : NT} (h : NTGood nt) (i j : Nat) :
    renderNodes (("named_type", (Render.ntValue nt).getD .undefined) :: env) [ntNode i j] = some (body [ntLine i j nt]) := by
  obtain ⟨v, hv⟩ := ntValue_some h
  exact render_nt i j h hv (by simp [List.lookup, hv])

theorem render_alt {env : Jinja.Vars} {nt : NT} (h : nt.kind = .mandatory) (i j : Nat) :
    renderNodes (("named_type", Render.altValue nt) :: env) (plainNodes "NamedType" i) = some (body [ntLine i j nt]) := by
  rw [render_plain (nt := nt) (d := [("field_name", Render.str nt.name), ("field_type", Render.str nt.fieldType)]) _ _
    (by simp [List.lookup, Render.altValue]) rfl rfl]
  simp [ntLine, h]

theorem render_altNode {env : Jinja.Vars} {nt : NT} (h : nt.kind = .mandatory) :
    renderNodes (("named_type", Render.altValue nt) :: env) [altNode] = some (body [ntLine 12 16 nt]) := by
  have hl : List.lookup "named_type" (("named_type", Render.altValue nt) :: env) =
      some (.dict [("field_name", Render.str nt.name), ("field_type", Render.str nt.fieldType)]) := by
    simp [List.lookup, Render.altValue]
  rw [← List.append_nil (body [ntLine 12 16 nt])]
  refine render_cons ?_ (render_nil _)
  unfold altNode
  rw [render_cond (v := .undefined) (by rw [eval_attr hl]; rfl)]
  simp only [Value.truthy, Bool.false_eq_true, if_false]
  rw [← List.append_nil (body [ntLine 12 16 nt])]
  refine render_cons ?_ (render_nil _)
  rw [render_cond (v := .undefined) (by rw [eval_attr hl]; rfl)]
  simp only [Value.truthy, Bool.false_eq_true, if_false]
  exact render_alt h 12 16

theorem render_root (env : Jinja.Vars) : renderNode env rootText =
    some (ln 4 (setTo "rootComponent" ++ [.name "AdditiveNamedTypes", .op '('])) := render_text _ _

theorem boolean_text (x : String) (spec : Option CTuple) :
    IsText (Render.codeText (.simple x .boolean spec)) (codeLines (.simple x .boolean spec)) := by
  refine IsText.of_render ?_
  rw [Render.codeText, Jinja.fill_eq boolean_template]
  unfold booleanNodes
  rw [render_cons (render_text _ _) (render_cons (render_var (s := x.toList) rfl) (render_cons (render_text _ _)
    (render_cons (render_var (s := "BooleanType".toList) rfl) (render_cons (render_text _ _) (render_nil _)))))]
  simp [shown, specLines, Simple.cls, Piece.text, ln, lineText]

theorem enum_text (x : String) (marker : Bool) (root add : List (String × Int)) :
    IsText (Render.codeText (.enumerated x marker root add)) (codeLines (.enumerated x marker root add)) := by
  refine IsText.of_render ?_
  rw [Render.codeText, Jinja.fill_eq enum_template]
  unfold enumNodes
  rw [render_append (render_class rfl rfl) (render_cons (render_marker rfl) (render_cons (render_text _ _)
    (render_cons (render_items (items := root) rfl) (render_cons (render_text _ _) (render_cons
    (a := body (if add.isEmpty then [] else
      (4, setTo "extensionAddition" ++ [.name "NamedValues", .op '(']) :: (add.map itemLine ++ [(4, [.op ')'])]))) ?_
    (render_cons (a := body [(4, setTo "namedValues" ++ (.name "enumerationRoot" ::
      (if add.isEmpty then [] else plusPieces "extensionAddition")))]) ?_ (render_cons (render_text _ _) (render_nil _))))))))]
  · simp [ln, lineText, setTo, classLine]
  · rw [render_cond (eval_path (v := .list (add.map Render.itemValue)) rfl), truthy_list]
    cases add.isEmpty with
    | true => simp [render_nil]
    | false =>
      simp only [Bool.not_false, if_true, Bool.false_eq_true, if_false]
      rw [render_cons (render_text _ _) (render_cons (render_items (items := add) rfl) (render_cons (render_text _ _) (render_nil _)))]
      simp [ln, lineText, setTo]
  · rw [render_cond (v := .bool add.isEmpty) (by
      rw [Jinja.Expr.eval, eval_path (v := .list (add.map Render.itemValue)) rfl]; simp [truthy_list])]
    simp only [Value.truthy]
    cases add.isEmpty with
    | true =>
      simp only [if_true]
      rw [render_cons (render_text _ _) (render_nil _)]
      simp [ln, lineText, setTo]
    | false =>
      simp only [Bool.false_eq_true, if_false]
      rw [render_cons (render_text _ _) (render_nil _)]
      simp [ln, lineText, setTo, plusPieces]

theorem seqOf_text (x : String) (spec : Option CTuple) (f : String) (h : CodeGood (.seqOf x spec f)) :
    IsText (Render.codeText (.seqOf x spec f)) (codeLines (.seqOf x spec f)) := by
  refine IsText.of_render ?_
  rw [Render.codeText, Jinja.fill_eq seqOf_template]
  unfold seqOfNodes
  rw [render_append (render_class rfl rfl) (render_cons (render_spec (spec := spec) rfl h.2.1 _ (render_nil _))
    (render_cons (render_text _ _) (render_cons (render_var (s := f.toList) rfl) (render_cons (render_text _ _) (render_nil _)))))]
  cases spec <;> simp [ln, lineText, setTo, classLine, Piece.text]

/-- The text of nested classes. -/
def AreTexts (c : Codes) : Prop := ∃ vs ss, Render.codesTexts c = some vs ∧
    vs.mapM (fun v => v.text.map ('\n' :: ·)) = some ss ∧ ss.flatten = body (flatLines c)

theorem sequence_text (x : String) (subs : Codes) (marker : Bool) (root add : List NT) (groups : List (List NT))
    (h : CodeGood (.sequence x subs marker root add groups)) (hsub : AreTexts subs) :
    IsText (Render.codeText (.sequence x subs marker root add groups)) (codeLines (.sequence x subs marker root add groups)) := by
  obtain ⟨hx, hs, hr, ha, hg⟩ := h
  obtain ⟨vs, ss, h1, h2, h3⟩ := hsub
  refine IsText.of_render ?_
  rw [Render.codeText, h1, Option.bind_eq_bind, Option.bind_some, mapM_groups hg]
  repeat rw [Option.bind_eq_bind]
  rw [Option.bind_some]
  repeat rw [Option.bind_eq_bind]
  rw [mapM_ntValue hr, Option.bind_some]
  repeat rw [Option.bind_eq_bind]
  rw [mapM_ntValue ha, Option.bind_some]
  rw [Jinja.fill_eq sequence_template]
  unfold sequenceNodes
  rw [render_append (render_class rfl rfl) (render_cons (render_subs (vs := vs) rfl h2 h3 (flat_good subs hs)) (render_cons
    (render_marker rfl) (render_cons (render_root _) (render_cons
    (render_each (eval_path rfl) fun nt hn => render_nt_val (hr nt hn) 8 8) (render_cons (render_text _ _) (render_cons
    (render_add rfl fun nt hn => render_nt_val (ha nt hn) 8 12) (render_cons
    (render_groups (groups := groups) (val := fun nt => (Render.ntValue nt).getD .undefined) (by simp [List.lookup, List.map_map, Function.comp_def]) fun g hgm nt hn env' => render_nt_val (hg g hgm nt hn) 12 16)
    (render_cons (render_sum (groups := groups) (val := fun nt => (Render.ntValue nt).getD .undefined) rfl (by simp [List.lookup, List.map_map, Function.comp_def])) (render_cons (render_text _ _) (render_nil _)))))))))), flatMap_line,
    body_flat]
  simp [partsLines, ln, lineText, setTo, classLine]

theorem choice_text (x : String) (subs : Codes) (marker : Bool) (root add : List NT) (groups : List (List NT))
    (h : CodeGood (.choice x subs marker root add groups)) (hsub : AreTexts subs) :
    IsText (Render.codeText (.choice x subs marker root add groups)) (codeLines (.choice x subs marker root add groups)) := by
  obtain ⟨hx, hs, hr, ha, hg⟩ := h
  obtain ⟨vs, ss, h1, h2, h3⟩ := hsub
  refine IsText.of_render ?_
  rw [Render.codeText, h1, Option.bind_eq_bind, Option.bind_some]
  rw [Jinja.fill_eq choice_template]
  unfold choiceNodes
  rw [render_append (render_class rfl rfl) (render_cons (render_subs (vs := vs) rfl h2 h3 (flat_good subs hs)) (render_cons
    (render_marker rfl) (render_cons (render_root _) (render_cons
    (render_each (eval_path rfl) fun nt hn => render_alt (hr nt hn).2 8 8) (render_cons (render_text _ _) (render_cons
    (render_add rfl fun nt hn => render_alt (ha nt hn).2 8 12) (render_cons
    (render_groups rfl fun g hgm nt hn env' => render_altNode (hg g hgm nt hn).2)
    (render_cons (render_sum rfl rfl) (render_cons (render_text _ _) (render_nil _)))))))))), flatMap_line,
    body_flat]
  simp [partsLines, ln, lineText, setTo, classLine]

mutual
theorem codeText_is : ∀ c : Code, CodeGood c → IsText (Render.codeText c) (codeLines c)
  | .simple x .boolean spec, _ => boolean_text x spec
  | .simple x .integer spec, h => by
    have e : Simple.integer.cls ++ ".txt" = "IntegerType.txt" := by decide +kernel
    rw [Render.codeText, e]
    · exact fill_simple (f := "ValueRange") integer_template h.2
    · intro e; cases e
  | .simple x .octetString spec, h => by
    have e : Simple.octetString.cls ++ ".txt" = "OctetStringType.txt" := by decide +kernel
    rw [Render.codeText, e]
    · exact fill_simple (f := "ValueSize") octet_template h.2
    · intro e; cases e
  | .simple x .bitString spec, h => by
    have e : Simple.bitString.cls ++ ".txt" = "BitStringType.txt" := by decide +kernel
    rw [Render.codeText, e]
    · exact fill_simple (f := "ValueSize") bit_template h.2
    · intro e; cases e
  | .enumerated x marker root add, _ => enum_text x marker root add
  | .seqOf x spec f, h => seqOf_text x spec f h
  | .sequence x subs marker root add groups, h => sequence_text x subs marker root add groups h (codesTexts_is subs h.2.1)
  | .choice x subs marker root add groups, h => choice_text x subs marker root add groups h (codesTexts_is subs h.2.1)
theorem codesTexts_is : ∀ c : Codes, CodesGood c → AreTexts c
  | .nil, _ => ⟨[], [], by rw [Render.codesTexts], rfl, rfl⟩
  | .cons c r, h => by
    obtain ⟨t, h1, h2⟩ := codeText_is c h.1
    obtain ⟨vs, ss, h3, h4, h5⟩ := codesTexts_is r h.2
    refine ⟨.str (t.take (t.length - 2)) :: vs, ('\n' :: t.take (t.length - 2)) :: ss, ?_, ?_, ?_⟩
    · rw [Render.codesTexts, h1, h3]; rfl
    · rw [List.mapM_cons, h4]; rfl
    · rw [List.flatten_cons, take_ends t _ h2, h5]
      simp [flatLines, lineText]
end

end Verif.Python
