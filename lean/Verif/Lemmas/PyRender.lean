import Verif.Lemmas.PyTemplates
import Verif.Lemmas.ParseText
/-!
# What the templates give, line by line
-/
namespace Verif.Python
open Jinja (renderNode renderNodes Value)

/-- A name that can be used in Python. -/
def Nm (s : String) : Prop := Ident s ∧ usable s = true

def EndGood : End → Prop
  | .ref s => Nm s
  | _ => True

def SpecGood : Option CTuple → Prop
  | none => True
  | some c => EndGood c.lower ∧ EndGood c.upper

def ExprGood : Expr → Prop
  | .name s => Nm s
  | .str s => Quotable s.toList
  | .junk => False
  | _ => True

def KindGood : NTKind → Prop
  | .default e => ExprGood e
  | .constant s => Nm s
  | _ => True

def NTGood (nt : NT) : Prop := Quotable nt.name.toList ∧ ((∀ s, nt.kind ≠ .constant s) → Nm nt.fieldType) ∧ KindGood nt.kind

mutual
def CodeGood : Code → Prop
  | .simple x k spec => Nm x ∧ SpecGood (shown k spec)
  | .enumerated x _ root add => Nm x ∧ (∀ i ∈ root, Quotable i.1.toList) ∧ ∀ i ∈ add, Quotable i.1.toList
  | .seqOf x spec f => Nm x ∧ SpecGood spec ∧ Nm f
  | .sequence x subs _ root add groups =>
    Nm x ∧ CodesGood subs ∧ (∀ nt ∈ root, NTGood nt) ∧ (∀ nt ∈ add, NTGood nt) ∧ ∀ g ∈ groups, ∀ nt ∈ g, NTGood nt
  | .choice x subs _ root add groups =>
    Nm x ∧ CodesGood subs ∧ (∀ nt ∈ root, NTGood nt ∧ nt.kind = .mandatory) ∧
      (∀ nt ∈ add, NTGood nt ∧ nt.kind = .mandatory) ∧ ∀ g ∈ groups, ∀ nt ∈ g, NTGood nt ∧ nt.kind = .mandatory
def CodesGood : Codes → Prop
  | .nil => True
  | .cons c r => CodeGood c ∧ CodesGood r
end

/-- Lines, each after a line end. -/
def body (ls : List SLine) : List Char := ls.flatMap fun l => '\n' :: lineText l

@[simp] theorem body_nil : body [] = [] := rfl
@[simp] theorem body_cons (l : SLine) (ls : List SLine) : body (l :: ls) = '\n' :: (lineText l ++ body ls) := by simp [body]
@[simp] theorem body_append (a b : List SLine) : body (a ++ b) = body a ++ body b := by simp [body]

@[simp] theorem textOf_nil : textOf [] = [] := rfl
@[simp] theorem textOf_cons (p : Piece) (ps : List Piece) : textOf (p :: ps) = p.text ++ textOf ps := by simp [textOf]
@[simp] theorem textOf_append (a b : List Piece) : textOf (a ++ b) = textOf a ++ textOf b := by simp [textOf]

theorem lineText_cons (i : Nat) (p : Piece) (ps : List Piece) : lineText (i, p :: ps) = spaces i ++ textOf (p :: ps) := rfl

@[simp] theorem spaces_zero : spaces 0 = [] := rfl

/-! ## rendering -/

theorem render_nil (env : Jinja.Vars) : renderNodes env [] = some [] := by simp [renderNodes]

theorem render_cons {env : Jinja.Vars} {n : Jinja.Node} {ns : List Jinja.Node} {a b : List Char}
    (h : renderNode env n = some a) (h' : renderNodes env ns = some b) : renderNodes env (n :: ns) = some (a ++ b) := by
  simp [renderNodes, h, h']

theorem render_append {env : Jinja.Vars} {ns ms : List Jinja.Node} {a b : List Char}
    (h : renderNodes env ns = some a) (h' : renderNodes env ms = some b) : renderNodes env (ns ++ ms) = some (a ++ b) := by
  induction ns generalizing a with
  | nil =>
    simp only [renderNodes, Option.some.injEq] at h
    subst h; simpa using h'
  | cons n ns ih =>
    simp only [renderNodes, Option.bind_eq_bind, Option.pure_def, Option.bind_eq_some_iff, Option.some.injEq] at h
    obtain ⟨x, hx, y, hy, rfl⟩ := h
    rw [List.cons_append, render_cons hx (ih hy)]
    simp

theorem render_text (env : Jinja.Vars) (s : List Char) : renderNode env (.text s) = some s := by simp [renderNode]

theorem render_var {env : Jinja.Vars} {x : String} {s : List Char} (h : env.lookup x = some (.str s)) :
    renderNode env (var x) = some s := by
  simp [renderNode, var, Jinja.Expr.eval, Jinja.attrsOf, h, Value.text]

theorem render_cond {env : Jinja.Vars} {e : Jinja.Expr} {v : Value} (he : e.eval env = some v) (yes no : List Jinja.Node) :
    renderNode env (.cond e yes no) = if v.truthy then renderNodes env yes else renderNodes env no := by
  simp [renderNode, he]

theorem render_loop {env : Jinja.Vars} {x : String} {e : Jinja.Expr} {l : List Value} {ns : List Jinja.Node}
    (he : e.eval env = some (.list l)) {f : Value → List Char}
    (hf : ∀ v ∈ l, renderNodes ((x, v) :: env) ns = some (f v)) :
    renderNode env (.loop x e ns) = some (l.flatMap f) := by
  have : l.mapM (fun v => renderNodes ((x, v) :: env) ns) = some (l.map f) := by
    clear he
    induction l with
    | nil => rfl
    | cons v l ih =>
      rw [List.mapM_cons, hf v (by simp), ih fun w hw => hf w (by simp [hw])]
      rfl
  simp [renderNode, he, this, List.flatMap]

theorem eval_path {env : Jinja.Vars} {x : String} {v : Value} (h : env.lookup x = some v) :
    (Jinja.Expr.path x []).eval env = some v := by
  simp [Jinja.Expr.eval, Jinja.attrsOf, h]

theorem eval_attr {env : Jinja.Vars} {x a : String} {d : List (String × Value)} (h : env.lookup x = some (.dict d)) :
    (Jinja.Expr.path x [a]).eval env = some ((d.lookup a).getD .undefined) := by
  simp [Jinja.Expr.eval, Jinja.attrsOf, h, Value.attr]

theorem render_attr {env : Jinja.Vars} {x a : String} {d : List (String × Value)} {v : Value} {s : List Char}
    (h : env.lookup x = some (.dict d)) (ha : d.lookup a = some v) (hv : v.text = some s) :
    renderNode env (attr x a) = some s := by
  simp [renderNode, attr, eval_attr h, ha, hv]

theorem render_class {env : Jinja.Vars} {x b : String} (h : env.lookup "class_name" = some (Render.str x))
    (h' : env.lookup "class_type" = some (Render.str b)) :
    renderNodes env classNodes = some (textOf (classLine x b)) := by
  unfold classNodes
  rw [render_cons (render_text _ _) (render_cons (render_var h) (render_cons (render_text _ _) (render_cons (render_var h')
    (render_cons (render_text _ _) (render_nil _)))))]
  simp [classLine, Piece.text]

/-! ### numbers and ends -/

theorem intText_eq (z : Int) : Jinja.intText z = textOf (intPieces z) := by
  unfold Jinja.intText intPieces
  split
  · simp [Piece.text]
  · simp [Piece.text]

theorem endText_eq (e : End) : Render.endText e = textOf (endPieces e) := by
  cases e <;> simp [Render.endText, endPieces, intText_eq, Piece.text]

theorem repr_ne_nil (n : Nat) : n.repr.toList ≠ [] := by
  rw [Nat.toList_repr]; exact Nat.toDigits_ne_nil

theorem endText_truthy {e : End} (h : EndGood e) : (Value.str (Render.endText e)).truthy = true := by
  have : Render.endText e ≠ [] := by
    cases e with
    | num z =>
      rw [endText_eq]
      simp only [endPieces, intPieces]
      split <;> simp [Piece.text, repr_ne_nil]
    | min => decide
    | max => decide
    | ref s =>
      obtain ⟨⟨c, r, e, _⟩, _⟩ := h
      simp [Render.endText, e]
  simp [Value.truthy, this]

theorem exprText_eq {e : Expr} (h : ExprGood e) : Render.exprText e = some (textOf (exprPieces e)) := by
  cases e with
  | junk => exact h.elim
  | bool b => cases b <;> simp [Render.exprText, exprPieces, Piece.text]
  | int z => simp [Render.exprText, exprPieces, intText_eq]
  | name s => simp [Render.exprText, exprPieces, Piece.text]
  | str s => simp [Render.exprText, exprPieces, Piece.text]
  | bin b => simp [Render.exprText, exprPieces, Piece.text]
  | hex b => simp [Render.exprText, exprPieces, Piece.text]

/-! ### parts of the templates -/

theorem ln_eq (i : Nat) (p : Piece) (ps : List Piece) : ln i (p :: ps) = '\n' :: lineText (i, p :: ps) := rfl

theorem render_spec {env : Jinja.Vars} {spec : Option CTuple} (h : env.lookup "constraint" = some (Render.constraintValue spec))
    (hg : SpecGood spec) (f : String) {no : List Jinja.Node} {t : List Char} (hno : renderNodes env no = some t) :
    renderNode env (specNodes f no) = some (match spec with | none => t | some c => body [specLine f c]) := by
  cases spec with
  | none =>
    simp only [Render.constraintValue] at h
    have e1 : lower.eval env = some .none := by simp [lower, eval_attr h, List.lookup]
    unfold specNodes
    rw [render_cond (v := .none) (by simp [Jinja.Expr.eval, e1, Value.truthy])]
    simp only [Value.truthy, Bool.false_eq_true, if_false]
    rw [render_cons (a := t) (b := []) ?_ (render_nil _), List.append_nil]
    rw [render_cond (v := .none) (by simp [Jinja.Expr.eval, e1, Value.truthy])]
    simpa only [Value.truthy, Bool.false_eq_true, if_false] using hno
  | some c =>
    simp only [Render.constraintValue] at h
    have e1 : lower.eval env = some (.str (Render.endText c.lower)) := by simp [lower, eval_attr h, List.lookup]
    have e2 : upper.eval env = some (.str (Render.endText c.upper)) := by simp [upper, eval_attr h, List.lookup]
    have e3 : (Jinja.Expr.path "constraint" ["extensionMarker"]).eval env = some (.bool c.ext) := by
      simp [eval_attr h, List.lookup]
    have t1 := endText_truthy hg.1
    have t2 := endText_truthy hg.2
    have o1 : renderNode env (.out lower) = some (Render.endText c.lower) := by simp [renderNode, e1, Value.text]
    have o2 : renderNode env (.out upper) = some (Render.endText c.upper) := by simp [renderNode, e2, Value.text]
    unfold specNodes
    rw [render_cond (v := .bool c.ext) (by
      have e3' := e3
      simp only [Jinja.Expr.eval] at e3'
      simp [Jinja.Expr.eval, e1, e2, e3', t1, t2])]
    cases hc : c.ext with
    | true =>
      simp only [Value.truthy, if_true]
      rw [render_cons (render_text _ _) (render_cons o1 (render_cons (render_text _ _) (render_cons o2
        (render_cons (render_text _ _) (render_nil _)))))]
      simp [specLine, lineText, hc, ln, endText_eq, Piece.text, setTo]
    | false =>
      simp only [Value.truthy, Bool.false_eq_true, if_false]
      rw [render_cons (b := []) ?_ (render_nil _), List.append_nil]
      rw [render_cond (v := .str (Render.endText c.upper)) (by simp [Jinja.Expr.eval, e1, e2, t1]), t2, if_pos rfl]
      rw [render_cons (render_text _ _) (render_cons o1 (render_cons (render_text _ _) (render_cons o2
        (render_cons (render_text _ _) (render_nil _)))))]
      simp [specLine, lineText, hc, ln, endText_eq, Piece.text, setTo]

theorem render_marker {env : Jinja.Vars} {b : Bool} (h : env.lookup "extension_marker" = some (.bool b)) :
    renderNode env markerNode = some (body (markerLines b)) := by
  unfold markerNode
  rw [render_cond (eval_path h)]
  cases b with
  | true =>
    simp only [Value.truthy, if_true]
    rw [render_cons (render_text _ _) (render_nil _)]
    simp [markerLines, lineText, ln, setTo]
  | false => simp [Value.truthy, render_nil, markerLines]

theorem render_each {α : Type} {env : Jinja.Vars} {x : String} {e : Jinja.Expr} {items : List α} {val : α → Value}
    {ns : List Jinja.Node} (he : e.eval env = some (.list (items.map val))) {f : α → List Char}
    (hf : ∀ i ∈ items, renderNodes ((x, val i) :: env) ns = some (f i)) :
    renderNode env (.loop x e ns) = some (items.flatMap f) := by
  have : (items.map val).mapM (fun v => renderNodes ((x, v) :: env) ns) = some (items.map f) := by
    clear he
    induction items with
    | nil => rfl
    | cons v l ih =>
      rw [List.map_cons, List.mapM_cons, hf v (by simp), ih fun w hw => hf w (by simp [hw])]
      rfl
  simp [renderNode, he, this, List.flatMap]

theorem flatMap_body {α : Type} (l : List α) (f : α → List SLine) : (l.flatMap fun i => body (f i)) = body (l.flatMap f) := by
  induction l with
  | nil => rfl
  | cons a l ih => simp [ih]

theorem flatMap_line {α : Type} (l : List α) (f : α → SLine) : (l.flatMap fun i => body [f i]) = body (l.map f) := by
  induction l with
  | nil => rfl
  | cons a l ih => rw [List.flatMap_cons, ih]; simp

theorem render_items {env : Jinja.Vars} {l : String} {items : List (String × Int)}
    (h : env.lookup l = some (.list (items.map Render.itemValue))) :
    renderNode env (itemNodes l) = some (body (items.map itemLine)) := by
  unfold itemNodes
  rw [render_each (eval_path h) (f := fun i => body [itemLine i]), flatMap_line]
  intro i _
  have hl : List.lookup "named_value" (("named_value", Render.itemValue i) :: env) =
      some (.dict [("field_name", Render.str i.1), ("field_index", .int i.2)]) := by
    simp [List.lookup, Render.itemValue]
  rw [render_cons (render_text _ _) (render_cons (render_attr hl (a := "field_name") rfl rfl)
    (render_cons (render_text _ _) (render_cons (render_attr hl (a := "field_index") (v := .int i.2) rfl rfl)
    (render_cons (render_text _ _) (render_nil _)))))]
  simp [itemLine, lineText, ln, Piece.text, intText_eq]

/-! ### components -/

theorem ntValue_some {nt : NT} (h : NTGood nt) : ∃ v, Render.ntValue nt = some v := by
  obtain ⟨_, _, hk⟩ := h
  unfold Render.ntValue
  cases e : nt.kind with
  | default x => rw [e] at hk; exact ⟨_, by simp [exprText_eq hk]; rfl⟩
  | _ => exact ⟨_, rfl⟩

theorem render_plain {env : Jinja.Vars} {nt : NT} {d : List (String × Value)} (f : String) (i : Nat)
    (h : env.lookup "named_type" = some (.dict d)) (h1 : d.lookup "field_name" = some (Render.str nt.name))
    (h2 : d.lookup "field_type" = some (Render.str nt.fieldType)) :
    renderNodes env (plainNodes f i) = some (body [(i, [.name f, .op '(', .str nt.name, .op ',', .sp, .name nt.fieldType,
      .op '(', .op ')', .op ')', .op ','])]) := by
  unfold plainNodes
  rw [render_cons (render_text _ _) (render_cons (render_attr h h1 rfl) (render_cons (render_text _ _)
    (render_cons (render_attr h h2 rfl) (render_cons (render_text _ _) (render_nil _)))))]
  simp [lineText, ln, Piece.text]

theorem render_nt {env : Jinja.Vars} {nt : NT} {v : Value} (i j : Nat) (hg : NTGood nt) (hv : Render.ntValue nt = some v)
    (h : env.lookup "named_type" = some v) : renderNodes env [ntNode i j] = some (body [ntLine i j nt]) := by
  obtain ⟨_, _, hk⟩ := hg
  rw [← List.append_nil (body [ntLine i j nt])]
  refine render_cons ?_ (render_nil _)
  unfold ntNode
  unfold Render.ntValue at hv
  cases e : nt.kind with
  | mandatory =>
    simp only [e, Option.some.injEq, List.append_nil] at hv
    subst hv
    rw [render_cond (v := .bool false) (by rw [eval_attr h]; rfl)]
    simp only [Value.truthy, Bool.false_eq_true, if_false]
    rw [← List.append_nil (body [ntLine i j nt])]
    refine render_cons ?_ (render_nil _)
    rw [render_cond (v := .bool false) (by rw [eval_attr h]; rfl)]
    simp only [Value.truthy, Bool.false_eq_true, if_false]
    rw [render_plain "NamedType" i h rfl rfl]
    simp [ntLine, e]
  | optional =>
    simp only [e, Option.some.injEq, List.append_nil] at hv
    subst hv
    rw [render_cond (v := .bool true) (by rw [eval_attr h]; rfl)]
    simp only [Value.truthy, if_true]
    rw [render_plain "OptionalNamedType" i h rfl rfl]
    simp [ntLine, e]
  | default x =>
    rw [e] at hk
    simp only [e, exprText_eq hk, Option.map_some, Option.some.injEq, List.cons_append, List.nil_append] at hv
    subst hv
    rw [render_cond (v := .bool false) (by rw [eval_attr h]; rfl)]
    simp only [Value.truthy, Bool.false_eq_true, if_false]
    rw [← List.append_nil (body [ntLine i j nt])]
    refine render_cons ?_ (render_nil _)
    rw [render_cond (v := .bool true) (by rw [eval_attr h]; rfl)]
    simp only [Value.truthy, if_true]
    rw [← List.append_nil (body [ntLine i j nt])]
    refine render_cons ?_ (render_nil _)
    rw [render_cond (v := .bool false) (by rw [eval_attr h]; rfl)]
    simp only [Value.truthy, Bool.false_eq_true, if_false]
    unfold defaultNodes
    rw [render_cons (render_text _ _) (render_cons (render_attr h (a := "field_name") (v := Render.str nt.name) rfl rfl)
      (render_cons (render_text _ _) (render_cons (render_attr h (a := "field_type") (v := Render.str nt.fieldType) rfl rfl)
      (render_cons (render_text _ _) (render_cons (render_attr h (a := "default_value") (v := .str (textOf (exprPieces x))) rfl rfl)
      (render_cons (render_text _ _) (render_nil _)))))))]
    simp [ntLine, e, lineText, ln, Piece.text]
  | constant s =>
    simp only [e, Option.some.injEq, List.cons_append, List.nil_append] at hv
    subst hv
    rw [render_cond (v := .bool false) (by rw [eval_attr h]; rfl)]
    simp only [Value.truthy, Bool.false_eq_true, if_false]
    rw [← List.append_nil (body [ntLine i j nt])]
    refine render_cons ?_ (render_nil _)
    rw [render_cond (v := .bool true) (by rw [eval_attr h]; rfl)]
    simp only [Value.truthy, if_true]
    rw [← List.append_nil (body [ntLine i j nt])]
    refine render_cons ?_ (render_nil _)
    rw [render_cond (v := .bool true) (by rw [eval_attr h]; rfl)]
    simp only [Value.truthy, if_true]
    unfold constantNodes
    rw [render_cons (render_text _ _) (render_cons (render_attr h (a := "field_name") (v := Render.str nt.name) rfl rfl)
      (render_cons (render_text _ _) (render_cons (render_attr h (a := "default_value") (v := Render.str s) rfl rfl)
      (render_cons (render_text _ _) (render_nil _)))))]
    simp [ntLine, e, lineText, ln, Piece.text]

/-! ### indentation -/

def LineGood (l : SLine) : Prop := ∀ p ∈ l.2, p.Good

theorem nameChar_line {c : Char} (h : nameChar c = true) : c ≠ '\n' := by rintro rfl; exact absurd h (by decide)

theorem Piece.Good.no_line {p : Piece} (h : p.Good) : ∀ c ∈ p.text, c ≠ '\n' := by
  intro c hc
  cases p with
  | name s =>
    obtain ⟨a, r, e, ha, hr⟩ := h
    simp only [Piece.text, e, List.mem_cons] at hc
    rcases hc with rfl | hc
    · exact nameChar_line (nameStart_char ha)
    · exact nameChar_line (hr c hc)
  | num n =>
    simp only [Piece.text] at hc
    have := Parse.repr_digits n
    obtain ⟨a, r, e, hall⟩ := this
    rw [e] at hc
    exact nameChar_line (digit_char (hall c hc))
  | str s =>
    simp only [Piece.text, List.mem_cons, List.mem_append, List.not_mem_nil, or_false] at hc
    rcases hc with rfl | hc | rfl
    · decide
    · rintro rfl; exact (h _ hc).2.2 (by decide)
    · decide
  | op o =>
    simp only [Piece.text, List.mem_cons, List.not_mem_nil, or_false] at hc
    subst hc
    rintro rfl
    exact absurd h (by simp [Piece.Good, isOp])
  | sp =>
    simp only [Piece.text, List.mem_cons, List.not_mem_nil, or_false] at hc
    subst hc; decide

theorem Piece.Good.ne_nil {p : Piece} (h : p.Good) : p.text ≠ [] := by
  cases p with
  | name s => obtain ⟨a, r, e, _⟩ := h; simp [Piece.text, e]
  | num n => exact repr_ne_nil n
  | _ => simp [Piece.text]

theorem LineGood.no_line {l : SLine} (h : LineGood l) : ∀ c ∈ lineText l, c ≠ '\n' := by
  intro c hc
  unfold lineText at hc
  split at hc
  · cases hc
  · rcases List.mem_append.1 hc with hc | hc
    · rw [List.eq_of_mem_replicate hc]; decide
    · obtain ⟨p, hp, hc⟩ := List.mem_flatMap.1 hc
      exact (h p hp).no_line c hc

theorem LineGood.isEmpty {l : SLine} (h : LineGood l) : (lineText l).isEmpty = l.2.isEmpty := by
  obtain ⟨i, ps⟩ := l
  cases ps with
  | nil => rfl
  | cons p ps =>
    have := (h p (by simp)).ne_nil
    simp [lineText, this]

theorem splitBy_nil (p : Char → Bool) : Jinja.splitBy p [] = [[]] := rfl

theorem splitBy_ne (p : Char → Bool) (s : List Char) : ∃ w ws, Jinja.splitBy p s = w :: ws := by
  cases s with
  | nil => exact ⟨_, _, rfl⟩
  | cons c r =>
    unfold Jinja.splitBy
    split
    · exact ⟨_, _, rfl⟩
    · split <;> exact ⟨_, _, rfl⟩

theorem splitBy_line (s r : List Char) (hs : ∀ c ∈ s, c ≠ '\n') :
    Jinja.splitBy Jinja.isLineEnd (s ++ '\n' :: r) = s :: Jinja.splitBy Jinja.isLineEnd r := by
  induction s with
  | nil => simp [Jinja.splitBy, Jinja.isLineEnd]
  | cons c s ih =>
    have hc : Jinja.isLineEnd c = false := by simp [Jinja.isLineEnd, hs c (by simp)]
    rw [List.cons_append, Jinja.splitBy, hc, ih fun x hx => hs x (by simp [hx])]
    rfl

theorem splitBy_last (s : List Char) (hs : ∀ c ∈ s, c ≠ '\n') : Jinja.splitBy Jinja.isLineEnd s = [s] := by
  induction s with
  | nil => rfl
  | cons c s ih =>
    have hc : Jinja.isLineEnd c = false := by simp [Jinja.isLineEnd, hs c (by simp)]
    rw [Jinja.splitBy, hc, ih fun x hx => hs x (by simp [hx])]
    rfl

theorem splitBy_body (s : List Char) (hs : ∀ c ∈ s, c ≠ '\n') (ls : List SLine) (h : ∀ l ∈ ls, LineGood l) :
    Jinja.splitBy Jinja.isLineEnd (s ++ body ls) = s :: ls.map lineText := by
  induction ls generalizing s with
  | nil => simpa using splitBy_last s hs
  | cons l ls ih =>
    rw [body_cons, splitBy_line _ _ hs, ih _ (h l (by simp)).no_line fun x hx => h x (by simp [hx])]
    rfl

theorem lineText_shift {l : SLine} (h : LineGood l) :
    lineText (shift 4 l) = if (lineText l).isEmpty then [] else ' ' :: ' ' :: ' ' :: ' ' :: lineText l := by
  rw [h.isEmpty]
  obtain ⟨i, ps⟩ := l
  cases ps with
  | nil => rfl
  | cons p ps =>
    have : spaces (i + 4) = ' ' :: ' ' :: ' ' :: ' ' :: spaces i := by
      simp [spaces, List.replicate_succ]
    simp [lineText, shift, this]

theorem indent_body (ls : List SLine) (h : ∀ l ∈ ls, LineGood l) :
    Jinja.indentText (body ls) = body (ls.map (shift 4)) := by
  have := splitBy_body [] (by simp) ls h
  rw [List.nil_append] at this
  unfold Jinja.indentText
  rw [this]
  simp only [Jinja.indentLines, List.nil_append]
  clear this
  induction ls with
  | nil => rfl
  | cons l ls ih =>
    simp only [List.map_cons, List.flatMap_cons, body_cons, lineText_shift (h l (by simp)),
      ih fun x hx => h x (by simp [hx]), List.cons_append]

/-! ### lines are good -/

theorem ident_lit {s : String} (h : (match s.toList with
    | [] => false
    | c :: r => nameStart c && r.all nameChar) = true) : Ident s := by
  cases e : s.toList with
  | nil => simp [e] at h
  | cons c r =>
    simp only [e, Bool.and_eq_true, List.all_eq_true] at h
    exact ⟨c, r, e, h⟩

theorem good_int (z : Int) : ∀ p ∈ intPieces z, p.Good := by
  intro p hp
  unfold intPieces at hp
  split at hp <;> simp only [List.mem_cons, List.not_mem_nil, or_false] at hp
  · rcases hp with rfl | rfl
    · rfl
    · trivial
  · subst hp; trivial

theorem good_end {e : End} (h : EndGood e) : ∀ p ∈ endPieces e, p.Good := by
  cases e with
  | num z => exact good_int z
  | min => intro p hp; simp only [endPieces, List.mem_singleton] at hp; subst hp; exact ident_lit (by decide)
  | max => intro p hp; simp only [endPieces, List.mem_singleton] at hp; subst hp; exact ident_lit (by decide)
  | ref s => intro p hp; simp only [endPieces, List.mem_singleton] at hp; subst hp; exact h.1

theorem quotable_bin (b : Bits) : Quotable (String.ofList (b.map Render.binChar)).toList := by
  intro c hc
  rw [String.toList_ofList] at hc
  obtain ⟨x, _, rfl⟩ := List.mem_map.1 hc
  cases x <;> decide

theorem quotable_hex (h : List (Fin 16)) : Quotable (String.ofList (h.map Render.hexChar)).toList := by
  intro c hc
  rw [String.toList_ofList] at hc
  obtain ⟨x, _, rfl⟩ := List.mem_map.1 hc
  exact (by decide : ∀ x : Fin 16, Render.hexChar x ≠ '\'' ∧ Render.hexChar x ≠ '\\' ∧ ¬ Render.hexChar x < ' ') x

theorem good_expr {e : Expr} (h : ExprGood e) : ∀ p ∈ exprPieces e, p.Good := by
  cases e with
  | int z => exact good_int z
  | bool b =>
    intro p hp; simp only [exprPieces, List.mem_singleton] at hp; subst hp
    cases b <;> exact ident_lit (by decide)
  | name s => intro p hp; simp only [exprPieces, List.mem_singleton] at hp; subst hp; exact h.1
  | str s => intro p hp; simp only [exprPieces, List.mem_singleton] at hp; subst hp; exact h
  | bin b =>
    intro p hp; simp only [exprPieces, List.mem_cons, List.not_mem_nil, or_false] at hp
    rcases hp with rfl | rfl | rfl
    · exact ident_lit (by decide)
    · rfl
    · exact quotable_bin b
  | hex b =>
    intro p hp; simp only [exprPieces, List.mem_cons, List.not_mem_nil, or_false] at hp
    rcases hp with rfl | rfl | rfl
    · exact ident_lit (by decide)
    · rfl
    · exact quotable_hex b
  | junk => exact h.elim

/-- Goodness of a list of pieces, piece by piece. -/
def Goods (ps : List Piece) : Prop := ∀ p ∈ ps, p.Good

theorem goods_nil : Goods [] := by intro p hp; cases hp
theorem goods_cons {p : Piece} {ps : List Piece} (h : p.Good) (h' : Goods ps) : Goods (p :: ps) := by
  intro q hq; rcases List.mem_cons.1 hq with rfl | hq
  · exact h
  · exact h' q hq
theorem goods_append {a b : List Piece} (h : Goods a) (h' : Goods b) : Goods (a ++ b) := by
  intro q hq; rcases List.mem_append.1 hq with hq | hq
  · exact h q hq
  · exact h' q hq
theorem goods_name {s : String} {ps : List Piece} (h : Ident s) (h' : Goods ps) : Goods (.name s :: ps) := goods_cons h h'
theorem goods_str {s : String} {ps : List Piece} (h : Quotable s.toList) (h' : Goods ps) : Goods (.str s :: ps) := goods_cons h h'
theorem goods_op {c : Char} {ps : List Piece} (h : isOp c = true) (h' : Goods ps) : Goods (.op c :: ps) := goods_cons h h'
theorem goods_sp {ps : List Piece} (h' : Goods ps) : Goods (.sp :: ps) := goods_cons trivial h'

theorem good_class {x b : String} (hx : Ident x) (hb : Ident b) : Goods (classLine x b) :=
  goods_name (ident_lit (by decide)) (goods_sp (goods_name hx (goods_op rfl (goods_name hb (goods_op rfl (goods_op rfl goods_nil))))))

theorem good_set {x : String} (hx : Ident x) {ps : List Piece} (h : Goods ps) : Goods (setTo x ++ ps) :=
  goods_append (goods_name hx (goods_sp (goods_op rfl (goods_sp goods_nil)))) h

theorem good_spec {f : String} (hf : Ident f) {c : CTuple} (h : SpecGood (some c)) : LineGood (specLine f c) := by
  refine good_set (ident_lit (by decide)) (goods_append (goods_name hf (goods_op rfl goods_nil)) (goods_append (good_end h.1)
    (goods_append (goods_op rfl (goods_sp goods_nil)) (goods_append (good_end h.2) (goods_append ?_ (goods_op rfl goods_nil))))))
  split
  · exact goods_op rfl (goods_sp (goods_name (ident_lit (by decide)) (goods_op rfl (goods_name (ident_lit (by decide)) goods_nil))))
  · exact goods_nil

theorem good_nt {nt : NT} (h : NTGood nt) (i j : Nat) : LineGood (ntLine i j nt) := by
  obtain ⟨hn, ht, hk⟩ := h
  unfold ntLine
  cases e : nt.kind with
  | mandatory =>
    exact goods_name (ident_lit (by decide)) (goods_op rfl (goods_str hn (goods_op rfl (goods_sp (goods_name (ht (by simp [e])).1 (goods_op rfl
      (goods_op rfl (goods_op rfl (goods_op rfl goods_nil)))))))))
  | optional =>
    exact goods_name (ident_lit (by decide)) (goods_op rfl (goods_str hn (goods_op rfl (goods_sp (goods_name (ht (by simp [e])).1 (goods_op rfl
      (goods_op rfl (goods_op rfl (goods_op rfl goods_nil)))))))))
  | default x =>
    rw [e] at hk
    exact goods_append (goods_name (ident_lit (by decide)) (goods_op rfl (goods_str hn (goods_op rfl (goods_sp (goods_name (ht (by simp [e])).1 (goods_op rfl
      goods_nil))))))) (goods_append (good_expr hk) (goods_op rfl (goods_op rfl (goods_op rfl goods_nil))))
  | constant s =>
    rw [e] at hk
    exact goods_name (ident_lit (by decide)) (goods_op rfl (goods_str hn (goods_op rfl (goods_sp (goods_name hk.1 (goods_op rfl
      (goods_op rfl goods_nil)))))))

theorem good_marker (b : Bool) : ∀ l ∈ markerLines b, LineGood l := by
  intro l hl
  unfold markerLines at hl
  split at hl
  · rw [List.mem_singleton.1 hl]
    exact good_set (ident_lit (by decide)) (goods_name (ident_lit (by decide)) (goods_op rfl (goods_name (ident_lit (by decide))
      (goods_op rfl goods_nil))))
  · cases hl

theorem good_item {i : String × Int} (h : Quotable i.1.toList) : LineGood (itemLine i) :=
  goods_append (goods_op rfl (goods_str h (goods_op rfl (goods_sp goods_nil))))
    (goods_append (good_int _) (goods_op rfl (goods_op rfl goods_nil)))

/-- Goodness of lines, line by line. -/
def LinesGood (ls : List SLine) : Prop := ∀ l ∈ ls, LineGood l

theorem lines_nil : LinesGood [] := by intro p hp; cases hp
theorem lines_cons {i : Nat} {p : List Piece} {ps : List SLine} (h : Goods p) (h' : LinesGood ps) : LinesGood ((i, p) :: ps) := by
  intro q hq; rcases List.mem_cons.1 hq with rfl | hq
  · exact h
  · exact h' q hq
theorem lines_append {a b : List SLine} (h : LinesGood a) (h' : LinesGood b) : LinesGood (a ++ b) := by
  intro q hq; rcases List.mem_append.1 hq with hq | hq
  · exact h q hq
  · exact h' q hq
theorem lines_map {α : Type} {l : List α} {f : α → SLine} (h : ∀ x ∈ l, LineGood (f x)) : LinesGood (l.map f) := by
  intro q hq; obtain ⟨x, hx, rfl⟩ := List.mem_map.1 hq; exact h x hx

theorem good_plus {b : String} (hb : Ident b) {c : Bool} : Goods (if c then [] else plusPieces b) := by
  split
  · exact goods_nil
  · exact goods_sp (goods_op rfl (goods_sp (goods_name hb goods_nil)))

theorem good_parts {root add : List NT} {groups : List (List NT)} (hr : ∀ nt ∈ root, NTGood nt) (ha : ∀ nt ∈ add, NTGood nt)
    (hg : ∀ g ∈ groups, ∀ nt ∈ g, NTGood nt) : LinesGood (partsLines root add groups) := by
  refine lines_cons (good_set (ident_lit (by decide)) (goods_name (ident_lit (by decide)) (goods_op rfl goods_nil)))
    (lines_append (lines_map fun x hx => good_nt (hr x hx) _ _) (lines_cons (goods_op rfl goods_nil)
    (lines_append ?_ (lines_append ?_ (lines_cons (good_set (ident_lit (by decide)) (goods_name (ident_lit (by decide))
      (goods_append (good_plus (ident_lit (by decide))) (good_plus (ident_lit (by decide)))))) lines_nil)))))
  · split
    · exact lines_nil
    · exact lines_cons (good_set (ident_lit (by decide)) (goods_name (ident_lit (by decide)) (goods_op rfl goods_nil)))
        (lines_append (lines_map fun x hx => good_nt (ha x hx) _ _) (lines_cons (goods_op rfl goods_nil) lines_nil))
  · split
    · exact lines_nil
    · refine lines_cons (good_set (ident_lit (by decide)) (goods_op rfl goods_nil))
        (lines_append ?_ (lines_cons (goods_op rfl goods_nil) lines_nil))
      intro l hl
      obtain ⟨g, hgm, hl⟩ := List.mem_flatMap.1 hl
      exact lines_cons (goods_name (ident_lit (by decide)) (goods_op rfl goods_nil))
        (lines_append (lines_map fun x hx => good_nt (hg g hgm x hx) _ _)
        (lines_cons (goods_op rfl (goods_op rfl goods_nil)) lines_nil)) l hl

theorem cls_ident (k : Simple) : Ident k.cls := by cases k <;> exact ident_lit (by decide)

theorem spec_ident (k : Simple) : Ident (specClass k) := by cases k <;> exact ident_lit (by decide)

mutual
theorem codeLines_good : ∀ c : Code, CodeGood c → LinesGood (codeLines c)
  | .simple x k spec, h => by
    refine lines_cons (good_class h.1.1 (cls_ident k)) ?_
    cases hs : shown k spec with
    | none => exact lines_cons (goods_name (ident_lit (by decide)) goods_nil) lines_nil
    | some c =>
      have h2 := h.2
      rw [hs] at h2
      exact lines_cons (good_spec (spec_ident k) h2) lines_nil
  | .enumerated x marker root add, h => by
    refine lines_cons (good_class h.1.1 (ident_lit (by decide))) (lines_append (good_marker _) (lines_cons
      (good_set (ident_lit (by decide)) (goods_name (ident_lit (by decide)) (goods_op rfl goods_nil)))
      (lines_append (lines_map fun x hx => good_item (h.2.1 x hx)) (lines_cons (goods_op rfl goods_nil)
      (lines_append ?_ (lines_cons (good_set (ident_lit (by decide)) (goods_name (ident_lit (by decide)) (good_plus (ident_lit (by decide)))))
        lines_nil))))))
    split
    · exact lines_nil
    · exact lines_cons (good_set (ident_lit (by decide)) (goods_name (ident_lit (by decide)) (goods_op rfl goods_nil)))
        (lines_append (lines_map fun x hx => good_item (h.2.2 x hx)) (lines_cons (goods_op rfl goods_nil) lines_nil))
  | .seqOf x spec f, h => by
    refine lines_cons (good_class h.1.1 (ident_lit (by decide))) (lines_append ?_ (lines_cons (good_set (ident_lit (by decide))
      (goods_name h.2.2.1 (goods_op rfl (goods_op rfl goods_nil)))) lines_nil))
    cases spec with
    | none => exact lines_nil
    | some c => exact lines_cons (good_spec (ident_lit (by decide)) h.2.1) lines_nil
  | .sequence x subs marker root add groups, h =>
    lines_cons (good_class h.1.1 (ident_lit (by decide))) (lines_append (codesLines_good subs h.2.1)
      (lines_append (good_marker _) (good_parts h.2.2.1 h.2.2.2.1 h.2.2.2.2)))
  | .choice x subs marker root add groups, h =>
    lines_cons (good_class h.1.1 (ident_lit (by decide))) (lines_append (codesLines_good subs h.2.1)
      (lines_append (good_marker _) (good_parts (fun nt hn => (h.2.2.1 nt hn).1) (fun nt hn => (h.2.2.2.1 nt hn).1)
        fun g hg nt hn => (h.2.2.2.2 g hg nt hn).1)))
theorem codesLines_good : ∀ c : Codes, CodesGood c → LinesGood (codesLines c)
  | .nil, _ => lines_nil
  | .cons c r, h => by
    refine lines_append ?_ (lines_cons goods_nil (codesLines_good r h.2))
    intro l hl
    obtain ⟨l', hl', rfl⟩ := List.mem_map.1 hl
    exact codeLines_good c h.1 l' hl'
end

end Verif.Python
