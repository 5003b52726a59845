/-!
# The template language

Jinja2 (not in the repository) as far as `/repo/asn1PERser/classes/templates/files/*.txt` use it, in an `Environment` with the
default options (`/repo/asn1PERser/classes/templates/creator.py:6-8`): no `trim_blocks`, no `lstrip_blocks`, no escaping, one
line end at the end of a file is dropped.
-/
namespace Verif.Jinja

/-! ## values -/

/-- What a template is given. -/
inductive Value where
  | undefined
  | none
  | bool (b : Bool)
  | int (z : Int)
  | str (s : List Char)
  | list (l : List Value)
  | dict (l : List (String × Value))

/-- Truth value in Python; an undefined variable is false. -/
def Value.truthy : Value → Bool
  | .undefined => false
  | .none => false
  | .bool b => b
  | .int z => z != 0
  | .str s => !s.isEmpty
  | .list l => !l.isEmpty
  | .dict l => !l.isEmpty

/-- Digits of a number. -/
def intText (z : Int) : List Char := (if z < 0 then "-" ++ z.natAbs.repr else z.natAbs.repr).toList

/-- `str(v)`; the templates do not show lists and dictionaries. -/
def Value.text : Value → Option (List Char)
  | .undefined => some []
  | .none => some "None".toList
  | .bool b => some (if b then "True" else "False").toList
  | .int z => some (intText z)
  | .str s => some s
  | .list _ => Option.none
  | .dict _ => Option.none

/-- `v.a`: an entry of a dictionary; anything else has no such attribute.  `undefined.a` raises. -/
def Value.attr (v : Value) (a : String) : Option Value :=
  match v with
  | .undefined => Option.none
  | .dict l => some ((l.lookup a).getD .undefined)
  | _ => some .undefined

/-! ## templates -/

inductive Expr where
  /-- `x.a.b` -/
  | path (x : String) (attrs : List String)
  | and (a b : Expr)
  | not (e : Expr)
deriving DecidableEq

inductive Node where
  | text (s : List Char)
  | out (e : Expr)
  /-- `if`; an `elif` is an `if` in the other branch -/
  | cond (e : Expr) (yes no : List Node)
  | loop (x : String) (e : Expr) (body : List Node)
  /-- `filter indent(width=4)` -/
  | indent (body : List Node)

/-! ### reading a template -/

inductive Tok where
  | text (s : List Char)
  | out (s : List Char)
  | tag (s : List Char)
deriving DecidableEq

def isSpace (c : Char) : Bool := c = ' ' || c = '\n' || c = '\t' || c = '\r'

/-- Without white space at the end. -/
def rstrip (s : List Char) : List Char := (s.reverse.dropWhile isSpace).reverse

inductive Mode where
  | text
  | out
  | tag

def textTok (s : List Char) : List Tok := if s.isEmpty then [] else [.text s]

/-- `{{ ... }}`, `{% ... %}` and `{%- ... %}`, which takes away the white space before it.  `acc` is what has been read of the
current piece, backwards. -/
def lex (m : Mode) (acc : List Char) : List Char → Option (List Tok)
  | [] =>
    match m with
    | .text => some (textTok acc.reverse)
    | _ => Option.none
  | c :: r =>
    match m with
    | .text =>
      match c, r with
      | '{', '{' :: r => (lex .out [] r).map (textTok acc.reverse ++ ·)
      | '{', '%' :: '-' :: r => (lex .tag [] r).map (textTok (rstrip acc.reverse) ++ ·)
      | '{', '%' :: r => (lex .tag [] r).map (textTok acc.reverse ++ ·)
      | c, r => lex .text (c :: acc) r
    | .out =>
      match c, r with
      | '}', '}' :: r => (lex .text [] r).map (.out acc.reverse :: ·)
      | c, r => lex .out (c :: acc) r
    | .tag =>
      match c, r with
      | '%', '}' :: r => (lex .text [] r).map (.tag acc.reverse :: ·)
      | c, r => lex .tag (c :: acc) r

/-- Pieces between the characters that satisfy `p`. -/
def splitBy (p : Char → Bool) : List Char → List (List Char)
  | [] => [[]]
  | c :: r =>
    if p c then [] :: splitBy p r
    else
      match splitBy p r with
      | [] => [[c]]
      | w :: ws => (c :: w) :: ws

/-- The words of a tag. -/
def words (s : List Char) : List String := ((splitBy isSpace s).filter fun w => !w.isEmpty).map String.ofList

def exprPath (w : String) : Option Expr :=
  match (splitBy (· = '.') w.toList).map String.ofList with
  | x :: attrs => some (.path x attrs)
  | [] => Option.none

/-- `not` binds tighter than `and`. -/
def parseExpr : List String → Option Expr
  | ["not", w] => (exprPath w).map .not
  | "not" :: w :: "and" :: r => do return .and (.not (← exprPath w)) (← parseExpr r)
  | [w] => exprPath w
  | w :: "and" :: r => do return .and (← exprPath w) (← parseExpr r)
  | _ => Option.none

mutual
/-- Nodes up to the end, or up to a tag that belongs to what is around them. -/
def parseNodes : Nat → List Tok → Option (List Node × List Tok)
  | 0, _ => Option.none
  | _ + 1, [] => some ([], [])
  | n + 1, .text s :: r => do
    let (ns, r) ← parseNodes n r
    return (.text s :: ns, r)
  | n + 1, .out s :: r => do
    let e ← parseExpr (words s)
    let (ns, r) ← parseNodes n r
    return (.out e :: ns, r)
  | n + 1, .tag s :: r =>
    match words s with
    | "if" :: c => do
      let e ← parseExpr c
      let (yes, r) ← parseNodes n r
      let (no, r) ← parseElse n r
      let (ns, r) ← parseNodes n r
      return (.cond e yes no :: ns, r)
    | "for" :: x :: "in" :: c => do
      let e ← parseExpr c
      let (body, r) ← parseNodes n r
      let r ← closing "endfor" r
      let (ns, r) ← parseNodes n r
      return (.loop x e body :: ns, r)
    | ["filter", "indent(width=4)"] => do
      let (body, r) ← parseNodes n r
      let r ← closing "endfilter" r
      let (ns, r) ← parseNodes n r
      return (.indent body :: ns, r)
    | _ => some ([], .tag s :: r)
/-- `elif`, `else`, `endif` -/
def parseElse : Nat → List Tok → Option (List Node × List Tok)
  | n + 1, .tag s :: r =>
    match words s with
    | "elif" :: c => do
      let e ← parseExpr c
      let (yes, r) ← parseNodes n r
      let (no, r) ← parseElse n r
      return ([.cond e yes no], r)
    | ["else"] => do
      let (no, r) ← parseNodes n r
      let r ← closing "endif" r
      return (no, r)
    | ["endif"] => some ([], r)
    | _ => Option.none
  | _, _ => Option.none
/-- The tag at the end of a block. -/
def closing (w : String) : List Tok → Option (List Tok)
  | .tag s :: r => if words s = [w] then some r else Option.none
  | _ => Option.none
end

/-- One line end at the end does not count. -/
def dropLineEnd (s : List Char) : List Char :=
  match s.reverse with
  | '\n' :: r => r.reverse
  | _ => s

/-- A template from the text of its file. -/
def parseTemplate (src : List Char) : Option (List Node) := do
  let toks ← lex .text [] (dropLineEnd src)
  match ← parseNodes (toks.length + 1) toks with
  | (ns, []) => return ns
  | _ => Option.none

/-! ### filling a template -/

abbrev Vars := List (String × Value)

def attrsOf (v : Value) : List String → Option Value
  | [] => some v
  | a :: as => do attrsOf (← v.attr a) as

def Expr.eval (env : Vars) : Expr → Option Value
  | .path x attrs => attrsOf ((env.lookup x).getD .undefined) attrs
  | .and a b => do
    let v ← a.eval env
    if v.truthy then b.eval env else return v
  | .not e => do return .bool !(← e.eval env).truthy

def isLineEnd (c : Char) : Bool := c = '\n'

/-- `do_indent` with `width=4`: every line but the first gets four spaces, unless it is empty.  Of the characters
`str.splitlines` splits at, only the line end is modelled. -/
def indentLines : List (List Char) → List Char
  | [] => []
  | l :: ls => l ++ ls.flatMap fun l => '\n' :: if l.isEmpty then [] else ' ' :: ' ' :: ' ' :: ' ' :: l

def indentText (s : List Char) : List Char := indentLines (splitBy isLineEnd s)

mutual
def renderNode (env : Vars) : Node → Option (List Char)
  | .text s => some s
  | .out e => do (← e.eval env).text
  | .cond e yes no => do if (← e.eval env).truthy then renderNodes env yes else renderNodes env no
  | .loop x e body => do
    match ← e.eval env with
    | .list l => return (← l.mapM fun v => renderNodes ((x, v) :: env) body).flatten
    | _ => Option.none
  | .indent body => do return indentText (← renderNodes env body)
def renderNodes (env : Vars) : List Node → Option (List Char)
  | [] => some []
  | n :: ns => do return (← renderNode env n) ++ (← renderNodes env ns)
end

end Verif.Jinja
