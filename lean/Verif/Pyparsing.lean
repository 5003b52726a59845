import Verif.Generate
/-!
# The parser library

The parts of pyparsing (2.4.7, `setup.py` asks for that or later) that `/repo/asn1PERser/asn_definitions/` is made of.
The library is not in `/repo`; this is a model of its documented behaviour.

An element is matched in two ways: without parse actions, only to see how far it reaches (`tryParse`), and with them.
White space is skipped in front of every element.  There is no backtracking except in `Or`, which takes the alternative
that reaches farthest.
-/
namespace Verif.Parse

/-- Exceptions while parsing. -/
inductive PErr where
  /-- `ParseException`; also an `IndexError` of a parse action, which the library turns into one -/
  | noMatch
  | raised (e : GenErr)
deriving DecidableEq

/-- What is in a `ParseResults`: text, groups, and the objects that the parse actions return. -/
inductive Tok where
  | str (s : String)
  | group (l : List Tok)
  /-- a type, parse_actions.py:45-111 -/
  | type (t : TObj)
  /-- a type with its `identifier`, `optional` and `default` set, parse_actions.py:113-125 -/
  | comp (id : String) (t : TObj) (p : Pres)
  /-- `constraint_tuple`, parse_actions.py:11 -/
  | con (c : CTuple)
  /-- an assigned type or value, parse_actions.py:24-42 -/
  | assign (a : Assign)

/-- An element of a grammar: `scan` gives the text behind the match when parse actions are not called, `run` the tokens
and the text behind the match when they are. -/
structure P where
  scan : List Char → Option (List Char)
  run : List Char → Except PErr (List Tok × List Char)

/-- `DEFAULT_WHITE_CHARS` -/
def isWs (c : Char) : Bool := c == ' ' || c == '\n' || c == '\t' || c == '\r'

/-- `skipWhitespace` -/
def skipWs (s : List Char) : List Char := s.dropWhile isWs

/-! ## tokens -/

/-- An element that matches characters directly: `m` splits the text into match and rest. -/
def terminal (m : List Char → Option (List Char × List Char)) : P where
  scan s := (m (skipWs s)).map Prod.snd
  run s :=
    match m (skipWs s) with
    | some (t, r) => .ok ([.str (String.ofList t)], r)
    | none => .error .noMatch

/-- `str.startswith`: what is behind the prefix. -/
def strip : List Char → List Char → Option (List Char)
  | [], s => some s
  | _ :: _, [] => none
  | k :: ks, c :: s => if k = c then strip ks s else none

/-- `Literal(k)`; a word may go on behind it. -/
def lit (k : String) : P := terminal fun s => (strip k.toList s).map fun r => (k.toList, r)

/-- `Word(init, body)` -/
def matchWord (init body : Char → Bool) : List Char → Option (List Char × List Char)
  | [] => none
  | c :: s => if init c then some (c :: s.takeWhile body, s.dropWhile body) else none

def word (init body : Char → Bool) : P := terminal (matchWord init body)

/-- `Regex(r'\d+')`; Python's `\d` knows other digits, too, which are left out here. -/
def matchDigits : List Char → Option (List Char × List Char) := matchWord Char.isDigit Char.isDigit

/-- `Regex(r'\d+\.\d+')` -/
def matchReal (s : List Char) : Option (List Char × List Char) :=
  match matchDigits s with
  | some (a, '.' :: r) =>
    match matchDigits r with
    | some (b, r) => some (a ++ '.' :: b, r)
    | none => none
  | _ => none

/-- `\s` -/
def isSpace (c : Char) : Bool := isWs c || c == '\x0b' || c == '\x0c'

/-- `Regex` of the shape `q[..]*q` followed by the characters `tail`. -/
def matchQuoted (q : Char) (ok : Char → Bool) (tail : List Char) : List Char → Option (List Char × List Char)
  | [] => none
  | c :: s =>
    if c = q then (strip (q :: tail) (s.dropWhile ok)).map fun r => (c :: (s.takeWhile ok ++ q :: tail), r)
    else none

/-! ## combinations -/

/-- `Empty().suppress()` -/
def empty : P where
  scan s := some (skipWs s)
  run s := .ok ([], skipWs s)

/-- `Forward()` that has not been given a meaning; used where the model stops following a recursion. -/
def nothing : P where
  scan _ := none
  run _ := .error .noMatch

/-- `And` of two elements -/
def seq (p q : P) : P where
  scan s := (p.scan s).bind q.scan
  run s := do
    let (t, r) ← p.run s
    let (u, r) ← q.run r
    return (t ++ u, r)

/-- `And` -/
def seqs : List P → P
  | [] => empty
  | [p] => p
  | p :: ps => seq p (seqs ps)

/-- Stable sort by the number in front. -/
def insertBy {α : Type} (x : Nat × α) : List (Nat × α) → List (Nat × α)
  | [] => [x]
  | y :: ys => if x.1 ≤ y.1 then x :: y :: ys else y :: insertBy x ys

def sortBy {α : Type} : List (Nat × α) → List (Nat × α)
  | [] => []
  | x :: xs => insertBy x (sortBy xs)

/-- The alternatives that match, with the number of characters they leave. -/
def matching (ps : List P) (s : List Char) : List (Nat × P) :=
  ps.filterMap fun p => (p.scan s).map fun r => (r.length, p)

/-- `Or.parseImpl` with parse actions: candidates in order of their reach.  A candidate whose parse actions fail is
passed over; one that reaches less far now than it did without them is kept in case nothing better follows. -/
def tryEach (s : List Char) : List (Nat × P) → Option (List Tok × List Char) → Except PErr (List Tok × List Char)
  | [], some best => .ok best
  | [], none => .error .noMatch
  | (n, p) :: cs, best =>
    if best.any (fun b => b.2.length ≤ n) then (match best with | some b => .ok b | none => .error .noMatch)
    else
      match p.run s with
      | .error .noMatch => tryEach s cs best
      | .error e => .error e
      | .ok (t, r) =>
        if r.length ≤ n then .ok (t, r)
        else if best.all (fun b => r.length < b.2.length) then tryEach s cs (some (t, r))
        else tryEach s cs best

/-- `Or` -/
def or (ps : List P) : P where
  scan s :=
    match sortBy (matching ps (skipWs s)) with
    | [] => none
    | (_, p) :: _ => p.scan (skipWs s)
  run s := tryEach (skipWs s) (sortBy (matching ps (skipWs s))) none

/-- `MatchFirst` -/
def firstOf : List P → P
  | [] => nothing
  | p :: ps =>
    { scan := fun s => (p.scan (skipWs s)).orElse fun _ => (firstOf ps).scan (skipWs s)
      run := fun s =>
        match p.run (skipWs s) with
        | .error .noMatch => (firstOf ps).run (skipWs s)
        | r => r }

/-- The loop of `OneOrMore` behind the first match; `n` bounds the number of repetitions. -/
def repeatScan (p : P) : Nat → List Char → List Char
  | 0, s => s
  | n + 1, s =>
    match p.scan s with
    | none => s
    | some r => repeatScan p n r

def repeatRun (p : P) : Nat → List Char → Except PErr (List Tok × List Char)
  | 0, s => .ok ([], s)
  | n + 1, s =>
    match p.run s with
    | .error .noMatch => .ok ([], s)
    | .error e => .error e
    | .ok (t, r) => do
      let (u, r) ← repeatRun p n r
      return (t ++ u, r)

/-- `ZeroOrMore`; the elements that are repeated in the grammar are not empty, so there are not more repetitions than
characters. -/
def many (p : P) : P where
  scan s := some (repeatScan p ((skipWs s).length + 1) (skipWs s))
  run s := repeatRun p ((skipWs s).length + 1) (skipWs s)

/-- `OneOrMore` -/
def many1 (p : P) : P where
  scan s := (p.scan s).map fun r => repeatScan p (r.length + 1) r
  run s := do
    let (t, r) ← p.run s
    let (u, r) ← repeatRun p (r.length + 1) r
    return (t ++ u, r)

/-- `Optional` -/
def opt (p : P) : P where
  scan s := some ((p.scan (skipWs s)).getD (skipWs s))
  run s :=
    match p.run (skipWs s) with
    | .error .noMatch => .ok ([], skipWs s)
    | r => r

/-! ## tokens of a match -/

/-- `setParseAction` -/
def P.act (p : P) (f : List Tok → Except PErr (List Tok)) : P where
  scan := p.scan
  run s := do
    let (t, r) ← p.run s
    let u ← f t
    return (u, r)

/-- `.suppress()` -/
def P.drop (p : P) : P := p.act fun _ => .ok []

/-- `Group` -/
def P.group (p : P) : P := p.act fun t => .ok [.group t]

/-! ## `nestedExpr('(', ')')` -/

/-- The rest of a quoted string behind its opening mark `q`, up to where the closing one should be:
`(?:[^"\n\r\\]|(?:"")|(?:\\(?:[^x]|x[0-9a-fA-F]+)))*`. -/
def quotedBody (q : Char) : List Char → List Char × List Char
  | [] => ([], [])
  | [c] => if c == q || c == '\n' || c == '\r' || c == '\\' then ([], [c]) else ([c], [])
  | c :: d :: s =>
    if c == q then
      if d == q then let (t, r) := quotedBody q s; (c :: d :: t, r) else ([], c :: d :: s)
    else if c == '\n' || c == '\r' then ([], c :: d :: s)
    else if c == '\\' then
      if d == 'x' then
        match s with
        | h :: s' =>
          if h.isDigit || ('a' ≤ h && h ≤ 'f') || ('A' ≤ h && h ≤ 'F') then
            let (t, r) := quotedBody q s'; (c :: d :: h :: t, r)
          else ([], c :: d :: s)
        | [] => ([], c :: d :: s)
      else let (t, r) := quotedBody q s; (c :: d :: t, r)
    else let (t, r) := quotedBody q (d :: s); (c :: t, r)

/-- `quotedString` -/
def matchString : List Char → Option (List Char × List Char)
  | [] => none
  | c :: s =>
    if c == '"' || c == '\'' then
      match quotedBody c s with
      | (t, d :: r) => if d == c then some (c :: (t ++ [d]), r) else none
      | (_, []) => none
    else none

/-- `OneOrMore(~quotedString + CharsNotIn("() \n\t\r", exact=1))` without skipping white space -/
def matchContent : List Char → List Char × List Char
  | [] => ([], [])
  | c :: s =>
    if isWs c || c == '(' || c == ')' || (matchString (c :: s)).isSome then ([], c :: s)
    else let (t, r) := matchContent s; (c :: t, r)

def content : P := terminal fun s =>
  match matchContent s with
  | ([], _) => none
  | (c :: t, r) => some (c :: t, r)

/-- `nestedExpr('(', ')')`; the parse action belongs to the inner parentheses, too. -/
def nestedExpr (f : List Tok → Except PErr (List Tok)) : Nat → P
  | 0 => nothing
  | n + 1 =>
    ((seq (lit "(").drop (seq (many (firstOf [terminal matchString, nestedExpr f n, content])) (lit ")").drop)).group).act f

/-- `str.expandtabs()`, which `parseString` applies to the text; `col` is the column. -/
def expandTabs : Nat → List Char → List Char
  | _, [] => []
  | col, c :: s =>
    if c = '\t' then List.replicate (8 - col % 8) ' ' ++ expandTabs (col + (8 - col % 8)) s
    else if c = '\n' ∨ c = '\r' then c :: expandTabs 0 s
    else c :: expandTabs (col + 1) s

end Verif.Parse
