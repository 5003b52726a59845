import Verif.Lemmas.PyLogical
/-!
# The statements of a generated class
-/
namespace Verif.Python

/-! ## statements -/

def intExpr (z : Int) : PExpr := if z < 0 then .neg (.num z.natAbs) else .num z.natAbs

def endExpr : End → PExpr
  | .num z => intExpr z
  | .min => .name "MIN"
  | .max => .name "MAX"
  | .ref s => .name s

def specArgs (c : CTuple) : List (Option String × PExpr) :=
  (none, endExpr c.lower) :: (none, endExpr c.upper) :: (if c.ext then [(some "extensionMarker", .name "True")] else [])

def specAst (f : String) (c : CTuple) : PStmt := .assign "subtypeSpec" (.call f (specArgs c))

/-- The argument of a constructor. -/
def exprArg : Expr → Option String × PExpr
  | .int z => (none, intExpr z)
  | .bool b => (none, .name (if b then "True" else "False"))
  | .name s => (none, .name s)
  | .str s => (none, .str s)
  | .bin b => (some "binValue", .str (String.ofList (b.map Render.binChar)))
  | .hex h => (some "hexValue", .str (String.ofList (h.map Render.hexChar)))
  | .junk => (none, .num 0)

def ntAst (nt : NT) : PExpr :=
  match nt.kind with
  | .mandatory => .call "NamedType" [(none, .str nt.name), (none, .call nt.fieldType [])]
  | .optional => .call "OptionalNamedType" [(none, .str nt.name), (none, .call nt.fieldType [])]
  | .default e => .call "DefaultedNamedType" [(none, .str nt.name), (none, .call nt.fieldType [exprArg e])]
  | .constant s => .call "DefaultedNamedType" [(none, .str nt.name), (none, .name s)]

/-- Positional arguments. -/
def plain (es : List PExpr) : List (Option String × PExpr) := es.map fun e => (none, e)

def typesAst (l : List NT) : PExpr := .call "AdditiveNamedTypes" (plain (l.map ntAst))

def itemAst (i : String × Int) : PExpr := .tuple [.str i.1, intExpr i.2]

def itemsAst (l : List (String × Int)) : PExpr := .call "NamedValues" (plain (l.map itemAst))

def sumAst (x : String) (a g : Bool) : PExpr :=
  let e := if a then .name x else .add (.name x) (.name "extensionAddition")
  if g then e else .add e (.name "extensionAdditionGroups")

def partsAst (root add : List NT) (groups : List (List NT)) : List PStmt :=
  .assign "rootComponent" (typesAst root) ::
  ((if add.isEmpty then [] else [.assign "extensionAddition" (typesAst add)]) ++
  ((if groups.isEmpty then [] else [.assign "extensionAdditionGroups" (.list (groups.map typesAst))]) ++
  [.assign "componentType" (sumAst "rootComponent" add.isEmpty groups.isEmpty)]))

def markerAst (b : Bool) : List PStmt :=
  if b then [.assign "subtypeSpec" (.call "ExtensionMarker" [(none, .name "True")])] else []

mutual
def codeAst : Code → PStmt
  | .simple x k spec => .cls x k.cls (match shown k spec with | none => [.pass] | some c => [specAst (specClass k) c])
  | .enumerated x marker root add => .cls x "EnumeratedType" (markerAst marker ++
      (.assign "enumerationRoot" (itemsAst root) ::
      ((if add.isEmpty then [] else [.assign "extensionAddition" (itemsAst add)]) ++
      [.assign "namedValues" (sumAst "enumerationRoot" add.isEmpty true)])))
  | .seqOf x spec f => .cls x "SequenceOfType" ((match spec with | none => [] | some c => [specAst "SequenceOfValueSize" c]) ++
      [.assign "componentType" (.call f [])])
  | .sequence x subs marker root add groups =>
    .cls x "SequenceType" (codesAst subs ++ (markerAst marker ++ partsAst root add groups))
  | .choice x subs marker root add groups =>
    .cls x "ChoiceType" (codesAst subs ++ (markerAst marker ++ partsAst root add groups))
def codesAst : Codes → List PStmt
  | .nil => []
  | .cons c r => codeAst c :: codesAst r
end

def stmtAst : Stmt → PStmt
  | .cls c => codeAst c
  | .alias n m => .assign n (.name m)
  | .value n m e => .assign n (.call m [exprArg e])

/-! ## expressions -/

/-- What may follow an expression. -/
def Stops (r : List Tok) : Prop := ∀ c t, r = .op c :: t → c ≠ '+' ∧ c ≠ '-' ∧ c ≠ '('

theorem stops_nil : Stops [] := by intro c t h; cases h
theorem stops_op {c : Char} {r : List Tok} (h : c ≠ '+' ∧ c ≠ '-' ∧ c ≠ '(') : Stops (.op c :: r) := by
  intro c' t e; cases e; exact h

def Unary (ts : List Tok) (e : PExpr) : Prop := ∀ n r, 4 * ts.length ≤ n + 1 → Stops r → parseUnary n (ts ++ r) = some (e, r)

def Reads (ts : List Tok) (e : PExpr) : Prop := ∀ n r, 4 * ts.length ≤ n → 2 ≤ n → Stops r → parseExpr n (ts ++ r) = some (e, r)

/-- Arguments, with the closing bracket. -/
def Args (close : Char) (ts : List Tok) (args : List (Option String × PExpr)) (comma : Bool) : Prop :=
  ∀ n r, 4 * ts.length + 2 ≤ n → parseArgs n close (ts ++ r) = some (args, comma, r)

theorem parseRest_stop {n : Nat} {a : PExpr} {r : List Tok} (h : Stops r) : parseRest (n + 1) a r = some (a, r) := by
  unfold parseRest
  split
  · next r => exact absurd rfl (h _ _ rfl).1
  · next r => exact absurd rfl (h _ _ rfl).2.1
  · rfl

theorem Unary.reads {ts : List Tok} {e : PExpr} (h : Unary ts e) : Reads ts e := by
  intro n r hn h2 hs
  obtain ⟨m, rfl⟩ : ∃ m, n = m + 2 := ⟨n - 2, by omega⟩
  rw [parseExpr, h _ _ (by omega) hs]
  simp only [Option.bind_eq_bind, Option.bind_some]
  exact parseRest_stop hs

theorem unary_num (k : Nat) : Unary [.num k] (.num k) := by
  intro n r hn hs
  obtain ⟨m, rfl⟩ : ∃ m, n = m + 1 := ⟨n - 1, by simp at hn; omega⟩
  rfl

theorem unary_str (k : String) : Unary [.str k] (.str k) := by
  intro n r hn hs
  obtain ⟨m, rfl⟩ : ∃ m, n = m + 1 := ⟨n - 1, by simp at hn; omega⟩
  rfl

theorem parse_name {x : String} (h : usable x = true ∨ x = "True" ∨ x = "False") (m : Nat) {r : List Tok}
    (hs : ∀ t, r ≠ .op '(' :: t) : parseUnary (m + 1) (.name x :: r) = some (.name x, r) := by
  have : (usable x || x == "True" || x == "False") = true := by
    rcases h with h | rfl | rfl
    · simp [h]
    · decide
    · decide
  have hm : ∀ ts, ts = Tok.name x :: r → parseUnary (m + 1) ts = some (.name x, r) := by
    intro ts e
    rw [parseUnary.eq_def]
    simp only
    split
    · cases e
    · cases e
    · cases e
    · cases e; exact absurd rfl (hs _)
    · cases e; rw [if_pos this]
    · cases e
    · cases e
    · next h1 _ _ => exact (h1 _ _ e).elim
  exact hm _ rfl

theorem unary_name {x : String} (h : usable x = true ∨ x = "True" ∨ x = "False") : Unary [.name x] (.name x) := by
  intro n r hn hs
  obtain ⟨m, rfl⟩ : ∃ m, n = m + 1 := ⟨n - 1, by simp at hn; omega⟩
  exact parse_name h m (by rintro t rfl; exact absurd rfl (hs _ _ rfl).2.2)

theorem parse_plus {n : Nat} {a : PExpr} {x : String} {r : List Tok} (hx : usable x = true) (hs : ∀ t, r ≠ .op '(' :: t) :
    parseRest (n + 2) a (.op '+' :: .name x :: r) = parseRest (n + 1) (.add a (.name x)) r := by
  rw [parseRest.eq_def]
  simp only
  rw [parse_name (.inl hx) n hs]
  rfl

theorem unary_int (z : Int) : Unary (toksOf (intPieces z)) (intExpr z) := by
  unfold intPieces intExpr
  split
  · intro n r hn hs
    obtain ⟨m, rfl⟩ : ∃ m, n = m + 2 := ⟨n - 2, by simp at hn; omega⟩
    rfl
  · exact unary_num _

theorem unary_call {f : String} {ts : List Tok} {args : List (Option String × PExpr)} {comma : Bool} (hf : usable f = true)
    (ha : Args ')' ts args comma) (ho : ordered args = true) : Unary (.name f :: .op '(' :: ts) (.call f args) := by
  intro n r hn hs
  simp only [List.length_cons] at hn
  obtain ⟨m, rfl⟩ : ∃ m, n = m + 1 := ⟨n - 1, by omega⟩
  rw [List.cons_append, List.cons_append, parseUnary.eq_def]
  simp only
  rw [ha _ _ (by omega)]
  simp [hf, ho]

/-! ### arguments -/

theorem args_nil (close : Char) : Args close [.op close] [] true := by
  intro n r hn
  simp only [List.length_cons, List.length_nil] at hn
  obtain ⟨m, rfl⟩ : ∃ m, n = m + 1 := ⟨n - 1, by omega⟩
  rw [List.singleton_append, parseArgs.eq_def]
  simp

/-- A first token that neither closes the list nor names an argument. -/
def Starts (close : Char) : List Tok → Prop
  | [] => False
  | .op c :: _ => c ≠ close
  | .name _ :: .op c :: _ => c ≠ '='
  | _ => True

theorem parseArgs_plain {n : Nat} {close : Char} {ts r : List Tok} (h : Starts close ts) (hr : ∀ t, r ≠ .op '=' :: t) :
    parseArgs (n + 1) close (ts ++ r) = parseArg n close none (ts ++ r) := by
  rw [parseArgs.eq_def]
  simp only
  split
  · next c t e =>
    cases ts with
    | nil => exact absurd h id
    | cons a ts =>
      rw [List.cons_append] at e
      cases e
      have : c ≠ close := h
      simp [this]
  · next k t e =>
    cases ts with
    | nil => exact absurd h id
    | cons a ts =>
      rw [List.cons_append] at e
      injection e with e1 e2
      subst e1
      cases ts with
      | nil => exact absurd e2 (hr _)
      | cons b ts =>
        rw [List.cons_append] at e2
        injection e2 with e1 e2
        subst e1
        exact absurd rfl h
  · rfl

theorem args_last {close : Char} {ts : List Tok} {e : PExpr} (h : Reads ts e) (hs : Starts close ts)
    (hc : close ≠ '+' ∧ close ≠ '-' ∧ close ≠ '(' ∧ close ≠ '=' ∧ close ≠ ',') :
    Args close (ts ++ [.op close]) [(none, e)] false := by
  intro n r hn
  simp only [List.length_append, List.length_cons, List.length_nil] at hn
  obtain ⟨m, rfl⟩ : ∃ m, n = m + 2 := ⟨n - 2, by omega⟩
  rw [List.append_assoc, List.singleton_append, parseArgs_plain hs (by rintro t e; cases e; exact hc.2.2.2.1 rfl), parseArg,
    h _ _ (by omega) (by omega) (stops_op ⟨hc.1, hc.2.1, hc.2.2.1⟩)]
  simp [hc.2.2.2.2]

theorem args_cons {close : Char} {ts rest : List Tok} {e : PExpr} {args : List (Option String × PExpr)} {comma : Bool}
    (h : Reads ts e) (hs : Starts close ts) (hr : Args close rest args comma) :
    Args close (ts ++ .op ',' :: rest) ((none, e) :: args) comma := by
  intro n r hn
  simp only [List.length_append, List.length_cons] at hn
  obtain ⟨m, rfl⟩ : ∃ m, n = m + 2 := ⟨n - 2, by omega⟩
  rw [List.append_assoc, List.cons_append, parseArgs_plain hs (by rintro t e; cases e), parseArg,
    h _ _ (by omega) (by omega) (stops_op (by decide))]
  simp only [Option.bind_eq_bind, Option.bind_some, if_true]
  rw [hr _ _ (by omega)]
  rfl

theorem args_keyword {close : Char} {k : String} {ts : List Tok} {e : PExpr} (hk : usable k = true) (h : Reads ts e)
    (hc : close ≠ '+' ∧ close ≠ '-' ∧ close ≠ '(' ∧ close ≠ ',') :
    Args close (.name k :: .op '=' :: (ts ++ [.op close])) [(some k, e)] false := by
  intro n r hn
  simp only [List.length_append, List.length_cons, List.length_nil] at hn
  obtain ⟨m, rfl⟩ : ∃ m, n = m + 2 := ⟨n - 2, by omega⟩
  rw [List.cons_append, List.cons_append, List.append_assoc, List.singleton_append, parseArgs.eq_def]
  simp only [hk, if_true]
  rw [parseArg, h _ _ (by omega) (by omega) (stops_op ⟨hc.1, hc.2.1, hc.2.2.1⟩)]
  simp [hc.2.2.2]

/-- Arguments each followed by a comma. -/
theorem args_list {α : Type} {close : Char} {l : List α} {ts : α → List Tok} {ast : α → PExpr}
    (h : ∀ x ∈ l, ∃ us, ts x = us ++ [.op ','] ∧ Reads us (ast x) ∧ Starts close us) :
    Args close (l.flatMap ts ++ [.op close]) (plain (l.map ast)) true := by
  induction l with
  | nil => exact args_nil close
  | cons x l ih =>
    obtain ⟨us, e, hr, hs⟩ := h x (by simp)
    have := args_cons hr hs (ih fun y hy => h y (by simp [hy]))
    rw [List.flatMap_cons, e]
    simpa [plain] using this

theorem ordered_plain (es : List PExpr) : ordered (plain es) = true := by
  induction es with
  | nil => rfl
  | cons e es ih => exact ih

/-! ### components, items -/

theorem usable_nm {x : String} (h : Nm x) : Unary [.name x] (.name x) := unary_name (.inl h.2)

theorem reads_end {e : End} (h : EndGood e) : Unary (toksOf (endPieces e)) (endExpr e) := by
  cases e with
  | num z => exact unary_int z
  | min => exact unary_name (.inl (by decide))
  | max => exact unary_name (.inl (by decide))
  | ref s => exact usable_nm h

theorem starts_int (z : Int) (close : Char) (hc : close ≠ '-') : Starts close (toksOf (intPieces z)) := by
  unfold intPieces
  split
  · exact Ne.symm hc
  · trivial

theorem starts_end (e : End) : Starts ')' (toksOf (endPieces e)) := by
  cases e with
  | num z => exact starts_int z _ (by decide)
  | min => trivial
  | max => trivial
  | ref s => trivial

theorem args_spec {c : CTuple} (h : SpecGood (some c)) : ∃ ts, (∀ f, specToks f c =
    .name "subtypeSpec" :: .op '=' :: .name f :: .op '(' :: ts) ∧ Args ')' ts (specArgs c) false ∧ ordered (specArgs c) = true := by
  refine ⟨toksOf (endPieces c.lower ++ ([.op ',', .sp] ++ (endPieces c.upper ++
    ((if c.ext then [.op ',', .sp, .name "extensionMarker", .op '=', .name "True"] else []) ++ [.op ')'])))), fun f => rfl, ?_, ?_⟩
  · have e : ∀ a b : List Piece, toksOf (a ++ ([.op ',', .sp] ++ b)) = toksOf a ++ .op ',' :: toksOf b := by
      intro a b; simp [toks_append]
    rw [e]
    unfold specArgs
    refine args_cons (reads_end h.1).reads (starts_end _) ?_
    rw [toks_append]
    cases c.ext with
    | true =>
      exact args_cons (reads_end h.2).reads (starts_end _) (args_keyword (by decide) (unary_name (.inr (.inl rfl))).reads (by decide))
    | false => exact args_last (reads_end h.2).reads (starts_end _) (by decide)
  · unfold specArgs
    cases c.ext <;> rfl

theorem args_expr {e : Expr} (h : ExprGood e) : Args ')' (toksOf (exprPieces e) ++ [.op ')']) [exprArg e] false := by
  have hc : ')' ≠ '+' ∧ ')' ≠ '-' ∧ ')' ≠ '(' ∧ ')' ≠ '=' ∧ ')' ≠ ',' := by decide
  cases e with
  | int z => exact args_last (unary_int z).reads (starts_int z _ (by decide)) hc
  | bool b =>
    refine args_last (unary_name ?_).reads trivial hc
    cases b
    · exact .inr (.inr rfl)
    · exact .inr (.inl rfl)
  | name s => exact args_last (usable_nm h).reads trivial hc
  | str s => exact args_last (unary_str s).reads trivial hc
  | bin b => exact args_keyword (by decide) (unary_str _).reads (by decide)
  | hex b => exact args_keyword (by decide) (unary_str _).reads (by decide)
  | junk => exact absurd h id

theorem ordered_expr (e : Expr) : ordered [exprArg e] = true := by cases e <;> rfl

theorem reads_nt {nt : NT} (h : NTGood nt) : ∃ us, ntToks nt = us ++ [.op ','] ∧ Reads us (ntAst nt) ∧ Starts ')' us := by
  obtain ⟨_, hf, hk⟩ := h
  have hc : ')' ≠ '+' ∧ ')' ≠ '-' ∧ ')' ≠ '(' ∧ ')' ≠ '=' ∧ ')' ≠ ',' := by decide
  have hplain : Nm nt.fieldType → Unary (.name nt.fieldType :: .op '(' :: [.op ')']) (.call nt.fieldType []) :=
    fun hf => unary_call hf.2 (args_nil ')') rfl
  unfold ntToks ntLine ntAst
  split
  · next e =>
    rw [e]
    refine ⟨[.name "NamedType", .op '(', .str nt.name, .op ',', .name nt.fieldType, .op '(', .op ')', .op ')'], rfl, ?_, ?_⟩
    · exact (unary_call (by decide) (args_cons (unary_str _).reads trivial (args_last (hplain (hf (by simp [e]))).reads (by simp [Starts]) hc)) rfl).reads
    · simp [Starts]
  · next e =>
    rw [e]
    refine ⟨[.name "OptionalNamedType", .op '(', .str nt.name, .op ',', .name nt.fieldType, .op '(', .op ')', .op ')'], rfl, ?_, ?_⟩
    · exact (unary_call (by decide) (args_cons (unary_str _).reads trivial (args_last (hplain (hf (by simp [e]))).reads (by simp [Starts]) hc)) rfl).reads
    · simp [Starts]
  · next x e =>
    rw [e]
    rw [e] at hk
    refine ⟨[.name "DefaultedNamedType", .op '(', .str nt.name, .op ',', .name nt.fieldType, .op '('] ++
      (toksOf (exprPieces x) ++ [.op ')', .op ')']), ?_, ?_, ?_⟩
    · simp [toks_append]
    · have h1 := unary_call (hf (by simp [e])).2 (args_expr hk) (ordered_expr x)
      have h2 := unary_call (f := "DefaultedNamedType") (by decide) (args_cons (unary_str nt.name).reads trivial
        (args_last h1.reads (by simp [Starts]) hc)) rfl
      have := h2.reads
      simpa using this
    · simp [Starts]
  · next s e =>
    rw [e]
    rw [e] at hk
    refine ⟨[.name "DefaultedNamedType", .op '(', .str nt.name, .op ',', .name s, .op ')'], rfl, ?_, ?_⟩
    · exact (unary_call (by decide) (args_cons (unary_str _).reads trivial (args_last (usable_nm hk).reads trivial hc)) rfl).reads
    · simp [Starts]

theorem args_nts {l : List NT} (h : ∀ nt ∈ l, NTGood nt) : Args ')' (l.flatMap ntToks ++ [.op ')']) (plain (l.map ntAst)) true :=
  args_list fun nt hn => reads_nt (h nt hn)

theorem reads_types {l : List NT} (h : ∀ nt ∈ l, NTGood nt) :
    Unary (.name "AdditiveNamedTypes" :: .op '(' :: (l.flatMap ntToks ++ [.op ')'])) (typesAst l) :=
  unary_call (by decide) (args_nts h) (ordered_plain _)

theorem reads_group {g : List NT} (h : ∀ nt ∈ g, NTGood nt) :
    ∃ us, groupToks g = us ++ [.op ','] ∧ Reads us (typesAst g) ∧ Starts ']' us :=
  ⟨_, by simp [groupToks], (reads_types h).reads, by simp [Starts]⟩

theorem reads_tuple {ts : List Tok} {es : List PExpr} {comma : Bool} (h : Args ')' ts (plain es) comma) (hl : 2 ≤ es.length) :
    Unary (.op '(' :: ts) (.tuple es) := by
  intro n r hn hs
  simp only [List.length_cons] at hn
  obtain ⟨m, rfl⟩ : ∃ m, n = m + 1 := ⟨n - 1, by omega⟩
  have hm : (plain es).mapM positional = some es := by
    clear hl h
    induction es with
    | nil => rfl
    | cons e es ih =>
      have : plain (e :: es) = (none, e) :: plain es := rfl
      rw [this, List.mapM_cons, ih]; rfl
  rw [List.cons_append, parseUnary.eq_def]
  simp only
  rw [h _ _ (by omega)]
  simp only [Option.bind_eq_bind, Option.bind_some]
  rw [hm]
  match es, hl with
  | a :: b :: es, _ => rfl

theorem reads_list {ts : List Tok} {es : List PExpr} {comma : Bool} (h : Args ']' ts (plain es) comma) :
    Unary (.op '[' :: ts) (.list es) := by
  intro n r hn hs
  simp only [List.length_cons] at hn
  obtain ⟨m, rfl⟩ : ∃ m, n = m + 1 := ⟨n - 1, by omega⟩
  have hm : (plain es).mapM positional = some es := by
    clear h
    induction es with
    | nil => rfl
    | cons e es ih =>
      have : plain (e :: es) = (none, e) :: plain es := rfl
      rw [this, List.mapM_cons, ih]; rfl
  rw [List.cons_append, parseUnary.eq_def]
  simp only
  rw [h _ _ (by omega)]
  simp only [Option.bind_eq_bind, Option.bind_some]
  rw [hm]
  rfl

theorem reads_item (i : String × Int) : ∃ us, itemToks i = us ++ [.op ','] ∧ Reads us (itemAst i) ∧ Starts ')' us := by
  refine ⟨.op '(' :: .str i.1 :: .op ',' :: (toksOf (intPieces i.2) ++ [.op ')']), ?_, ?_, ?_⟩
  · simp [itemToks, itemLine, toks_append]
  · exact (reads_tuple (es := [.str i.1, intExpr i.2]) (args_cons (unary_str _).reads trivial
      (args_last (unary_int i.2).reads (starts_int _ _ (by decide)) (by decide))) (by simp)).reads
  · simp [Starts]

theorem reads_items (l : List (String × Int)) :
    Unary (.name "NamedValues" :: .op '(' :: (l.flatMap itemToks ++ [.op ')'])) (itemsAst l) :=
  unary_call (by decide) (args_list fun i _ => reads_item i) (ordered_plain _)

theorem reads_groups {gs : List (List NT)} (h : ∀ g ∈ gs, ∀ nt ∈ g, NTGood nt) :
    Unary (.op '[' :: (gs.flatMap groupToks ++ [.op ']'])) (.list (gs.map typesAst)) :=
  reads_list (args_list fun g hg => reads_group (h g hg))

/-! ## lines -/

theorem parseLine_assign {x : String} {ts : List Tok} {e : PExpr} (hx : usable x = true) (h : Reads ts e) :
    parseLine (.name x :: .op '=' :: ts) = some (.simple (.assign x e)) := by
  have hf : x ≠ "from" := by rintro rfl; exact absurd hx (by decide)
  have := h (4 * ts.length + 4) [] (by omega) (by omega) stops_nil
  rw [List.append_nil] at this
  rw [parseLine.eq_def]
  split
  · next h => cases h
  · next h => cases h; exact absurd rfl hf
  · next h => cases h
  · next h => cases h; simp [hx, this]
  · next h1 h2 h3 h4 => exact absurd rfl (h4 _ _)

theorem parseLine_class {x b : String} (hx : usable x = true) (hb : usable b = true) :
    parseLine (toksOf (classLine x b)) = some (.cls x b) := by
  have : toksOf (classLine x b) = [.name "class", .name x, .op '(', .name b, .op ')', .op ':'] := rfl
  rw [this, parseLine.eq_def]
  simp [hx, hb]

theorem parseLine_sum {x y : String} (hx : usable x = true) (hy : usable y = true) (a g : Bool) :
    parseLine (.name y :: .op '=' :: .name x :: ((if a then [] else plusToks "extensionAddition") ++
     (if g then [] else plusToks "extensionAdditionGroups"))) = some (.simple (.assign y (sumAst x a g))) := by
  have : ∀ ts e, (∀ n, 4 * ts.length + 4 = n → parseExpr n ts = some (e, [])) →
      parseLine (.name y :: .op '=' :: ts) = some (.simple (.assign y e)) := by
    intro ts e h
    have hf : y ≠ "from" := by rintro rfl; exact absurd hy (by decide)
    rw [parseLine.eq_def]
    split
    · next h => cases h
    · next h => cases h; exact absurd rfl hf
    · next h => cases h
    · next h' => cases h'; simp [hy, h _ rfl]
    · next h1 h2 h3 h4 => exact absurd rfl (h4 _ _)
  refine this _ _ ?_
  have e1 : usable "extensionAddition" = true := by decide
  have e2 : usable "extensionAdditionGroups" = true := by decide
  have step : ∀ n r, (∀ t, r ≠ .op '(' :: t) → parseExpr (n + 2) (.name x :: r) = parseRest (n + 1) (.name x) r := by
    intro n r hs
    rw [parseExpr, parse_name (.inl hx) n hs]; rfl
  cases a <;> cases g <;> intro n hn <;> subst hn
  · show parseExpr (22 + 2) (.name x :: .op '+' :: .name "extensionAddition" :: .op '+' :: [.name "extensionAdditionGroups"]) = _
    rw [step _ _ (by intro t; simp), parse_plus e1 (by intro t; simp), parse_plus e2 (by intro t; simp)]; rfl
  · show parseExpr (14 + 2) (.name x :: .op '+' :: [.name "extensionAddition"]) = _
    rw [step _ _ (by intro t; simp), parse_plus e1 (by intro t; simp)]; rfl
  · show parseExpr (14 + 2) (.name x :: .op '+' :: [.name "extensionAdditionGroups"]) = _
    rw [step _ _ (by intro t; simp), parse_plus e2 (by intro t; simp)]; rfl
  · show parseExpr (6 + 2) [.name x] = _
    rw [step _ _ (by intro t; simp)]; rfl

/-! ## blocks -/

def Block (ind : Nat) (ls : List Line) (ss : List PStmt) (r : List Line) : Prop :=
  ∀ n, ls.length < n → parseBlock n ind ls = some (ss, r)

/-- The first line is not indented further. -/
def HeadLe (d : Nat) (ls : List Line) : Prop := ∀ l, ls.head? = some l → l.1 ≤ d

theorem block_end {ind d : Nat} {r : List Line} (hd : d < ind) (h : HeadLe d r) : Block ind r [] r := by
  intro n hn
  obtain ⟨m, rfl⟩ : ∃ m, n = m + 1 := ⟨n - 1, by omega⟩
  cases r with
  | nil => rfl
  | cons l r =>
    obtain ⟨i, ts⟩ := l
    have : i < ind := Nat.lt_of_le_of_lt (h _ rfl) hd
    simp [parseBlock, this]

theorem block_nil (ind : Nat) : Block ind [] [] [] := by
  intro n hn
  obtain ⟨m, rfl⟩ : ∃ m, n = m + 1 := ⟨n - 1, by omega⟩
  rfl

theorem block_simple {ind : Nat} {ts : List Tok} {s : PStmt} {rest r : List Line} {ss : List PStmt}
    (hl : parseLine ts = some (.simple s)) (h : Block ind rest ss r) : Block ind ((ind, ts) :: rest) (s :: ss) r := by
  intro n hn
  simp only [List.length_cons] at hn
  obtain ⟨m, rfl⟩ : ∃ m, n = m + 1 := ⟨n - 1, by omega⟩
  rw [parseBlock]
  simp only [Nat.lt_irrefl, if_false, hl, Option.bind_eq_bind, Option.bind_some]
  rw [h m (by omega)]
  rfl

theorem block_class {ind j : Nat} {ts ts' : List Tok} {x b : String} {body rest r : List Line} {bs ss : List PStmt}
    (hl : parseLine ts = some (.cls x b)) (hj : ind < j) (hb : Block j ((j, ts') :: (body ++ rest)) bs rest)
    (h : Block ind rest ss r) : Block ind ((ind, ts) :: (j, ts') :: (body ++ rest)) (.cls x b bs :: ss) r := by
  intro n hn
  simp only [List.length_cons, List.length_append] at hn
  obtain ⟨m, rfl⟩ : ∃ m, n = m + 1 := ⟨n - 1, by omega⟩
  rw [parseBlock]
  simp only [Nat.lt_irrefl, if_false, hl, Option.bind_eq_bind, Option.bind_some, hj, if_true]
  rw [hb m (by simp; omega)]
  simp only [Option.bind_some]
  rw [h m (by omega)]
  rfl

/-- Lines at this indentation that are these statements. -/
def Seg (d : Nat) (ls : List Line) (ss : List PStmt) : Prop := HeadLe d ls ∧
  ∀ rest ss' r, HeadLe d rest → Block d rest ss' r → Block d (ls ++ rest) (ss ++ ss') r

theorem headLe_nil (d : Nat) : HeadLe d [] := by intro l h; cases h

theorem headLe_append {d : Nat} {a b : List Line} (ha : HeadLe d a) (hb : HeadLe d b) : HeadLe d (a ++ b) := by
  cases a with
  | nil => exact hb
  | cons l a => exact ha

theorem headLe_cons {d : Nat} {ts : List Tok} {b : List Line} : HeadLe d ((d, ts) :: b) := by
  intro l h; cases h; exact Nat.le_refl _

theorem seg_nil (d : Nat) : Seg d [] [] := ⟨headLe_nil d, fun _ _ _ _ h => h⟩

theorem seg_append {d : Nat} {a b : List Line} {s t : List PStmt} (ha : Seg d a s) (hb : Seg d b t) : Seg d (a ++ b) (s ++ t) :=
  ⟨headLe_append ha.1 hb.1, fun rest ss' r hr h => by
    rw [List.append_assoc, List.append_assoc]
    exact ha.2 _ _ _ (headLe_append hb.1 hr) (hb.2 _ _ _ hr h)⟩

theorem seg_line {d : Nat} {ts : List Tok} {s : PStmt} (h : parseLine ts = some (.simple s)) : Seg d [(d, ts)] [s] :=
  ⟨headLe_cons, fun _ _ _ _ hr => block_simple h hr⟩

theorem seg_cons {d : Nat} {ts : List Tok} {s : PStmt} {b : List Line} {t : List PStmt} (h : parseLine ts = some (.simple s))
    (hb : Seg d b t) : Seg d ((d, ts) :: b) (s :: t) := seg_append (seg_line h) hb

theorem seg_class {d : Nat} {x b : String} {ls : List Line} {ss : List PStmt} (hx : usable x = true) (hb : usable b = true)
    (h : Seg (4 + d) ls ss) (hn : ∃ ts t, ls = (4 + d, ts) :: t) : Seg d ((d, toksOf (classLine x b)) :: ls) [.cls x b ss] := by
  obtain ⟨ts, t, rfl⟩ := hn
  refine ⟨headLe_cons, fun rest ss' r hr h' => ?_⟩
  refine block_class (parseLine_class hx hb) (by omega) ?_ h'
  have := h.2 rest [] rest (fun l hl => by have := hr l hl; omega) (block_end (d := d) (by omega) hr)
  rwa [List.append_nil] at this

/-! ## classes -/

theorem seg_marker (d : Nat) (b : Bool) : Seg d (markerLog d b) (markerAst b) := by
  cases b with
  | false => exact seg_nil d
  | true => exact seg_line (by rfl)

theorem seg_spec {d : Nat} {f : String} (hf : usable f = true) {c : CTuple} (h : SpecGood (some c)) :
    Seg d [(d, specToks f c)] [specAst f c] := by
  obtain ⟨ts, e, ha, ho⟩ := args_spec h
  rw [e]
  exact seg_line (parseLine_assign (by decide) (unary_call hf ha ho).reads)

theorem seg_parts (d : Nat) {root add : List NT} {groups : List (List NT)} (hr : ∀ nt ∈ root, NTGood nt)
    (ha : ∀ nt ∈ add, NTGood nt) (hg : ∀ g ∈ groups, ∀ nt ∈ g, NTGood nt) :
    Seg d (partsLog d root add groups) (partsAst root add groups) := by
  unfold partsLog partsAst
  refine seg_cons (parseLine_assign (by decide) (reads_types hr).reads) (seg_append ?_ (seg_append ?_
    (seg_line (parseLine_sum (by decide) (by decide) _ _))))
  · split
    · exact seg_nil d
    · exact seg_line (parseLine_assign (by decide) (reads_types ha).reads)
  · split
    · exact seg_nil d
    · exact seg_line (parseLine_assign (by decide) (reads_groups hg).reads)

theorem cls_usable (k : Simple) : usable k.cls = true := by cases k <;> decide

theorem specClass_usable (k : Simple) : usable (specClass k) = true := by cases k <;> decide

theorem codeLog_head (d : Nat) (c : Code) : ∃ ts t, codeLog d c = (d, ts) :: t := by
  cases c <;> exact ⟨_, _, rfl⟩

theorem body_head (d : Nat) (subs : Codes) (marker : Bool) (root add : List NT) (groups : List (List NT)) :
    ∃ ts t, codesLog d subs ++ (markerLog d marker ++ partsLog d root add groups) = (d, ts) :: t := by
  cases subs with
  | nil =>
    cases marker with
    | false => exact ⟨_, _, rfl⟩
    | true => exact ⟨_, _, rfl⟩
  | cons c r =>
    obtain ⟨ts, t, e⟩ := codeLog_head d c
    rw [codesLog, e]
    exact ⟨_, _, rfl⟩

mutual
theorem seg_code : ∀ (d : Nat) (c : Code), CodeGood c → Seg d (codeLog d c) [codeAst c]
  | d, .simple x k spec, h => by
    rw [codeLog, codeAst]
    have hs := h.2
    cases e : shown k spec with
    | none => exact seg_class h.1.2 (cls_usable k) (seg_line rfl) ⟨_, _, rfl⟩
    | some c =>
      rw [e] at hs
      exact seg_class h.1.2 (cls_usable k) (seg_spec (specClass_usable k) hs) ⟨_, _, rfl⟩
  | d, .enumerated x marker root add, h => by
    rw [codeLog, codeAst]
    refine seg_class h.1.2 (by decide) (seg_append (seg_marker _ _) (seg_cons (parseLine_assign (by decide) (reads_items root).reads)
      (seg_append ?_ (seg_line ?_)))) ?_
    · split
      · exact seg_nil _
      · exact seg_line (parseLine_assign (by decide) (reads_items add).reads)
    · have := parseLine_sum (x := "enumerationRoot") (y := "namedValues") (by decide) (by decide) add.isEmpty true
      simpa using this
    · cases marker <;> exact ⟨_, _, rfl⟩
  | d, .seqOf x spec f, h => by
    have h1 : Seg (4 + d) [(4 + d, setCall "componentType" f [])] [.assign "componentType" (.call f [])] :=
      seg_line (parseLine_assign (by decide) (unary_call h.2.2.2 (args_nil ')') rfl).reads)
    have hs := h.2.1
    cases spec with
    | none => exact seg_class h.1.2 (by decide) h1 ⟨_, _, rfl⟩
    | some c => exact seg_class h.1.2 (by decide) (seg_append (seg_spec (by decide) hs) h1) ⟨_, _, rfl⟩
  | d, .sequence x subs marker root add groups, h => by
    rw [codeLog, codeAst]
    exact seg_class h.1.2 (by decide) (seg_append (seg_codes _ subs h.2.1) (seg_append (seg_marker _ _)
      (seg_parts _ h.2.2.1 h.2.2.2.1 h.2.2.2.2))) (body_head ..)
  | d, .choice x subs marker root add groups, h => by
    rw [codeLog, codeAst]
    exact seg_class h.1.2 (by decide) (seg_append (seg_codes _ subs h.2.1) (seg_append (seg_marker _ _)
      (seg_parts _ (fun nt hn => (h.2.2.1 nt hn).1) (fun nt hn => (h.2.2.2.1 nt hn).1)
        fun g hg nt hn => (h.2.2.2.2 g hg nt hn).1))) (body_head ..)
theorem seg_codes : ∀ (d : Nat) (c : Codes), CodesGood c → Seg d (codesLog d c) (codesAst c)
  | d, .nil, _ => seg_nil d
  | d, .cons c r, h => seg_append (seg_code d c h.1) (seg_codes d r h.2)
end

end Verif.Python
