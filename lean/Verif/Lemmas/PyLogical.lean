import Verif.Lemmas.PyLines
/-!
# Logical lines of a generated class
-/
namespace Verif.Python

/-! ## putting lines together -/

theorem depth_append (d : Nat) (a b : List Tok) : depth d (a ++ b) = (depth d a).bind (depth · b) := by
  induction a generalizing d with
  | nil => rfl
  | cons t a ih =>
    cases t with
    | op c =>
      simp only [List.cons_append, depth]
      split
      · exact ih _
      · split
        · cases d with
          | zero => rfl
          | succ d => exact ih _
        · exact ih _
    | name s => exact ih _
    | num s => exact ih _
    | str s => exact ih _

theorem backslash_append (ts : List Tok) (t : Tok) (h : t ≠ .op '\\') : backslash (ts ++ [t]) = false := by
  simp [backslash, h]

theorem backslash_tail {a b : List Tok} (hb : backslash b = false) (hn : b ≠ []) : backslash (a ++ b) = false := by
  cases h : b.getLast? with
  | none => exact absurd (List.getLast?_eq_none_iff.1 h) hn
  | some t => simpa [backslash, List.getLast?_append, h] using hb

/-- These lines are that one, brackets being open. -/
def Mids (d : Nat) (ls : List Line) : Prop := ∀ i acc r, logical (some ((i, acc), d)) (ls ++ r) =
  logical (some ((i, acc ++ ls.flatMap Prod.snd), d)) r

theorem logical_go {i : Nat} {acc : List Tok} {d d' : Nat} {ts : List Tok} {r : List Line} (hb : backslash ts = false)
    (hd : depth d ts = some d') : joinLine i acc d ts (fun c => logical c r) =
      if d' = 0 then (logical none r).map ((i, acc ++ ts) :: ·) else logical (some ((i, acc ++ ts), d')) r := by
  unfold joinLine
  simp only [hb, hd, Bool.false_eq_true, if_false, Option.bind_eq_bind, Option.bind_some, Bool.not_false, Bool.and_true,
    decide_eq_true_eq]
  split
  · cases logical none r <;> rfl
  · rfl

theorem logical_next {i j : Nat} {acc : List Tok} {d d' : Nat} {ts : List Tok} {r : List Line} (hb : backslash ts = false)
    (hd : depth d ts = some (d' + 1)) : logical (some ((i, acc), d)) ((j, ts) :: r) = logical (some ((i, acc ++ ts), d' + 1)) r := by
  rw [logical]
  rw [logical_go hb hd, if_neg (by omega)]

theorem logical_last {i j : Nat} {acc : List Tok} {d : Nat} {ts : List Tok} {r : List Line} (hb : backslash ts = false)
    (hd : depth d ts = some 0) :
    logical (some ((i, acc), d)) ((j, ts) :: r) = (logical none r).map ((i, acc ++ ts) :: ·) := by
  rw [logical]
  rw [logical_go hb hd, if_pos rfl]

theorem mids_nil (d : Nat) : Mids d [] := by intro i acc r; simp

theorem mids_append {d : Nat} {a b : List Line} (ha : Mids d a) (hb : Mids d b) : Mids d (a ++ b) := by
  intro i acc r
  rw [List.append_assoc, ha, hb]; simp

theorem mids_flatMap {α : Type} {d : Nat} {l : List α} {f : α → List Line} (h : ∀ x ∈ l, Mids d (f x)) : Mids d (l.flatMap f) := by
  induction l with
  | nil => exact mids_nil d
  | cons x l ih => exact mids_append (h x (by simp)) (ih fun y hy => h y (by simp [hy]))

theorem mids_map {α : Type} {d : Nat} {l : List α} {f : α → Line} (h : ∀ x ∈ l, Mids d [f x]) : Mids d (l.map f) := by
  induction l with
  | nil => exact mids_nil d
  | cons x l ih => exact mids_append (h x (by simp)) (ih fun y hy => h y (by simp [hy]))

theorem mids_one {d j : Nat} {ts : List Tok} (hb : backslash ts = false) (hd : depth (d + 1) ts = some (d + 1)) :
    Mids (d + 1) [(j, ts)] := by
  intro i acc r
  rw [List.singleton_append, logical_next hb hd]; simp

theorem mids_nest {d j k : Nat} {t t' : List Tok} {ls : List Line} (hb : backslash t = false) (hb' : backslash t' = false)
    (hd : depth (d + 1) t = some (d + 2)) (hd' : depth (d + 2) t' = some (d + 1)) (h : Mids (d + 2) ls) :
    Mids (d + 1) ((j, t) :: (ls ++ [(k, t')])) := by
  intro i acc r
  rw [List.cons_append, logical_next hb hd, List.append_assoc, h, List.singleton_append, logical_next hb' hd']
  simp

/-- Those logical lines. -/
def Joins (ls out : List Line) : Prop := ∀ r, logical none (ls ++ r) = (logical none r).map (out ++ ·)

theorem joins_nil : Joins [] [] := by intro r; simp

theorem joins_append {a b x y : List Line} (ha : Joins a x) (hb : Joins b y) : Joins (a ++ b) (x ++ y) := by
  intro r
  rw [List.append_assoc, ha, hb, Option.map_map]
  congr 1; funext z; simp

theorem joins_cons {l : Line} {b x y : List Line} (ha : Joins [l] x) (hb : Joins b y) : Joins (l :: b) (x ++ y) :=
  joins_append ha hb

theorem joins_blank (i : Nat) : Joins [(i, [])] [] := by
  intro r
  rw [List.singleton_append, logical]; simp

theorem joins_one {i : Nat} {ts : List Tok} (hn : ts ≠ []) (hb : backslash ts = false) (hd : depth 0 ts = some 0) :
    Joins [(i, ts)] [(i, ts)] := by
  intro r
  rw [List.singleton_append, logical]
  simp only [List.isEmpty_iff, hn, if_false]
  rw [logical_go hb hd]
  simp

theorem joins_block {i j d : Nat} {t t' : List Tok} {ls : List Line} (hn : t ≠ []) (hb : backslash t = false)
    (hb' : backslash t' = false) (hd : depth 0 t = some (d + 1)) (hd' : depth (d + 1) t' = some 0) (h : Mids (d + 1) ls) :
    Joins ((i, t) :: (ls ++ [(j, t')])) [(i, t ++ (ls.flatMap Prod.snd ++ t'))] := by
  intro r
  rw [List.cons_append, logical]
  simp only [List.isEmpty_iff, hn, if_false]
  rw [logical_go hb hd, if_neg (by omega), List.append_assoc, h, List.singleton_append, logical_last hb' hd']
  simp

/-! ## the lines of a class -/

theorem toks_append (a b : List Piece) : toksOf (a ++ b) = toksOf a ++ toksOf b := by simp [toksOf]

@[simp] theorem toks_nil : toksOf [] = [] := rfl
@[simp] theorem toks_name (s : String) (ps : List Piece) : toksOf (.name s :: ps) = .name s :: toksOf ps := rfl
@[simp] theorem toks_num (s : Nat) (ps : List Piece) : toksOf (.num s :: ps) = .num s :: toksOf ps := rfl
@[simp] theorem toks_str (s : String) (ps : List Piece) : toksOf (.str s :: ps) = .str s :: toksOf ps := rfl
@[simp] theorem toks_op (s : Char) (ps : List Piece) : toksOf (.op s :: ps) = .op s :: toksOf ps := rfl
@[simp] theorem toks_sp (ps : List Piece) : toksOf (.sp :: ps) = toksOf ps := rfl

theorem depth_int (d : Nat) (z : Int) : depth d (toksOf (intPieces z)) = some d := by
  unfold intPieces; split <;> simp [depth]

theorem depth_end (d : Nat) (e : End) : depth d (toksOf (endPieces e)) = some d := by
  cases e with
  | num z => exact depth_int d z
  | min => rfl
  | max => rfl
  | ref s => rfl

theorem depth_expr (d : Nat) (e : Expr) : depth d (toksOf (exprPieces e)) = some d := by
  cases e with
  | int z => exact depth_int d z
  | bool b => rfl
  | name s => rfl
  | str s => rfl
  | bin b => rfl
  | hex h => rfl
  | junk => rfl

theorem depth_spec (f : String) (c : CTuple) : depth 0 (toksOf (specLine f c).2) = some 0 := by
  simp only [specLine, setTo, toks_append, depth_append, depth_end]
  cases c.ext <;> simp [depth, depth_end]

theorem backslash_spec (f : String) (c : CTuple) : backslash (toksOf (specLine f c).2) = false := by
  simp only [specLine, toks_append, ← List.append_assoc]
  exact backslash_append _ _ (by decide)

theorem depth_nt (d i j : Nat) (nt : NT) : depth d (toksOf (ntLine i j nt).2) = some d := by
  unfold ntLine
  split
  · simp [depth]
  · simp [depth]
  · simp [toks_append, depth, depth_append, depth_expr]
  · simp [depth]

theorem backslash_nt (i j : Nat) (nt : NT) : backslash (toksOf (ntLine i j nt).2) = false := by
  unfold ntLine
  split
  · simp [backslash]
  · simp [backslash]
  · rw [toks_append, toks_append, ← List.append_assoc]; exact backslash_tail (by simp [backslash]) (by simp)
  · simp [backslash]

theorem depth_item (d : Nat) (i : String × Int) : depth d (toksOf (itemLine i).2) = some d := by
  simp [itemLine, toks_append, depth, depth_append, depth_int]

theorem backslash_item (i : String × Int) : backslash (toksOf (itemLine i).2) = false := by
  rw [itemLine, toks_append, toks_append, ← List.append_assoc]; exact backslash_tail (by simp [backslash]) (by simp)

/-- Tokens of `NamedType(...),` and the like. -/
def ntToks (nt : NT) : List Tok := toksOf (ntLine 0 0 nt).2

theorem toks_nt (i j : Nat) (nt : NT) : toksOf (ntLine i j nt).2 = ntToks nt := by
  unfold ntToks ntLine; split <;> rfl

def itemToks (i : String × Int) : List Tok := toksOf (itemLine i).2

def groupToks (g : List NT) : List Tok := [.name "AdditiveNamedTypes", .op '('] ++ (g.flatMap ntToks ++ [.op ')', .op ','])

/-- `x = f(` items `)` -/
def setCall (x f : String) (ts : List Tok) : List Tok := .name x :: .op '=' :: .name f :: .op '(' :: (ts ++ [.op ')'])

def plusToks (b : String) : List Tok := [.op '+', .name b]

/-- The logical lines of the components. -/
def partsLog (d : Nat) (root add : List NT) (groups : List (List NT)) : List Line :=
  (d, setCall "rootComponent" "AdditiveNamedTypes" (root.flatMap ntToks)) ::
  ((if add.isEmpty then [] else [(d, setCall "extensionAddition" "AdditiveNamedTypes" (add.flatMap ntToks))]) ++
  ((if groups.isEmpty then [] else
    [(d, .name "extensionAdditionGroups" :: .op '=' :: .op '[' :: (groups.flatMap groupToks ++ [.op ']']))]) ++
  [(d, .name "componentType" :: .op '=' :: .name "rootComponent" ::
    ((if add.isEmpty then [] else plusToks "extensionAddition") ++
     (if groups.isEmpty then [] else plusToks "extensionAdditionGroups")))]))

def markerLog (d : Nat) (b : Bool) : List Line :=
  if b then [(d, [.name "subtypeSpec", .op '=', .name "ExtensionMarker", .op '(', .name "True", .op ')'])] else []

def specToks (f : String) (c : CTuple) : List Tok := toksOf (specLine f c).2

mutual
/-- The logical lines of a class that is indented by `d`. -/
def codeLog (d : Nat) : Code → List Line
  | .simple x k spec => (d, toksOf (classLine x k.cls)) ::
    (match shown k spec with | none => [(4 + d, [.name "pass"])] | some c => [(4 + d, specToks (specClass k) c)])
  | .enumerated x marker root add =>
    (d, toksOf (classLine x "EnumeratedType")) :: (markerLog (4 + d) marker ++
      ((4 + d, setCall "enumerationRoot" "NamedValues" (root.flatMap itemToks)) ::
      ((if add.isEmpty then [] else [(4 + d, setCall "extensionAddition" "NamedValues" (add.flatMap itemToks))]) ++
      [(4 + d, .name "namedValues" :: .op '=' :: .name "enumerationRoot" ::
        (if add.isEmpty then [] else plusToks "extensionAddition"))])))
  | .seqOf x spec f =>
    (d, toksOf (classLine x "SequenceOfType")) ::
      ((match spec with | none => [] | some c => [(4 + d, specToks "SequenceOfValueSize" c)]) ++
      [(4 + d, setCall "componentType" f [])])
  | .sequence x subs marker root add groups =>
    (d, toksOf (classLine x "SequenceType")) :: (codesLog (4 + d) subs ++ (markerLog (4 + d) marker ++ partsLog (4 + d) root add groups))
  | .choice x subs marker root add groups =>
    (d, toksOf (classLine x "ChoiceType")) :: (codesLog (4 + d) subs ++ (markerLog (4 + d) marker ++ partsLog (4 + d) root add groups))
def codesLog (d : Nat) : Codes → List Line
  | .nil => []
  | .cons c r => codeLog d c ++ codesLog d r
end

/-- Lines indented by `d`, as they are read. -/
def readAt (d : Nat) (ls : List SLine) : List Line := ls.map fun l => tokLine (shift d l)

@[simp] theorem readAt_nil (d : Nat) : readAt d [] = [] := rfl
@[simp] theorem readAt_append (d : Nat) (a b : List SLine) : readAt d (a ++ b) = readAt d a ++ readAt d b := by simp [readAt]
theorem readAt_cons (d i : Nat) (p : Piece) (ps : List Piece) (ls : List SLine) :
    readAt d ((i, p :: ps) :: ls) = (i + d, toksOf (p :: ps)) :: readAt d ls := rfl
theorem readAt_blank (d i : Nat) (ls : List SLine) : readAt d ((i, []) :: ls) = (0, []) :: readAt d ls := rfl
theorem readAt_shift (d : Nat) (ls : List SLine) : readAt d (ls.map (shift 4)) = readAt (4 + d) ls := by
  simp [readAt, shift, Nat.add_assoc, Function.comp_def]

theorem mids_nts (d e i j : Nat) (l : List NT) : Mids (d + 1) (readAt e (l.map (ntLine i j))) := by
  unfold readAt
  rw [List.map_map]
  exact mids_map fun nt _ => mids_one (backslash_nt i j nt) (depth_nt _ i j nt)

theorem flat_nts (e i j : Nat) (l : List NT) : (readAt e (l.map (ntLine i j))).flatMap Prod.snd = l.flatMap ntToks := by
  induction l with
  | nil => rfl
  | cons nt l ih =>
    have : readAt e ((nt :: l).map (ntLine i j)) = tokLine (shift e (ntLine i j nt)) :: readAt e (l.map (ntLine i j)) := rfl
    rw [this, List.flatMap_cons, ih, List.flatMap_cons]
    congr 1
    exact toks_nt i j nt

theorem mids_items (d e : Nat) (l : List (String × Int)) : Mids (d + 1) (readAt e (l.map itemLine)) := by
  unfold readAt
  rw [List.map_map]
  exact mids_map fun nt _ => mids_one (backslash_item nt) (depth_item _ nt)

theorem flat_items (e : Nat) (l : List (String × Int)) : (readAt e (l.map itemLine)).flatMap Prod.snd = l.flatMap itemToks := by
  induction l with
  | nil => rfl
  | cons nt l ih =>
    have : readAt e ((nt :: l).map itemLine) = tokLine (shift e (itemLine nt)) :: readAt e (l.map itemLine) := rfl
    rw [this, List.flatMap_cons, ih, List.flatMap_cons]
    rfl

theorem mids_group (d e : Nat) (g : List NT) : Mids (d + 1) (readAt e (groupLines g)) := by
  unfold groupLines
  rw [readAt_cons, readAt_append, readAt_cons]
  exact mids_nest (by simp [backslash]) (by simp [backslash]) (by simp [depth]) (by simp [depth]) (mids_nts _ _ _ _ _)

theorem flat_group (e : Nat) (g : List NT) : (readAt e (groupLines g)).flatMap Prod.snd = groupToks g := by
  unfold groupLines
  rw [readAt_cons, readAt_append, readAt_cons, List.flatMap_cons, List.flatMap_append, flat_nts]
  simp [groupToks]

theorem mids_groups (d e : Nat) (gs : List (List NT)) : Mids (d + 1) (readAt e (gs.flatMap groupLines)) := by
  induction gs with
  | nil => exact mids_nil _
  | cons g gs ih => rw [List.flatMap_cons, readAt_append]; exact mids_append (mids_group d e g) ih

theorem flat_groups (e : Nat) (gs : List (List NT)) :
    (readAt e (gs.flatMap groupLines)).flatMap Prod.snd = gs.flatMap groupToks := by
  induction gs with
  | nil => rfl
  | cons g gs ih => rw [List.flatMap_cons, readAt_append, List.flatMap_append, flat_group, ih, List.flatMap_cons]

theorem joins_call {e : Nat} {x f : String} {ls : List SLine} {ts : List Tok} (hm : Mids 1 (readAt e ls))
    (hf : (readAt e ls).flatMap Prod.snd = ts) :
    Joins (readAt e ((4, setTo x ++ [.name f, .op '(']) :: (ls ++ [(4, [.op ')'])]))) [(4 + e, setCall x f ts)] := by
  have : setTo x ++ [.name f, .op '('] = [.name x, .sp, .op '=', .sp, .name f, .op '('] := rfl
  rw [this, readAt_cons, readAt_append, readAt_cons]
  have := joins_block (i := 4 + e) (j := 4 + e) (d := 0) (t := toksOf [.name x, .sp, .op '=', .sp, .name f, .op '('])
    (t' := toksOf [.op ')']) (ls := readAt e ls) (by simp) (by simp [backslash]) (by simp [backslash]) (by simp [depth])
    (by simp [depth]) hm
  rw [hf] at this
  exact this

theorem joins_marker (e : Nat) (b : Bool) : Joins (readAt e (markerLines b)) (markerLog (4 + e) b) := by
  cases b with
  | false => exact joins_nil
  | true => exact joins_one (by simp [setTo, shift]) (by simp [setTo, shift, backslash]) (by simp [setTo, shift, depth])

theorem joins_spec (e : Nat) (f : String) (c : CTuple) : Joins (readAt e [specLine f c]) [(4 + e, specToks f c)] := by
  refine joins_one (ts := specToks f c) ?_ (backslash_spec f c) (depth_spec f c)
  simp [specToks, specLine, setTo]

theorem toks_sum (a g : Bool) (x y : String) : toksOf (setTo y ++ (.name x ::
    ((if a then [] else plusPieces "extensionAddition") ++ (if g then [] else plusPieces "extensionAdditionGroups")))) =
    .name y :: .op '=' :: .name x :: ((if a then [] else plusToks "extensionAddition") ++
     (if g then [] else plusToks "extensionAdditionGroups")) := by
  cases a <;> cases g <;> rfl

theorem joins_sum (e : Nat) (a g : Bool) (x y : String) : Joins (readAt e [(4, setTo y ++ (.name x ::
    ((if a then [] else plusPieces "extensionAddition") ++ (if g then [] else plusPieces "extensionAdditionGroups"))))])
    [(4 + e, .name y :: .op '=' :: .name x :: ((if a then [] else plusToks "extensionAddition") ++
     (if g then [] else plusToks "extensionAdditionGroups")))] := by
  have : ∀ ps, readAt e [(4, setTo y ++ ps)] = [(4 + e, toksOf (setTo y ++ ps))] := fun ps => rfl
  rw [this, toks_sum]
  refine joins_one (by simp) ?_ ?_
  · cases a <;> cases g <;> simp [backslash, plusToks]
  · cases a <;> cases g <;> simp [depth, plusToks]

theorem joins_parts (e : Nat) (root add : List NT) (groups : List (List NT)) :
    Joins (readAt e (partsLines root add groups)) (partsLog (4 + e) root add groups) := by
  unfold partsLines partsLog
  have e1 : ∀ (a : SLine) (b : List SLine) (c : SLine) (r : List SLine), a :: (b ++ c :: r) = (a :: (b ++ [c])) ++ r := by
    intros; simp
  rw [e1, readAt_append]
  refine joins_append (x := [_]) (joins_call (mids_nts _ _ _ _ _) (flat_nts ..)) ?_
  rw [readAt_append]
  refine joins_append ?_ ?_
  · split
    · exact joins_nil
    · exact joins_call (mids_nts _ _ _ _ _) (flat_nts ..)
  rw [readAt_append]
  refine joins_append ?_ (joins_sum e _ _ _ _)
  split
  · exact joins_nil
  · have : setTo "extensionAdditionGroups" ++ [.op '['] = [.name "extensionAdditionGroups", .sp, .op '=', .sp, .op '['] := rfl
    rw [this, readAt_cons, readAt_append, readAt_cons]
    have := joins_block (i := 4 + e) (j := 4 + e) (d := 0)
      (t := toksOf [.name "extensionAdditionGroups", .sp, .op '=', .sp, .op '['])
      (t' := toksOf [.op ']']) (ls := readAt e (groups.flatMap groupLines)) (by simp) (by simp [backslash]) (by simp [backslash])
      (by simp [depth]) (by simp [depth]) (mids_groups _ _ _)
    rw [flat_groups] at this
    exact this

theorem joins_class (i : Nat) (x b : String) : Joins [(i, toksOf (classLine x b))] [(i, toksOf (classLine x b))] :=
  joins_one (by simp [classLine]) (by simp [classLine, backslash]) (by simp [classLine, depth])

theorem readAt_class (e : Nat) (x b : String) (ls : List SLine) :
    readAt e ((0, classLine x b) :: ls) = (e, toksOf (classLine x b)) :: readAt e ls := by
  have : classLine x b = .name "class" :: [.sp, .name x, .op '(', .name b, .op ')', .op ':'] := rfl
  rw [this, readAt_cons, Nat.zero_add]

mutual
theorem joins_code : ∀ (e : Nat) (c : Code), Joins (readAt e (codeLines c)) (codeLog e c)
  | e, .simple x k spec => by
    rw [codeLines, codeLog, readAt_class]
    refine joins_cons (joins_class _ _ _) ?_
    cases shown k spec with
    | none => exact joins_one (by simp [shift]) (by simp [shift, backslash]) (by simp [shift, depth])
    | some c => exact joins_spec _ _ _
  | e, .enumerated x marker root add => by
    rw [codeLines, codeLog, readAt_class]
    refine joins_cons (joins_class _ _ _) ?_
    rw [readAt_append]
    refine joins_append (joins_marker _ _) ?_
    have e1 : ∀ (a : SLine) (b : List SLine) (c : SLine) (r : List SLine), a :: (b ++ c :: r) = (a :: (b ++ [c])) ++ r := by
      intros; simp
    rw [e1, readAt_append]
    refine joins_append (x := [_]) (joins_call (mids_items _ _ _) (flat_items ..)) ?_
    rw [readAt_append]
    refine joins_append ?_ ?_
    · split
      · exact joins_nil
      · exact joins_call (mids_items _ _ _) (flat_items ..)
    · have := joins_sum e add.isEmpty true "enumerationRoot" "namedValues"
      simpa using this
  | e, .seqOf x spec f => by
    have h1 : Joins (readAt e [(4, setTo "componentType" ++ [.name f, .op '(', .op ')'])]) [(4 + e, setCall "componentType" f [])] :=
      joins_one (by simp [setTo, shift]) (by simp [setTo, shift, backslash]) (by simp [setTo, shift, depth])
    cases spec with
    | none =>
      have e1 : codeLines (.seqOf x none f) = (0, classLine x "SequenceOfType") ::
        [(4, setTo "componentType" ++ [.name f, .op '(', .op ')'])] := rfl
      have e2 : codeLog e (.seqOf x none f) = [(e, toksOf (classLine x "SequenceOfType"))] ++
        [(4 + e, setCall "componentType" f [])] := rfl
      rw [e1, e2, readAt_class]
      exact joins_cons (joins_class _ _ _) h1
    | some c =>
      have e1 : codeLines (.seqOf x (some c) f) = (0, classLine x "SequenceOfType") :: ([specLine "SequenceOfValueSize" c] ++
        [(4, setTo "componentType" ++ [.name f, .op '(', .op ')'])]) := rfl
      have e2 : codeLog e (.seqOf x (some c) f) = [(e, toksOf (classLine x "SequenceOfType"))] ++
        ([(4 + e, specToks "SequenceOfValueSize" c)] ++ [(4 + e, setCall "componentType" f [])]) := rfl
      rw [e1, e2, readAt_class, readAt_append]
      exact joins_cons (joins_class _ _ _) (joins_append (joins_spec _ _ _) h1)
  | e, .sequence x subs marker root add groups => by
    rw [codeLines, codeLog, readAt_class, readAt_append, readAt_append]
    exact joins_cons (joins_class _ _ _) (joins_append (joins_codes e subs) (joins_append (joins_marker _ _) (joins_parts _ _ _ _)))
  | e, .choice x subs marker root add groups => by
    rw [codeLines, codeLog, readAt_class, readAt_append, readAt_append]
    exact joins_cons (joins_class _ _ _) (joins_append (joins_codes e subs) (joins_append (joins_marker _ _) (joins_parts _ _ _ _)))
theorem joins_codes : ∀ (e : Nat) (c : Codes), Joins (readAt e (codesLines c)) (codesLog (4 + e) c)
  | e, .nil => joins_nil
  | e, .cons c r => by
    rw [codesLines, codesLog, readAt_append, readAt_shift, readAt_blank]
    exact joins_append (joins_code (4 + e) c) (joins_cons (x := []) (joins_blank 0) (joins_codes e r))
end

end Verif.Python
