import Verif.Lemmas.ParseBase
import Verif.Grammar
/-!
# The elements of the grammar: where they can start
-/
namespace Verif.Parse

/-! ## quoted text and words in parentheses -/

theorem quotedBody_eq (q : Char) (s : List Char) : (quotedBody q s).1 ++ (quotedBody q s).2 = s := by
  fun_induction quotedBody q s <;> simp_all

instance : Splits matchString :=
  ⟨fun s t r h => by
    cases s with
    | nil => simp [matchString] at h
    | cons c s =>
      simp only [matchString] at h
      split at h
      · split at h
        · next t' d r' e =>
          split at h
          · simp only [Option.some.injEq, Prod.mk.injEq] at h
            obtain ⟨rfl, rfl⟩ := h
            have := quotedBody_eq c s
            rw [e] at this
            simp [← this]
          · cases h
        · cases h
      · cases h⟩

theorem matchContent_eq (s : List Char) : (matchContent s).1 ++ (matchContent s).2 = s := by
  fun_induction matchContent s <;> simp_all

instance : Tidy content := by
  unfold content
  have : Splits (fun s => match matchContent s with | ([], _) => none | (c :: t, r) => some (c :: t, r)) :=
    ⟨fun s t r h => by
      have := matchContent_eq s
      split at h
      · cases h
      · next c t' r' e =>
        simp only [Option.some.injEq, Prod.mk.injEq] at h
        obtain ⟨rfl, rfl⟩ := h
        rw [e] at this
        exact this.symm⟩
  infer_instance

instance tidy_nested (f : List Tok → Except PErr (List Tok)) : ∀ n, Tidy (nestedExpr f n)
  | 0 => by unfold nestedExpr; infer_instance
  | n + 1 => by
    have := tidy_nested f n
    unfold nestedExpr; infer_instance

/-! ## tidiness -/

instance : Tidy typereference := by unfold typereference; infer_instance
instance : Tidy identifier := by unfold identifier; infer_instance
instance : Tidy valuereference := by unfold valuereference; infer_instance
instance : Tidy modulereference := by unfold modulereference; infer_instance
instance : Tidy number := by unfold number; infer_instance
instance : Tidy realnumber := by unfold realnumber; infer_instance
instance : Tidy bstring := by unfold bstring; infer_instance
instance : Tidy hstring := by unfold hstring; infer_instance
instance : Tidy cstring := by unfold cstring; infer_instance
instance : Tidy encodingreference := by unfold encodingreference; infer_instance
instance : Tidy leftCurly := by unfold leftCurly; infer_instance
instance : Tidy rightCurly := by unfold rightCurly; infer_instance
instance : Tidy comma := by unfold comma; infer_instance
instance : Tidy leftParen := by unfold leftParen; infer_instance
instance : Tidy rightParen := by unfold rightParen; infer_instance
instance : Tidy signedNumber := by unfold signedNumber; infer_instance
instance : Tidy externalValueReference := by unfold externalValueReference; infer_instance
instance : Tidy definedValue := by unfold definedValue; infer_instance
instance : Tidy namedNumber := by unfold namedNumber; infer_instance
instance : Tidy namedNumberList := by unfold namedNumberList; infer_instance
instance : Tidy tuple := by unfold tuple; infer_instance
instance : Tidy quadruple := by unfold quadruple; infer_instance
instance : Tidy charsDefn := by unfold charsDefn; infer_instance
instance : Tidy charSyms := by unfold charSyms; infer_instance
instance : Tidy characterStringList := by unfold characterStringList; infer_instance
instance {V : P} [Tidy V] : Tidy (namedValue V) := by unfold namedValue; infer_instance
instance {V : P} [Tidy V] : Tidy (componentValueList V) := by unfold componentValueList; infer_instance
instance {V : P} [Tidy V] : Tidy (sequenceValue V) := by unfold sequenceValue; infer_instance
instance : Tidy specialRealValue := by unfold specialRealValue; infer_instance
instance {V : P} [Tidy V] : Tidy (numericRealValue V) := by unfold numericRealValue; infer_instance
instance {V : P} [Tidy V] : Tidy (realValue V) := by unfold realValue; infer_instance
instance : Tidy referencedValue := by unfold referencedValue; infer_instance
instance : Tidy integerValue := by unfold integerValue; infer_instance
instance {V : P} [Tidy V] : Tidy (octetStringValue V) := by unfold octetStringValue; infer_instance
instance : Tidy booleanValue := by unfold booleanValue; infer_instance
instance : Tidy restrictedCharacterStringValue := by unfold restrictedCharacterStringValue; infer_instance
instance : Tidy characterStringValue := by unfold characterStringValue; infer_instance
instance {V : P} [Tidy V] : Tidy (builtinValue V) := by unfold builtinValue; infer_instance
instance tidy_value : ∀ n, Tidy (value n)
  | 0 => by unfold value; infer_instance
  | n + 1 => by
    have := tidy_value n
    unfold value; infer_instance

instance {V : P} [Tidy V] : Tidy (upperEndValue V) := by unfold upperEndValue; infer_instance
instance {V : P} [Tidy V] : Tidy (lowerEndValue V) := by unfold lowerEndValue; infer_instance
instance {V : P} [Tidy V] : Tidy (upperEndpoint V) := by unfold upperEndpoint; infer_instance
instance {V : P} [Tidy V] : Tidy (lowerEndpoint V) := by unfold lowerEndpoint; infer_instance
instance {V : P} [Tidy V] : Tidy (valueRange V) := by unfold valueRange; infer_instance
instance {C : P} [Tidy C] : Tidy (sizeConstraint C) := by unfold sizeConstraint; infer_instance
instance {V C : P} [Tidy V] [Tidy C] : Tidy (subtypeElements V C) := by unfold subtypeElements; infer_instance
instance {V C E : P} [Tidy V] [Tidy C] [Tidy E] : Tidy (elements V C E) := by unfold elements; infer_instance
instance : Tidy intersectionMark := by unfold intersectionMark; infer_instance
instance : Tidy unionMark := by unfold unionMark; infer_instance
instance {V C E : P} [Tidy V] [Tidy C] [Tidy E] : Tidy (exclusions V C E) := by unfold exclusions; infer_instance
instance {V C E : P} [Tidy V] [Tidy C] [Tidy E] : Tidy (intersectionElements V C E) := by unfold intersectionElements; infer_instance
instance {V C E : P} [Tidy V] [Tidy C] [Tidy E] : Tidy (intersections V C E) := by unfold intersections; infer_instance
instance {V C E : P} [Tidy V] [Tidy C] [Tidy E] : Tidy (unions V C E) := by unfold unions; infer_instance
instance {V C E : P} [Tidy V] [Tidy C] [Tidy E] : Tidy (elementSetSpecBody V C E) := by unfold elementSetSpecBody; infer_instance
instance {E : P} [Tidy E] : Tidy (elementSetSpecs E) := by unfold elementSetSpecs; infer_instance
instance {E : P} [Tidy E] : Tidy (constraintSpec E) := by unfold constraintSpec; infer_instance
instance {E : P} [Tidy E] : Tidy (constraintBody E) := by unfold constraintBody; infer_instance
instance tidy_elementSetSpec {V : P} [Tidy V] : ∀ n, Tidy (elementSetSpec V n)
  | 0 => by unfold elementSetSpec; infer_instance
  | n + 1 => by
    have := tidy_elementSetSpec (V := V) n
    unfold elementSetSpec; infer_instance
instance {V : P} [Tidy V] (n : Nat) : Tidy (constraintDef V n) := by unfold constraintDef; infer_instance

instance : Tidy definedType := by unfold definedType; infer_instance
instance : Tidy referencedType := by unfold referencedType; infer_instance
instance {T V : P} [Tidy T] [Tidy V] : Tidy (exceptionSpec T V) := by unfold exceptionSpec; infer_instance
instance {T : P} [Tidy T] : Tidy (namedType T) := by unfold namedType; infer_instance
instance : Tidy integerType := by unfold integerType; infer_instance
instance : Tidy enumerationItem := by unfold enumerationItem; infer_instance
instance : Tidy enumeration := by unfold enumeration; infer_instance
instance {T V : P} [Tidy T] [Tidy V] : Tidy (enumerations T V) := by unfold enumerations; infer_instance
instance {T V : P} [Tidy T] [Tidy V] : Tidy (enumeratedType T V) := by unfold enumeratedType; infer_instance
instance : Tidy namedBit := by unfold namedBit; infer_instance
instance : Tidy namedBitList := by unfold namedBitList; infer_instance
instance : Tidy bitStringType := by unfold bitStringType; infer_instance
instance : Tidy versionNumber := by unfold versionNumber; infer_instance
instance {T V : P} [Tidy T] [Tidy V] : Tidy (extensionAndException T V) := by unfold extensionAndException; infer_instance
instance : Tidy optionalExtensionMarker := by unfold optionalExtensionMarker; infer_instance
instance {T V : P} [Tidy T] [Tidy V] : Tidy (componentType T V) := by unfold componentType; infer_instance
instance {T V : P} [Tidy T] [Tidy V] : Tidy (componentTypeList T V) := by unfold componentTypeList; infer_instance
instance {T V : P} [Tidy T] [Tidy V] : Tidy (extensionAdditionGroup T V) := by unfold extensionAdditionGroup; infer_instance
instance {T V : P} [Tidy T] [Tidy V] : Tidy (extensionAddition T V) := by unfold extensionAddition; infer_instance
instance {T V : P} [Tidy T] [Tidy V] : Tidy (extensionAdditionList T V) := by unfold extensionAdditionList; infer_instance
instance {T V : P} [Tidy T] [Tidy V] : Tidy (extensionAdditions T V) := by unfold extensionAdditions; infer_instance
instance {T V : P} [Tidy T] [Tidy V] : Tidy (componentTypeLists T V) := by unfold componentTypeLists; infer_instance
instance {T V : P} [Tidy T] [Tidy V] : Tidy (sequenceType T V) := by unfold sequenceType; infer_instance
instance {T : P} [Tidy T] : Tidy (sequenceOfType T) := by unfold sequenceOfType; infer_instance
instance {T : P} [Tidy T] : Tidy (alternativeTypeList T) := by unfold alternativeTypeList; infer_instance
instance {T : P} [Tidy T] : Tidy (additionAlternativesGroup T) := by unfold additionAlternativesGroup; infer_instance
instance {T : P} [Tidy T] : Tidy (additionAlternative T) := by unfold additionAlternative; infer_instance
instance {T : P} [Tidy T] : Tidy (additionAlternativesList T) := by unfold additionAlternativesList; infer_instance
instance {T : P} [Tidy T] : Tidy (additionAlternatives T) := by unfold additionAlternatives; infer_instance
instance {T V : P} [Tidy T] [Tidy V] : Tidy (alternativeTypeLists T V) := by unfold alternativeTypeLists; infer_instance
instance {T V : P} [Tidy T] [Tidy V] : Tidy (choiceType T V) := by unfold choiceType; infer_instance
instance : Tidy tag := by unfold tag; infer_instance
instance {T : P} [Tidy T] : Tidy (taggedType T) := by unfold taggedType; infer_instance
instance {T : P} [Tidy T] : Tidy (prefixedType T) := by unfold prefixedType; infer_instance
instance : Tidy characterStringType := by unfold characterStringType; infer_instance
instance {T V : P} [Tidy T] [Tidy V] : Tidy (builtinType T V) := by unfold builtinType; infer_instance
instance {T C : P} [Tidy T] [Tidy C] : Tidy (typeWithConstraint T C) := by unfold typeWithConstraint; infer_instance
instance {T V C : P} [Tidy T] [Tidy V] [Tidy C] : Tidy (constrainedType T V C) := by unfold constrainedType; infer_instance
instance {T V C : P} [Tidy T] [Tidy V] [Tidy C] : Tidy (typeBody T V C) := by unfold typeBody; infer_instance
instance (fuel : Nat) : Tidy (constraint fuel) := by unfold constraint; infer_instance
instance tidy_type (fuel : Nat) : ∀ n, Tidy (type fuel n)
  | 0 => by unfold type; infer_instance
  | n + 1 => by
    have := tidy_type fuel n
    unfold type; infer_instance

instance {T V : P} [Tidy T] [Tidy V] : Tidy (valueAssignment T V) := by unfold valueAssignment; infer_instance
instance {T : P} [Tidy T] : Tidy (typeAssignment T) := by unfold typeAssignment; infer_instance
instance {T V : P} [Tidy T] [Tidy V] : Tidy (assignmentList T V) := by unfold assignmentList; infer_instance
instance {T V : P} [Tidy T] [Tidy V] : Tidy (moduleBodyDef T V) := by unfold moduleBodyDef; infer_instance
instance {T V : P} [Tidy T] [Tidy V] : Tidy (moduleDefinition T V) := by unfold moduleDefinition; infer_instance

/-! ## first characters -/

/-- A set of first characters: these, and perhaps capital letters, small letters, digits.  `null` if an element may match
nothing. -/
structure First where
  cs : List Char := []
  up : Bool := false
  lo : Bool := false
  dig : Bool := false
  null : Bool := false

def First.has (F : First) (c : Char) : Bool :=
  F.cs.contains c || (F.up && c.isUpper) || (F.lo && c.isLower) || (F.dig && c.isDigit)

def First.union (F G : First) : First := ⟨F.cs ++ G.cs, F.up || G.up, F.lo || G.lo, F.dig || G.dig, F.null || G.null⟩

def First.le (F G : First) : Bool :=
  F.cs.all (fun c => G.has c) && (!F.up || G.up) && (!F.lo || G.lo) && (!F.dig || G.dig) && (!F.null || G.null)

/-- The element does not match a text that starts with another character. -/
class Starts (p : P) (F : outParam First) : Prop where
  rejects : F.null = false → ∀ s, (∀ c r, skipWs s = c :: r → F.has c = false) → Rejects p s

class StartsAll (ps : List P) (F : outParam First) : Prop where
  rejects : F.null = false → ∀ s, (∀ c r, skipWs s = c :: r → F.has c = false) → ∀ p ∈ ps, Rejects p s

theorem First.has_union {F G : First} {c : Char} : (F.union G).has c = false ↔ F.has c = false ∧ G.has c = false := by
  simp only [First.has, First.union, List.contains_append]
  cases F.cs.contains c <;> cases G.cs.contains c <;> cases F.up <;> cases F.lo <;> cases F.dig <;> cases G.up <;>
    cases G.lo <;> cases G.dig <;> cases c.isUpper <;> cases c.isLower <;> cases c.isDigit <;> simp

instance : StartsAll [] {} := ⟨fun _ _ _ _ h => nomatch h⟩
instance {p : P} {ps : List P} {F G : First} [h : Starts p F] [hs : StartsAll ps G] : StartsAll (p :: ps) (F.union G) :=
  ⟨fun hn s hc q hq => by
    have hn' : F.null = false ∧ G.null = false := by simpa [First.union] using hn
    rcases List.mem_cons.1 hq with e | h'
    · exact e ▸ h.rejects hn'.1 s fun c r e => (First.has_union.1 (hc c r e)).1
    · exact hs.rejects hn'.2 s (fun c r e => (First.has_union.1 (hc c r e)).2) q h'⟩

theorem Starts.mono {p : P} {F G : First} (h : Starts p F) (hl : F.le G = true) : Starts p G :=
  ⟨fun hn s hc => by
    simp only [First.le, Bool.and_eq_true, Bool.or_eq_true, Bool.not_eq_true'] at hl
    obtain ⟨⟨⟨⟨h1, h2⟩, h3⟩, h4⟩, h5⟩ := hl
    refine h.rejects (by rcases h5 with h5 | h5; exact h5; rw [hn] at h5; cases h5) s fun c r e => ?_
    have hg := hc c r e
    cases hf : F.has c with
    | false => rfl
    | true =>
      have key : G.has c = true := by
        simp only [First.has, Bool.or_eq_true, Bool.and_eq_true, List.contains_iff_mem] at hf
        rcases hf with ((hf | hf) | hf) | hf
        · exact List.all_eq_true.1 h1 c hf
        · have : G.up = true := by rcases h2 with h | h; rw [hf.1] at h; cases h; exact h
          simp [First.has, this, hf.2]
        · have : G.lo = true := by rcases h3 with h | h; rw [hf.1] at h; cases h; exact h
          simp [First.has, this, hf.2]
        · have : G.dig = true := by rcases h4 with h | h; rw [hf.1] at h; cases h; exact h
          simp [First.has, this, hf.2]
      rw [key] at hg; cases hg⟩

theorem terminal_rejects {m : List Char → Option (List Char × List Char)} {s : List Char} (h : m (skipWs s) = none) :
    Rejects (terminal m) s := ⟨by simp [terminal, h], by simp [terminal, h]⟩

instance {k : String} : Starts (lit k) ⟨k.toList.take 1, false, false, false, k.toList.isEmpty⟩ :=
  ⟨fun hn s hc => terminal_rejects (by
    cases hk : k.toList with
    | nil => simp [hk] at hn
    | cons c ks =>
      cases hs : skipWs s with
      | nil => simp [strip]
      | cons d r =>
        have := hc d r hs
        simp only [hk, First.has, List.take_succ_cons, List.take_zero, Bool.false_and, Bool.or_false, List.contains_cons,
          List.contains_nil, beq_eq_false_iff_ne] at this
        simp [strip, Ne.symm this])⟩

theorem starts_word {i b : Char → Bool} {F : First} (h : ∀ c, F.has c = false → i c = false) : Starts (word i b) F :=
  ⟨fun _ s hc => terminal_rejects (by
    cases hs : skipWs s with
    | nil => rfl
    | cons d r => simp [matchWord, h d (hc d r hs)])⟩

instance {q : Char} {ok : Char → Bool} {tail : List Char} : Starts (terminal (matchQuoted q ok tail)) { cs := [q] } :=
  ⟨fun _ s hc => terminal_rejects (by
    cases hs : skipWs s with
    | nil => rfl
    | cons d r =>
      have := hc d r hs
      simp [First.has] at this
      simp [matchQuoted, this])⟩

instance {p q : P} {F : First} [h : Starts p F] : Starts (seq p q) F :=
  ⟨fun hn s hc => seq_rejects (h.rejects hn s hc)⟩
instance {p : P} {F : First} [h : Starts p F] : Starts (seqs [p]) F := by unfold seqs; exact h
instance {p q : P} {ps : List P} {F : First} [h : Starts p F] : Starts (seqs (p :: q :: ps)) F := by
  unfold seqs; infer_instance
instance {p : P} {f : List Tok → Except PErr (List Tok)} {F : First} [h : Starts p F] : Starts (p.act f) F :=
  ⟨fun hn s hc => act_rejects (h.rejects hn s hc)⟩
instance {p : P} {F : First} [h : Starts p F] : Starts p.drop F := by unfold P.drop; infer_instance
instance {p : P} {F : First} [h : Starts p F] : Starts p.group F := by unfold P.group; infer_instance
instance {p : P} {F : First} [h : Starts p F] : Starts (many1 p) F :=
  ⟨fun hn s hc => many1_rejects (h.rejects hn s hc)⟩
instance {ps : List P} {F : First} [TidyAll ps] [h : StartsAll ps F] : Starts (or ps) F :=
  ⟨fun hn s hc => or_rejects (h.rejects hn s hc)⟩

instance : Starts typereference { up := true } := starts_word fun c h => by simpa [First.has] using h
instance : Starts identifier { lo := true } := starts_word fun c h => by simpa [First.has] using h
instance : Starts encodingreference { up := true } := starts_word fun c h => by simpa [First.has] using h
instance : Starts number { dig := true } :=
  ⟨fun _ s hc => terminal_rejects (by
    cases hs : skipWs s with
    | nil => rfl
    | cons d r =>
      have : Char.isDigit d = false := by simpa [First.has] using hc d r hs
      simp [matchDigits, matchWord, this])⟩
instance : Starts realnumber { dig := true } :=
  ⟨fun _ s hc => terminal_rejects (by
    cases hs : skipWs s with
    | nil => rfl
    | cons d r =>
      have : Char.isDigit d = false := by simpa [First.has] using hc d r hs
      simp [matchReal, matchDigits, matchWord, this])⟩

/-- Words that start with one of these characters. -/
macro "starts" : tactic => `(tactic| exact Starts.mono inferInstance (by decide))

instance : Starts valuereference { lo := true } := by unfold valuereference; starts
instance : Starts modulereference { up := true } := by unfold modulereference; starts
instance : Starts bstring { cs := ['\''] } := by unfold bstring; starts
instance : Starts hstring { cs := ['\''] } := by unfold hstring; starts
instance : Starts cstring { cs := ['"'] } := by unfold cstring; starts
instance : Starts leftCurly { cs := ['{'] } := by unfold leftCurly; starts
instance : Starts rightCurly { cs := ['}'] } := by unfold rightCurly; starts
instance : Starts comma { cs := [','] } := by unfold comma; starts
instance : Starts leftParen { cs := ['('] } := by unfold leftParen; starts
instance : Starts rightParen { cs := [')'] } := by unfold rightParen; starts
instance : Starts signedNumber { cs := ['-'], dig := true } := by unfold signedNumber; starts
instance : Starts externalValueReference { up := true } := by unfold externalValueReference; starts
instance : Starts definedValue { up := true, lo := true } := by unfold definedValue; starts
instance : Starts namedNumber { lo := true } := by unfold namedNumber; starts
instance : Starts namedNumberList { lo := true } := by unfold namedNumberList; starts
instance : Starts tuple { cs := ['{'] } := by unfold tuple; starts
instance : Starts quadruple { cs := ['{'] } := by unfold quadruple; starts
instance : Starts characterStringList { cs := ['{'] } := by unfold characterStringList; starts
instance {V : P} [Tidy V]  : Starts (sequenceValue V) { cs := ['{'] } := by unfold sequenceValue; starts
instance : Starts specialRealValue { cs := ['P', 'M', 'N'] } := by unfold specialRealValue; starts
instance {V : P} [Tidy V]  : Starts (numericRealValue V) { cs := ['-', '{'], dig := true } := by unfold numericRealValue; starts
instance {V : P} [Tidy V]  : Starts (realValue V) { cs := ['-', '{', 'P', 'M', 'N'], dig := true } := by unfold realValue; starts
instance : Starts referencedValue { up := true, lo := true } := by unfold referencedValue; starts
instance : Starts integerValue { cs := ['-'], lo := true, dig := true } := by unfold integerValue; starts
instance {V : P} [Tidy V]  : Starts (octetStringValue V) { cs := ['\'', 'C'] } := by unfold octetStringValue; starts
instance : Starts booleanValue { cs := ['T', 'F'] } := by unfold booleanValue; starts
instance : Starts restrictedCharacterStringValue { cs := ['"', '{'] } := by unfold restrictedCharacterStringValue; starts
instance : Starts characterStringValue { cs := ['"', '{'] } := by unfold characterStringValue; starts
instance {V : P} [Tidy V]  : Starts (builtinValue V) { cs := ['"', '{', '-', '\''], up := true, lo := true, dig := true } := by unfold builtinValue; starts
instance starts_value : ∀ n, Starts (value n) { cs := ['"', '{', '-', '\''], up := true, lo := true, dig := true }
  | 0 => ⟨fun _ _ _ => ⟨rfl, rfl⟩⟩
  | n + 1 => by unfold value; starts

section
variable {V C E : P} [Tidy V] [Tidy C] [Tidy E] [Starts V { cs := ['"', '{', '-', '\''], up := true, lo := true, dig := true }]
instance : Starts (upperEndValue V) { cs := ['"', '{', '-', '\''], up := true, lo := true, dig := true } := by unfold upperEndValue; starts
instance : Starts (lowerEndValue V) { cs := ['"', '{', '-', '\''], up := true, lo := true, dig := true } := by unfold lowerEndValue; starts
instance : Starts (lowerEndpoint V) { cs := ['"', '{', '-', '\''], up := true, lo := true, dig := true } := by unfold lowerEndpoint; starts
instance : Starts (valueRange V) { cs := ['"', '{', '-', '\''], up := true, lo := true, dig := true } := by unfold valueRange; starts
instance : Starts (sizeConstraint C) { cs := ['S'] } := by unfold sizeConstraint; starts
instance : Starts (subtypeElements V C) { cs := ['"', '{', '-', '\''], up := true, lo := true, dig := true } := by unfold subtypeElements; starts
instance : Starts (elements V C E) { cs := ['"', '{', '-', '\'', '('], up := true, lo := true, dig := true } := by unfold elements; starts
instance : Starts intersectionMark { cs := ['^', 'I'] } := by unfold intersectionMark; starts
instance : Starts unionMark { cs := ['|', 'U'] } := by unfold unionMark; starts
instance : Starts (exclusions V C E) { cs := ['E'] } := by unfold exclusions; starts
instance : Starts (intersectionElements V C E) { cs := ['"', '{', '-', '\'', '('], up := true, lo := true, dig := true } := by unfold intersectionElements; starts
instance : Starts (intersections V C E) { cs := ['"', '{', '-', '\'', '('], up := true, lo := true, dig := true } := by unfold intersections; starts
instance : Starts (unions V C E) { cs := ['"', '{', '-', '\'', '('], up := true, lo := true, dig := true } := by unfold unions; starts
instance : Starts (elementSetSpecBody V C E) { cs := ['"', '{', '-', '\'', '('], up := true, lo := true, dig := true } := by unfold elementSetSpecBody; starts
end
instance {E : P} [Tidy E] : Starts (constraintBody E) { cs := ['('] } := by unfold constraintBody; starts
instance : Starts definedType { up := true } := by unfold definedType; starts
instance : Starts referencedType { up := true } := by unfold referencedType; starts
instance {T : P} [Tidy T]  : Starts (namedType T) { lo := true } := by unfold namedType; starts
instance : Starts integerType { cs := ['I'] } := by unfold integerType; starts
instance : Starts enumerationItem { lo := true } := by unfold enumerationItem; starts
instance : Starts enumeration { lo := true } := by unfold enumeration; starts
instance {T V : P} [Tidy T] [Tidy V]  : Starts (enumeratedType T V) { cs := ['E'] } := by unfold enumeratedType; starts
instance : Starts bitStringType { cs := ['B'] } := by unfold bitStringType; starts
instance {T V : P} [Tidy T] [Tidy V]  : Starts (extensionAndException T V) { cs := ['.'] } := by unfold extensionAndException; starts
instance {T V : P} [Tidy T] [Tidy V]  : Starts (componentType T V) { lo := true } := by unfold componentType; starts
instance {T V : P} [Tidy T] [Tidy V]  : Starts (componentTypeList T V) { lo := true } := by unfold componentTypeList; starts
instance {T V : P} [Tidy T] [Tidy V]  : Starts (extensionAdditionGroup T V) { cs := ['['] } := by unfold extensionAdditionGroup; starts
instance {T V : P} [Tidy T] [Tidy V]  : Starts (extensionAddition T V) { cs := ['['], lo := true } := by unfold extensionAddition; starts
instance {T V : P} [Tidy T] [Tidy V]  : Starts (extensionAdditionList T V) { cs := ['['], lo := true } := by unfold extensionAdditionList; starts
instance {T V : P} [Tidy T] [Tidy V]  : Starts (componentTypeLists T V) { cs := ['.'], lo := true } := by unfold componentTypeLists; starts
instance {T V : P} [Tidy T] [Tidy V]  : Starts (sequenceType T V) { cs := ['S'] } := by unfold sequenceType; starts
instance {T : P} [Tidy T]  : Starts (sequenceOfType T) { cs := ['S'] } := by unfold sequenceOfType; starts
instance {T : P} [Tidy T]  : Starts (alternativeTypeList T) { lo := true } := by unfold alternativeTypeList; starts
instance {T : P} [Tidy T]  : Starts (additionAlternativesGroup T) { cs := ['['] } := by unfold additionAlternativesGroup; starts
instance {T : P} [Tidy T]  : Starts (additionAlternative T) { cs := ['['], lo := true } := by unfold additionAlternative; starts
instance {T : P} [Tidy T]  : Starts (additionAlternativesList T) { cs := ['['], lo := true } := by unfold additionAlternativesList; starts
instance {T V : P} [Tidy T] [Tidy V]  : Starts (choiceType T V) { cs := ['C'] } := by unfold choiceType; starts
instance : Starts tag { cs := ['['] } := by unfold tag; starts
instance {T : P} [Tidy T]  : Starts (taggedType T) { cs := ['['] } := by unfold taggedType; starts
instance {T : P} [Tidy T]  : Starts (prefixedType T) { cs := ['['] } := by unfold prefixedType; starts
instance : Starts characterStringType { cs := ['I', 'N', 'U', 'V'] } := by unfold characterStringType; starts
instance {T V : P} [Tidy T] [Tidy V]  : Starts (builtinType T V) { cs := ['B', 'I', 'N', 'U', 'V', 'C', 'D', 'E', 'O', 'R', 'S', '['] } := by unfold builtinType; starts
instance {T C : P} [Tidy T] [Tidy C]  : Starts (typeWithConstraint T C) { cs := ['S'] } := by unfold typeWithConstraint; starts
instance (fuel : Nat) : Starts (constraint fuel) { cs := ['('] } := by
  unfold constraint
  cases fuel with
  | zero => exact ⟨fun _ _ _ => ⟨rfl, rfl⟩⟩
  | succ n => unfold nestedExpr; starts
instance {T V : P} [Tidy T] [Tidy V]  : Starts (valueAssignment T V) { lo := true } := by unfold valueAssignment; starts
instance {T : P} [Tidy T]  : Starts (typeAssignment T) { up := true } := by unfold typeAssignment; starts

end Verif.Parse
