import Verif.Props.Generate
/-!
# Findings about the schema compiler

Schemas that are compiled to something else than what they declare: the exclusions of `C47_range_partial`,
`C47_size_partial` and `C48_compiled_partial` cannot be dropped.  DESIGN.md section 4 lists them (F36, F37, ...).
-/
namespace Verif.Props.Findings
open Verif Spec

/-- The schema declares a type that its module does not have under that name, or there is no module. -/
def Miscompiled (as : List Assign) : Prop :=
  SchemaNames as ∧ ∃ τ ν n T, Declares (fun _ _ _ => True) as τ ν ∧ τ.lookup n = some T ∧
    ∀ st, compile as = .ok st → st.env.lookup (pyName n) ≠ some (.cls T)

/-! ## tools -/

def upperWord (s : String) : Bool :=
  s.toList.all (fun c => c.isAlphanum || c == '-') && match s.toList with | c :: _ => c.isUpper | [] => false

def lowerWord (s : String) : Bool :=
  s.toList.all (fun c => c.isAlphanum || c == '-') && match s.toList with | c :: _ => c.isLower | [] => false

theorem schemaNames {as : List Assign} (h1 : (typeNames as).all upperWord = true) (h2 : (valueNames as).all lowerWord = true)
    (h3 : (typeNames as).Nodup ∧ (valueNames as).Nodup) : SchemaNames as where
  types n hn := by
    have := List.all_eq_true.1 h1 n hn
    rw [upperWord, Bool.and_eq_true] at this
    exact upper_of this.1 this.2
  values n hn := by
    have := List.all_eq_true.1 h2 n hn
    rw [lowerWord, Bool.and_eq_true] at this
    exact lower_of this.1 this.2
  distinct := h3

theorem miscompiled {as : List Assign} {τ : List (String × Ty)} {ν : List (String × Ty × Val)} {n : String} {T : Ty}
    (hn : SchemaNames as) (hd : Declares (fun _ _ _ => True) as τ ν) (hτ : τ.lookup n = some T)
    {r : Except GenErr (Option PyObj)} (hc : compiledTo as (mangle n) = r) (hr : r ≠ .ok (some (.cls T))) :
    Miscompiled as := by
  refine ⟨hn, τ, ν, n, T, hd, hτ, fun st hst hl => hr ?_⟩
  rw [← hc]
  rw [← mangle_eq] at hl
  simp only [compiledTo, hst, bind, Except.bind, pure, Except.pure, hl]

theorem endIs_num {ν : List (String × Ty × Val)} {a z : Int} : EndIs ν (.num a) z ↔ z = a := by
  constructor
  · intro h; cases h; rfl
  · rintro rfl; exact .num

theorem above_num {ν : List (String × Ty × Val)} {a z : Int} {e : Bool} :
    Above ν (.num a) e z ↔ if e then a < z else a ≤ z := by
  constructor
  · rintro (h | ⟨b, h, hz⟩)
    · cases h
    · rw [endIs_num] at h; subst h; exact hz
  · exact fun h => .inr ⟨a, .num, h⟩

theorem below_num {ν : List (String × Ty × Val)} {a z : Int} {e : Bool} :
    Below ν (.num a) e z ↔ if e then z < a else z ≤ a := by
  constructor
  · rintro (h | ⟨b, h, hz⟩)
    · cases h
    · rw [endIs_num] at h; subst h; exact hz
  · exact fun h => .inr ⟨a, .num, h⟩

theorem hull_some {S : Int → Prop} {l h : Int} (h1 : S l) (h2 : S h) (h3 : ∀ z, S z → l ≤ z ∧ z ≤ h) :
    Hull S (some l) (some h) :=
  ⟨⟨l, h1⟩, ⟨h1, fun z hz => (h3 z hz).1⟩, ⟨h2, fun z hz => (h3 z hz).2⟩⟩

/-- `a..b` -/
def rng (a b : Int) : Elem := .range (.num a) false (.num b) false

/-- `INTEGER (constraint)` -/
def int (n : Notation) : TObj := .simple .integer (some (.value n))

/-- `INTEGER (a..b)` -/
def intOf (a b : Int) : TObj := int ⟨[[rng a b]], false, []⟩

theorem means_intOf {τ : List (String × Ty)} {ν : List (String × Ty × Val)} {a b : Int} (h : a ≤ b) :
    Means τ ν (intOf a b) (.integer (.valueRange (some a) (some b) false)) :=
  .range (rangeOf_one _ .num .num h)

/-! ## constraints -/

/-- F36: `A ::= INTEGER (1..10, ..., 20..30)` gets the range 1..30. -/
theorem C47_additional :
    Miscompiled [.type "A" (int ⟨[[rng 1 10]], true, [[rng 20 30]]⟩)] ∧
    compiledTo [.type "A" (int ⟨[[rng 1 10]], true, [[rng 20 30]]⟩)] "A" =
      .ok (some (.cls (.integer (.valueRange (some 1) (some 30) true)))) := by
  have h := by
    show compiledTo [.type "A" (int ⟨[[rng 1 10]], true, [[rng 20 30]]⟩)] "A" =
      .ok (some (.cls (.integer (.valueRange (some 1) (some 30) true))))
    decide +kernel
  refine ⟨miscompiled (n := "A") (schemaNames (by decide) (by decide) (by decide))
    (.type (as := []) .nil trivial (.range (lo := some 1) (hi := some 10) ⟨?_, rfl⟩)) rfl h (by decide +kernel), h⟩
  apply hull_some <;> simp [InSet, rng, InElem, above_num, below_num]

/-- F37: `A ::= INTEGER (0<..10)` gets the range 0..10. -/
theorem C47_less_than :
    Miscompiled [.type "A" (int ⟨[[.range (.num 0) true (.num 10) false]], false, []⟩)] ∧
    compiledTo [.type "A" (int ⟨[[.range (.num 0) true (.num 10) false]], false, []⟩)] "A" =
      .ok (some (.cls (.integer (.valueRange (some 0) (some 10) false)))) := by
  have h := by
    show compiledTo [.type "A" (int ⟨[[.range (.num 0) true (.num 10) false]], false, []⟩)] "A" =
      .ok (some (.cls (.integer (.valueRange (some 0) (some 10) false))))
    decide +kernel
  refine ⟨miscompiled (n := "A") (schemaNames (by decide) (by decide) (by decide))
    (.type (as := []) .nil trivial (.range (lo := some 1) (hi := some 10) ⟨?_, rfl⟩)) rfl h (by decide +kernel), h⟩
  apply hull_some <;> simp [InSet, InElem, above_num, below_num]
  omega

/-- F38: `A ::= INTEGER (0..10 ^ 5..20)` gets the range 0..20. -/
theorem C47_intersection :
    Miscompiled [.type "A" (int ⟨[[rng 0 10, rng 5 20]], false, []⟩)] ∧
    compiledTo [.type "A" (int ⟨[[rng 0 10, rng 5 20]], false, []⟩)] "A" =
      .ok (some (.cls (.integer (.valueRange (some 0) (some 20) false)))) := by
  have h := by
    show compiledTo [.type "A" (int ⟨[[rng 0 10, rng 5 20]], false, []⟩)] "A" =
      .ok (some (.cls (.integer (.valueRange (some 0) (some 20) false))))
    decide +kernel
  refine ⟨miscompiled (n := "A") (schemaNames (by decide) (by decide) (by decide))
    (.type (as := []) .nil trivial (.range (lo := some 5) (hi := some 10) ⟨?_, rfl⟩)) rfl h (by decide +kernel), h⟩
  apply hull_some <;> simp [InSet, rng, InElem, above_num, below_num]
  omega

/-- F39: the module of `A ::= INTEGER (5 | 1)` cannot be imported. -/
theorem C47_order :
    Miscompiled [.type "A" (int ⟨[[.value (.num 5)], [.value (.num 1)]], false, []⟩)] ∧
    compiledTo [.type "A" (int ⟨[[.value (.num 5)], [.value (.num 1)]], false, []⟩)] "A" = .error .constraint := by
  have h := by
    show compiledTo [.type "A" (int ⟨[[.value (.num 5)], [.value (.num 1)]], false, []⟩)] "A" = .error .constraint
    decide +kernel
  refine ⟨miscompiled (n := "A") (schemaNames (by decide) (by decide) (by decide))
    (.type (as := []) .nil trivial (.range (lo := some 1) (hi := some 5) ⟨?_, rfl⟩)) rfl h (by decide +kernel), h⟩
  apply hull_some <;> simp [InSet, InElem, endIs_num]

/-- F40: `A ::= OCTET STRING (SIZE(1..5), ...)` is not extensible. -/
theorem C47_marker_outside :
    Miscompiled [.type "A" (.simple .octetString (some (.size ⟨[[rng 1 5]], false, []⟩ true)))] ∧
    compiledTo [.type "A" (.simple .octetString (some (.size ⟨[[rng 1 5]], false, []⟩ true)))] "A" =
      .ok (some (.cls (.octetString ⟨false, some 1, some 5⟩))) := by
  have h := by
    show compiledTo [.type "A" (.simple .octetString (some (.size ⟨[[rng 1 5]], false, []⟩ true)))] "A" =
      .ok (some (.cls (.octetString ⟨false, some 1, some 5⟩)))
    decide +kernel
  refine ⟨miscompiled (n := "A") (schemaNames (by decide) (by decide) (by decide))
    (.type (as := []) .nil trivial (.octetStringSize (s := ⟨true, some 1, some 5⟩) ⟨_, _, rfl, rfl, ?_⟩)) rfl h (by decide +kernel), h⟩
  apply hull_some <;> simp [InSet, rng, InElem, above_num, below_num]

/-- F41: `A ::= OCTET STRING (SIZE(MIN..5))` has no lower bound, not 0. -/
theorem C47_size_min :
    Miscompiled [.type "A" (.simple .octetString (some (.size ⟨[[.range .min false (.num 5) false]], false, []⟩ false)))] ∧
    compiledTo [.type "A" (.simple .octetString (some (.size ⟨[[.range .min false (.num 5) false]], false, []⟩ false)))]
      "A" = .ok (some (.cls (.octetString ⟨false, none, some 5⟩))) := by
  have h := by
    show compiledTo [.type "A" (.simple .octetString (some (.size ⟨[[.range .min false (.num 5) false]], false, []⟩
      false)))] "A" = .ok (some (.cls (.octetString ⟨false, none, some 5⟩)))
    decide +kernel
  refine ⟨miscompiled (n := "A") (schemaNames (by decide) (by decide) (by decide))
    (.type (as := []) .nil trivial (.octetStringSize (s := ⟨false, some 0, some 5⟩) ⟨_, _, rfl, rfl, ?_⟩)) rfl h (by decide +kernel), h⟩
  apply hull_some <;> simp [InSet, InElem, Above, below_num]

/-! ## element types of SEQUENCE OF -/

/-- F42: `A ::= SEQUENCE OF INTEGER (0..7)` forgets the constraint. -/
theorem C48_element :
    Miscompiled [.type "A" (.seqOf none (intOf 0 7))] ∧
    compiledTo [.type "A" (.seqOf none (intOf 0 7))] "A" =
      .ok (some (.cls (.seqOf ⟨false, some 0, none⟩ (.integer .noConstraint)))) := by
  have h := by
    show compiledTo [.type "A" (.seqOf none (intOf 0 7))] "A" =
      .ok (some (.cls (.seqOf ⟨false, some 0, none⟩ (.integer .noConstraint))))
    decide +kernel
  exact ⟨miscompiled (n := "A") (schemaNames (by decide) (by decide) (by decide))
    (.type (as := []) .nil trivial (.sequenceOf (means_intOf (by decide)))) rfl h (by decide +kernel), h⟩

/-- F80: `A ::= SEQUENCE OF SEQUENCE OF SEQUENCE OF SEQUENCE OF INTEGER`: the second and the third list have the same text,
the class of the innermost one is left out, and `SequenceOfType()` means the library's. -/
theorem C48_collapsed :
    generate [.type "A" (.seqOf none (.seqOf none (.seqOf none (.seqOf none (.simple .integer none)))))] =
      .ok [.cls (.seqOf "SequenceOfType" none "SequenceOfType"), .cls (.seqOf "A" none "SequenceOfType")] := by
  decide +kernel

/-- `A ::= SEQUENCE { l SEQUENCE OF INTEGER (0..7) }  B ::= INTEGER` -/
def redefinedInteger : List Assign :=
  [.type "A" (.sequence (.comp "l" (.seqOf none (intOf 0 7)) .mandatory .nil)), .type "B" (.simple .integer none)]

/-- F43: inside of a SEQUENCE the class of the element type is called `IntegerType`, so that from there on every INTEGER
has that constraint. -/
theorem C48_redefined : Miscompiled redefinedInteger ∧
    compiledTo redefinedInteger "B" = .ok (some (.cls (.integer (.valueRange (some 0) (some 7) false)))) := by
  have h : compiledTo redefinedInteger "B" = .ok (some (.cls (.integer (.valueRange (some 0) (some 7) false)))) := by
    decide +kernel
  exact ⟨miscompiled (n := "B") (schemaNames (by decide) (by decide) (by decide))
    (.type (as := redefinedInteger.take 1) (.type (as := []) .nil trivial
      (.sequence (.mandatory (.sequenceOf (means_intOf (by decide))) .nil) .nil .nil)) trivial .integer) rfl h (by decide +kernel), h⟩

/-- `A ::= SEQUENCE OF SEQUENCE { a BOOLEAN, ... }  B ::= SEQUENCE { b BOOLEAN }` -/
def redefinedSequence : List Assign :=
  [.type "A" (.seqOf none (.sequence (.comp "a" (.simple .boolean none) .mandatory (.marker .nil)))),
   .type "B" (.sequence (.comp "b" (.simple .boolean none) .mandatory .nil))]

/-- F44: the same with SEQUENCE: from there on every SEQUENCE is extensible. -/
theorem C48_redefined_sequence : Miscompiled redefinedSequence ∧
    compiledTo redefinedSequence "B" = .ok (some (.cls (.sequence true (.cons "b" .mandatory .boolean .nil) .nil .nil))) := by
  have h : compiledTo redefinedSequence "B" =
      .ok (some (.cls (.sequence true (.cons "b" .mandatory .boolean .nil) .nil .nil))) := by decide +kernel
  exact ⟨miscompiled (n := "B") (schemaNames (by decide) (by decide) (by decide))
    (.type (as := redefinedSequence.take 1) (.type (as := []) .nil trivial
      (.sequenceOf (.sequence (.mandatory .boolean .nil) .nil .nil))) trivial
        (.sequence (.mandatory .boolean .nil) .nil .nil)) rfl h (by decide +kernel), h⟩

/-! ## DEFAULT -/

/-- `o OCTET STRING ::= 'AB'H  A ::= SEQUENCE { x OCTET STRING DEFAULT o }` -/
def octetsByName : List Assign :=
  [.value "o" .octetString (.hex [10, 11]),
   .type "A" (.sequence (.comp "x" (.simple .octetString none) (.default (.word "o")) .nil))]

/-- F45: a DEFAULT of an OCTET STRING that is the name of a value is dropped: the component is mandatory. -/
theorem C48_default_dropped : Miscompiled octetsByName ∧
    compiledTo octetsByName "A" =
      .ok (some (.cls (.sequence false (.cons "x" .mandatory (.octetString ⟨false, none, none⟩) .nil) .nil .nil))) := by
  have h : compiledTo octetsByName "A" =
      .ok (some (.cls (.sequence false (.cons "x" .mandatory (.octetString ⟨false, none, none⟩) .nil) .nil .nil))) := by
    decide +kernel
  refine ⟨miscompiled (n := "A") (schemaNames (by decide) (by decide) (by decide))
    (.type (as := octetsByName.take 1) (.value (as := []) .nil trivial .octetString
      (.hexOctets (o := [0xAB]) (.inr ⟨by simp, by simp⟩))) trivial
      (.sequence (.default .octetString (.octetsRef rfl (.inr ⟨by simp, by simp⟩)) .nil) .nil .nil)) rfl h (by decide +kernel), h⟩

/-- `t BOOLEAN ::= TRUE  A ::= SEQUENCE { x BOOLEAN DEFAULT t }` -/
def booleanByName : List Assign :=
  [.value "t" .boolean (.word "TRUE"),
   .type "A" (.sequence (.comp "x" (.simple .boolean none) (.default (.word "t")) .nil))]

/-- F46: a DEFAULT of a BOOLEAN that is the name of a value is taken for FALSE. -/
theorem C48_default_false : Miscompiled booleanByName ∧
    compiledTo booleanByName "A" =
      .ok (some (.cls (.sequence false (.cons "x" (.default (.bool false)) .boolean .nil) .nil .nil))) := by
  have h : compiledTo booleanByName "A" =
      .ok (some (.cls (.sequence false (.cons "x" (.default (.bool false)) .boolean .nil) .nil .nil))) := by decide +kernel
  refine ⟨miscompiled (n := "A") (schemaNames (by decide) (by decide) (by decide))
    (.type (as := booleanByName.take 1) (.value (as := []) .nil trivial .boolean .tt) trivial
      (.sequence (.default .boolean (.boolRef rfl) .nil) .nil .nil)) rfl h (by decide +kernel), h⟩

/-- `A ::= BOOLEAN  B ::= A  S ::= SEQUENCE { x B DEFAULT TRUE }` -/
def defaultOfAlias : List Assign :=
  [.type "A" (.simple .boolean none), .type "B" (.ref "A"),
   .type "S" (.sequence (.comp "x" (.ref "B") (.default (.word "TRUE")) .nil))]

/-- F47: a DEFAULT of a type that is an alias is not translated: `TRUE` is not a name of Python. -/
theorem C48_default_alias : Miscompiled defaultOfAlias ∧ compiledTo defaultOfAlias "S" = .error .nameError := by
  have h : compiledTo defaultOfAlias "S" = .error .nameError := by decide +kernel
  exact ⟨miscompiled (n := "S") (schemaNames (by decide) (by decide) (by decide))
    (.type (as := defaultOfAlias.take 2) (.type (as := defaultOfAlias.take 1)
      (.type (as := []) .nil trivial .boolean) trivial (.ref rfl)) trivial
      (.sequence (.default (.ref rfl) .tt .nil) .nil .nil)) rfl h (by decide +kernel), h⟩

/-- `A ::= INTEGER (0..7)  c A ::= 5  S ::= SEQUENCE { x INTEGER (0..255) DEFAULT c }` -/
def defaultOfType : List Assign :=
  [.type "A" (intOf 0 7), .constant "c" "A" (.num 5),
   .type "S" (.sequence (.comp "x" (intOf 0 255) (.default (.word "c")) .nil))]

/-- F48: a component whose DEFAULT is a constant has the type of the constant. -/
theorem C48_default_type : Miscompiled defaultOfType ∧
    compiledTo defaultOfType "S" = .ok (some (.cls (.sequence false
      (.cons "x" (.default (.int 5)) (.integer (.valueRange (some 0) (some 7) false)) .nil) .nil .nil))) := by
  have h : compiledTo defaultOfType "S" = .ok (some (.cls (.sequence false
      (.cons "x" (.default (.int 5)) (.integer (.valueRange (some 0) (some 7) false)) .nil) .nil .nil))) := by
    decide +kernel
  exact ⟨miscompiled (n := "S") (schemaNames (by decide) (by decide) (by decide))
    (.type (as := defaultOfType.take 2) (.constant (as := defaultOfType.take 1)
      (.type (as := []) .nil trivial (means_intOf (by decide))) trivial rfl
      (.int (.inr ⟨by rintro l ⟨⟩; decide, by rintro l ⟨⟩; decide⟩))) trivial
      (.sequence (.default (means_intOf (by decide)) (.intRef rfl (.inr ⟨by rintro l ⟨⟩; decide, by rintro l ⟨⟩; decide⟩))
        .nil) .nil .nil)) rfl h (by decide +kernel), h⟩

/-- `E ::= ENUMERATED { a }  A ::= INTEGER  a A ::= 5  S ::= SEQUENCE { e E DEFAULT a }` -/
def defaultCaptured : List Assign :=
  [.type "E" (.enumerated [.id "a"]), .type "A" (.simple .integer none), .constant "a" "A" (.num 5),
   .type "S" (.sequence (.comp "e" (.ref "E") (.default (.word "a")) .nil))]

theorem means_enum {τ : List (String × Ty)} {ν : List (String × Ty × Val)} :
    Means τ ν (.enumerated [.id "a"]) (.enumerated false [("a", 0)] []) :=
  .enumerated (root := ["a"]) (adds := none)
    (fun s hs => by simp at hs; subst hs; exact lower_of (by decide) (by decide)) (by decide)

/-- F52: if there is a constant with the name of the item that is the DEFAULT, the component becomes an INTEGER. -/
theorem C48_default_captured : Miscompiled defaultCaptured ∧
    compiledTo defaultCaptured "S" = .ok (some (.cls (.sequence false
      (.cons "e" (.default (.int 5)) (.integer .noConstraint) .nil) .nil .nil))) := by
  have h : compiledTo defaultCaptured "S" = .ok (some (.cls (.sequence false
      (.cons "e" (.default (.int 5)) (.integer .noConstraint) .nil) .nil .nil))) := by decide +kernel
  exact ⟨miscompiled (n := "S") (schemaNames (by decide) (by decide) (by decide))
    (.type (as := defaultCaptured.take 3) (.constant (as := defaultCaptured.take 2)
      (.type (as := defaultCaptured.take 1) (.type (as := []) .nil trivial means_enum) trivial .integer)
      trivial rfl (.int trivial)) trivial
      (.sequence (.default (.ref rfl) (.item (z := 0) (by simp)) .nil) .nil .nil)) rfl h (by decide +kernel), h⟩

/-! ## names -/

/-- `max-x INTEGER ::= 7  A ::= INTEGER (0..max-x)` -/
def hyphen : List Assign :=
  [.value "max-x" .integer (.num 7), .type "A" (int ⟨[[.range (.num 0) false (.ref "max-x") false]], false, []⟩)]

/-- F49: a name with a hyphen is not translated in a constraint: `max-x` is a subtraction in Python. -/
theorem C47_hyphen : Miscompiled hyphen ∧ compiledTo hyphen "A" = .error .nameError := by
  have h : compiledTo hyphen "A" = .error .nameError := by decide +kernel
  exact ⟨miscompiled (n := "A") (schemaNames (by decide) (by decide) (by decide))
    (.type (as := hyphen.take 1) (.value (as := []) .nil trivial .integer (.int trivial)) trivial
      (.range (rangeOf_one _ .num (.ref rfl) (by decide)))) rfl h (by decide +kernel), h⟩

/-- `E ::= ENUMERATED { a }  v E ::= a` -/
def enumValue : List Assign := [.type "E" (.enumerated [.id "a"]), .constant "v" "E" (.word "a")]

/-- F51: on a value of an ENUMERATED type the generator does not terminate. -/
theorem C48_hang : Miscompiled enumValue ∧ compiledTo enumValue "E" = .error .hang := by
  have h : compiledTo enumValue "E" = .error .hang := by decide +kernel
  exact ⟨miscompiled (n := "E") (schemaNames (by decide) (by decide) (by decide))
    (.constant (as := enumValue.take 1) (.type (as := []) .nil trivial means_enum) trivial rfl
      (.item (z := 0) (by simp))) rfl h (by decide +kernel), h⟩

/-- `from INTEGER ::= 5  A ::= BOOLEAN` -/
def keyword : List Assign := [.value "from" .integer (.num 5), .type "A" (.simple .boolean none)]

/-- F53: reserved words of Python are not avoided. -/
theorem C49_keyword : Miscompiled keyword ∧ compiledTo keyword "A" = .error .syntaxError := by
  have h : compiledTo keyword "A" = .error .syntaxError := by decide +kernel
  exact ⟨miscompiled (n := "A") (schemaNames (by decide) (by decide) (by decide))
    (.type (as := keyword.take 1) (.value (as := []) .nil trivial .integer (.int trivial)) trivial .boolean) rfl h (by decide +kernel), h⟩

/-- `IntegerType ::= INTEGER (0..7)  B ::= INTEGER` -/
def libraryName : List Assign := [.type "IntegerType" (intOf 0 7), .type "B" (.simple .integer none)]

/-- F54: nor the names of the classes of the library. -/
theorem C49_library : Miscompiled libraryName ∧
    compiledTo libraryName "B" = .ok (some (.cls (.integer (.valueRange (some 0) (some 7) false)))) := by
  have h : compiledTo libraryName "B" = .ok (some (.cls (.integer (.valueRange (some 0) (some 7) false)))) := by
    decide +kernel
  exact ⟨miscompiled (n := "B") (schemaNames (by decide) (by decide) (by decide))
    (.type (as := libraryName.take 1) (.type (as := []) .nil trivial (means_intOf (by decide))) trivial .integer) rfl h (by decide +kernel), h⟩

end Verif.Props.Findings
