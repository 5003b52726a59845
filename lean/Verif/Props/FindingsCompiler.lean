import Verif.Props.Compiler
import Verif.Props.FindingsGenerate
/-!
# Modules that are compiled to something that cannot be imported: the order of the assignments
-/
namespace Verif.Props.Findings

open Verif Spec

/-- The module is legal and declares a type, but compiling it does not give that type. -/
def Missorted (as : List Assign) : Prop :=
  SchemaNames as ∧ ∃ τ ν n T, Solves as τ ν ∧ τ.lookup n = some T ∧
    ∀ st, compileModule as = .ok st → st.env.lookup (pyName n) ≠ some (.cls T)

theorem missorted {as : List Assign} {τ : List (String × Ty)} {ν : List (String × Ty × Val)} {n : String} {T : Ty}
    (hn : SchemaNames as) (hs : Solves as τ ν) (hτ : τ.lookup n = some T)
    {r : Except GenErr (Option PyObj)} (hc : compiledModule as (mangle n) = r) (hr : r ≠ .ok (some (.cls T))) :
    Missorted as := by
  refine ⟨hn, τ, ν, n, T, hs, hτ, fun st hst hl => hr ?_⟩
  rw [← hc]
  rw [← mangle_eq] at hl
  simp only [compiledModule, hst, bind, Except.bind, pure, Except.pure, hl]

/-- The domain of a solution, decided. -/
theorem solves_types {as : List Assign} {τ : List (String × Ty)} (h : ∀ n ∈ τ.map Prod.fst, n ∈ typeNames as) {n : String}
    {T : Ty} (hl : τ.lookup n = some T) : n ∈ typeNames as := h n (List.mem_map.2 ⟨_, mem_of_lookup hl, rfl⟩)

theorem solves_values {as : List Assign} {ν : List (String × Ty × Val)} (h : ∀ n ∈ ν.map Prod.fst, n ∈ valueNames as)
    {n : String} {x : Ty × Val} (hl : ν.lookup n = some x) : n ∈ valueNames as :=
  h n (List.mem_map.2 ⟨_, mem_of_lookup hl, rfl⟩)

def intT : Ty := .integer .noConstraint

/-- `RealType ::= INTEGER`, `Foo ::= RealType` -/
def builtinName : List Assign := [.type "RealType" (.simple .integer none), .type "Foo" (.ref "RealType")]

/-- F56: a reference to a type that has the name of a class of the library is taken for a builtin type: the module says
`Foo = Foo`. -/
theorem C50_builtin_name : Missorted builtinName ∧ compiledModule builtinName "Foo" = .error .nameError := by
  have h : compiledModule builtinName "Foo" = .error .nameError := by decide +kernel
  refine ⟨missorted (n := "Foo") (τ := [("RealType", intT), ("Foo", intT)]) (ν := [])
    (schemaNames (by decide) (by decide) (by decide)) ?_ rfl h (by decide +kernel), h⟩
  refine ⟨?_, ?_, ?_, solves_types (by decide), solves_values (by decide)⟩
  · intro n t hm
    simp only [builtinName, List.mem_cons, Assign.type.injEq, List.not_mem_nil, or_false] at hm
    rcases hm with ⟨rfl, rfl⟩ | ⟨rfl, rfl⟩
    · exact ⟨_, rfl, .integer⟩
    · exact ⟨_, rfl, .ref rfl⟩
  · intro n k l hm; simp [builtinName] at hm
  · intro n m l hm; simp [builtinName] at hm

/-- `a INTEGER ::= b`, `b INTEGER ::= 5`, `T ::= BOOLEAN` -/
def valueBefore : List Assign :=
  [.value "a" .integer (.word "b"), .value "b" .integer (.num 5), .type "T" (.simple .boolean none)]

/-- F57: values are written in the order of the schema, so a value may be used before it is defined. -/
theorem C50_value_before : Missorted valueBefore ∧ compiledModule valueBefore "T" = .error .nameError := by
  have h : compiledModule valueBefore "T" = .error .nameError := by decide +kernel
  refine ⟨missorted (n := "T") (τ := [("T", .boolean)]) (ν := [("a", intT, .int 5), ("b", intT, .int 5)])
    (schemaNames (by decide) (by decide) (by decide)) ?_ rfl h (by decide +kernel), h⟩
  refine ⟨?_, ?_, ?_, solves_types (by decide), solves_values (by decide)⟩
  · intro n t hm
    simp only [valueBefore, List.mem_cons, Assign.type.injEq, reduceCtorEq, List.not_mem_nil, or_false, false_or] at hm
    obtain ⟨rfl, rfl⟩ := hm
    exact ⟨_, rfl, .boolean⟩
  · intro n k l hm
    simp only [valueBefore, List.mem_cons, Assign.value.injEq, reduceCtorEq, List.not_mem_nil, or_false] at hm
    rcases hm with ⟨rfl, rfl, rfl⟩ | ⟨rfl, rfl, rfl⟩
    · exact ⟨_, _, rfl, .integer, .intRef rfl trivial⟩
    · exact ⟨_, _, rfl, .integer, .int trivial⟩
  · intro n m l hm; simp [valueBefore] at hm

/-- `A ::= INTEGER`, `c A ::= 5`, `B ::= INTEGER (0..c)` -/
def constantBound : List Assign :=
  [.type "A" (.simple .integer none), .constant "c" "A" (.num 5),
   .type "B" (int ⟨[[.range (.num 0) false (.ref "c") false]], false, []⟩)]

/-- F58: values of named types are written after all types without components, so they cannot be bounds of them. -/
theorem C50_constant_bound : Missorted constantBound ∧ compiledModule constantBound "B" = .error .nameError := by
  have h : compiledModule constantBound "B" = .error .nameError := by decide +kernel
  refine ⟨missorted (n := "B") (τ := [("A", intT), ("B", .integer (.valueRange (some 0) (some 5) false))])
    (ν := [("c", intT, .int 5)]) (schemaNames (by decide) (by decide) (by decide)) ?_ rfl h (by decide +kernel), h⟩
  refine ⟨?_, ?_, ?_, solves_types (by decide), solves_values (by decide)⟩
  · intro n t hm
    simp only [constantBound, List.mem_cons, Assign.type.injEq, reduceCtorEq, List.not_mem_nil, or_false, false_or] at hm
    rcases hm with ⟨rfl, rfl⟩ | ⟨rfl, rfl⟩
    · exact ⟨_, rfl, .integer⟩
    · exact ⟨_, rfl, .range (rangeOf_one _ .num (.ref rfl) (by decide))⟩
  · intro n k l hm; simp [constantBound] at hm
  · intro n m l hm
    simp only [constantBound, List.mem_cons, Assign.constant.injEq, reduceCtorEq, List.not_mem_nil, or_false, false_or] at hm
    obtain ⟨rfl, rfl, rfl⟩ := hm
    exact ⟨_, _, rfl, rfl, .int trivial⟩

def emptyT : Ty := .sequence false .nil .nil .nil

/-- `A ::= B`, `B ::= S`, `S ::= SEQUENCE {}` -/
def aliasOfAlias : List Assign := [.type "A" (.ref "B"), .type "B" (.ref "S"), .type "S" (.sequence .nil)]

/-- F31: an alias of an alias of a type with components is written before it. -/
theorem C50_alias_of_alias : Missorted aliasOfAlias ∧ compiledModule aliasOfAlias "A" = .error .nameError := by
  have h : compiledModule aliasOfAlias "A" = .error .nameError := by decide +kernel
  refine ⟨missorted (n := "A") (τ := [("A", emptyT), ("B", emptyT), ("S", emptyT)]) (ν := [])
    (schemaNames (by decide) (by decide) (by decide)) ?_ rfl h (by decide +kernel), h⟩
  refine ⟨?_, ?_, ?_, solves_types (by decide), solves_values (by decide)⟩
  · intro n t hm
    simp only [aliasOfAlias, List.mem_cons, Assign.type.injEq, List.not_mem_nil, or_false] at hm
    rcases hm with ⟨rfl, rfl⟩ | ⟨rfl, rfl⟩ | ⟨rfl, rfl⟩
    · exact ⟨_, rfl, .ref rfl⟩
    · exact ⟨_, rfl, .ref rfl⟩
    · exact ⟨_, rfl, .sequence .nil .nil .nil⟩
  · intro n k l hm; simp [aliasOfAlias] at hm
  · intro n m l hm; simp [aliasOfAlias] at hm

/-- `C ::= SEQUENCE { x A }`, `A ::= S`, `S ::= SEQUENCE {}` -/
def aliasComponent : List Assign :=
  [.type "C" (.sequence (.comp "x" (.ref "A") .mandatory .nil)), .type "A" (.ref "S"), .type "S" (.sequence .nil)]

/-- F31: a type with a component of an alias of a type with components is written before the alias. -/
theorem C50_alias_component : Missorted aliasComponent ∧ compiledModule aliasComponent "C" = .error .nameError := by
  have h : compiledModule aliasComponent "C" = .error .nameError := by decide +kernel
  refine ⟨missorted (n := "C")
    (τ := [("A", emptyT), ("C", .sequence false (.cons "x" .mandatory emptyT .nil) .nil .nil), ("S", emptyT)]) (ν := [])
    (schemaNames (by decide) (by decide) (by decide)) ?_ rfl h (by decide +kernel), h⟩
  refine ⟨?_, ?_, ?_, solves_types (by decide), solves_values (by decide)⟩
  · intro n t hm
    simp only [aliasComponent, List.mem_cons, Assign.type.injEq, List.not_mem_nil, or_false] at hm
    rcases hm with ⟨rfl, rfl⟩ | ⟨rfl, rfl⟩ | ⟨rfl, rfl⟩
    · exact ⟨_, rfl, .sequence (.mandatory (.ref rfl) .nil) .nil .nil⟩
    · exact ⟨_, rfl, .ref rfl⟩
    · exact ⟨_, rfl, .sequence .nil .nil .nil⟩
  · intro n k l hm; simp [aliasComponent] at hm
  · intro n m l hm; simp [aliasComponent] at hm

/-! ## C51 -/

/-- F59: `A ::= SEQUENCE (SIZE(5..1)) OF BOOLEAN` is accepted, unlike `A ::= OCTET STRING (SIZE(5..1))`; no list has such
a size. -/
theorem C51_empty_size :
    compiledModule [.type "A" (.seqOf (some (.size ⟨[[rng 5 1]], false, []⟩ false)) (.simple .boolean none))] "A" =
      .ok (some (.cls (.seqOf ⟨false, some 5, some 1⟩ .boolean))) ∧
    compiledModule [.type "A" (.simple .octetString (some (.size ⟨[[rng 5 1]], false, []⟩ false)))] "A" =
      .error .constraint := by
  decide +kernel

end Verif.Props.Findings
