import Verif.SpecGenerate
/-!
# Specification vocabulary: schemas in any order

The assignments of a module may come in any order (X.680, 13.18); their meaning is a solution of the equations that
they are.
-/
namespace Verif.Spec

/-- `τ` and `ν` are what the module declares. -/
structure Solves (as : List Assign) (τ : List (String × Ty)) (ν : List (String × Ty × Val)) : Prop where
  type : ∀ {n t}, .type n t ∈ as → ∃ T, τ.lookup n = some T ∧ Means τ ν t T
  value : ∀ {n k l}, .value n k l ∈ as → ∃ T v, ν.lookup n = some (T, v) ∧ Means τ ν (.simple k none) T ∧ LitIs ν T l v
  constant : ∀ {n m l}, .constant n m l ∈ as → ∃ T v, ν.lookup n = some (T, v) ∧ τ.lookup m = some T ∧ LitIs ν T l v
  types : ∀ {n T}, τ.lookup n = some T → n ∈ typeNames as
  values : ∀ {n x}, ν.lookup n = some x → n ∈ valueNames as

/-! ## names that are used -/

def endNames : End → List String
  | .ref s => [s]
  | _ => []

def elemNames : Elem → List String
  | .value e => endNames e
  | .range lo _ hi _ => endNames lo ++ endNames hi

def notationNames (n : Notation) : List String := (n.root ++ n.additional).flatMap fun i => i.flatMap elemNames

def conNames : Option Con → List String
  | none => []
  | some (.value n) => notationNames n
  | some (.size n _) => notationNames n

def litNames : Lit → List String
  | .word s => [s]
  | _ => []

def presNames : Pres → List String
  | .default l => litNames l
  | _ => []

mutual
/-- The type names in a type. -/
def typesIn : TObj → List String
  | .simple _ _ => []
  | .enumerated _ => []
  | .seqOf _ e => typesIn e
  | .sequence items => typesInItems items
  | .choice items => typesInItems items
  | .ref n => [n]
def typesInItems : Items → List String
  | .nil => []
  | .comp _ t _ r => typesIn t ++ typesInItems r
  | .marker r => typesInItems r
  | .group cs r => typesInComps cs ++ typesInItems r
def typesInComps : Comps → List String
  | .nil => []
  | .cons _ t _ r => typesIn t ++ typesInComps r
end

mutual
/-- The words in a type that may be value names: ends of constraints, DEFAULTs. -/
def valuesIn : TObj → List String
  | .simple _ c => conNames c
  | .enumerated _ => []
  | .seqOf c e => conNames c ++ valuesIn e
  | .sequence items => valuesInItems items
  | .choice items => valuesInItems items
  | .ref _ => []
def valuesInItems : Items → List String
  | .nil => []
  | .comp _ t p r => valuesIn t ++ (presNames p ++ valuesInItems r)
  | .marker r => valuesInItems r
  | .group cs r => valuesInComps cs ++ valuesInItems r
def valuesInComps : Comps → List String
  | .nil => []
  | .cons _ t p r => valuesIn t ++ (presNames p ++ valuesInComps r)
end

/-! ## modules that can be written in one order -/

/-- Types without components, and not a reference. -/
def Flat : TObj → Prop
  | .simple _ _ => True
  | .enumerated _ => True
  | _ => False

/-- The name of a plain type, or of an alias of one. -/
inductive FlatName (as : List Assign) : String → Prop
  | type {n t} : .type n t ∈ as → Flat t → FlatName as n
  | alias {n m} : .type n (.ref m) ∈ as → FlatName as m → FlatName as n

/-- What the order values, plain types, aliases, values of named types, types with components allows: values are made of
values before them; constraints of plain types do not use values of named types; aliases name types that are no
aliases, or aliases of plain types before them; types with components do not use aliases of such types. -/
structure Sortable (as : List Assign) : Prop where
  values : ∀ {n k l s}, .value n k l ∈ as → s ∈ litNames l → s ∈ valueNames as →
    ∃ k' l', [.value s k' l', .value n k l].Sublist as
  plain : ∀ {n t s}, .type n t ∈ as → Flat t → s ∈ valuesIn t → s ∈ valueNames as → ∃ k l, .value s k l ∈ as
  aliases : ∀ {n m t}, .type n (.ref m) ∈ as → .type m t ∈ as →
    (∀ m', t ≠ .ref m') ∨ (FlatName as m ∧ [.type m t, .type n (.ref m)].Sublist as)
  constants : ∀ {n m l s}, .constant n m l ∈ as → s ∈ litNames l → s ∈ valueNames as →
    (∃ k l', .value s k l' ∈ as) ∨ ∃ m' l', [.constant s m' l', .constant n m l].Sublist as
  components : ∀ {n t m t'}, .type n t ∈ as → ¬ Flat t → (∀ m', t ≠ .ref m') → m ∈ typesIn t → .type m t' ∈ as →
    (∀ m', t' ≠ .ref m') ∨ FlatName as m

/-- Types with components. -/
def componentCount (as : List Assign) : Nat :=
  (as.filter fun a => match a with
    | .type _ (.seqOf _ _) => true
    | .type _ (.sequence _) => true
    | .type _ (.choice _) => true
    | _ => false).length

end Verif.Spec
