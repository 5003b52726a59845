import Verif.Module
/-!
# Specification vocabulary for the order of generated classes and for comments
-/
namespace Verif.Spec

section
variable {α : Type} (ref : α → String) (refs : α → List String)

/-- No type comes before one that it refers to (it may refer to itself). -/
def InOrder (comps : List α) : Prop := comps.Pairwise fun a b => ref b ∉ refs a

/-- The type named `a` refers to the other type named `b`, both of the list. -/
def RefersTo (comps : List α) (a b : String) : Prop :=
  a ≠ b ∧ b ∈ comps.map ref ∧ ∃ c ∈ comps, ref c = a ∧ b ∈ refs c

/-- ... directly or through others. -/
inductive Reaches (comps : List α) : String → String → Prop
  | direct {a b} : RefersTo ref refs comps a b → Reaches comps a b
  | step {a b c} : Reaches comps a b → RefersTo ref refs comps b c → Reaches comps a c

/-- No type refers to itself through others. -/
def Acyclic (comps : List α) : Prop := ∀ a, ¬ Reaches ref refs comps a a

/-- The types can be put on floors 0 to n-1 such that references lead to higher floors: chains of references
have at most n types. -/
def ChainsBelow (n : Nat) (comps : List α) : Prop :=
  ∃ floor : String → Nat, (∀ s ∈ comps.map ref, floor s < n) ∧
    ∀ a b, RefersTo ref refs comps a b → floor a < floor b
end

/-- A type mentions a name: as the type of a component, inside a constructed component, or because it is nothing
but that name. -/
inductive Mentions : Node → String → Prop
  | alias {t i v subs} : Mentions (.type .defined t i v subs) t
  | component {c t i v subs c' t' i' v' subs'} : c ≠ .defined → .type c' t' i' v' subs' ∈ subs →
      t' ∉ simpleNames → t' ∉ constructedNames → Mentions (.type c t i v subs) t'
  | inside {c t i v subs c' t' i' v' subs' s} : c ≠ .defined → .type c' t' i' v' subs' ∈ subs →
      t' ∈ constructedNames → Mentions (.type c' t' i' v' subs') s → Mentions (.type c t i v subs) s

/-! ## text -/

/-- A line ends here: CR LF, or a single line break that is not the CR of a CR LF. -/
def Terminator (t rest : List Char) : Prop :=
  t = ['\r', '\n'] ∨ ∃ c, t = [c] ∧ isBreak c = true ∧ ¬ (c = '\r' ∧ rest.head? = some '\n')

/-- The lines of a text, without their ends; the last one may have no end. -/
inductive Lines : List Char → List (List Char) → Prop
  | nil : Lines [] []
  | last {l} : l ≠ [] → (∀ c ∈ l, isBreak c = false) → Lines l [l]
  | line {l t rest ls} : (∀ c ∈ l, isBreak c = false) → Terminator t rest → Lines rest ls →
      Lines (l ++ t ++ rest) (l :: ls)

/-- There is a `--` in the text. -/
def HasComment (l : List Char) : Prop := ['-', '-'] <:+: l

/-- `s` is what is left of the line `l`: all of it, or what is before its first `--`. -/
def Uncommented (l s : List Char) : Prop :=
  (¬ HasComment l ∧ s = l) ∨
    ((∃ c, l = s ++ ['-', '-'] ++ c) ∧ ¬ HasComment (s ++ ['-']))

end Verif.Spec
