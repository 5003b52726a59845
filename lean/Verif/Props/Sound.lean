import Verif.Lemmas.Sound
import Verif.Props.Compiler
/-!
# C51: what the schema compiler accepts makes sense
-/
namespace Verif.Props

open Verif Spec

/-- Whatever the schema, regular or not: if the generated module can be imported, every name of it stands for a class
whose ranges have their ends in order, whose ENUMERATEDs are numbered by position and whose DEFAULTs are values of their
types, or for a value that satisfies the constraints of its class.  Missing: the sizes of SEQUENCE OF, see F59. -/
theorem C51_sound_partial {as : List Assign} {st : Loaded} (h : compileModule as = .ok st) {x : String} {o : PyObj}
    (ho : st.env.lookup x = some o) : SoundObj o :=
  Accepted.compile_ok h x o ho

/-- The same for assignments that are compiled in the order given. -/
theorem C51_unsorted_partial {as : List Assign} {st : Loaded} (h : compile as = .ok st) {x : String} {o : PyObj}
    (ho : st.env.lookup x = some o) : SoundObj o :=
  Accepted.compile_ok h x o ho

/-- A DEFAULT outside of the type of its component is refused: no module has a class with such a component. -/
theorem C51_default {as : List Assign} {st : Loaded} (h : compileModule as = .ok st) {x : String} {ext : Bool}
    {r a : List (String × Kind × Ty)} {g : Groups}
    (ho : st.env.lookup x = some (.cls (.sequence ext (.ofList r) (.ofList a) g))) {n : String} {t : Ty} {d : Val}
    (hm : (n, Kind.default d, t) ∈ r ++ a) : conforms t d = true := by
  have key : ∀ l : List (String × Kind × Ty), SoundFields (.ofList l) → (n, Kind.default d, t) ∈ l → conforms t d = true := by
    intro l
    induction l with
    | nil => intro _ h; cases h
    | cons p rest ih =>
      rintro ⟨_, h1, h2⟩ hm
      rcases List.mem_cons.1 hm with he | hm
      · subst he; exact h1 d rfl
      · exact ih h2 hm
  obtain ⟨h1, h2, _⟩ : SoundFields (.ofList r) ∧ SoundFields (.ofList a) ∧ SoundGroups g := Accepted.compile_ok h x _ ho
  exact (List.mem_append.1 hm).elim (key r h1) (key a h2)

/-- The items of an ENUMERATED of a module arrive as they were sent (finding F16 needs a class written by hand). -/
theorem C51_enumerated_partial {as : List Assign} {st : Loaded} (h : compileModule as = .ok st) {x : String} {ext : Bool}
    {root add : List (String × Int)} (ho : st.env.lookup x = some (.cls (.enumerated ext root add))) {i : Nat}
    (hi : i < (root ++ add).length) (hroot : (root ++ add).length ≤ 65536)
    (hadd : unsignedFits 16383 ((i - root.length : Nat) : Int) = true) :
    Carries (.enumerated ext root add) (.enum i) (.enum i) ∧ RoundTrips (.enumerated ext root add) (.enum i) (.enum i) := by
  refine C02_enumerated_partial (And.left (show Sound _ from Accepted.compile_ok h x _ ho)) hi ?_ hadd
  simp only [List.length_append] at hroot ⊢
  split <;> omega

/-! ## examples -/

/-- `A ::= SEQUENCE { x INTEGER (0..7) DEFAULT d }` -/
def defaulted (d : Int) : List Assign :=
  [.type "A" (.sequence (.comp "x" (.simple .integer (some (.value ⟨[[.range (.num 0) false (.num 7) false]], false, []⟩)))
    (.default (.num d)) .nil))]

/-- `E ::= ENUMERATED {red, green, ..., blue}` -/
def coloured : List Assign := [.type "E" (.enumerated [.id "red", .id "green", .id "...", .id "blue"])]

example : compiledModule (defaulted 7) "A" = .ok (some (.cls (.sequence false
    (.cons "x" (.default (.int 7)) (.integer (.valueRange (some 0) (some 7) false)) .nil) .nil .nil))) := by decide +kernel
example : compiledModule (defaulted 9) "A" = .error .constraint := by decide +kernel
example : compiledModule coloured "E" = .ok (some (.cls (.enumerated true [("red", 0), ("green", 1)] [("blue", 2)]))) := by
  decide +kernel
/-- `big A ::= 9` with `A ::= INTEGER (0..7)` -/
example : compiledModule [.type "A" (.simple .integer (some (.value ⟨[[.range (.num 0) false (.num 7) false]], false, []⟩))),
    .constant "big" "A" (.num 9)] "A" = .error .constraint := by decide +kernel
/-- `A ::= INTEGER (7..0)` and `A ::= OCTET STRING (SIZE(7..0))` -/
example : compiledModule [.type "A" (.simple .integer (some (.value ⟨[[.range (.num 7) false (.num 0) false]], false, []⟩)))]
    "A" = .error .constraint := by decide +kernel
example : compiledModule [.type "A" (.simple .octetString (some (.size ⟨[[.range (.num 7) false (.num 0) false]], false, []⟩
    false)))] "A" = .error .constraint := by decide +kernel
/-- an anonymous ENUMERATED as element of SEQUENCE OF -/
example : compiledModule [.type "A" (.seqOf none (.enumerated [.id "red", .id "green"]))] "A" =
    .ok (some (.cls (.seqOf ⟨false, some 0, none⟩ (.enumerated false [("red", 0), ("green", 1)] [])))) := by decide +kernel
/-- `five B ::= 5` with `B ::= A`: the value is checked against what is behind the alias -/
example : compiledModule [.type "A" (.simple .integer (some (.value ⟨[[.range (.num 0) false (.num 7) false]], false, []⟩))),
    .type "B" (.ref "A"), .constant "five" "B" (.num 5)] "five" =
    .ok (some (.val (.integer (.valueRange (some 0) (some 7) false)) (.int 5))) := by decide +kernel

end Verif.Props
