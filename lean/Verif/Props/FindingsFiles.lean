import Verif.Props.Files
/-!
# Findings about the file that is written
-/
namespace Verif.Props.Findings

open Verif Spec Parse Files

def hyphenSchema : List Char := "My-Module DEFINITIONS ::= BEGIN A ::= BOOLEAN END".toList

/-- F89: the hyphen in the name of a module is kept (in the names of types and values it becomes an underscore), so that
`import` cannot name the file. -/
theorem C64_hyphen : ∃ d', parseSchema hyphenSchema (some "gen/out/".toList) sampleDisk = (.ok none, d') ∧
    (d'.file ⟨false, ["gen".toList, "out".toList, "My-Module.py".toList]⟩).isSome = true ∧
    (importModule "gen/out/".toList "My-Module" d').toOption.isSome = false ∧
    (importModule "gen/out/".toList "My_Module" d').toOption.isSome = false := by
  have hn : ∃ as, parseNamed (removeComments hyphenSchema) = .ok ("My-Module", as) := by
    have : (parseNamed (removeComments hyphenSchema)).toOption.map Prod.fst = some "My-Module" := by decide +kernel
    cases h : parseNamed (removeComments hyphenSchema) with
    | error _ => rw [h] at this; cases this
    | ok x => rw [h] at this; exact ⟨x.2, by rw [← Option.some.inj this]⟩
  have hp : ∃ py, Render.pythonOf hyphenSchema = .ok (some py) := by
    have : ((Render.pythonOf hyphenSchema).toOption.map Option.isSome) = some true := by decide +kernel
    cases h : Render.pythonOf hyphenSchema with
    | error _ => rw [h] at this; cases this
    | ok x =>
      rw [h] at this
      cases x with
      | none => cases this
      | some py => exact ⟨py, rfl⟩
  obtain ⟨as, hn⟩ := hn
  obtain ⟨py, hp⟩ := hp
  have hf : "gen/out/".toList ≠ [] := by decide
  obtain ⟨d', hd⟩ := (C64_accepted (d := sampleDisk) hf hn hp).2 (by decide +kernel)
  obtain ⟨_, _, _, e, _, _, _, h1, h2⟩ := C64_written hf hd
  rw [hn] at e
  cases e
  refine ⟨d', hd, ?_, rfl, ?_⟩
  · have : moduleFile "gen/out/".toList "My-Module" = ⟨false, ["gen".toList, "out".toList, "My-Module.py".toList]⟩ := by
      decide +kernel
    rw [← this, h1]; rfl
  · have h3 := h2.2 (Files.place (join "gen/out/".toList ("My_Module".toList ++ ['.', 'p', 'y']))) (by decide +kernel)
    unfold importModule
    rw [h3]
    rfl

end Verif.Props.Findings
