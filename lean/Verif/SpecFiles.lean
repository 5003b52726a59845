import Verif.Files
import Verif.SpecText
/-!
# Where a module is supposed to be
-/
namespace Verif.Spec

open Verif.Files

/-- The file of a module: directly in the folder, with the name of the module. -/
def moduleFile (folder : Path) (name : String) : Place :=
  ⟨(Files.place folder).root, (Files.place folder).names ++ [name.toList ++ ".py".toList]⟩

/-- A name that is only a name: nothing in it is a separator of paths, a point, or a blank. -/
def PlainName (name : String) : Prop :=
  (∃ c r, name.toList = c :: r ∧ c.isUpper = true) ∧ ∀ c ∈ name.toList, c.isAlphanum = true ∨ c = '-' ∨ c = '–'

/-- Everything but one file is as before. -/
def SameBut (p : Place) (d d' : Disk) : Prop := d'.folder = d.folder ∧ ∀ q, q ≠ p → d'.file q = d.file q

end Verif.Spec
