import Verif.Props.Text
import Verif.Props.Standard
/-!
# C57: a peer that follows the standards
-/
namespace Verif.Props

open Verif Spec Parse

/-- One party compiles the text of a schema and imports the module it gets.  The other has read X.680 and X.691: for them
a name of the schema stands for the type declared (`Solves`), and a value has the encoding `X691.message`.  What the first
encodes with the class of a name is the encoding that the second expects for the type of that name; what the second
encodes, and whatever follows it, the first decodes to the value that was meant.  Missing: what is missing in
`C53_compiled_partial`, `C45_encode_partial` and `C46_decode_partial`. -/
theorem C57_interop_partial {name : String} {tags : Bool} {as : List Assign} {text : List Char} {τ : List (String × Ty)}
    {ν : List (String × Ty × Val)} (hm : UpperName name ∧ Ends name) (ha : ∀ a ∈ as, WritableAssign a)
    (h : Commented name tags as text) (hn : Names as) (hs : Solves as τ ν) (hr : ∀ a ∈ as, RegularAssign as τ ν a)
    (ho : Sortable as) (hlt : componentCount as < 100) :
    ∃ py env, Render.pythonOf text = .ok (some py) ∧ Python.run py = .ok env ∧ ∀ n T, τ.lookup n = some T →
      ∃ C, env.lookup (pyName n) = some (.obj (.cls C)) ∧
        (∀ v bs, X691.regular T v = true → encode C v = .ok bs → octetsToBits bs = X691.message T v) ∧
        (∀ v bs extra, returnable v = true → X691.regular T v = true → safe T v = true → sendable T v = true →
          octetsToBits bs = X691.message T v → decode C (bs ++ extra) = .ok (received T v)) ∧
        ∀ v, legible T v = true → sendable T v = true → ∃ bs, encode C v = .ok bs := by
  obtain ⟨py, env, p1, p2, p3, _⟩ := C55_schema_partial hm ha h hn hs hr ho hlt
  exact ⟨py, env, p1, p2, fun n T hT => ⟨T, p3 n T hT, fun v bs r e => C45_encode_partial r e,
    fun v bs extra hn r s p hb => C46_decode_partial hn r s p hb extra, fun v l p => legible_encodable l p⟩⟩

/-- For the schema of the samples: a message as the standard has it, and the value it stands for. -/
example : ∃ T, sampleTypes.lookup "Msg-1" = some T ∧
    let v : Val := .seq [some (.int 3), some (.bool false), some (.int 2), some (.seqOf [.int 1, .int 7]), some (.octets [0x11, 2])]
    X691.regular T v = true ∧ safe T v = true ∧ sendable T v = true ∧ legible T v = true ∧ received T v = v ∧
      X691.message T v = octetsToBits [0xF6, 0x20, 0x70, 0x02, 0x02, 0x3C, 0x03, 0xA0, 0x11, 0x02] :=
  ⟨sampleMsg, rfl, by refine ⟨?_, ?_, ?_, ?_, ?_, ?_⟩ <;> decide +kernel⟩

end Verif.Props
