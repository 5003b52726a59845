import Verif.Py
import Verif.Constraint
import Verif.Types
import Verif.Encoder
import Verif.Decoder
import Verif.Samples
import Verif.Vectors
import Verif.Spec
import Verif.SpecVersions
import Verif.SpecTruncate
import Verif.SpecX691
import Verif.ToDict
import Verif.SpecDict
import Verif.Lemmas.Bits
import Verif.Lemmas.Constr
import Verif.Lemmas.Cursor
import Verif.Lemmas.Number
import Verif.Lemmas.Leaf
import Verif.Lemmas.Vocabulary
import Verif.Lemmas.RoundTrip
import Verif.Lemmas.Canonical
import Verif.Lemmas.Total
import Verif.Lemmas.Message
import Verif.Lemmas.Tame
import Verif.Lemmas.Stream
import Verif.Lemmas.Format
import Verif.Lemmas.Conforms
import Verif.Props.Leaf
import Verif.Props.Compound
import Verif.Lemmas.Exact
import Verif.Props.Exact
import Verif.Props.Stream
import Verif.Props.Schema
import Verif.Props.CountExact
import Verif.Props.Format
import Verif.Props.FormatExact
import Verif.Lemmas.Sequence
import Verif.Lemmas.Missing
import Verif.Props.Sequence
import Verif.Props.DefaultExact
import Verif.Props.Missing
import Verif.Props.MissingExact
import Verif.Lemmas.Versions
import Verif.Lemmas.VersionsExact
import Verif.Lemmas.Later
import Verif.Named
import Verif.SpecNames
import Verif.Lemmas.Named
import Verif.Lemmas.Anonymous
import Verif.Lemmas.Truncate
import Verif.Lemmas.Closing
import Verif.Props.Versions
import Verif.Props.Later
import Verif.Props.Names
import Verif.Lemmas.DictInj
import Verif.Props.DictWhole
import Verif.Lemmas.Dict
import Verif.Lemmas.DictWire
import Verif.Props.Dict
import Verif.Module
import Verif.SpecModule
import Verif.Lemmas.Sorting
import Verif.Lemmas.Acyclic
import Verif.Lemmas.Chain
import Verif.Lemmas.Comments
import Verif.Props.Module
import Verif.Template
import Verif.SpecTemplate
import Verif.Props.Template
import Verif.Lemmas.X691
import Verif.Lemmas.X691Exact
import Verif.Props.Standard
import Verif.Props.Annex
import Verif.Props.StandardExact
import Verif.Props.FindingsDefault
import Verif.Object
import Verif.SpecObject
import Verif.Lemmas.Object
import Verif.Props.Object
import Verif.Props.Findings
import Verif.Generate
import Verif.SpecGenerate
import Verif.Lemmas.GenConstraint
import Verif.Lemmas.GenValue
import Verif.Lemmas.GenClass
import Verif.Lemmas.GenModule
import Verif.Lemmas.GenSample
import Verif.Lemmas.TyEq
import Verif.Props.Generate
import Verif.Props.FindingsGenerate
import Verif.Compiler
import Verif.SpecCompiler
import Verif.Lemmas.Uses
import Verif.Lemmas.InUse
import Verif.Lemmas.TypeGraph
import Verif.Lemmas.SortBody
import Verif.Props.Compiler
import Verif.Props.FindingsCompiler
import Verif.SpecSound
import Verif.Lemmas.Sound
import Verif.Props.Sound
import Verif.Pyparsing
import Verif.Grammar
import Verif.SpecSchema
import Verif.Lemmas.ParseBase
import Verif.Lemmas.ParseFirst
import Verif.Lemmas.ParseLex
import Verif.Lemmas.ParseValue
import Verif.Lemmas.ParseText
import Verif.Lemmas.ParseCon
import Verif.Lemmas.ParseSet
import Verif.Lemmas.ParseNest
import Verif.Lemmas.ParseType
import Verif.Lemmas.ParseList
import Verif.Lemmas.ParseMember
import Verif.Lemmas.ParseSeq
import Verif.Lemmas.ParseObj
import Verif.Lemmas.ParseModule
import Verif.Lemmas.ParseTabs
import Verif.Lemmas.Plain
import Verif.Props.Parse
import Verif.Props.FindingsParse
import Verif.Session
import Verif.SpecSession
import Verif.Lemmas.Session
import Verif.Props.Session
import Verif.Props.FindingsSession
import Verif.Jinja
import Verif.TemplateFiles
import Verif.Render
import Verif.Python
import Verif.Lemmas.PyLex
import Verif.Lemmas.PyShape
import Verif.Lemmas.PyTemplates
import Verif.Lemmas.PyRender
import Verif.Lemmas.PyText
import Verif.SpecText
import Verif.Lemmas.PyLines
import Verif.Lemmas.PyLogical
import Verif.Lemmas.PyParse
import Verif.Lemmas.PyModule
import Verif.Lemmas.PyExec
import Verif.Lemmas.PyRun
import Verif.Lemmas.ParseSound
import Verif.Lemmas.Writable
import Verif.Lemmas.Compiled
import Verif.Props.Text
import Verif.Props.FindingsText
import Verif.SpecSize
import Verif.Lemmas.Size
import Verif.Lemmas.SizeTypes
import Verif.Props.Size
import Verif.Props.FindingsSize
import Verif.Props.Interop
import Verif.SpecFaults
import Verif.Lemmas.Faults
import Verif.Props.Faults
import Verif.SpecRecursion
import Verif.Lemmas.Recursion
import Verif.Props.Recursion
import Verif.Props.FindingsRecursion
import Verif.SpecDomain
import Verif.Lemmas.Domain
import Verif.Lemmas.Refusal
import Verif.Props.Domain
import Verif.Props.UnsetExact
import Verif.Props.LimitsExact
import Verif.SpecExtent
import Verif.Lemmas.Extent
import Verif.Lemmas.ExtentTypes
import Verif.Props.Extent
import Verif.Props.FindingsNames
import Verif.Files
import Verif.SpecFiles
import Verif.Lemmas.Files
import Verif.Props.Files
import Verif.Props.FindingsFiles
import Verif.Heap
import Verif.SpecHeap
import Verif.Lemmas.Heap
import Verif.Props.Heap
import Verif.Props.FindingsHeap
import Verif.Looking
import Verif.SpecLooking
import Verif.Lemmas.Looking
import Verif.Lemmas.LookingSteps
import Verif.Lemmas.LookingSame
import Verif.Lemmas.LookingFresh
import Verif.Props.Looking
import Verif.Props.FindingsLooking
import Verif.Shared
import Verif.SpecShared
import Verif.Lemmas.Shared
import Verif.Lemmas.SharedGrown
import Verif.Lemmas.SharedSteps
import Verif.Lemmas.SharedSame
import Verif.Lemmas.SharedKept
import Verif.Lemmas.SharedShown
import Verif.Props.Shared
import Verif.Props.FindingsShared
import Verif.Received
import Verif.SpecReceived
import Verif.Lemmas.Received
import Verif.Lemmas.Relayed
import Verif.Lemmas.Forwarded
import Verif.Props.Held
import Verif.Props.Received
import Verif.Props.FindingsReceived
import Verif.Props.StandardMisread
import Verif.Props.DictExact
import Verif.Props.RangeExact
import Verif.Props.Composition
import Verif.Props.CompositionOpen
import Verif.Props.Position
import Verif.Props.CompositionExact
