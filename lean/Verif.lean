import Verif.Chars
import Verif.Conformance.Snapshots
import Verif.Conformance.Tests
import Verif.Model.Api
import Verif.Model.Basic
import Verif.Model.Bytes
import Verif.Model.Cost
import Verif.Model.Counted
import Verif.Model.Debug
import Verif.Model.DebugText
import Verif.Model.Display
import Verif.Model.Earley
import Verif.Model.Editing
import Verif.Model.ErrorValue
import Verif.Model.Errors
import Verif.Model.Features
import Verif.Model.Generate
import Verif.Model.Generic
import Verif.Model.GrammarPrefix
import Verif.Model.Machine
import Verif.Model.Nom
import Verif.Model.ParseGrammar
import Verif.Model.Passes
import Verif.Model.Serde
import Verif.Model.Strategies
import Verif.Model.Text
import Verif.Model.TreeEditing
import Verif.Model.Views
import Verif.Proofs.AcyclicCheck
import Verif.Proofs.Ambiguity
import Verif.Proofs.AmbiguityExample
import Verif.Proofs.Api
import Verif.Proofs.Basic
import Verif.Proofs.Bytes
import Verif.Proofs.Callback
import Verif.Proofs.Catalan
import Verif.Proofs.Chance
import Verif.Proofs.Characters
import Verif.Proofs.Chart
import Verif.Proofs.ChartMap
import Verif.Proofs.Combine
import Verif.Proofs.ContextFree
import Verif.Proofs.ContextFreeEvery
import Verif.Proofs.Cost
import Verif.Proofs.CostDepth
import Verif.Proofs.CostExact
import Verif.Proofs.CostLocal
import Verif.Proofs.CostNested
import Verif.Proofs.Counted
import Verif.Proofs.Coverage
import Verif.Proofs.CustomFormat
import Verif.Proofs.Dead
import Verif.Proofs.Debug
import Verif.Proofs.DebugText
import Verif.Proofs.Display
import Verif.Proofs.DrawSize
import Verif.Proofs.DrawSizeDna
import Verif.Proofs.EarleyInv
import Verif.Proofs.EarleyRound
import Verif.Proofs.EarleyRun
import Verif.Proofs.Ebnf
import Verif.Proofs.EndToEnd
import Verif.Proofs.Endless
import Verif.Proofs.Errors
import Verif.Proofs.ErrorsPlain
import Verif.Proofs.ErrorsRefine
import Verif.Proofs.ErrorsText
import Verif.Proofs.Exponential
import Verif.Proofs.Extinction
import Verif.Proofs.Forest
import Verif.Proofs.Generate
import Verif.Proofs.Generic
import Verif.Proofs.GrammarPrefix
import Verif.Proofs.Growth
import Verif.Proofs.Iter
import Verif.Proofs.Joining
import Verif.Proofs.JsonLayout
import Verif.Proofs.Machine
import Verif.Proofs.MachineFits
import Verif.Proofs.MachineNames
import Verif.Proofs.MachinePrint
import Verif.Proofs.MachineText
import Verif.Proofs.Mean
import Verif.Proofs.MeanTrees
import Verif.Proofs.MemoryChance
import Verif.Proofs.MemoryEnds
import Verif.Proofs.Mermaid
import Verif.Proofs.MermaidTests
import Verif.Proofs.Meta
import Verif.Proofs.Multiplicity
import Verif.Proofs.Names
import Verif.Proofs.Nesting
import Verif.Proofs.Nom
import Verif.Proofs.Normalize
import Verif.Proofs.Normalized
import Verif.Proofs.Opened
import Verif.Proofs.Order
import Verif.Proofs.OrderPlain
import Verif.Proofs.Overall
import Verif.Proofs.Overwrite
import Verif.Proofs.ParsableInputs
import Verif.Proofs.ParseGrammar
import Verif.Proofs.Parts
import Verif.Proofs.Passes
import Verif.Proofs.Postal
import Verif.Proofs.PostalMean
import Verif.Proofs.Prefix
import Verif.Proofs.PropertyTests
import Verif.Proofs.Pumping
import Verif.Proofs.ReadTree
import Verif.Proofs.Recursion
import Verif.Proofs.Refactor
import Verif.Proofs.RegularLinear
import Verif.Proofs.Rejection
import Verif.Proofs.Relations
import Verif.Proofs.Rename
import Verif.Proofs.Repeated
import Verif.Proofs.Reprint
import Verif.Proofs.Script
import Verif.Proofs.Serde
import Verif.Proofs.Splice
import Verif.Proofs.Strategies
import Verif.Proofs.StrategyValues
import Verif.Proofs.Terminate
import Verif.Proofs.Terminates
import Verif.Proofs.TestGrammars
import Verif.Proofs.TestMath
import Verif.Proofs.TestSmall
import Verif.Proofs.TextLex
import Verif.Proofs.TextMain
import Verif.Proofs.TextParse
import Verif.Proofs.TextPlain
import Verif.Proofs.TextPrint
import Verif.Proofs.Trap
import Verif.Proofs.TreeChance
import Verif.Proofs.TreeEditing
import Verif.Proofs.Validation
import Verif.Proofs.Views
import Verif.Proofs.Ways
import Verif.Proofs.Work
import Verif.Proofs.WorkCopies
import Verif.Props.Ambiguity
import Verif.Props.Api
import Verif.Props.Bench
import Verif.Props.Bytes
import Verif.Props.Callback
import Verif.Props.Chance
import Verif.Props.Characters
import Verif.Props.Chart
import Verif.Props.Combine
import Verif.Props.ContextFree
import Verif.Props.Copies
import Verif.Props.Cost
import Verif.Props.Counted
import Verif.Props.CoverChance
import Verif.Props.Coverage
import Verif.Props.CustomFormat
import Verif.Props.Dead
import Verif.Props.Debug
import Verif.Props.DebugText
import Verif.Props.Display
import Verif.Props.DrawSize
import Verif.Props.Editing
import Verif.Props.EndToEnd
import Verif.Props.Endless
import Verif.Props.ErrorValue
import Verif.Props.Errors
import Verif.Props.Exponential
import Verif.Props.Extinction
import Verif.Props.Features
import Verif.Props.Generate
import Verif.Props.Generic
import Verif.Props.GrammarPrefix
import Verif.Props.Growth
import Verif.Props.Joining
import Verif.Props.JsonLayout
import Verif.Props.Machine
import Verif.Props.Mean
import Verif.Props.Mermaid
import Verif.Props.MermaidTests
import Verif.Props.Meta
import Verif.Props.Names
import Verif.Props.Nesting
import Verif.Props.Normalized
import Verif.Props.Order
import Verif.Props.Overall
import Verif.Props.Overwrite
import Verif.Props.ParsableInputs
import Verif.Props.Parsing
import Verif.Props.Passes
import Verif.Props.Prefix
import Verif.Props.PropertyTests
import Verif.Props.Pumping
import Verif.Props.Refactor
import Verif.Props.RegularLinear
import Verif.Props.Rejection
import Verif.Props.Relations
import Verif.Props.Rename
import Verif.Props.Repeated
import Verif.Props.Reprint
import Verif.Props.Seeding
import Verif.Props.Serde
import Verif.Props.Size
import Verif.Props.Splice
import Verif.Props.Strategies
import Verif.Props.Termination
import Verif.Props.TestGrammars
import Verif.Props.Text
import Verif.Props.TreeChance
import Verif.Props.TreeEditing
import Verif.Props.Undefined
import Verif.Props.Validation
import Verif.Props.Views
import Verif.Props.Work
import Verif.Props.WorkCopies
import Verif.Spec.Acyclic
import Verif.Spec.Ambiguity
import Verif.Spec.Api
import Verif.Spec.Callback
import Verif.Spec.Calls
import Verif.Spec.Chance
import Verif.Spec.Chart
import Verif.Spec.Combine
import Verif.Spec.ContextFree
import Verif.Spec.Copies
import Verif.Spec.Cost
import Verif.Spec.Counted
import Verif.Spec.CoverChance
import Verif.Spec.Coverage
import Verif.Spec.CustomFormat
import Verif.Spec.Dead
import Verif.Spec.DebugText
import Verif.Spec.Defined
import Verif.Spec.Derivation
import Verif.Spec.Display
import Verif.Spec.DrawSize
import Verif.Spec.Ebnf
import Verif.Spec.Editing
import Verif.Spec.Endless
import Verif.Spec.ErrorValue
import Verif.Spec.Errors
import Verif.Spec.Extinction
import Verif.Spec.Generate
import Verif.Spec.Generic
import Verif.Spec.Joining
import Verif.Spec.JsonLayout
import Verif.Spec.Machine
import Verif.Spec.Mean
import Verif.Spec.Mermaid
import Verif.Spec.Meta
import Verif.Spec.Names
import Verif.Spec.Normalized
import Verif.Spec.Order
import Verif.Spec.Overall
import Verif.Spec.Overwrite
import Verif.Spec.Parts
import Verif.Spec.Passes
import Verif.Spec.Postal
import Verif.Spec.Prefix
import Verif.Spec.PropertyTests
import Verif.Spec.Pumping
import Verif.Spec.Refactor
import Verif.Spec.Rejection
import Verif.Spec.Rename
import Verif.Spec.Repeated
import Verif.Spec.Reprint
import Verif.Spec.Serde
import Verif.Spec.Splice
import Verif.Spec.Syntax
import Verif.Spec.TestGrammars
import Verif.Spec.Text
import Verif.Spec.Trap
import Verif.Spec.TreeChance
import Verif.Spec.Views
import Verif.Spec.Ways
import Verif.Spec.Work
