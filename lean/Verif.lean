import Verif.Model.Basic
import Verif.Model.Ident
import Verif.Model.Tokenizer
import Verif.Model.Ast
import Verif.Model.Lexer
import Verif.Model.Display
import Verif.Model.Syntax
import Verif.Model.Io
import Verif.Model.Decoder
import Verif.Model.Utf8
import Verif.Model.Scanner
import Verif.Model.Graph
import Verif.Model.Machine
import Verif.Model.Api
import Verif.Props.Text
import Verif.Props.Stream
import Verif.Props.Grammar
import Verif.Props.Blanks
import Verif.Props.Terminator
import Verif.Props.Syntax
import Verif.Props.Display
import Verif.Props.Reader
import Verif.Props.Decoder
import Verif.Props.Parsing
import Verif.Props.Scanners
import Verif.Props.Compile
import Verif.Props.Events
import Verif.Props.Matching
import Verif.Props.Errors
import Verif.Props.Derivation
import Verif.Props.Recursion
import Verif.Props.Tree
import Verif.Props.Builds
import Verif.Props.Faults
import Verif.Props.Utf8
import Verif.Props.Limit
import Verif.Props.Messages
import Verif.Props.Viable
import Verif.Props.Predictive
import Verif.Props.Describes
import Verif.Spec.Session
import Verif.Proofs.Session
import Verif.Props.Session
import Verif.Spec.Used
import Verif.Proofs.Used
import Verif.Props.Used
import Verif.Spec.Api
import Verif.Props.Api
import Verif.Spec.Origin
import Verif.Proofs.Origin
import Verif.Props.Origin
import Verif.Model.Stack
import Verif.Spec.Stack
import Verif.Proofs.Stack
import Verif.Proofs.StackBound
import Verif.Proofs.StackMore
import Verif.Props.Stack
import Verif.Spec.Life
import Verif.Proofs.Life
import Verif.Props.Life
import Verif.Model.Asserts
import Verif.Spec.Asserts
import Verif.Proofs.Asserts
import Verif.Props.Asserts
import Verif.Model.Nested
import Verif.Spec.Nested
import Verif.Proofs.Nested
import Verif.Proofs.NestedExact
import Verif.Props.Nested
import Verif.Proofs.Unprintable
import Verif.Props.Printing
import Verif.Props.Steps
import Verif.Spec.Hanging
import Verif.Proofs.Hanging
import Verif.Spec.Hopeless
import Verif.Proofs.Hopeless
import Verif.Proofs.PanicExact
import Verif.Props.Hopeless
import Verif.Spec.Alike
import Verif.Proofs.Alike
import Verif.Proofs.AlikeCases
import Verif.Props.Alike
import Verif.Model.Escape
import Verif.Model.ErrorText
import Verif.Spec.ErrorText
import Verif.Proofs.Escape
import Verif.Proofs.ErrorText
import Verif.Proofs.ErrorFacts
import Verif.Props.ErrorText
import Verif.Spec.Relocate
import Verif.Proofs.Relocate
import Verif.Props.Relocate
import Verif.Spec.Exact
import Verif.Proofs.Exact
import Verif.Props.Exact
import Verif.Spec.Wording
import Verif.Proofs.Wording
import Verif.Props.Wording
import Verif.Spec.Complaint
import Verif.Proofs.TermStop
import Verif.Proofs.FaultComplete
import Verif.Proofs.FaultSound
import Verif.Proofs.FaultText
import Verif.Proofs.FaultParse
import Verif.Props.Complaint
import Verif.Spec.Utf16
import Verif.Proofs.Utf16
import Verif.Props.Utf16
import Verif.Spec.Failing
import Verif.Proofs.Failing
import Verif.Props.Failing
import Verif.Spec.Replaced
import Verif.Proofs.Replaced
import Verif.Props.Replaced
import Verif.Spec.Leftover
import Verif.Proofs.Leftover
import Verif.Proofs.LeftoverCases
import Verif.Props.Leftover
import Verif.Spec.Cost
import Verif.Proofs.Cost
import Verif.Props.Cost
import Verif.Spec.Linear
import Verif.Proofs.Linear
import Verif.Props.Linear
import Verif.Spec.Refactor
import Verif.Proofs.Refactor
import Verif.Proofs.RefactorCases
import Verif.Props.Refactor
import Verif.Spec.Held
import Verif.Proofs.Held
import Verif.Props.Held
import Verif.Props.Kept
import Verif.Model.ByteReader
import Verif.Spec.Growing
import Verif.Proofs.Growing
import Verif.Props.Growing
import Verif.Model.Methods
import Verif.Model.Dyn
import Verif.Spec.AnyReader
import Verif.Proofs.AnyReader
import Verif.Proofs.Dyn
import Verif.Props.AnyReader
import Verif.Spec.Lazy
import Verif.Proofs.Lazy
import Verif.Props.Lazy
import Verif.Model.Words
import Verif.Spec.Words
import Verif.Proofs.Words
import Verif.Proofs.WordsMachine
import Verif.Props.Words
import Verif.Model.WordsLexer
import Verif.Spec.WordsLexer
import Verif.Proofs.WordsLexer
import Verif.Proofs.WordsLexerWrap
import Verif.Props.WordsLexer
import Verif.Model.Effort
import Verif.Spec.Effort
import Verif.Proofs.Effort
import Verif.Proofs.EffortRules
import Verif.Proofs.EffortBound
import Verif.Proofs.EffortDeep
import Verif.Proofs.EffortLexer
import Verif.Props.Effort
import Verif.Model.Meter
import Verif.Spec.Meter
import Verif.Proofs.DynSim
import Verif.Proofs.Meter
import Verif.Proofs.MeterCalls
import Verif.Proofs.MeterParse
import Verif.Props.Meter
import Verif.Spec.Work
import Verif.Proofs.CodeOrigin
import Verif.Proofs.MeterWork
import Verif.Props.Work
import Verif.Model.MeterInner
import Verif.Proofs.MeterInner
import Verif.Props.MeterInner
import Verif.Spec.Measure
import Verif.Proofs.Measure
import Verif.Props.Measure
import Verif.Spec.Decisive
import Verif.Proofs.Decisive
import Verif.Proofs.DecisiveEvents
import Verif.Props.Decisive
import Verif.Spec.Memory
import Verif.Proofs.Memory
import Verif.Proofs.Jam
import Verif.Props.Memory
import Verif.Spec.Future
import Verif.Proofs.Future
import Verif.Proofs.FutureMachine
import Verif.Props.Future
import Verif.Spec.Partials
import Verif.Proofs.Partials
import Verif.Props.Partials
import Verif.Spec.Clear
import Verif.Proofs.Clear
import Verif.Props.Clear
import Verif.Spec.Steady
import Verif.Proofs.Steady
import Verif.Props.Steady
import Verif.Spec.Cut
import Verif.Proofs.Cut
import Verif.Props.Cut
import Verif.Spec.Shifted
import Verif.Proofs.Shifted
import Verif.Props.Shifted
import Verif.Spec.Unruly
import Verif.Proofs.Unruly
import Verif.Props.Unruly
import Verif.Model.Capacity
import Verif.Spec.Capacity
import Verif.Props.Capacity
import Verif.Conform.Lexer
import Verif.Conform.Parser
import Verif.Conform.Program
import Verif.Conform.Reader
import Verif.Conform.Tokenizer
import Verif.Spec.Candidate
import Verif.Props.Candidate
