import Verif.Model.Basic
import Verif.Model.Build
import Verif.Model.Crate
import Verif.Model.Debug
import Verif.Model.Detection
import Verif.Model.Display
import Verif.Model.Float
import Verif.Model.Fmt
import Verif.Model.Fuzzing
import Verif.Model.Heap
import Verif.Model.HeapApi
import Verif.Model.HeapParse
import Verif.Model.HeapPrint
import Verif.Model.Ident
import Verif.Model.LitCtor
import Verif.Model.Marker
import Verif.Model.NoSpan
import Verif.Model.NoSpanWrapper
import Verif.Model.Number
import Verif.Model.OldProcess
import Verif.Model.PanicHook
import Verif.Model.Parse
import Verif.Model.Process
import Verif.Model.Release
import Verif.Model.Script
import Verif.Model.SourceMap
import Verif.Model.Timed
import Verif.Model.TimedHeap
import Verif.Model.TimedMap
import Verif.Model.TimedValue
import Verif.Model.Token
import Verif.Model.Unescape
import Verif.Model.Unicode
import Verif.Model.Unwind
import Verif.Model.Unwrapped
import Verif.Model.Wrapper
import Verif.Model.Writer
import Verif.Proof.BSearch
import Verif.Proof.Big
import Verif.Proof.Build
import Verif.Proof.Bytes
import Verif.Proof.Concat
import Verif.Proof.Context
import Verif.Proof.Cost
import Verif.Proof.Cost2
import Verif.Proof.Cost3
import Verif.Proof.Cost4
import Verif.Proof.Cost5
import Verif.Proof.Cost6
import Verif.Proof.Cost7
import Verif.Proof.Crate
import Verif.Proof.ErrorAt
import Verif.Proof.Escape
import Verif.Proof.Ext
import Verif.Proof.Fault
import Verif.Proof.Float
import Verif.Proof.Grammar
import Verif.Proof.Heap
import Verif.Proof.HeapApi
import Verif.Proof.HeapApiCall
import Verif.Proof.HeapApiState
import Verif.Proof.HeapApiStep
import Verif.Proof.HeapApiTake
import Verif.Proof.HeapParse
import Verif.Proof.HeapPrint
import Verif.Proof.HeapRun
import Verif.Proof.HeapStep
import Verif.Proof.History
import Verif.Proof.Item
import Verif.Proof.Layout
import Verif.Proof.Leaves
import Verif.Proof.Lexed
import Verif.Proof.Lit
import Verif.Proof.NoSpan
import Verif.Proof.NumGrammar
import Verif.Proof.Number
import Verif.Proof.Order
import Verif.Proof.Print
import Verif.Proof.Pure
import Verif.Proof.Reach
import Verif.Proof.Refine1
import Verif.Proof.Refine2
import Verif.Proof.Refine3
import Verif.Proof.Refine4
import Verif.Proof.Refine5
import Verif.Proof.Refine6
import Verif.Proof.Release
import Verif.Proof.Release2
import Verif.Proof.Respace
import Verif.Proof.Shape
import Verif.Proof.Shift
import Verif.Proof.Size
import Verif.Proof.SourceMap
import Verif.Proof.SourceMap2
import Verif.Proof.Sub
import Verif.Proof.Tile
import Verif.Proof.Timed
import Verif.Proof.TimedHeap
import Verif.Proof.TimedMap
import Verif.Proof.TimedValue
import Verif.Proof.Trivia
import Verif.Proof.Trunc
import Verif.Proof.Unescape
import Verif.Proof.Unwind
import Verif.Proof.Utf8
import Verif.Proof.Value
import Verif.Proof.ValueCost
import Verif.Proof.Writer
import Verif.Props.Additive
import Verif.Props.Build
import Verif.Props.Built
import Verif.Props.Context
import Verif.Props.Cost
import Verif.Props.Crate
import Verif.Props.Debug
import Verif.Props.Detection
import Verif.Props.Direct
import Verif.Props.ErrorAt
import Verif.Props.Faults
import Verif.Props.Float
import Verif.Props.Fuzzing
import Verif.Props.Grammar
import Verif.Props.HeapApi
import Verif.Props.HeapParse
import Verif.Props.HeapPrint
import Verif.Props.Ident
import Verif.Props.MapCost
import Verif.Props.Marker
import Verif.Props.Moves
import Verif.Props.NoSpan
import Verif.Props.Numbers
import Verif.Props.OldCompiler
import Verif.Props.OldProcess
import Verif.Props.PanicHook
import Verif.Props.Panics
import Verif.Props.Printing
import Verif.Props.Process
import Verif.Props.Program
import Verif.Props.Release
import Verif.Props.Reparse
import Verif.Props.Respace
import Verif.Props.RoundTrip
import Verif.Props.Script
import Verif.Props.Session
import Verif.Props.SourceMap
import Verif.Props.Spelling
import Verif.Props.StreamCost
import Verif.Props.Streams
import Verif.Props.Tiling
import Verif.Props.Tokens
import Verif.Props.Total
import Verif.Props.Unwind
import Verif.Props.ValueCost
import Verif.Props.Values
import Verif.Props.Word
import Verif.Props.Wrapper
import Verif.Props.Writer
import Verif.Spec.Additive
import Verif.Spec.AutoTraits
import Verif.Spec.Build
import Verif.Spec.Built
import Verif.Spec.Context
import Verif.Spec.Crate
import Verif.Spec.Debug
import Verif.Spec.Decide
import Verif.Spec.Detection
import Verif.Spec.Direct
import Verif.Spec.ErrorAt
import Verif.Spec.Fault
import Verif.Spec.Float
import Verif.Spec.Grammar
import Verif.Spec.HeapApi
import Verif.Spec.HeapParse
import Verif.Spec.HeapPrint
import Verif.Spec.History
import Verif.Spec.Layout
import Verif.Spec.Lexical
import Verif.Spec.Literal
import Verif.Spec.MapCost
import Verif.Spec.Number
import Verif.Spec.OldProcess
import Verif.Spec.PanicHook
import Verif.Spec.Panics
import Verif.Spec.Process
import Verif.Spec.Program
import Verif.Spec.Release
import Verif.Spec.Respace
import Verif.Spec.SampleCompiler
import Verif.Spec.Script
import Verif.Spec.Session
import Verif.Spec.Size
import Verif.Spec.Spelling
import Verif.Spec.Stream
import Verif.Spec.StreamCost
import Verif.Spec.Text
import Verif.Spec.Tokens
import Verif.Spec.Unwind
import Verif.Spec.Value
import Verif.Spec.Wrapper
import Verif.Spec.Writer
import Verif.Tests.Suite
