import Verif.Props.SparseSet
import Verif.Props.RangeSet
import Verif.Props.Vm
import Verif.Props.ByteSet
import Verif.Props.Sequences
import Verif.Props.VectorFamily
import Verif.Props.Transition
import Verif.Props.Utf
import Verif.Props.Transforms
import Verif.Props.Decoders
import Verif.Props.Window
import Verif.Props.Marshal
import Verif.Props.Handles
import Verif.Props.PatternList
import Verif.Props.Cmd
import Verif.Props.ParseUtil
import Verif.Props.Regex
import Verif.Props.NfaBuilder
import Verif.Props.BestPair
import Verif.Props.Layout
import Verif.Props.Compiled
import Verif.Props.CompiledSafe
import Verif.Props.Greedy
import Verif.Props.Preferred
import Verif.Props.Label
import Verif.Props.Prune
import Verif.Props.Merge
import Verif.Props.Shape
import Verif.Props.Fsm
import Verif.Props.Recompile
import Verif.Props.Reorder
import Verif.Props.Subset
import Verif.Props.Finalize
import Verif.Props.Pipeline
import Verif.Props.Encoders
import Verif.Props.Classes
import Verif.Props.ClassTables
import Verif.Props.ClassCache
import Verif.Props.Leaves
import Verif.Parser
import Verif.Props.Grammar
import Verif.Props.ParseErrors
import Verif.Props.Quoting
import Verif.Props.Bounded
import Verif.VmStarts
import Verif.Props.Starts
import Verif.Text
import Verif.Props.ParsedTrees
import Verif.Props.Shortcuts
import Verif.Props.Rewrite
import Verif.Props.Backtrack
import Verif.Props.Ways
import Verif.Chain
import Verif.Props.Chain
import Verif.Session
import Verif.Props.Session
import Verif.Props.Meaning
import Verif.Props.Lexer
import Verif.Props.Faults
import Verif.Props.Doomed
import Verif.Props.Order
import Verif.Props.Follow
import Verif.Props.Twins
import Verif.Props.Determinize
import Verif.Props.Reported
import Verif.MatchGen
import Verif.Props.MatchGen
import Verif.CmdLine
import Verif.Props.CmdLine
import Verif.CmdEngine
import Verif.Props.Defined
import Verif.Props.EndToEnd
import Verif.Props.Refusals
import Verif.HistFile
import Verif.Props.HistFile
import Verif.Props.IcuWindow
import Verif.VmResolve
import Verif.Props.Resolve
import Verif.Props.TextOrder
import Verif.HitWriter
import Verif.Props.HitText
import Verif.SearchCmd
import Verif.Props.SearchCmd
import Verif.Props.Options
import Verif.Props.Pumped
import Verif.Props.PumpedText
import Verif.Java
import Verif.Props.Java
import Verif.JavaHandles
import Verif.Props.JavaHandles
import Verif.Props.Malformed
import Verif.JavaText
import Verif.Props.JavaText
import Verif.Props.JavaOptions
import Verif.Python
import Verif.Props.Python
import Verif.PythonHandles
import Verif.Props.PythonHandles
import Verif.Props.PythonText
import Verif.Props.IcuDecoder
import Verif.Props.EncTable
import Verif.Loaded
import Verif.Props.Stored
import Verif.Props.Loaded
import Verif.ListEnc
import Verif.Props.ListEnc
import Verif.Props.Total
import Verif.Props.Fixed
import Verif.Props.Caseless
import Verif.Props.CommandFixed
import Verif.Report
import Verif.Props.Report
import Verif.Props.Clear
import Verif.Props.Words
import Verif.Props.Alternatives
import Verif.Props.AnyOf
import Verif.Props.ClearText
import Verif.Unparse
import Verif.Props.UnparseLex
import Verif.Props.UnparseClass
import Verif.Props.Unparse
import Verif.Graphviz
import Verif.Whole
import Verif.Props.Whole
import Verif.Props.Status
import Verif.Props.Graphviz
import Verif.Props.WholeFile
import Verif.Props.WholeProgram
import Verif.Listing
import Verif.Props.Listing
import Verif.Props.WholeListing
import Verif.Props.WholeFileProgram
