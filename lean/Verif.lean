import Verif.Model.Eval
import Verif.Props.Split
import Verif.Props.ResultList
import Verif.Props.Args
import Verif.Props.Misc
import Verif.Props.Clpars
import Verif.Props.Expl
import Verif.Props.Cmp
import Verif.Props.World0
import Verif.Props.Vars
import Verif.Props.KwMatch
import Verif.Props.Text
import Verif.Props.ParsTotal
import Verif.Props.ParsLex
import Verif.Props.Utf8
import Verif.Props.Lex
import Verif.Props.Utf8Safe
import Verif.Props.Blanks
import Verif.Props.Quoting
import Verif.Props.Runs
import Verif.Props.Loops
import Verif.Props.Jumps2
import Verif.Props.Returns
import Verif.Props.Pipes
import Verif.Props.Conds
import Verif.Props.Switch
import Verif.Props.Assign
import Verif.Props.Print
import Verif.Props.Exec
import Verif.Props.Started
import Verif.Props.Attr
import Verif.Props.Basics
import Verif.Props.Effects
import Verif.Props.Modules
import Verif.Props.CrashDemo
import Verif.Props.Crash4
import Verif.Props.Crash5
import Verif.Props.Reads
import Verif.Props.Nesting
import Verif.Props.Grammar
import Verif.Props.Calls
import Verif.Props.Separators
import Verif.Props.Defines
import Verif.Props.Reports
import Verif.Props.Cached
import Verif.Props.Traces
import Verif.Props.Evaluate
import Verif.Props.Modules2
import Verif.Props.Sums
import Verif.Props.CoreSpec
import Verif.Props.CoreEval
import Verif.Props.CoreStmts
import Verif.Props.CoreCond
import Verif.Props.CoreArgs
import Verif.Props.CoreRun
import Verif.Props.CoreText
import Verif.Props.CoreMain
import Verif.Props.CoreDemo
import Verif.Props.Aliases
import Verif.Props.CoreSafeDemo
import Verif.Props.ArgNames
import Verif.Props.Pipes2
import Verif.Props.Places
import Verif.Props.ArgLine
import Verif.Props.Mixed
import Verif.Props.LongText
import Verif.Props.CompleteDemo
import Verif.Props.NoTextDemo
import Verif.Props.Capable
import Verif.Props.Ends
import Verif.Props.Replay
import Verif.Props.FixedText
import Verif.Props.Tree
import Verif.Props.Endless
import Verif.Props.Deeper
import Verif.Props.Deeper2
import Verif.Props.ReleaseSelf
