import Verif.Props.Sequence
import Verif.Props.LineColumn
import Verif.Props.Resume
import Verif.Props.Primitive
import Verif.Props.Atom
import Verif.Props.Combinator
import Verif.Props.Nesting
import Verif.Props.Twin
import Verif.Props.Fatal
import Verif.Props.Iterative
import Verif.Props.BinExpr
import Verif.Props.Peg
import Verif.Props.ShortVec
import Verif.Props.ShortVecPanic
import Verif.Props.WriterPanic
import Verif.Props.ShortVecCost
import Verif.Props.BinExprVec
import Verif.Props.BinExprSteps
import Verif.Props.BinExprWork
import Verif.Props.Notify
import Verif.Props.NotifyStale
import Verif.Props.NotifyHostile
import Verif.Props.NotifyHostileKept
import Verif.Props.Internals
import Verif.Props.Loader
import Verif.Props.Release
import Verif.Props.Utf8
import Verif.Props.Runner
import Verif.Props.AdvanceLive
import Verif.Props.Unpolled
import Verif.Props.Skip
import Verif.Props.Segments
import Verif.Props.Streaming
import Verif.Props.AdvanceCell
import Verif.Props.Laws
import Verif.Props.IterLaws
import Verif.Props.Calc
import Verif.Props.CalcCuts
import Verif.Props.CalcStack
import Verif.Props.Cache
import Verif.Props.CacheCost
import Verif.Props.Metering
import Verif.Props.Counters
import Verif.Props.Leaves
import Verif.Props.Stuck
import Verif.Props.Cost
import Verif.Props.CalcCost
import Verif.Props.Keywords
import Verif.Props.NotifyWeak
import Verif.Props.RunnerWeak
import Verif.Props.Waiting
import Verif.Props.ForeignAnchor
import Verif.Props.Utf8Request
import Verif.Props.Spin
import Verif.Props.AnyWriter
import Verif.Props.Keeping
import Verif.Props.BinExprPanic
import Verif.Props.AdvanceCost
import Verif.Props.CalcWraps
import Verif.Props.NoLeak
import Verif.Props.AdvanceResolves
import Verif.Props.EndSeen
import Verif.Props.ShortVecMemory
import Verif.Props.RunnerExtends
import Verif.Props.WriterPanicQuiet
import Verif.Props.Utf8Writer
import Verif.Props.Aliasing
import Verif.Props.AliasingRules
import Verif.Props.IterativeOnce
import Verif.Props.ResumeCrlf
import Verif.Props.StdLines
import Verif.Props.Tilde
import Verif.Props.LineChart
import Verif.Props.UnitTests
