import Verif.Props.CNF
import Verif.Props.Dimacs
import Verif.Props.Query
import Verif.Props.Walk
import Verif.Props.Encode
import Verif.Props.LogOp
import Verif.Props.Preds
import Verif.Props.Clash
import Verif.Props.Meaning
import Verif.Props.Ground
import Verif.Props.Compute
import Verif.Props.Reported
import Verif.Props.OwnReported
import Verif.Props.Descend
import Verif.Props.Reuse
import Verif.Props.Again
import Verif.Props.Halts
import Verif.Props.Alias
import Verif.Props.Tidy
import Verif.Props.Examples
import Verif.Props.Size
import Verif.Props.Calls
import Verif.Props.Chain
import Verif.Props.Ends
import Verif.Props.Scoped
import Verif.Props.Closest
import Verif.Props.Succeeds
import Verif.Props.Solver
import Verif.Props.Files
import Verif.Tests.Tables
import Verif.Tests.Units
import Verif.Props.Values
import Verif.Props.Errors
import Verif.Props.Helpers
import Verif.Props.OptimUsed
import Verif.Props.Settle
import Verif.Props.Session
import Verif.Props.Diagram
import Verif.Props.Blind
import Verif.Props.TestRun
import Verif.Props.Open
import Verif.Props.Shift
import Verif.Props.Renaming
import Verif.Props.Output
import Verif.Props.Own
import Verif.Props.Repeats
import Verif.Props.Notions
import Verif.Props.Iface
import Verif.Props.Shared
import Verif.Props.IfaceCompute
import Verif.Props.Concurrent
import Verif.Props.Word
import Verif.Props.Laws
import Verif.Props.Symmetry
import Verif.Props.Sole
import Verif.Props.Propagate
import Verif.Props.Wrapped
import Verif.Props.Marking
import Verif.Props.MarkedOptim
import Verif.Props.DiagramWalk
import Verif.Props.DiagramOptim
import Verif.Cases.Basic
import Verif.Cases.Encode
import Verif.Cases.Preds
import Verif.Cases.Compute
import Verif.Cases.Later
import Verif.Cases.Rest
import Verif.Cases.More
