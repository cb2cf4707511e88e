import Verif.Props.NodeFlags
import Verif.Props.BitSet
import Verif.Props.Matrix
import Verif.Props.Names
import Verif.Props.NoDup
import Verif.Props.Reuse
import Verif.Props.Mdd
import Verif.Props.Frontier
import Verif.Props.Parallel
import Verif.Props.NoRepeat
import Verif.Props.Barrier
import Verif.Props.BestFirst
import Verif.Props.Work
import Verif.Props.BarrierFine
import Verif.Props.Interrupt
import Verif.Props.Psp
import Verif.Props.Srflp
import Verif.Props.Tsptw
import Verif.Props.Report
import Verif.Props.Files
import Verif.Props.Session
import Verif.Props.Beam
import Verif.Props.Cutset
import Verif.Props.Threshold
import Verif.Props.Print
import Verif.Props.Lines
import Verif.Props.Timeout
import Verif.Props.Once
import Verif.Props.Program
import Verif.Props.Widths
import Verif.Props.Turns
import Verif.Props.Uncapped
import Verif.Props.UncappedFine
import Verif.Props.UncappedPrograms
import Verif.Props.OnceBarrier
import Verif.Props.OncePrograms
import Verif.Props.Bytes
import Verif.Props.Narrow
import Verif.Props.Shipped
import Verif.Props.Sheet
import Verif.Props.Counters
import Verif.Props.Release
import Verif.Props.Line
import Verif.Props.Merged
import Verif.Props.Texts
import Verif.Props.Crash
import Verif.Props.BarrierCrash
import Verif.Props.Ties
import Verif.Model.Stray
import Verif.Spec.Stray
import Verif.Proofs.Rest
import Verif.Proofs.Par.Stray
import Verif.Proofs.Bar.Stray
import Verif.Props.Stray
import Verif.Props.BarrierStray
import Verif.Model.MatrixText
import Verif.Props.MatrixText
import Verif.Proofs.Left
import Verif.Props.CrashTimeout
import Verif.Props.Ask
import Verif.Props.BarrierAsk
import Verif.Props.Mix
import Verif.Props.BarrierMix
import Verif.Props.Calls
import Verif.Props.BarrierCalls
import Verif.Props.NoSolution
