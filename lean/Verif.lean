import Verif.Spec
import Verif.OpsCore
import Verif.OpsOk
import Verif.AlignProofs
import Verif.OpsAdd
import Verif.OpsMul
import Verif.Reshape
import Verif.OpsMatmul
import Verif.OpsRest
import Verif.Mono
import Verif.Envs
import Verif.Api
import Verif.SpecOps
import Verif.Ex
import Verif.Props01
import Verif.Props02
import Verif.Shape
import Verif.Dispatch
import Verif.Indent
import Verif.Constr
import Verif.OpsNeg
import Verif.Props03
import Verif.Term
import Verif.TermNF
import Verif.TermDone
import Verif.Props04
import Verif.Reject
import Verif.Kinds
import Verif.DiagPres
import Verif.Expr
import Verif.LinCore
import Verif.MatRep
import Verif.LinSpec
import Verif.LinInv
import Verif.LinSolve
import Verif.LinChol
import Verif.LinDet
import Verif.LinRoot
import Verif.LinAll
import Verif.LinMono
import Verif.LinDer
import Verif.LinSample
import Verif.ExLin
import Verif.Props05
import Verif.Findings
import Verif.Low
import Verif.Elt
import Verif.Sum
import Verif.Kron
import Verif.Take
import Verif.Submat
import Verif.Concat
import Verif.Block
import Verif.LinTerm
import Verif.LinDone
import Verif.Props06
import Verif.Cache
import Verif.Props07
import Verif.Replay
import Verif.Dtype
import Verif.Warn
import Verif.Flat
import Verif.Fine
import Verif.FineAdd
import Verif.FineMul
import Verif.FineMm
import Verif.FineAll
import Verif.Props08
import Verif.Quiet
import Verif.Props09
import Verif.Inner
import Verif.Props10
import Verif.Methods
import Verif.Tol
import Verif.LinFine
import Verif.LinPd
import Verif.LinFine2
import Verif.Props11
import Verif.LinReal
import Verif.LinQuiet
import Verif.Props12
import Verif.Classes
import Verif.Cancel
import Verif.Readme
import Verif.FineDer
import Verif.QuietDer
import Verif.Props13
import Verif.FineTake
import Verif.FineBlock
import Verif.FineMd
import Verif.LinQf
import Verif.Show
import Verif.WarnDer
import Verif.LinExpr
import Verif.WarnLin2
import Verif.Dispatch2
import Verif.Backend
import Verif.Findings2
import Verif.Methods2
import Verif.Rank
import Verif.Rank2
import Verif.Rank3
import Verif.DFlow
import Verif.DFlow2
import Verif.DFlow3
import Verif.DFlow4
import Verif.DFlow5
import Verif.DFlow6
import Verif.DFlow7
import Verif.DFlow8
import Verif.DFlow9
import Verif.DFlow10
import Verif.DFlow11
import Verif.BatchInd
import Verif.BatchInd2
import Verif.Prog
import Verif.Prog2
import Verif.Prog3
import Verif.Prog4
import Verif.Prog5
import Verif.Findings4
import Verif.FineTiled
import Verif.TriWarn
import Verif.WarnKept
import Verif.Findings3
import Verif.LogdetLR
import Verif.Tight
import Verif.FineTri
import Verif.WarnLr
