import Verif.Props.ChebBasic
import Verif.Props.ChebTransform
import Verif.Props.ChebChop
import Verif.Props.ChebCalc
import Verif.Props.ChebArith
import Verif.Props.ChebInner
import Verif.Props.ChebPts
import Verif.Props.ChebObj
import Verif.Props.ChebRefine
import Verif.Props.ChebRoots
import Verif.Props.TrigBasic
import Verif.Props.TrigCalc
import Verif.Props.TrigArith
import Verif.Props.TrigConv
import Verif.Props.Ultra
import Verif.Props.Sparse
import Verif.Props.Bem
import Verif.Props.Bemw
import Verif.Props.Schur
import Verif.Props.LinHelpers
import Verif.Props.QR
import Verif.Props.Lucp
import Verif.Props.Fold
import Verif.Props.Tools
import Verif.Props.State
import Verif.Props.ChebOut
import Verif.Props.Jacobi
import Verif.Props.Newton
import Verif.Props.Deflation
import Verif.Props.Gbit
import Verif.Props.ChebNorm
import Verif.Props.ChebMinmax
import Verif.Props.ChebCompose
import Verif.Props.ChebCompose1
import Verif.Props.ChebRestrict
import Verif.Props.ChebQR
import Verif.Props.TrigSpec
import Verif.Props.ChebColloc
import Verif.Props.OpDisc
import Verif.Props.Adaptive
import Verif.Props.Linearize
import Verif.Props.Eigs
import Verif.Props.TrigColloc
import Verif.Props.QuasiOp
import Verif.Props.Iter
import Verif.Props.OpEval
import Verif.Props.OpObj
import Verif.Props.Brd
import Verif.Props.BrdLU
import Verif.Props.TrigRefine
import Verif.Props.SecondOrder
import Verif.Props.RieszFun
import Verif.Props.Emit
import Verif.Props.Printer
import Verif.Props.NewtonSolve
import Verif.Props.SysDisc
import Verif.Props.OpIO
import Verif.Props.OpLife
import Verif.Props.ChebCompose2
import Verif.Props.Reflection
import Verif.Props.Householder
import Verif.Props.NewtonMat
import Verif.Props.UltraSection
import Verif.Props.TrigTechDiff
import Verif.Props.NewtonAffine
import Verif.Props.WellPosed
import Verif.Props.Kernels
import Verif.Props.Convergence
import Verif.Props.OdeProblem
import Verif.Props.FourierConv
import Verif.Props.FourierUnique
import Verif.Props.Adjoint
import Verif.Props.EigDiscrete
import Verif.Props.FourierSymSym
import Verif.Props.EndToEnd
import Verif.Props.EndToEndPer
import Verif.Props.ChebPoly
import Verif.Props.Continuation
import Verif.Props.RealDisc
import Verif.Props.GiantLinear
import Verif.Props.OpSolve
import Verif.Props.FourierEven
import Verif.Props.FourierSysApps
import Verif.Props.LargeFails
import Verif.Props.IntegroDiffSolve
import Verif.Props.FourierNewtonLin
import Verif.Props.FourierNewtonRun
import Verif.Props.FourierNewtonAdapt
import Verif.Props.OdePrinter
import Verif.Props.Construct
import Verif.Props.Ufunc
import Verif.Props.BemwUpdate
