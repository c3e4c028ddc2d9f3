import Verif.BM
import Verif.BMSeq
import Verif.Barrett
import Verif.Batch
import Verif.CRT
import Verif.Colon
import Verif.ColonCheck
import Verif.ColonMat
import Verif.ColonParam
import Verif.ColonPoly
import Verif.ColonSeq
import Verif.ColonStart
import Verif.ColonVec
import Verif.Content
import Verif.Convert
import Verif.DenseLA
import Verif.DenseProb
import Verif.DivMask
import Verif.Echelon
import Verif.EchelonQq
import Verif.ElimBasis
import Verif.ElimField
import Verif.EndToEnd
import Verif.EndToEndLm
import Verif.EndToEndNf
import Verif.EndToEndQq
import Verif.EndToEndSat
import Verif.ExportF4
import Verif.ExportQq
import Verif.F4
import Verif.F4Final
import Verif.F4Matrix
import Verif.F4Sem
import Verif.F4Sym
import Verif.Fglm
import Verif.FglmParam
import Verif.Groebner
import Verif.GroebnerUnique
import Verif.Hankel
import Verif.Hash
import Verif.Hilbert
import Verif.Import
import Verif.Julia
import Verif.Lcm
import Verif.Lift
import Verif.LiftGB
import Verif.LiftStore
import Verif.LinForms
import Verif.Lucky
import Verif.MatApply
import Verif.MatVec
import Verif.ModInverse
import Verif.MulMatrix
import Verif.NormalForm
import Verif.Normalize
import Verif.Options
import Verif.Orders
import Verif.Output
import Verif.Pairs
import Verif.ParamLift
import Verif.Parse
import Verif.Primes
import Verif.PrintQq
import Verif.ProbLA
import Verif.Program
import Verif.ProgramSat
import Verif.Props.Arith
import Verif.Props.Basis
import Verif.Props.Batch
import Verif.Props.Colon
import Verif.Props.ColonCheck
import Verif.Props.ColonMat
import Verif.Props.ColonParam
import Verif.Props.ColonPoly
import Verif.Props.ColonSeq
import Verif.Props.ColonStart
import Verif.Props.ColonVec
import Verif.Props.Content
import Verif.Props.DenseLA
import Verif.Props.EndToEnd
import Verif.Props.EndToEndLm
import Verif.Props.EndToEndNf
import Verif.Props.EndToEndQq
import Verif.Props.EndToEndQqEx
import Verif.Props.EndToEndSat
import Verif.Props.ExportF4
import Verif.Props.ExportQq
import Verif.Props.F4
import Verif.Props.Fglm
import Verif.Props.Hilbert
import Verif.Props.Import
import Verif.Props.Julia
import Verif.Props.JuliaEx
import Verif.Props.Lift
import Verif.Props.LiftGB
import Verif.Props.LiftStore
import Verif.Props.LinAlg
import Verif.Props.LinAlgQq
import Verif.Props.Modular
import Verif.Props.Monomials
import Verif.Props.MulMatrix
import Verif.Props.NormalForm
import Verif.Props.Options
import Verif.Props.Orders
import Verif.Props.Output
import Verif.Props.Param
import Verif.Props.ParamLift
import Verif.Props.Parse
import Verif.Props.PrintQq
import Verif.Props.ProbLA
import Verif.Props.Program
import Verif.Props.ProgramSat
import Verif.Props.RealPoint
import Verif.Props.Saturate
import Verif.Props.SaturateGood
import Verif.Props.SaturateWrong
import Verif.Props.Solve
import Verif.Props.SolveExists
import Verif.Props.SolveLost
import Verif.Props.SolveOnce
import Verif.Props.SolveOnceEx
import Verif.Props.SolveQ
import Verif.Props.SolveQAttempt
import Verif.Props.SolveQEx
import Verif.Props.SolveQStates
import Verif.Props.SolveRandom
import Verif.Props.SolveReal
import Verif.Props.SolveRealEx
import Verif.Props.SolveShape
import Verif.Props.SolveStates
import Verif.Props.Trace
import Verif.Props.Usolve
import Verif.Props.VarOrder
import Verif.RandomForm
import Verif.RandomShape
import Verif.RatRecon
import Verif.ReadFile
import Verif.RealAll
import Verif.RealBox
import Verif.RealIv
import Verif.RealPoints
import Verif.RealRoot
import Verif.RealUniform
import Verif.Redundant
import Verif.RowReduce
import Verif.SatKernel
import Verif.Saturate
import Verif.SaturateKernel
import Verif.SaturateProof
import Verif.SaturateTest
import Verif.ShapeQ
import Verif.Solve
import Verif.SolveQ
import Verif.SolveQImg
import Verif.SolveRandom
import Verif.SolveRoots
import Verif.SolveUb
import Verif.Spec.Arrays
import Verif.Spec.BasisArrays
import Verif.Spec.Batch
import Verif.Spec.CommandLine
import Verif.Spec.GoodPrime
import Verif.Spec.Groebner
import Verif.Spec.Hankel
import Verif.Spec.Header
import Verif.Spec.Initial
import Verif.Spec.Interval
import Verif.Spec.Isolate
import Verif.Spec.JuliaArrays
import Verif.Spec.LeadHeader
import Verif.Spec.Lifted
import Verif.Spec.LinForm
import Verif.Spec.LinRec
import Verif.Spec.Monomial
import Verif.Spec.NormalForm
import Verif.Spec.Output
import Verif.Spec.Problem
import Verif.Spec.ProblemQ
import Verif.Spec.RealPoint
import Verif.Spec.RealSolutions
import Verif.Spec.Reduction
import Verif.Spec.Request
import Verif.Spec.Saturation
import Verif.Spec.Shape
import Verif.Spec.Solutions
import Verif.Spec.Stair
import Verif.Spec.System
import Verif.Spec.Text
import Verif.Spec.UPoly
import Verif.Spec.Variant
import Verif.Symbolic
import Verif.Trace
import Verif.TraceHom
import Verif.TraceLin
import Verif.TraceRun
import Verif.UBound
import Verif.UDescartes
import Verif.UEval
import Verif.UIsolate
import Verif.UIsolateSpec
import Verif.URefine
import Verif.URoots
import Verif.UScale
import Verif.USign
import Verif.UTaylor
import Verif.UTerm
import Verif.UTotal
import Verif.UUspensky
import Verif.VarOrder
import Verif.VecRecon
