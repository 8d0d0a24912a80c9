import Verif.Scalar.RevObj
import Verif.Scalar.Termination
import Verif.Scalar.Query
import Verif.Props.Meaning
import Verif.Scalar.Real
import Verif.Props.Analysis
import Verif.Matrix.Backend
import Verif.Props.Kernels
import Verif.Props.Buffers
import Verif.Props.Misc
import Verif.Props.Handles
import Verif.Matrix.ExprEval
import Verif.Matrix.ExprFwd
import Verif.Matrix.ExprQuery
import Verif.Props.MatrixExpr
import Verif.Props.MatFunctions
import Verif.Props.Views
import Verif.Props.MatReverse
import Verif.Props.Symbolic
import Verif.Props.Second
import Verif.Props.SymExamples
import Verif.Props.Gradients
import Verif.Props.Cuda
import Verif.Props.Conv
import Verif.Props.MatRepeat
import Verif.Props.Exact
import Verif.Props.Joint
import Verif.Apps.GaussNewton
import Verif.Apps.GNSpec
import Verif.Apps.GNProof
import Verif.Props.GaussNewton
import Verif.Apps.GNMatrix
import Verif.Apps.GNMProof
import Verif.Props.GNMatrix
import Verif.Matrix.Kinds
import Verif.Apps.NeuralNet
import Verif.Apps.Accuracy
import Verif.Apps.AccSpec
import Verif.Apps.AccProof
import Verif.Apps.NNSpec
import Verif.Apps.NNProof
import Verif.Props.NeuralNet
import Verif.Props.Accuracy
import Verif.Props.RandomFill
import Verif.Apps.OracleHess
import Verif.Props.OracleHess
import Verif.Matrix.Build
import Verif.Matrix.BuildProof
import Verif.Props.MatBuild
import Verif.Apps.NNBuild
import Verif.Apps.NNBuildProof
import Verif.Apps.NNLoss
import Verif.Apps.NNMain
import Verif.Apps.NNWhole
import Verif.Apps.NNWholeSpec
import Verif.Apps.NNWholeProof
import Verif.Props.NNProgram
import Verif.Props.NNWhole
import Verif.Scalar.Threads
import Verif.Scalar.ThreadsProof
import Verif.Props.Threads
import Verif.Scalar.MergeThreads
import Verif.Matrix.CloneThreads
import Verif.Scalar.Formula
import Verif.Props.Formula
import Verif.Props.Phases
import Verif.Apps.Gaussian
import Verif.Apps.GNClosed
import Verif.Apps.GNFit
import Verif.Apps.GNPrograms
import Verif.Props.GNPrograms
import Verif.Props.GNSolve
import Verif.Scalar.Cost
import Verif.Scalar.CostProof
import Verif.Scalar.CostBound
import Verif.Scalar.CostBuild
import Verif.Props.Cost
import Verif.Scalar.ExactRev
import Verif.Props.ExactRev
import Verif.Props.Copies
import Verif.Matrix.ExprExact
import Verif.Matrix.ExprFwdExact
import Verif.Matrix.ExprMemo
import Verif.Matrix.ExactPre
import Verif.Matrix.DevalFail
import Verif.Matrix.PtrRuns
import Verif.Matrix.RevHist
import Verif.Matrix.Runs
import Verif.Props.MatExact
import Verif.Props.AnyHist
import Verif.Props.AnyRepeat
import Verif.Props.DevalFail
import Verif.Matrix.Cost
import Verif.Matrix.CostBound
import Verif.Matrix.CostRev
import Verif.Props.MatCost
import Verif.Scalar.Locality
import Verif.Props.Locality
import Verif.Matrix.Locality
import Verif.Props.MatLocality
import Verif.Scalar.Machine
import Verif.Scalar.MachineFwd
import Verif.Props.Machine
import Verif.Props.Rounding
