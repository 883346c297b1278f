import Verif.Props.Cartesian
import Verif.Props.Distribution
import Verif.Props.Quadrature
import Verif.Props.Markov
import Verif.Props.Rouwenhorst
import Verif.Props.MultiDisc
import Verif.Props.Options
import Verif.Props.Simulation
import Verif.Model.Response
import Verif.Props.Response
import Verif.Props.Ergodic
import Verif.Props.Complementarity
import Verif.Props.Gauss
import Verif.Props.Sylvester
import Verif.Props.Newton
import Verif.Props.Loops
import Verif.Props.Howard
import Verif.Props.Lmmcp
import Verif.Props.Perturbation
import Verif.Props.HigherOrder
import Verif.Props.HigherOrderFails
import Verif.Props.Taylor
import Verif.Props.DecisionRule
import Verif.Props.DecisionRuleCalls
import Verif.Props.Tabulate
import Verif.Model.PerfectForesight
import Verif.Props.PerfectForesight
import Verif.Props.PerfectForesightJac
import Verif.Model.Calibration
import Verif.Lemmas.Calibration
import Verif.Props.Calibration
import Verif.Model.SymbolicModel
import Verif.Props.SymbolicModel
import Verif.Props.ModelCache
import Verif.Model.Caching
import Verif.Props.Caching
import Verif.Props.CachingPlain
import Verif.Model.Multimethod
import Verif.Lemmas.Multimethod
import Verif.Props.Multimethod
import Verif.Model.Groot
import Verif.Props.Groot
import Verif.Model.Filters
import Verif.Props.Filters
import Verif.Model.NumDiff
import Verif.Props.NumDiff
import Verif.Model.Egm
import Verif.Props.Egm
import Verif.Model.Processes
import Verif.Props.Processes
import Verif.Model.SparseTensor
import Verif.Props.SparseTensor
import Verif.Lemmas.Hermite
import Verif.Lemmas.HermiteRoots
import Verif.Lemmas.HermiteGauss
import Verif.Model.Hermgauss
import Verif.Props.Hermgauss
import Verif.Model.Tensor
import Verif.Props.Tensor
import Verif.Model.SecondOrder
import Verif.Props.SecondOrder
import Verif.Model.EvalFormula
import Verif.Props.EvalFormula
import Verif.Model.SteadyState
import Verif.Props.SteadyState
import Verif.Lemmas.SpectralRadius
import Verif.Model.ItiOperator
import Verif.Props.ItiOperator
import Verif.Model.ItiPass
import Verif.Lemmas.NewtonConv
import Verif.Lemmas.ItiSmooth
import Verif.Lemmas.ItiConv
import Verif.Props.ItiConv
import Verif.Model.NewtonSerial
import Verif.Lemmas.NewtonLocal
import Verif.Lemmas.NcpLocal
import Verif.Props.NewtonLocal
import Verif.Model.TISerial
import Verif.Lemmas.TILocal
import Verif.Lemmas.TISerial
import Verif.Props.TILocal
import Verif.Model.Factory
import Verif.Lemmas.Factory
import Verif.Props.Factory
import Verif.Model.EndoGrid
import Verif.Props.EndoGrid
import Verif.Model.CustomDR
import Verif.Props.CustomDR
import Verif.Model.ErgodicDriver
import Verif.Props.ErgodicDriver
import Verif.Model.TimeIteration
import Verif.Props.TimeIteration
import Verif.Model.MethodsAgree
import Verif.Props.MethodsAgree
import Verif.Props.ItPrinter
import Verif.Model.SimulateTable
import Verif.Props.SimulateTable
import Verif.Model.ModelFunctions
import Verif.Props.ModelFunctions
import Verif.Model.Draws
import Verif.Lemmas.Draws
import Verif.Props.Draws
import Verif.Model.NormalExpectation
import Verif.Lemmas.GaussianMv
import Verif.Props.NormalExpectation
import Verif.Props.AR1
import Verif.Lemmas.LocalRate
import Verif.Props.Stability
import Verif.Model.MultiTake
import Verif.Props.MultiTake
import Verif.Model.BruteforceLinear
import Verif.Props.BruteforceLinear
import Verif.Model.SerialOps
import Verif.Props.SerialOps
import Verif.Model.RadiusJac
import Verif.Props.RadiusJac
import Verif.Model.ModelDisplay
import Verif.Props.ModelDisplay
import Verif.Model.PFSolve
import Verif.Lemmas.PFLocal
import Verif.Lemmas.PFStack
import Verif.Props.PFLocal
import Verif.Props.PFSteady
import Verif.Lemmas.Cartesian
import Verif.Lemmas.DecisionRule
import Verif.Lemmas.Distribution
import Verif.Lemmas.Gauss
import Verif.Lemmas.HigherOrder
import Verif.Lemmas.Markov
import Verif.Lemmas.Rouwenhorst
import Verif.Model.AR1
import Verif.Model.Cartesian
import Verif.Model.Complementarity
import Verif.Model.DecisionRule
import Verif.Model.Distribution
import Verif.Model.Ergodic
import Verif.Model.Err
import Verif.Model.Gauss
import Verif.Model.HigherOrder
import Verif.Model.Howard
import Verif.Model.ItPrinter
import Verif.Model.Lmmcp
import Verif.Model.Loops
import Verif.Model.Markov
import Verif.Model.Newton
import Verif.Model.Perturbation
import Verif.Model.Rouwenhorst
import Verif.Model.Simulation
import Verif.Model.Sylvester
import Verif.Model.Tabulate
import Verif.Model.Taylor
import Verif.Model.PFBounds
import Verif.Props.PFBounds
import Verif.Model.EvalHeap
import Verif.Lemmas.EvalHeap
import Verif.Props.EvalHeap
import Verif.Props.Restart
import Verif.Model.HandOver
import Verif.Props.HandOver
import Verif.Lemmas.LongRun
import Verif.Props.LongRun
import Verif.Model.NanLoops
import Verif.Lemmas.NanLoops
import Verif.Props.NanLoops
import Verif.Props.Resume
import Verif.Lemmas.Relabel
import Verif.Props.Relabel
import Verif.Props.SaddlePath
import Verif.Model.ClearCache
import Verif.Props.ClearCache
import Verif.Lemmas.Units
import Verif.Props.Units
import Verif.Props.Batch
import Verif.Model.GridOps
import Verif.Props.GridOps
import Verif.Model.DecodeComp
import Verif.Props.DecodeComp
import Verif.Props.Symmetric
import Verif.Props.ItiBounds
import Verif.Props.PolicyValue
import Verif.Props.PlotIrfs
import Verif.Model.GetTypes
import Verif.Props.GetTypes
import Verif.Props.UtilityScale
import Verif.Props.Risk
import Verif.Props.NewtonRaise
import Verif.Props.Horizon
import Verif.Lemmas.Multilinear
import Verif.Props.Multilinear
import Verif.Model.NcpNan
import Verif.Lemmas.NcpNan
import Verif.Props.NcpNan
import Verif.Model.Qz
import Verif.Lemmas.Qz
import Verif.Props.BlanchardKahn
import Verif.Lemmas.Sensitivity
import Verif.Props.Sensitivity
import Verif.Props.ValueSensitivity
import Verif.Props.RuleSensitivity
import Verif.Props.HermgaussSmall
import Verif.Props.GridRefinement
import Verif.Props.RuleErrors
import Verif.Props.Tangent
import Verif.Lemmas.PathMap
import Verif.Props.StableManifold
import Verif.Props.SecondOrderRule
import Verif.Props.EulerErrors
