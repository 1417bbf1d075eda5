import Verif.Lemmas.Adapt
import Verif.Lemmas.Algebra
import Verif.Lemmas.AlgebraGraphs
import Verif.Lemmas.AlgebraRounds
import Verif.Lemmas.AlgebraRoundsU
import Verif.Lemmas.Bch
import Verif.Lemmas.Bits
import Verif.Lemmas.Choices
import Verif.Lemmas.Circuit
import Verif.Lemmas.Commutator
import Verif.Lemmas.ConflictDict
import Verif.Lemmas.Conjugation
import Verif.Lemmas.CosProduct
import Verif.Lemmas.Descent
import Verif.Lemmas.EdgeColoring
import Verif.Lemmas.EdgeColoringFuel
import Verif.Lemmas.EdgeColoringInv
import Verif.Lemmas.EdgeColoringTwo
import Verif.Lemmas.Flags
import Verif.Lemmas.FullAlg
import Verif.Lemmas.FullOperator
import Verif.Lemmas.Greedy
import Verif.Lemmas.InvolutionStep
import Verif.Lemmas.LieLayers
import Verif.Lemmas.MatExp
import Verif.Lemmas.MonoMul
import Verif.Lemmas.OneQubit
import Verif.Lemmas.Optimizers
import Verif.Lemmas.PairFlow
import Verif.Lemmas.Parts
import Verif.Lemmas.PauliOp
import Verif.Lemmas.PauliSum
import Verif.Lemmas.PauliWords
import Verif.Lemmas.Rotosolve
import Verif.Lemmas.SameRay
import Verif.Lemmas.Shift
import Verif.Lemmas.StepBound
import Verif.Lemmas.SumOnly
import Verif.Lemmas.Svd
import Verif.Lemmas.Tensor
import Verif.Lemmas.TensorProd
import Verif.Lemmas.Unitarity
import Verif.Lemmas.ZassCands
import Verif.Lemmas.Zassenhaus
import Verif.Lemmas.ZassenhausV2
import Verif.Model.Algebra
import Verif.Model.AlgebraGraphs
import Verif.Model.ApproxExampleScript
import Verif.Model.BchCompare
import Verif.Model.BchScript
import Verif.Model.CircuitTools
import Verif.Model.EdgeColoring
import Verif.Model.EigenstatePerturbation
import Verif.Model.FileSystem
import Verif.Model.FixedPoints
import Verif.Model.FixedPointsGrid
import Verif.Model.FullOperator
import Verif.Model.Greedy
import Verif.Model.LieLayers
import Verif.Model.Numpy
import Verif.Model.Optimizers
import Verif.Model.Pauli
import Verif.Model.PerturbationScript
import Verif.Model.Plot
import Verif.Model.Printing
import Verif.Model.Py
import Verif.Model.RedBlue
import Verif.Model.RedBlueScript
import Verif.Model.Scripts
import Verif.Model.SingleQubit
import Verif.Model.Tex
import Verif.Model.Tfim
import Verif.Model.TfimVqe
import Verif.Model.ToyExample
import Verif.Model.ToyScript
import Verif.Model.Utils
import Verif.Model.Validate
import Verif.Model.Zassenhaus
import Verif.Model.ZassenhausScript
import Verif.Model.ZassenhausV2
import Verif.Props.Adapt
import Verif.Props.AdaptField
import Verif.Props.AdaptKick
import Verif.Props.AdaptRate
import Verif.Props.AdaptReach
import Verif.Props.AdaptShift
import Verif.Props.AdaptStep
import Verif.Props.AdaptSymmetry
import Verif.Props.AdaptTfim
import Verif.Props.Algebra
import Verif.Props.AlgebraGraphs
import Verif.Props.AlgebraGraphsDim
import Verif.Props.AlgebraGraphsMain
import Verif.Props.AlgebraGraphsU
import Verif.Props.ApproxExample
import Verif.Props.ApproxExampleScript
import Verif.Props.ApproxOmegas
import Verif.Props.ApproxOptimizer
import Verif.Props.ApproxTotal
import Verif.Props.ApproxTrace
import Verif.Props.BchCompare
import Verif.Props.BchScript
import Verif.Props.Bloch
import Verif.Props.Choices
import Verif.Props.CircuitTools
import Verif.Props.CommutatorStep
import Verif.Props.CommutatorStepEx
import Verif.Props.Commute
import Verif.Props.CommuteFail
import Verif.Props.CommutingDirections
import Verif.Props.Descent
import Verif.Props.DifferenceFlow
import Verif.Props.EdgeColoring
import Verif.Props.EdgeColoringFail
import Verif.Props.EdgeColoringOdd
import Verif.Props.EigenstatePerturbation
import Verif.Props.Eigenstates
import Verif.Props.ExactOptimizer
import Verif.Props.ExactRate
import Verif.Props.ExactRefute
import Verif.Props.ExactTrace
import Verif.Props.FileSystem
import Verif.Props.FixedPoints
import Verif.Props.FixedPointsGrid
import Verif.Props.Flags
import Verif.Props.FullOperator
import Verif.Props.FullOperatorReject
import Verif.Props.Greedy
import Verif.Props.GreedyMore
import Verif.Props.GreedySymmetry
import Verif.Props.GroundGap
import Verif.Props.InvolutionRun
import Verif.Props.LevelSurface
import Verif.Props.LieLayers
import Verif.Props.LieLayersMore
import Verif.Props.NearestUnitary
import Verif.Props.ParamShift
import Verif.Props.Pauli
import Verif.Props.PauliSum
import Verif.Props.PerturbationPicture
import Verif.Props.PerturbationScript
import Verif.Props.Plot
import Verif.Props.PlotDifference
import Verif.Props.PlotEqual
import Verif.Props.Printing
import Verif.Props.ProductState
import Verif.Props.Reality
import Verif.Props.RedBlue
import Verif.Props.RedBlueJump
import Verif.Props.RedBlueScript
import Verif.Props.Rotosolve
import Verif.Props.RotosolveExact
import Verif.Props.RunUnitary
import Verif.Props.SameState
import Verif.Props.Scripts
import Verif.Props.SequentialObs
import Verif.Props.ShiftRate
import Verif.Props.Steepest
import Verif.Props.StepBound
import Verif.Props.StepSize
import Verif.Props.StochasticLoop
import Verif.Props.SumOnly
import Verif.Props.Symmetry
import Verif.Props.Tex
import Verif.Props.Tfim
import Verif.Props.TfimFirst
import Verif.Props.TfimGround
import Verif.Props.TfimReal
import Verif.Props.TfimStep
import Verif.Props.TfimVqe
import Verif.Props.TfimVqePeriod
import Verif.Props.ToyExample
import Verif.Props.ToyScript
import Verif.Props.Utils
import Verif.Props.Variational
import Verif.Props.Zassenhaus
import Verif.Props.ZassenhausFirst
import Verif.Props.ZassenhausScript
import Verif.Props.ZassenhausSymmetry
import Verif.Props.ZassenhausUphill
import Verif.Props.ZassenhausV2
import Verif.Props.ZassenhausV2Params
import Verif.Props.ZassenhausV2Reach
import Verif.Props.ZassenhausV2Script
import Verif.Spec.Adapt
import Verif.Spec.Algebra
import Verif.Spec.Ansatz
import Verif.Spec.BchScript
import Verif.Spec.Circuit
import Verif.Spec.CommDepth
import Verif.Spec.Commute
import Verif.Spec.Conjugation
import Verif.Spec.Cost
import Verif.Spec.EdgeColor
import Verif.Spec.Flags
import Verif.Spec.Gates
import Verif.Spec.GradientStep
import Verif.Spec.Layers
import Verif.Spec.MonoDen
import Verif.Spec.Optimizers
import Verif.Spec.Overlap
import Verif.Spec.Parts
import Verif.Spec.Pauli
import Verif.Spec.PauliOp
import Verif.Spec.Printing
import Verif.Spec.Qaoa
import Verif.Spec.Qubits
import Verif.Spec.SameRay
import Verif.Spec.Sector
import Verif.Spec.Select
import Verif.Spec.Shift
import Verif.Spec.Spectrum
import Verif.Spec.Sphere
import Verif.Spec.Zassenhaus
import Verif.Spec.ZassenhausV2
