import Verif.Core.Atomic
import Verif.Core.Bits
import Verif.Core.Block
import Verif.Core.Count
import Verif.Core.Device
import Verif.Core.Family
import Verif.Core.Insert
import Verif.Core.Kernel
import Verif.Core.Lanes
import Verif.Core.Pair
import Verif.Core.Prog
import Verif.Core.Scatter
import Verif.Core.Shared
import Verif.Core.Slots
import Verif.Model.AppliedStates
import Verif.Model.BatchAdd
import Verif.Model.Circuit
import Verif.Model.CircuitObjects
import Verif.Model.Dense
import Verif.Model.Density
import Verif.Model.DensityKernels
import Verif.Model.DensityObjects
import Verif.Model.EntryPoints
import Verif.Model.Expand
import Verif.Model.Float
import Verif.Model.FloatDensity
import Verif.Model.FloatDensityRead
import Verif.Model.FloatDensityVec
import Verif.Model.FloatEntropy
import Verif.Model.FloatOpBatched
import Verif.Model.FloatParam
import Verif.Model.FloatReduce
import Verif.Model.FloatSample
import Verif.Model.FloatTransition
import Verif.Model.FloatVec
import Verif.Model.Gate1
import Verif.Model.Gate2
import Verif.Model.GatePtr
import Verif.Model.Gradient
import Verif.Model.GroundState
import Verif.Model.Haar
import Verif.Model.Handle
import Verif.Model.Json
import Verif.Model.JsonState
import Verif.Model.Kernels
import Verif.Model.League
import Verif.Model.Mask
import Verif.Model.MatrixStore
import Verif.Model.Merge
import Verif.Model.MergeAny
import Verif.Model.Noise
import Verif.Model.OpHandle
import Verif.Model.Operator
import Verif.Model.OperatorBatched
import Verif.Model.Optimize
import Verif.Model.ParamGate
import Verif.Model.Pauli
import Verif.Model.PauliBatch
import Verif.Model.PauliText
import Verif.Model.Qasm
import Verif.Model.Random
import Verif.Model.RandomGate
import Verif.Model.Reduce
import Verif.Model.Registers
import Verif.Model.Simd
import Verif.Model.Space
import Verif.Model.SpaceMerge
import Verif.Model.SparseStore
import Verif.Model.StateVec
import Verif.Model.Tagged
import Verif.Model.ToText
import Verif.Model.UGate
import Verif.Proofs.AppliedStates
import Verif.Proofs.Arnoldi
import Verif.Proofs.ArnoldiMethod
import Verif.Proofs.ArnoldiSpace
import Verif.Proofs.BinExact
import Verif.Proofs.BlockPair
import Verif.Proofs.BlockSize
import Verif.Proofs.Channel
import Verif.Proofs.Circuit
import Verif.Proofs.CircuitBatched
import Verif.Proofs.CircuitInverse
import Verif.Proofs.CircuitObjects
import Verif.Proofs.CircuitRun
import Verif.Proofs.Commute
import Verif.Proofs.Dense
import Verif.Proofs.DenseGate
import Verif.Proofs.DensityBlock
import Verif.Proofs.DensityCtrl
import Verif.Proofs.DensityEcr
import Verif.Proofs.DensityGates
import Verif.Proofs.DensityKernels
import Verif.Proofs.DensityObjects
import Verif.Proofs.DensityOps
import Verif.Proofs.DensityRead
import Verif.Proofs.DensityState
import Verif.Proofs.DensityUpdate
import Verif.Proofs.Depth
import Verif.Proofs.Double
import Verif.Proofs.DrawEvents
import Verif.Proofs.DrawMean
import Verif.Proofs.Ensemble
import Verif.Proofs.EnsemblePaths
import Verif.Proofs.EntropyReal
import Verif.Proofs.EntryPoints
import Verif.Proofs.Expand
import Verif.Proofs.FloatApprox
import Verif.Proofs.FloatBlock
import Verif.Proofs.FloatCircuit
import Verif.Proofs.FloatCoef
import Verif.Proofs.FloatDensityEcr
import Verif.Proofs.FloatDensityExact
import Verif.Proofs.FloatDensityGate
import Verif.Proofs.FloatDensityKernels
import Verif.Proofs.FloatDensityRead
import Verif.Proofs.FloatDensityVec
import Verif.Proofs.FloatEntropy
import Verif.Proofs.FloatError
import Verif.Proofs.FloatExact
import Verif.Proofs.FloatExpect
import Verif.Proofs.FloatFrob
import Verif.Proofs.FloatGate
import Verif.Proofs.FloatKernel
import Verif.Proofs.FloatOps
import Verif.Proofs.FloatOutcome
import Verif.Proofs.FloatParam
import Verif.Proofs.FloatPauliRead
import Verif.Proofs.FloatRead
import Verif.Proofs.FloatReal
import Verif.Proofs.FloatReduce
import Verif.Proofs.FloatRows
import Verif.Proofs.FloatRuns
import Verif.Proofs.FloatSampling
import Verif.Proofs.FloatStability
import Verif.Proofs.FloatTable
import Verif.Proofs.FloatTransition
import Verif.Proofs.FloatVec
import Verif.Proofs.Gate1
import Verif.Proofs.Gate2
import Verif.Proofs.GateBounds
import Verif.Proofs.GateBuild
import Verif.Proofs.GateDescFacts
import Verif.Proofs.GateInverse
import Verif.Proofs.GateMatrix
import Verif.Proofs.GateObj
import Verif.Proofs.GateUpdate
import Verif.Proofs.Gradient
import Verif.Proofs.GradientCalc
import Verif.Proofs.GradientWide
import Verif.Proofs.Haar
import Verif.Proofs.HaarMeasure
import Verif.Proofs.Json
import Verif.Proofs.JsonCircuit
import Verif.Proofs.JsonFit
import Verif.Proofs.JsonRead
import Verif.Proofs.JsonSays
import Verif.Proofs.JsonSaysBack
import Verif.Proofs.JsonSaysGate
import Verif.Proofs.JsonState
import Verif.Proofs.Kernels
import Verif.Proofs.League
import Verif.Proofs.MaskVec
import Verif.Proofs.MatrixStore
import Verif.Proofs.MeanAll
import Verif.Proofs.Measure
import Verif.Proofs.MeasureGate
import Verif.Proofs.Merge
import Verif.Proofs.MergeDense
import Verif.Proofs.MergeOne
import Verif.Proofs.Noise
import Verif.Proofs.NoiseLaw
import Verif.Proofs.NoiseOffers
import Verif.Proofs.NoisePaths
import Verif.Proofs.OpSharing
import Verif.Proofs.Operands
import Verif.Proofs.Operator
import Verif.Proofs.OperatorBatched
import Verif.Proofs.Optimize
import Verif.Proofs.OptimizeActs
import Verif.Proofs.OptimizeRun
import Verif.Proofs.OptimizeTotal
import Verif.Proofs.ParamGate
import Verif.Proofs.PartialTrace
import Verif.Proofs.Pauli
import Verif.Proofs.PauliAct
import Verif.Proofs.PauliAlg
import Verif.Proofs.PauliBatch
import Verif.Proofs.PauliCtor
import Verif.Proofs.PauliExpect
import Verif.Proofs.PauliGrammar
import Verif.Proofs.PauliKernel
import Verif.Proofs.PauliMatrix
import Verif.Proofs.PauliText
import Verif.Proofs.Perm
import Verif.Proofs.Permutation
import Verif.Proofs.PowerEnergy
import Verif.Proofs.PowerMethod
import Verif.Proofs.Prob
import Verif.Proofs.QasmAccept
import Verif.Proofs.QasmAngle
import Verif.Proofs.QasmFuel
import Verif.Proofs.QasmLibc
import Verif.Proofs.QasmLists
import Verif.Proofs.QasmLoose
import Verif.Proofs.QasmLooseParts
import Verif.Proofs.QasmLooseStmt
import Verif.Proofs.QasmMeaning
import Verif.Proofs.QasmNumber
import Verif.Proofs.QasmNumeral
import Verif.Proofs.QasmRead
import Verif.Proofs.QasmRegs
import Verif.Proofs.QasmRound
import Verif.Proofs.QasmRun
import Verif.Proofs.QasmSafe
import Verif.Proofs.QasmScan
import Verif.Proofs.QasmStmt
import Verif.Proofs.QasmTable
import Verif.Proofs.QasmText
import Verif.Proofs.RandomInverse
import Verif.Proofs.Registers
import Verif.Proofs.Rejection
import Verif.Proofs.Ritz
import Verif.Proofs.Rotation
import Verif.Proofs.Sampling
import Verif.Proofs.SamplingLaw
import Verif.Proofs.SharingCmd
import Verif.Proofs.SharingFrame
import Verif.Proofs.SharingGate
import Verif.Proofs.SharingHeap
import Verif.Proofs.SharingRefine
import Verif.Proofs.SharingStep
import Verif.Proofs.Simd
import Verif.Proofs.SlotLoop
import Verif.Proofs.Space
import Verif.Proofs.SpaceMerge
import Verif.Proofs.SparseStore
import Verif.Proofs.StateOps
import Verif.Proofs.StateVec
import Verif.Proofs.Tagged
import Verif.Proofs.TaggedGood
import Verif.Proofs.TaggedGrad
import Verif.Proofs.TaggedNoise
import Verif.Proofs.TaggedOpt
import Verif.Proofs.Tensor
import Verif.Proofs.ToText
import Verif.Proofs.ToTextGate
import Verif.Proofs.ToTextLines
import Verif.Proofs.ToTextUnique
import Verif.Proofs.Trotter
import Verif.Proofs.Uniform
import Verif.Proofs.Vec
import Verif.Props.AppliedStates
import Verif.Props.Arnoldi
import Verif.Props.Average
import Verif.Props.Axioms
import Verif.Props.BatchAdd
import Verif.Props.BlockSize
import Verif.Props.Channel
import Verif.Props.Circuit
import Verif.Props.CircuitDepth
import Verif.Props.CircuitInverse
import Verif.Props.CircuitObjects
import Verif.Props.Density
import Verif.Props.DensityObjects
import Verif.Props.Entropy
import Verif.Props.EntryPoints
import Verif.Props.Expand
import Verif.Props.FloatDensity
import Verif.Props.FloatDensityRead
import Verif.Props.FloatDensityVec
import Verif.Props.FloatOpBatched
import Verif.Props.FloatParam
import Verif.Props.FloatSampling
import Verif.Props.FloatTransition
import Verif.Props.FloatVec
import Verif.Props.GatePtr
import Verif.Props.Gates
import Verif.Props.Gradient
import Verif.Props.GradientWide
import Verif.Props.GroundState
import Verif.Props.Haar
import Verif.Props.Json
import Verif.Props.JsonRead
import Verif.Props.JsonSays
import Verif.Props.JsonState
import Verif.Props.League
import Verif.Props.MatrixStore
import Verif.Props.Merge
import Verif.Props.MergeAny
import Verif.Props.Noise
import Verif.Props.NoiseLaw
import Verif.Props.ObservableRotation
import Verif.Props.OpSharing
import Verif.Props.Operator
import Verif.Props.OperatorBatched
import Verif.Props.Optimize
import Verif.Props.Parallel
import Verif.Props.Pauli
import Verif.Props.PauliText
import Verif.Props.Qasm
import Verif.Props.QasmLoose
import Verif.Props.QasmMeaning
import Verif.Props.Random
import Verif.Props.RandomGate
import Verif.Props.RandomInverse
import Verif.Props.Reductions
import Verif.Props.Registers
import Verif.Props.Rounding
import Verif.Props.Sharing
import Verif.Props.Space
import Verif.Props.SpaceMerge
import Verif.Props.SparseStore
import Verif.Props.State
import Verif.Props.Tagged
import Verif.Props.ToText
import Verif.Spec.Algebra
import Verif.Spec.Binary16
import Verif.Spec.Binary64
import Verif.Spec.Chance
import Verif.Spec.Channel
import Verif.Spec.Circuit
import Verif.Spec.CircuitObjects
import Verif.Spec.Decimal
import Verif.Spec.Density
import Verif.Spec.DensityObjects
import Verif.Spec.Depth
import Verif.Spec.Desc
import Verif.Spec.Ensemble
import Verif.Spec.Entropy
import Verif.Spec.EntryPoints
import Verif.Spec.Exponential
import Verif.Spec.Facts
import Verif.Spec.FloatParam
import Verif.Spec.FloatSample
import Verif.Spec.FloatVec
import Verif.Spec.Frobenius
import Verif.Spec.Gates
import Verif.Spec.Gradient
import Verif.Spec.GroundState
import Verif.Spec.Haar
import Verif.Spec.JsonSays
import Verif.Spec.Noise
import Verif.Spec.NoiseLaw
import Verif.Spec.OpSharing
import Verif.Spec.Pauli
import Verif.Spec.PauliText
import Verif.Spec.Qasm
import Verif.Spec.QasmLoose
import Verif.Spec.QasmText
import Verif.Spec.Random
import Verif.Spec.Reduction
import Verif.Spec.Registers
import Verif.Spec.Rounding
import Verif.Spec.Sharing
import Verif.Spec.State
import Verif.Spec.StateVec
import Verif.Spec.Text
import Verif.Spec.Transition
