import Verif.Props.Construction
import Verif.Lemmas.Timer
import Verif.Lemmas.Build
import Verif.Props.Cycle
import Verif.Examples.Multigrid
import Verif.Lemmas.VCycle
import Verif.Lemmas.Trace
import Verif.Props.Agglomerate
import Verif.Props.Restriction
import Verif.Props.WorkStream
import Verif.Props.FastAP
import Verif.Props.Lanczos
import Verif.Props.Deflation
import Verif.Props.Permute
import Verif.Props.Params
import Verif.Props.Factory
import Verif.Props.LocalEig
import Verif.Props.MatMult
import Verif.Props.MultiVector
import Verif.Props.DeviceCsr
import Verif.Props.DeviceGather
import Verif.Props.Amgx
import Verif.Props.AmgxConst
import Verif.Props.DeviceOperator
import Verif.Props.DeviceMemory
import Verif.Props.DeviceCounts
import Verif.Props.AmgxHandles
import Verif.Props.AmgxComm
import Verif.Props.DeviceSmoother
import Verif.Props.DeviceNnz
import Verif.Model.CheckRestriction
import Verif.Props.CheckRestriction
import Verif.Model.HostOperator
import Verif.Spec.HostOperator
import Verif.Props.HostOperator
import Verif.Model.LevelSizes
import Verif.Props.LevelSizes
import Verif.Model.DeviceEigen
import Verif.Spec.DeviceEigen
import Verif.Props.DeviceEigen
import Verif.Model.DeviceSetup
import Verif.Spec.DeviceSetup
import Verif.Props.DeviceSetup
import Verif.Model.DirectSolver
import Verif.Spec.DirectSolver
import Verif.Props.DirectSolver
import Verif.Examples.DirectSolver
import Verif.Props.FastAPUneven
import Verif.Model.Kernels32
import Verif.Props.Kernels32
import Verif.Model.PatchBoundary
import Verif.Spec.PatchBoundary
import Verif.Props.PatchBoundary
import Verif.Model.DeviceFree
import Verif.Spec.DeviceFree
import Verif.Props.DeviceFree
import Verif.Spec.CoarseSpd
import Verif.Props.CoarseSpd
import Verif.Model.Relaxation
import Verif.Spec.Relaxation
import Verif.Lemmas.NonSymmetric
import Verif.Lemmas.Relaxation
import Verif.Props.Relaxation
import Verif.Lemmas.RelaxationProcs
import Verif.Props.RelaxationProcs
import Verif.Spec.TwoLevel
import Verif.Lemmas.TwoLevel
import Verif.Examples.Chain
import Verif.Props.TwoLevel
import Verif.Model.Chebyshev
import Verif.Spec.Chebyshev
import Verif.Lemmas.Chebyshev
import Verif.Props.Chebyshev
import Verif.Model.Diagonal
import Verif.Spec.Diagonal
import Verif.Lemmas.Diagonal
import Verif.Props.Diagonal
import Verif.Model.Collective
import Verif.Spec.Collective
import Verif.Lemmas.Collective
import Verif.Props.Collective
import Verif.Model.SetupAll
import Verif.Spec.SetupAll
import Verif.Lemmas.SetupAll
import Verif.Examples.SetupAll
import Verif.Props.SetupAll
import Verif.Model.ParamTree
import Verif.Spec.ParamTree
import Verif.Lemmas.ParamTree
import Verif.Props.ParamTree
import Verif.Model.Rounded
import Verif.Spec.Rounded
import Verif.Lemmas.Rounded
import Verif.Lemmas.RoundedOps
import Verif.Props.Rounded
import Verif.Model.Lifetime
import Verif.Spec.Lifetime
import Verif.Lemmas.Lifetime
import Verif.Lemmas.LifetimeBuild
import Verif.Lemmas.LifetimeRun
import Verif.Props.Lifetime
import Verif.Spec.Builds
import Verif.Spec.MultiLevel
import Verif.Lemmas.Builds
import Verif.Lemmas.MultiLevel
import Verif.Examples.Pairs
import Verif.Props.MultiLevel
import Verif.Props.Builds
import Verif.Model.Store
import Verif.Spec.Store
import Verif.Lemmas.Store
import Verif.Lemmas.StoreThreads
import Verif.Props.Store
import Verif.Model.Ilu
import Verif.Spec.Ilu
import Verif.Lemmas.Ilu
import Verif.Lemmas.Splitting
import Verif.Lemmas.IluOrder
import Verif.Lemmas.IluFactors
import Verif.Props.Ilu
import Verif.Props.IluCg
import Verif.Props.IluDiverges
import Verif.Lemmas.RelaxationStieltjes
import Verif.Props.RelaxationStieltjes
import Verif.Spec.Units
import Verif.Lemmas.Units
import Verif.Lemmas.UnitsLanczos
import Verif.Props.Units
import Verif.Props.UnitsViolated
import Verif.Props.UnitsLanczos
import Verif.Spec.Numbering
import Verif.Lemmas.Numbering
import Verif.Props.Numbering
import Verif.Props.NumberingViolated
import Verif.Model.DeviceHierarchy
import Verif.Spec.DeviceHierarchy
import Verif.Lemmas.DeviceHierarchy
import Verif.Examples.DeviceHierarchy
import Verif.Props.DeviceHierarchy
import Verif.Model.ConjugateGradient
import Verif.Spec.ConjugateGradient
import Verif.Lemmas.ConjugateGradient
import Verif.Props.ConjugateGradient
import Verif.Lemmas.CgRate
import Verif.Examples.Laplace
import Verif.Props.CgRate
import Verif.Spec.ProcsRate
import Verif.Lemmas.ProcsRate
import Verif.Examples.LaplaceProcs
import Verif.Examples.LaplaceAlternating
import Verif.Props.ProcsRate
import Verif.Props.ProcsLaplace
import Verif.Model.DeviceFaults
import Verif.Spec.DeviceFaults
import Verif.Lemmas.DeviceFaults
import Verif.Props.DeviceFaults
import Verif.Props.DeviceFaultsKernels
import Verif.Model.Driver
import Verif.Props.Driver
import Verif.Model.DeviceThreads
import Verif.Spec.DeviceThreads
import Verif.Lemmas.DeviceThreads
import Verif.Props.DeviceThreads
import Verif.Spec.Inexact
import Verif.Lemmas.Inexact
import Verif.Lemmas.SlowCycle
import Verif.Examples.LooseChain
import Verif.Props.Inexact
import Verif.Model.CrashPoints
import Verif.Spec.CrashPoints
import Verif.Lemmas.CrashPoints
import Verif.Props.CrashPoints
import Verif.Spec.LanczosRate
import Verif.Lemmas.LanczosRate
import Verif.Props.LanczosRate
import Verif.Model.LocalLanczos
import Verif.Spec.StartVector
import Verif.Lemmas.StartVector
import Verif.Props.StartVector
import Verif.Spec.LanczosEnd
import Verif.Lemmas.LanczosEnd
import Verif.Props.LanczosEnd
import Verif.Spec.Multiplicity
import Verif.Lemmas.Multiplicity
import Verif.Props.Multiplicity
import Verif.Model.AmgxLibrary
import Verif.Spec.AmgxLibrary
import Verif.Props.AmgxLibrary
import Verif.Model.AmgxSubComm
import Verif.Spec.AmgxSubComm
import Verif.Props.AmgxSubComm
import Verif.Spec.Deflated
import Verif.Lemmas.Deflated
import Verif.Props.Deflated
import Verif.Model.DriverCycles
import Verif.Spec.DriverCycles
import Verif.Props.DriverCycles
import Verif.Model.OutputFile
import Verif.Spec.OutputFile
import Verif.Props.OutputFile
import Verif.Model.ProblemChange
import Verif.Spec.ProblemChange
import Verif.Props.ProblemChange
import Verif.Spec.Prescribed
import Verif.Lemmas.Prescribed
import Verif.Lemmas.LanczosZeros
import Verif.Props.Prescribed
import Verif.Model.FastCycle
import Verif.Spec.InexactAP
import Verif.Lemmas.FastCycle
import Verif.Lemmas.InexactAP
import Verif.Props.InexactAP
import Verif.Spec.Singular
import Verif.Model.Direct
import Verif.Lemmas.Singular
import Verif.Props.Singular
import Verif.Spec.Complexity
import Verif.Model.Complexity
import Verif.Lemmas.Complexity
import Verif.Props.Complexity
import Verif.Spec.Richer
import Verif.Lemmas.Richer
import Verif.Props.Richer
import Verif.Spec.InexactCoarse
import Verif.Lemmas.InexactCoarse
import Verif.Props.InexactCoarse
import Verif.Spec.Locality
import Verif.Lemmas.Locality
import Verif.Props.Locality
import Verif.Model.LargeSizes
import Verif.Spec.LargeSizes
import Verif.Lemmas.LargeSizes
import Verif.Props.LargeSizes
import Verif.Model.SetupWork
import Verif.Props.SetupWork
import Verif.Spec.CgCoarse
import Verif.Lemmas.CgCoarse
import Verif.Props.CgCoarse
import Verif.Spec.Unsymmetric
import Verif.Props.Unsymmetric
import Verif.Spec.AnyBasis
import Verif.Lemmas.AnyBasis
import Verif.Props.AnyBasis
import Verif.Spec.Uncoupled
import Verif.Lemmas.Uncoupled
import Verif.Props.Uncoupled
import Verif.Spec.OneSided
import Verif.Lemmas.OneSided
import Verif.Props.OneSided
import Verif.Model.MatrixMarket
import Verif.Spec.MatrixMarket
import Verif.Props.MatrixMarket
import Verif.Spec.Estimates
import Verif.Props.Estimates
import Verif.Spec.CoarseBounds
import Verif.Props.CoarseBounds
import Verif.Spec.Tolerance
import Verif.Props.Tolerance
import Verif.Props.MatrixFreeEstimates
