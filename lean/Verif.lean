import Verif.Backend.Basis
import Verif.Backend.BasisInPlace
import Verif.Backend.BasisMgpu
import Verif.Backend.BasisMpi
import Verif.Backend.BasisProps
import Verif.Backend.BasisSign
import Verif.Backend.CholProof
import Verif.Backend.Common
import Verif.Backend.Complexify
import Verif.Backend.ComplexifyExists
import Verif.Backend.ComplexifyInPlace
import Verif.Backend.ComplexifyMgpu
import Verif.Backend.ComplexifyMpi
import Verif.Backend.ComplexifyProps
import Verif.Backend.ComplexifySign
import Verif.Backend.ConvergenceProps
import Verif.Backend.Dense
import Verif.Backend.DenseProof
import Verif.Backend.Distinct
import Verif.Backend.DistinctProps
import Verif.Backend.Estimate
import Verif.Backend.EstimateExamples
import Verif.Backend.EstimateInPlaceProps
import Verif.Backend.EstimateProps
import Verif.Backend.FilterDistProps
import Verif.Backend.FilterProps
import Verif.Backend.History
import Verif.Backend.HistoryInPlace
import Verif.Backend.HistoryProps
import Verif.Backend.InPlace
import Verif.Backend.InPlaceProof
import Verif.Backend.IntervalProps
import Verif.Backend.LanczosChk
import Verif.Backend.LanczosProof
import Verif.Backend.LanczosProps
import Verif.Backend.LanczosWitness
import Verif.Backend.LapackExists
import Verif.Backend.Mgpu
import Verif.Backend.MgpuProof
import Verif.Backend.MgpuProps
import Verif.Backend.Mpi
import Verif.Backend.MpiLayout
import Verif.Backend.MpiProof
import Verif.Backend.MpiProps
import Verif.Backend.MpiSched
import Verif.Backend.MpiSolve
import Verif.Backend.MpiSpec
import Verif.Backend.MpiSpmd
import Verif.Backend.MpiSpmdProof
import Verif.Backend.MpiSpmdProps
import Verif.Backend.NoSwapLin
import Verif.Backend.NoSwapProps
import Verif.Backend.NoSwapRun
import Verif.Backend.PhaseDistProps
import Verif.Backend.Qr
import Verif.Backend.QrProps
import Verif.Backend.RRProof
import Verif.Backend.Seq
import Verif.Backend.SeqProof
import Verif.Backend.SolveProps
import Verif.Backend.Spectral
import Verif.Backend.StartVectors
import Verif.Backend.Status
import Verif.Backend.StatusBlank
import Verif.Backend.StatusProof
import Verif.Backend.StatusProps
import Verif.Backend.StepGpuProps
import Verif.Backend.Subspace
import Verif.Backend.SubspaceApi
import Verif.Backend.SubspaceContracts
import Verif.Backend.SubspaceExamples
import Verif.Backend.SubspaceInst
import Verif.Backend.SubspaceLin
import Verif.Backend.SubspaceProps
import Verif.Backend.SymProps
import Verif.Backend.UserArray
import Verif.Backend.Variational
import Verif.Backend.VariationalProps
import Verif.Base.Exchange
import Verif.Base.Loop
import Verif.Blas.Cuda
import Verif.Blas.CudaProps
import Verif.Blas.Descinit
import Verif.Blas.Model
import Verif.Blas.Props
import Verif.Blas.Spec
import Verif.Bounds.DocProps
import Verif.Bounds.Fits
import Verif.Bounds.GpuFits
import Verif.Bounds.GpuModel
import Verif.Bounds.GpuProps
import Verif.Bounds.Model
import Verif.Bounds.Proof
import Verif.Bounds.Props
import Verif.Config.Model
import Verif.Config.Props
import Verif.Dist.BlockProof
import Verif.Dist.CyclicProof
import Verif.Dist.Device
import Verif.Dist.DeviceProps
import Verif.Dist.FileModel
import Verif.Dist.FileProof
import Verif.Dist.FileProps
import Verif.Dist.Gather
import Verif.Dist.GatherProps
import Verif.Dist.Model
import Verif.Dist.Props
import Verif.Dist.RunProof
import Verif.Dist.Schedule
import Verif.Dist.Spec
import Verif.Dist.Spmd
import Verif.Examples.Cyclic
import Verif.Examples.CyclicProps
import Verif.Examples.Driver
import Verif.Examples.DriverProps
import Verif.Examples.Model
import Verif.Examples.Props
import Verif.Filter.Proof
import Verif.Filter.Spec
import Verif.Gpu.Exec
import Verif.Gpu.KernelProof
import Verif.Gpu.Launch
import Verif.Gpu.LaunchProps
import Verif.Gpu.Model
import Verif.Gpu.Props
import Verif.Gpu.ReduceProof
import Verif.Interface.Fortran
import Verif.Interface.FortranProps
import Verif.Interface.Leak
import Verif.Interface.Model
import Verif.Interface.Proof
import Verif.Interface.Props
import Verif.Interface.Spec
import Verif.Memory.EstimateProps
import Verif.Memory.Fail
import Verif.Memory.FailProps
import Verif.Memory.Kept
import Verif.Memory.Model
import Verif.Memory.Peak
import Verif.Memory.Proof
import Verif.Memory.Props
import Verif.Nccl.Model
import Verif.Nccl.Props
import Verif.Nccl.Spec
import Verif.Perf.Model
import Verif.Perf.Proof
import Verif.Perf.Props
import Verif.Rounded.Cheb
import Verif.Rounded.Chol
import Verif.Rounded.CholDependentProps
import Verif.Rounded.CholFour
import Verif.Rounded.CholLin
import Verif.Rounded.CholProps
import Verif.Rounded.CholTwo
import Verif.Rounded.DistinctProps
import Verif.Rounded.Error
import Verif.Rounded.FilterError
import Verif.Rounded.FilterErrorProps
import Verif.Rounded.Fp
import Verif.Rounded.InPlace
import Verif.Rounded.InPlaceCholProps
import Verif.Rounded.InPlaceFilterProps
import Verif.Rounded.InPlaceProps
import Verif.Rounded.InPlaceRitz
import Verif.Rounded.InPlaceRitzProps
import Verif.Rounded.InPlaceRun
import Verif.Rounded.Ortho
import Verif.Rounded.OrthoLin
import Verif.Rounded.OrthoProps
import Verif.Rounded.Par
import Verif.Rounded.ParDriftProps
import Verif.Rounded.ParError
import Verif.Rounded.ParExact
import Verif.Rounded.ParGlobal
import Verif.Rounded.ParGpu
import Verif.Rounded.ParGpuCholProps
import Verif.Rounded.ParGpuFilterProps
import Verif.Rounded.ParGpuGlobal
import Verif.Rounded.ParGpuOrtho
import Verif.Rounded.ParGpuOrthoProps
import Verif.Rounded.ParGpuProps
import Verif.Rounded.ParGpuResidualProps
import Verif.Rounded.ParGpuRitz
import Verif.Rounded.ParGpuRitzProps
import Verif.Rounded.ParGpuRun
import Verif.Rounded.ParProof
import Verif.Rounded.ParProps
import Verif.Rounded.ParResidualProps
import Verif.Rounded.ParRun
import Verif.Rounded.ParStuck
import Verif.Rounded.Props
import Verif.Rounded.QuadraticProps
import Verif.Rounded.Residual
import Verif.Rounded.Ritz
import Verif.Rounded.RitzPar
import Verif.Rounded.RitzParProps
import Verif.Rounded.RitzProps
import Verif.Rounded.RitzRun
import Verif.Rounded.Run
import Verif.Rounded.Seq
import Verif.Rounded.SeqProof
import Verif.Rounded.SumProps
import Verif.Rounded.Temple
import Verif.Rounded.VectorProps
import Verif.Scalapack.Model
import Verif.Scalapack.Proof
import Verif.Scalapack.Props
import Verif.Scalapack.Spec
import Verif.Sizes.Model
import Verif.Sizes.Props
import Verif.Solver.ArithProps
import Verif.Solver.Blank
import Verif.Solver.Count
import Verif.Solver.DegreeEffect
import Verif.Solver.DegreesProof
import Verif.Solver.DegreesProps
import Verif.Solver.DosProps
import Verif.Solver.EndProof
import Verif.Solver.FilterProof
import Verif.Solver.FilterProps
import Verif.Solver.Guard
import Verif.Solver.IntervalProps
import Verif.Solver.LockProof
import Verif.Solver.LoopProof
import Verif.Solver.Model
import Verif.Solver.NoSwap
import Verif.Solver.Parity
import Verif.Solver.Props
import Verif.Solver.Protocol
import Verif.Solver.ProtocolProps
import Verif.Solver.Quiet
import Verif.Solver.ReachSim
import Verif.Solver.ReachSimP
import Verif.Solver.RealPlat
import Verif.Solver.Script
import Verif.Solver.Sim
import Verif.Solver.SimPhase
import Verif.Solver.Spec
import Verif.Solver.Stamp
import Verif.Solver.Still
import Verif.Solver.Succeeds
import Verif.Solver.Toy
import Verif.Solver.ToyProof
import Verif.Solver.Trace
import Verif.Solver.Watch
import Verif.Solver.WatchMore
import Verif.Solver.WatchOne
import Verif.Solver.WatchReach
import Verif.Stream.Fits
import Verif.Stream.Machine
import Verif.Stream.Model
import Verif.Stream.Proof
import Verif.Stream.Props
import Verif.Stream.Safe
