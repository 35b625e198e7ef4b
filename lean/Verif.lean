import Verif.Model.Arrays
import Verif.Model.Base
import Verif.Model.Cbs
import Verif.Model.Consensus
import Verif.Model.Constraints
import Verif.Model.Correction
import Verif.Model.Dtype
import Verif.Model.Dyn
import Verif.Model.EvalPoints
import Verif.Model.FlConsensus
import Verif.Model.FlSched
import Verif.Model.FltConsensus
import Verif.Model.FullMoves
import Verif.Model.Heap
import Verif.Model.HyperSurface
import Verif.Model.Ieee
import Verif.Model.Indep
import Verif.Model.LivePlot
import Verif.Model.Memory
import Verif.Model.Mirror
import Verif.Model.MirrorFun
import Verif.Model.MirrorHist
import Verif.Model.Moves
import Verif.Model.Names
import Verif.Model.Noise
import Verif.Model.Norm
import Verif.Model.ObjArrays
import Verif.Model.ObjectiveHandling
import Verif.Model.Objectives
import Verif.Model.ParticleInit
import Verif.Model.Plot
import Verif.Model.Polar
import Verif.Model.PolarArrays
import Verif.Model.PolarInf
import Verif.Model.Post
import Verif.Model.Print
import Verif.Model.ProxPost
import Verif.Model.RegShare
import Verif.Model.Regularizers
import Verif.Model.Resampling
import Verif.Model.Rng
import Verif.Model.Rounded
import Verif.Model.Sched
import Verif.Model.Success
import Verif.Model.Torch
import Verif.Model.TorchEval
import Verif.Model.TorchParams
import Verif.Model.Tracks
import Verif.Np.Arr
import Verif.Np.Flt
import Verif.Np.Mat
import Verif.Np.Nd
import Verif.Proofs.Adam
import Verif.Proofs.AdamUpdate
import Verif.Proofs.Affine
import Verif.Proofs.AffineLaw
import Verif.Proofs.AlmostSure
import Verif.Proofs.Arr
import Verif.Proofs.Arrays
import Verif.Proofs.Base
import Verif.Proofs.Batch
import Verif.Proofs.Best
import Verif.Proofs.Bounded
import Verif.Proofs.Cbs
import Verif.Proofs.Consensus
import Verif.Proofs.Constrained
import Verif.Proofs.Constraints
import Verif.Proofs.Correction
import Verif.Proofs.Count
import Verif.Proofs.CovSpread
import Verif.Proofs.CovStep
import Verif.Proofs.CovTotal
import Verif.Proofs.Descent
import Verif.Proofs.Endless
import Verif.Proofs.Equivariance
import Verif.Proofs.EvalPoints
import Verif.Proofs.Explore
import Verif.Proofs.Fl
import Verif.Proofs.FlClock
import Verif.Proofs.FlExample
import Verif.Proofs.FlHull
import Verif.Proofs.FlMemory
import Verif.Proofs.FlSched
import Verif.Proofs.FltConsensus
import Verif.Proofs.Found
import Verif.Proofs.Frozen
import Verif.Proofs.FullMoves
import Verif.Proofs.Global
import Verif.Proofs.Greedy
import Verif.Proofs.Heap
import Verif.Proofs.HeaviTotal
import Verif.Proofs.Hist
import Verif.Proofs.HistCons
import Verif.Proofs.Holder
import Verif.Proofs.Hull
import Verif.Proofs.HyperSurface
import Verif.Proofs.Ieee
import Verif.Proofs.IeeeAcc
import Verif.Proofs.IeeeCons
import Verif.Proofs.IeeeRun
import Verif.Proofs.Indep
import Verif.Proofs.IndepEnds
import Verif.Proofs.Lamda
import Verif.Proofs.LivePlot
import Verif.Proofs.Local
import Verif.Proofs.MeanSquare
import Verif.Proofs.MemBatch
import Verif.Proofs.MemCount
import Verif.Proofs.MemHull
import Verif.Proofs.MemRun
import Verif.Proofs.MemTotal
import Verif.Proofs.Memory
import Verif.Proofs.Michalewicz
import Verif.Proofs.Mirror
import Verif.Proofs.MirrorDyn
import Verif.Proofs.MirrorFun
import Verif.Proofs.MirrorL2
import Verif.Proofs.Moments
import Verif.Proofs.MoveTotal
import Verif.Proofs.Names
import Verif.Proofs.NeverRaises
import Verif.Proofs.Noise
import Verif.Proofs.Normal
import Verif.Proofs.NormalLaw
import Verif.Proofs.Np
import Verif.Proofs.ObjArrays
import Verif.Proofs.ObjScale
import Verif.Proofs.ObjectiveHandling
import Verif.Proofs.Objectives
import Verif.Proofs.OptimizeBy
import Verif.Proofs.Penalty
import Verif.Proofs.Plot
import Verif.Proofs.Polar
import Verif.Proofs.PolarArrays
import Verif.Proofs.PolarFree
import Verif.Proofs.PolarInf
import Verif.Proofs.Print
import Verif.Proofs.PsoCoast
import Verif.Proofs.PsoDiverge
import Verif.Proofs.RegOrder
import Verif.Proofs.RegShare
import Verif.Proofs.Regularizers
import Verif.Proofs.Relabel
import Verif.Proofs.Resampling
import Verif.Proofs.Resume
import Verif.Proofs.ResumeRun
import Verif.Proofs.Retime
import Verif.Proofs.Reuse
import Verif.Proofs.Rng
import Verif.Proofs.Rotation
import Verif.Proofs.Rounded
import Verif.Proofs.RoundedErr
import Verif.Proofs.RoundedEss
import Verif.Proofs.Run
import Verif.Proofs.RunBasics
import Verif.Proofs.Sched
import Verif.Proofs.Sim
import Verif.Proofs.SimCov
import Verif.Proofs.SimHeavi
import Verif.Proofs.SimRows
import Verif.Proofs.Stable
import Verif.Proofs.Stag
import Verif.Proofs.Step
import Verif.Proofs.Stops
import Verif.Proofs.StopsProb
import Verif.Proofs.Subspace
import Verif.Proofs.Success
import Verif.Proofs.Target
import Verif.Proofs.Term
import Verif.Proofs.Torch
import Verif.Proofs.TorchEval
import Verif.Proofs.TorchParams
import Verif.Proofs.Total
import Verif.Proofs.Tracks
import Verif.Proofs.Tray
import Verif.Proofs.Units
import Verif.Props.Adam
import Verif.Props.Affine
import Verif.Props.AlmostSure
import Verif.Props.Arrays
import Verif.Props.Base
import Verif.Props.Batch
import Verif.Props.Best
import Verif.Props.Bounded
import Verif.Props.Cbs
import Verif.Props.Consensus
import Verif.Props.Constrained
import Verif.Props.Constraints
import Verif.Props.Correction
import Verif.Props.Count
import Verif.Props.CovSpread
import Verif.Props.CovTotal
import Verif.Props.Descent
import Verif.Props.Dtype
import Verif.Props.Endless
import Verif.Props.Equivariance
import Verif.Props.EvalPoints
import Verif.Props.Explore
import Verif.Props.FlClock
import Verif.Props.FlHull
import Verif.Props.FlMemory
import Verif.Props.FlSched
import Verif.Props.FltConsensus
import Verif.Props.Found
import Verif.Props.Frozen
import Verif.Props.Global
import Verif.Props.Greedy
import Verif.Props.Heap
import Verif.Props.HeaviDescent
import Verif.Props.HeaviNan
import Verif.Props.HeaviTotal
import Verif.Props.HistCons
import Verif.Props.History
import Verif.Props.Hull
import Verif.Props.HyperSurface
import Verif.Props.Ieee
import Verif.Props.Indep
import Verif.Props.IndepEnds
import Verif.Props.LivePlot
import Verif.Props.MeanSquare
import Verif.Props.MemBatch
import Verif.Props.MemCount
import Verif.Props.MemHull
import Verif.Props.MemOptimize
import Verif.Props.MemRun
import Verif.Props.Memory
import Verif.Props.Mirror
import Verif.Props.MirrorDyn
import Verif.Props.MirrorFun
import Verif.Props.MirrorHist
import Verif.Props.MirrorL2
import Verif.Props.Moments
import Verif.Props.Names
import Verif.Props.Noise
import Verif.Props.ObjArrays
import Verif.Props.ObjScale
import Verif.Props.ObjectiveHandling
import Verif.Props.Objectives
import Verif.Props.ObjectivesMore
import Verif.Props.ParticleInit
import Verif.Props.Penalty
import Verif.Props.Plot
import Verif.Props.Polar
import Verif.Props.PolarArrays
import Verif.Props.PolarFree
import Verif.Props.PolarInf
import Verif.Props.Post
import Verif.Props.Print
import Verif.Props.ProxPost
import Verif.Props.PsoCoast
import Verif.Props.PsoDiverge
import Verif.Props.RegOrder
import Verif.Props.RegShare
import Verif.Props.Regularizers
import Verif.Props.Relabel
import Verif.Props.ResampleBest
import Verif.Props.Resampling
import Verif.Props.Resume
import Verif.Props.Retime
import Verif.Props.Reuse
import Verif.Props.Rng
import Verif.Props.Rotation
import Verif.Props.Rounded
import Verif.Props.RoundedEss
import Verif.Props.Runs
import Verif.Props.RunsAll
import Verif.Props.RunsMore
import Verif.Props.Sched
import Verif.Props.Stable
import Verif.Props.Stag
import Verif.Props.Stops
import Verif.Props.Subspace
import Verif.Props.Success
import Verif.Props.Target
import Verif.Props.Termination
import Verif.Props.Torch
import Verif.Props.TorchEval
import Verif.Props.TorchParams
import Verif.Props.Tracks
import Verif.Props.Units
import Verif.Spec.Adam
import Verif.Spec.Affine
import Verif.Spec.AlmostSure
import Verif.Spec.Arrays
import Verif.Spec.Base
import Verif.Spec.Batch
import Verif.Spec.Best
import Verif.Spec.Cbs
import Verif.Spec.Consensus
import Verif.Spec.Constrained
import Verif.Spec.Constraints
import Verif.Spec.Count
import Verif.Spec.Endless
import Verif.Spec.Equivariance
import Verif.Spec.EvalPoints
import Verif.Spec.Example
import Verif.Spec.ExampleReal
import Verif.Spec.Explore
import Verif.Spec.Fl
import Verif.Spec.FlHull
import Verif.Spec.FltConsensus
import Verif.Spec.Greedy
import Verif.Spec.HyperSurface
import Verif.Spec.Ieee
import Verif.Spec.Indep
import Verif.Spec.MeanSquare
import Verif.Spec.MemRun
import Verif.Spec.Memory
import Verif.Spec.Mirror
import Verif.Spec.MirrorFun
import Verif.Spec.MirrorL2
import Verif.Spec.Moments
import Verif.Spec.Names
import Verif.Spec.Noise
import Verif.Spec.Normal
import Verif.Spec.ObjScale
import Verif.Spec.ObjectiveHandling
import Verif.Spec.Objectives
import Verif.Spec.ParticleInit
import Verif.Spec.Penalty
import Verif.Spec.Plot
import Verif.Spec.Polar
import Verif.Spec.PolarArrays
import Verif.Spec.PolarFree
import Verif.Spec.PolarInf
import Verif.Spec.Post
import Verif.Spec.Print
import Verif.Spec.RegOrder
import Verif.Spec.RegShare
import Verif.Spec.Regularizers
import Verif.Spec.Relabel
import Verif.Spec.Resampling
import Verif.Spec.Resume
import Verif.Spec.Retime
import Verif.Spec.Reuse
import Verif.Spec.Rounded
import Verif.Spec.Runs
import Verif.Spec.Sched
import Verif.Spec.Smooth
import Verif.Spec.Stag
import Verif.Spec.Standard
import Verif.Spec.StepsActive
import Verif.Spec.Subspace
import Verif.Spec.Term
import Verif.Spec.TorchEval
import Verif.Spec.TorchParams
import Verif.Spec.Tracks
import Verif.Spec.Units
