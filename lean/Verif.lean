import Verif.Mpi.Proc
import Verif.Mpi.Confluence
import Verif.Model.Arith
import Verif.Model.Rand
import Verif.Model.Config
import Verif.Model.Batch
import Verif.Model.Ladder
import Verif.Model.Tune
import Verif.Model.Spmd
import Verif.Model.Readin
import Verif.Model.DataLoader
import Verif.Refine.Runs
import Verif.Seq.Model
import Verif.Spec.Mh
import Verif.Refine.Batch
import Verif.Refine.Phases
import Verif.Refine.Stack
import Verif.Refine.Tune
import Verif.Refine.Main
import Verif.Refine.Start
import Verif.Spec.Valid
import Verif.Spec.Schedules
import Verif.Seq.Total
import Verif.Seq.Steps
import Verif.Spec.Files
import Verif.Seq.Counts
import Verif.Num.Real
import Verif.Num.Dbl
import Verif.Num.Binary64
import Verif.Num.XReal
import Verif.Props.Demo
import Verif.Props.Protocol
import Verif.Props.Batch
import Verif.Props.Run
import Verif.Props.State
import Verif.Props.Files
import Verif.Props.Swaps
import Verif.Props.Flow
import Verif.Props.Ladder
import Verif.Props.Accept
import Verif.Props.Nan
import Verif.Props.Widths
import Verif.Props.Decision
import Verif.Props.Stale
import Verif.Props.Underflow
import Verif.Model.Print
import Verif.Refine.Print
import Verif.Props.Print
import Verif.Props.Repeat
import Verif.Props.Grid
import Verif.Props.Random
import Verif.Props.Streams
import Verif.Spec.Notation
import Verif.Spec.IniFile
import Verif.Spec.Table
import Verif.Spec.Store
import Verif.Model.Alloc
import Verif.Model.FileNames
import Verif.Props.Alloc
import Verif.Refine.Text
import Verif.Props.Readin
import Verif.Props.IniFile
import Verif.Props.Data
import Verif.Props.FileNames
import Verif.Model.Models
import Verif.Spec.Box
import Verif.Props.Bounce
import Verif.Props.Prior
import Verif.Props.Likelihood
import Verif.Props.Reflect
import Verif.Props.Normal
import Verif.Model.Orbit
import Verif.Model.Hier
import Verif.Props.Kepler
import Verif.Props.Orbit
import Verif.Props.Hier
import Verif.Props.Endless
import Verif.Prob.Tv
import Verif.Prob.Par
import Verif.Props.Sampler
import Verif.Props.Converge
import Verif.Prob.Fresh
import Verif.Refine.Streamed
import Verif.Props.Whole
import Verif.Prob.Average
import Verif.Refine.History
import Verif.Props.Average
import Verif.Model.Older
import Verif.Props.Older
import Verif.Props.Texts
import Verif.Props.Samples
import Verif.Prob.Clean
import Verif.Refine.Tuned
import Verif.Refine.TunedLaw
import Verif.Refine.TunedInv
import Verif.Props.AfterTuning
import Verif.Prob.Shrink
import Verif.Refine.TunedStale
import Verif.Props.TunedLadder
import Verif.Prob.Variance
import Verif.Prob.Local
import Verif.Prob.Exact
import Verif.Prob.Cold
import Verif.Props.Mixing
import Verif.Props.MixingTuned
import Verif.Props.Ideal
import Verif.Model.Scripts
import Verif.Props.Scripts
import Verif.Props.Period
import Verif.Props.AcceptDbl
import Verif.Model.Memory
import Verif.Model.MemoryRules
import Verif.Model.MemoryKeeps
import Verif.Props.Memory
import Verif.Props.Counter
import Verif.Props.MemoryRun
import Verif.Props.GridDbl
import Verif.Num.Recip
import Verif.Props.LadderDbl
import Verif.Props.LadderFour
import Verif.Spec.Estimate
import Verif.Props.EndToEnd
import Verif.Props.KeplerDbl
import Verif.Props.OrbitDbl
import Verif.Props.Mixture
import Verif.Props.MixtureRun
import Verif.Props.Launch
import Verif.Props.Corner
import Verif.Props.FiniteDbl
import Verif.Props.TemperedDbl
import Verif.Props.TameDbl
import Verif.Model.Crash
import Verif.Props.Together
import Verif.Model.Compare
import Verif.Props.Compare
import Verif.Model.Build
import Verif.Props.Build
import Verif.Props.StackFiles
import Verif.Num.Nearby
import Verif.Model.Numpy
import Verif.Refine.PrintAt
import Verif.Props.Numpy
import Verif.Props.Extend
import Verif.Props.SaveBegin
import Verif.Props.Alone
import Verif.Props.Unreadable
import Verif.Mpi.Flight
import Verif.Refine.Paced
import Verif.Props.Flight
import Verif.Props.Fences
import Verif.Refine.Relay
import Verif.Props.Collectives
import Verif.Mpi.Cut
import Verif.Refine.Abreast
import Verif.Props.Abreast
import Verif.Props.Salvage
import Verif.Props.Stopped
import Verif.Model.Disk
import Verif.Props.Disk
import Verif.Props.DiskSamples
import Verif.Props.SeedLog
import Verif.Props.NoDirectory
import Verif.Props.Neighbours
import Verif.Model.CharLoop
import Verif.Props.CharLoop
