import Verif.StateTracking.Props
import Verif.FlowStability.Props
import Verif.Partition.Props
import Verif.Louvain.Props
import Verif.SparseStoch.Props
import Verif.Autocov.Props
import Verif.TempNet.Props
import Verif.TempNet.Inst
import Verif.Merge.Props
import Verif.Trans.Props
import Verif.Trans.Stationary
import Verif.Trans.Cache
import Verif.Trans.Expm
import Verif.Trans.Evolution
import Verif.Trans.SubExpm
import Verif.Trans.Lin
import Verif.Info.Props
import Verif.Info.Versions
import Verif.Info.Sort
import Verif.Flow.Props
import Verif.Synth.Props
import Verif.Scripts.Slices
import Verif.Scripts.Cov
import Verif.Scripts.Cluster
import Verif.Scripts.Comp
import Verif.Scripts.CompPool
import Verif.Scripts.Load
import Verif.Static.Multi
import Verif.Bipart.Props
import Verif.SparseLouvain.Props
import Verif.SaveLoad.Props
import Verif.Triu.Props
import Verif.Parallel.Props
import Verif.MatFiles.Props
import Verif.Laps.Props
import Verif.EndToEnd.Props
import Verif.LinTrans.Inst
import Verif.FlowRuns.Props
import Verif.Sharing.Props
import Verif.Bipart.MovesProps
import Verif.Widths.Props
import Verif.Backends.Props
import Verif.Helpers.Props
import Verif.Helpers.Rebuild
import Verif.Spectral.Props
import Verif.Memory.Props
import Verif.DenseMem.Props
import Verif.Races.Props
import Verif.ExpmArrays.Options
import Verif.SynthRuns.Again
import Verif.Rounding.Cycles
import Verif.SparseFlow.Large
import Verif.FloatTrans.Props
import Verif.FlowStability.Access
import Verif.Synth.Steps
import Verif.TempNet.Table
import Verif.FloatFlow.Overflow
import Verif.StaticSparse.Network
import Verif.NviReport.Compare
import Verif.SparseRound.Double
import Verif.SparseRound.Loss
import Verif.Subst.Props
import Verif.Logs.Props
import Verif.FlowStability.Assign
import Verif.Parallel.Shared
import Verif.Partition.Construct
import Verif.TempNet.Window
import Verif.Units.Props
import Verif.Rename.Props
import Verif.Seeds.Props
import Verif.Listing.Props
import Verif.Decay.Props
import Verif.Average.Cut
import Verif.Groups.Props
import Verif.Mirror.Props
import Verif.Optimum.Props
import Verif.Scales.Short
import Verif.CovMain.Scan
import Verif.CovMain.Tasks
import Verif.Calls.Props
import Verif.ClustMain.Props
import Verif.Pipeline.Props
import Verif.Noise.Props
import Verif.Smooth.Props
import Verif.Glob.Props
import Verif.LapMain.Props
import Verif.ClustPool.Props
import Verif.Causal.Props
import Verif.Local.Props
import Verif.StaticRuns.Props
import Verif.Clique.Props
import Verif.Parties.Props
import Verif.Symmetry.Props
import Verif.Extras.Props
import Verif.CommandLine.Cov
import Verif.Scripts.LoadTol
