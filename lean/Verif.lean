import Verif.Common
import Verif.Core.Vec
import Verif.Core.Mem
import Verif.Core.Sym
import Verif.Maxwell.Props
import Verif.Maxwell.Planewave
import Verif.Maxwell.OperatorProps
import Verif.Tensor.GridProps
import Verif.Scheme.Props
import Verif.Brillouin.Props
import Verif.FindK.Props
import Verif.Phase.Props
import Verif.Parity.Props
import Verif.Parity.Expect
import Verif.Parity.Flags
import Verif.Parity.ZeroK
import Verif.Parity.Physical
import Verif.Parity.TwoDProps
import Verif.Parity.MixProps
import Verif.Mat.Props
import Verif.Mat.Block
import Verif.Mat.DotProps
import Verif.Mat.DotMaxwell
import Verif.Mat.LapackProps
import Verif.Linmin.StepProps
import Verif.Linmin.Props
import Verif.Linmin.EndLemmas
import Verif.Linmin.EndProps
import Verif.Solver.TraceProps
import Verif.Solver.Deflate
import Verif.Solver.Ritz
import Verif.Solver.BlockProps
import Verif.Util.MpiProps
import Verif.Util.StartModel
import Verif.Util.StartProps
import Verif.Util.Malloc
import Verif.IO.Props
import Verif.Half.Props
import Verif.MpbData.Props
import Verif.Field.PointProps
import Verif.Field.SumProps
import Verif.Field.EnergyProps
import Verif.Field.FixPhaseProps
import Verif.Session.Props
import Verif.Workspace.Props
import Verif.Workspace.FftProps
import Verif.Velocity.Props
import Verif.MatGrid.ToolsProps
import Verif.MatOpt.Props
import Verif.Names.Props
import Verif.Eig.Runs
import Verif.Eig.EndProps
import Verif.Target.Props
import Verif.Target.Precond
import Verif.Maxwell.Norms
import Verif.Davidson.Runs
import Verif.Objects.Props
import Verif.Transform.Props
import Verif.Tensor.Interface
import Verif.Epsilon.Stats
import Verif.MatGrid.FreqCases
import Verif.MatGrid.BandProps
import Verif.MatGrid.MatchCases
import Verif.MatGrid.MatchRunModel
import Verif.MatGrid.MatchRunProps
import Verif.MatGrid.MeshCase
import Verif.MatGrid.DebugModel
import Verif.MatGrid.DebugProps
import Verif.Moment.Circle
import Verif.Objects.PointProps
import Verif.MatOpt.StartProps
import Verif.MpbData.FileProps
import Verif.MpbData.MainProps
import Verif.Run.Props
import Verif.Run.StatsModel
import Verif.Run.StatsProps
import Verif.Kpoint.Props
import Verif.Kpoint.Runs
import Verif.Dist.Program
import Verif.Dist.FieldModel
import Verif.Dist.FieldProps
import Verif.Invariance.Model
import Verif.Invariance.Spec
import Verif.Invariance.Lemmas
import Verif.Invariance.Dft
import Verif.Invariance.Homogeneous
import Verif.Invariance.Scale
import Verif.Invariance.Setup
import Verif.Invariance.Frame
import Verif.Invariance.Chain
import Verif.Invariance.Translate
import Verif.Invariance.Rotate
import Verif.Invariance.Reverse
import Verif.Invariance.MinMax
import Verif.Invariance.Monotone
import Verif.Invariance.Slope
import Verif.Invariance.Turn
import Verif.Invariance.TurnModes
import Verif.Invariance.Deviate
import Verif.Invariance.FoldSpec
import Verif.Invariance.Fold
import Verif.Invariance.Empty
import Verif.Invariance.Dual
import Verif.Eig.Direction
import Verif.Eig.WorkArrays
import Verif.Davidson.WorkArrays
import Verif.MatGrid.MergeProps
import Verif.Medium.Model
import Verif.Medium.Props
import Verif.Medium.GridModel
import Verif.Medium.GridProps
import Verif.H5.Model
import Verif.H5.Spec
import Verif.H5.Lemmas
import Verif.H5.Props
import Verif.H5.ParallelProps
import Verif.Flux.Props
import Verif.Laws.Spec
import Verif.Laws.Props
import Verif.RealBuild.Props
import Verif.RealBuild.FieldModel
import Verif.RealBuild.FieldProps
import Verif.RealBuild.VelocityModel
import Verif.RealBuild.VelocityProps
import Verif.RealBuild.PrecondModel
import Verif.RealBuild.PrecondProps
import Verif.RealBuild.ParityModel
import Verif.RealBuild.ParityProps
import Verif.RealBuild.ElectricModel
import Verif.RealBuild.ElectricProps
import Verif.RealBuild.PoyntingProps
import Verif.RealBuild.DensityProps
import Verif.Plans.Model
import Verif.Plans.Props
import Verif.Perturb.Matrix
import Verif.Perturb.Model
import Verif.Perturb.Spec
import Verif.Perturb.Lemmas
import Verif.Perturb.Props
import Verif.Perturb.Wave
import Verif.Perturb.GradProps
