import Verif.Gp2Scale.Props
import Verif.LinAlg.CholProps
import Verif.LinAlg.GraphProps
import Verif.LinAlg.GrowProps
import Verif.LinAlg.PrecondProps
import Verif.LinAlg.ShiftProps
import Verif.LinAlg.KrylovProps
import Verif.LinAlg.BlockCGProps
import Verif.LinAlg.Modes
import Verif.GP.PostProps
import Verif.GP.LikProps
import Verif.GP.OrderProps
import Verif.GP.LayoutProps
import Verif.GP.InfoProps
import Verif.GP.GradProps
import Verif.State.UpdateProps
import Verif.GP.NoiseProps
import Verif.Train.SeqProps
import Verif.Train.Pickle
import Verif.Train.TrainProps
import Verif.MCMC.AdaptProps
import Verif.BO.Props
import Verif.FV.Props
import Verif.Kernels.GradProps
import Verif.Kernels.SparseProps
import Verif.Kernels.MaternPsd
import Verif.Ggmp.PackProps
import Verif.Ggmp.MixProps
import Verif.Ggmp.DensProps
import Verif.Ggmp.AlignProps
import Verif.Actor.StopProps
import Verif.Guard.Props
import Verif.Metrics.Crps
import Verif.Metrics.Shape
import Verif.GP.XGradProps
import Verif.GP.DefaultProps
import Verif.GP.JointProps
import Verif.MCMC.StopProps
import Verif.Train.WarmProps
import Verif.Train.CallProps
import Verif.Train.DefaultProps
import Verif.BO.StopProps
import Verif.BO.WarnProps
import Verif.BO.SurrogateProps
import Verif.BO.FitProps
import Verif.BO.ScaleProps
import Verif.BO.AcqProps
import Verif.BO.SearchProps
import Verif.Kernels.WassProps
import Verif.Ggmp.W2Props
import Verif.Ggmp.SampleProps
import Verif.Ggmp.MmdProps
import Verif.Ggmp.GmmProps
import Verif.Ggmp.CacheProps
import Verif.Ggmp.ChunkProps
import Verif.Ggmp.TraceProps
import Verif.Ggmp.CopyProps
import Verif.Ggmp.MvProps
import Verif.Ggmp.SlicedProps
import Verif.GP.LawProps
import Verif.Ggmp.FlowProps
import Verif.Ggmp.StartProps
import Verif.Ggmp.DeviceProps
import Verif.Actor.AsyncProps
import Verif.Actor.HaltProps
import Verif.GP.FdProps
import Verif.GP.DtypeProps
import Verif.Tools.Props
import Verif.Tools.NetProps
import Verif.LinAlg.DeviceProps
import Verif.GP.SlqProps
import Verif.State.ArgsProps
import Verif.LinAlg.DispatchProps
import Verif.Kernels.GpuProps
import Verif.LinAlg.OptionsProps
import Verif.LinAlg.SpaiProps
import Verif.Kernels.WendlandPsd
import Verif.Kernels.DistPsdProps
import Verif.Metrics.ProperProps
import Verif.MCMC.StationaryProps
import Verif.GP.RieProps
import Verif.Kernels.StrictProps
import Verif.MCMC.CtorProps
import Verif.MCMC.DiminishProps
import Verif.GP.SeqProps
import Verif.GP.RepProps
import Verif.GP.ReachProps
import Verif.GP.UnitProps
import Verif.FV.TaskProps
import Verif.GP.ShapeProps
import Verif.Ggmp.AlignCallModel
import Verif.Ggmp.AlignLabelProps
import Verif.State.ShareModel
import Verif.State.ShareProps
import Verif.State.AcceptModel
import Verif.State.AcceptProps
import Verif.Resolve.Model
import Verif.Resolve.Props
import Verif.LinAlg.ExactProps
import Verif.Gp2Scale.StaleModel
import Verif.Gp2Scale.StaleProps
import Verif.State.RecoverModel
import Verif.State.RecoverProps
