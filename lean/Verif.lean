import Verif.LoadAgg.CJProps
import Verif.LoadAgg.MLAAProps
import Verif.LoadAgg.LiuProps
import Verif.LoadAgg.ErrorProps
import Verif.LoadAgg.TimesProps
import Verif.LoadAgg.StepsProps
import Verif.LoadAgg.AccuracyProps
import Verif.Num.FloatProps
import Verif.LoadAgg.RoundProps
import Verif.LoadAgg.ShapeProps
import Verif.Util.FluidProps
import Verif.Util.TimeProps
import Verif.Util.GeoProps
import Verif.Util.SegProps
import Verif.Bore.SegmentsProps
import Verif.Bore.DupProps
import Verif.Bore.EquivBoreProps
import Verif.Bore.DistProps
import Verif.Bore.DistanceProps
import Verif.Bore.FieldProps
import Verif.Bore.TextProps
import Verif.Bore.BuildProps
import Verif.Bore.FloatDistProps
import Verif.Bore.FloatDupProps
import Verif.Net.TopoProps
import Verif.Net.FlowProps
import Verif.Net.InputModel
import Verif.Net.InputProps
import Verif.Net.CacheProps
import Verif.Net.ScalarProps
import Verif.Net.AliasModel
import Verif.Net.AliasProps
import Verif.Net.EquivProps
import Verif.Pipe.UTubeProps
import Verif.Pipe.UTubeHeatProps
import Verif.Pipe.MultiProps
import Verif.Pipe.MultiEig
import Verif.Pipe.MultiOneProps
import Verif.Pipe.CacheProps
import Verif.Pipe.GeomProps
import Verif.Pipe.PoleProps
import Verif.Pipe.PoleMeanProps
import Verif.Pipe.PoleWallProps
import Verif.Pipe.PoleSimProps
import Verif.Pipe.PolePipeProps
import Verif.Pipe.ConvProps
import Verif.Pipe.ConvResProps
import Verif.Pipe.MemoProps
import Verif.Pipe.PoleStopProps
import Verif.Pipe.PoleLinProps
import Verif.FLS.Props
import Verif.FLS.TimeProps
import Verif.FLS.EquivProps
import Verif.FLS.InclProps
import Verif.Sol.HistProps
import Verif.Sol.SolveProps
import Verif.Sol.DetProps
import Verif.Sol.SimUniform
import Verif.Sol.SimMixed
import Verif.Sol.SimIncl
import Verif.Sol.EqGroups
import Verif.Sol.EqDist
import Verif.Sol.EqProps
import Verif.Sol.EqUniform
import Verif.Gf.DispatchProps
import Verif.Gf.DispatchExtra
import Verif.Gf.ProfileProps
import Verif.Gf.UniformProps
import Verif.Gf.ApproxFieldLemmas
import Verif.Gf.ApproxFieldProps
import Verif.Gf.RefineProps
import Verif.Gf.SolversModel
import Verif.Gf.SolversLemmas
import Verif.Gf.SolversProps
import Verif.Gf.TempProps
import Verif.Sol.QuotLemmas
import Verif.Sol.QuotProps
import Verif.Gf.SolversTemp
import Verif.Gf.GroupLemmas
import Verif.Gf.CongruentProps
import Verif.Gf.EqTempProps
import Verif.Gf.RingProps
import Verif.Gf.SimTempProps
import Verif.FLS.ApproxProps
import Verif.FLS.Exp1Props
import Verif.FLS.InclApproxProps
import Verif.FLS.ErfCheck
import Verif.FLS.ErfTableA
import Verif.FLS.ErfTableB
import Verif.FLS.ErfTableC
import Verif.FLS.ErfProps
import Verif.FLS.Exp1Check
import Verif.FLS.Exp1Table
import Verif.FLS.Exp1Consts
import Verif.FLS.Exp1RelLemmas
import Verif.FLS.Exp1RelProps
import Verif.FLS.ListModel
import Verif.FLS.ListProps
import Verif.FLS.PairProps
import Verif.FLS.FormModel
import Verif.FLS.FormProps
import Verif.FLS.EditModel
import Verif.FLS.EditProps
import Verif.FLS.LogProps
import Verif.Net.ThermalProps
import Verif.Pipe.DissProps
import Verif.Net.BetweenNetProps
import Verif.Pipe.BetweenProps
import Verif.Net.MeanProps
import Verif.Sol.AverageProps
import Verif.Gf.NetworkModel
import Verif.Gf.NetworkProps
import Verif.Gf.TubeNetProps
import Verif.Gf.MeanGfProps
import Verif.Gf.MeanFailProps
import Verif.Pipe.GetModel
import Verif.Pipe.GetProps
import Verif.Pipe.GetHeatProps
import Verif.Pipe.InletProps
import Verif.Pipe.InletNetProps
import Verif.Pipe.AliasModel
import Verif.Pipe.AliasProps
import Verif.Pipe.MultiCacheModel
import Verif.Pipe.MultiCacheProps
import Verif.Gf.NetworkExamples
import Verif.Gf.SolverExamples
import Verif.Pipe.MultiExamples
import Verif.Gf.EqNetProps
import Verif.Gf.AddProps
import Verif.Gf.ScaleNetProps
import Verif.Gf.MultiScaleProps
import Verif.Gf.MoveProps
import Verif.Gf.InclUniform
import Verif.FLS.SlowProps
import Verif.FLS.LimitProps
import Verif.FLS.SettleProps
import Verif.Gf.LimitFieldProps
import Verif.Pipe.FlowProps
import Verif.Sol.StableProps
import Verif.Gf.StableFieldProps
import Verif.Sol.SimKindModel
import Verif.Sol.SimKindProps
import Verif.Sol.KindModel
import Verif.Sol.KindProps
import Verif.Util.CompassModel
import Verif.Util.CompassProps
import Verif.Gf.ManyModel
import Verif.Gf.ManyProps
import Verif.Gf.SimStableProps
import Verif.Net.MirrorNetProps
import Verif.Net.FasterProps
import Verif.Pipe.FasterNetProps
import Verif.Sol.OrderProps
import Verif.Gf.OrderGfProps
import Verif.Gf.SeriesProps
import Verif.Sol.StepProps
import Verif.Gf.StepGfProps
import Verif.Sol.CausalProps
import Verif.Gf.CausalGfProps
import Verif.Pipe.MirrorProps
import Verif.Sol.MirrorSolProps
import Verif.Gf.MirrorGfProps
import Verif.Net.UpdateModel
import Verif.Net.UpdateProps
import Verif.Pipe.SectionModel
import Verif.Pipe.RfpLemmas
import Verif.Pipe.RfpProps
import Verif.Pipe.CoaxModel
import Verif.Pipe.CoaxProps
import Verif.Pipe.UpdateNetProps
import Verif.Gf.EqBoundProps
import Verif.Gf.EqMergeProps
import Verif.Pipe.FlowFormProps
import Verif.Pipe.UTubeGeneralProps
import Verif.Bore.DrawProps
import Verif.Pipe.DrawProps
import Verif.Gf.CurveProps
import Verif.LoadAgg.ReuseProps
import Verif.Gf.LateProps
