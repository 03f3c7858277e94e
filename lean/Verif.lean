import Verif.Geom.Props
import Verif.Draught.Props
import Verif.Sched.Props
import Verif.Base.Loop
import Verif.Mat.MMulProps
import Verif.Mat.PackProps
import Verif.Mat.UnitaryProps
import Verif.IO.InputModel
import Verif.IO.InputProps
import Verif.Mat.GramProps
import Verif.Mat.InvertProps
import Verif.Mat.ExpProps
import Verif.Mat.LieProps
import Verif.Mat.GenProps
import Verif.Mat.VdmProps
import Verif.Update.Props
import Verif.Field.Props
import Verif.Field.PolyProps
import Verif.Smear.LocalProps
import Verif.Smear.ImprovedProps
import Verif.IO.ChkProps
import Verif.IO.CfgProps
import Verif.IO.CfgReadProps
import Verif.IO.SiteProps
import Verif.IO.CernProps
import Verif.IO.CheckProps
import Verif.IO.HdrProps
import Verif.IO.HdrWriteProps
import Verif.IO.MilcHdrProps
import Verif.IO.LimeProps
import Verif.IO.XmlProps
import Verif.IO.IldgProps
import Verif.Rng.FileProps
import Verif.Rng.StreamProps
import Verif.Rng.Gauss
import Verif.Utils.SumProps
import Verif.Utils.SplineProps
import Verif.Utils.ScaleProps
import Verif.Utils.MemProps
import Verif.Run.UpdateProps
import Verif.Run.ThreadProps
import Verif.Run.FileProps
import Verif.Cuts.TripProps
import Verif.Cuts.CutProps
import Verif.Cuts.CutSpecProps
import Verif.Cuts.CacheProps
import Verif.Field.LinksProps
import Verif.Mat.Proj
import Verif.Mat.ProjProps
import Verif.Field.Clover
import Verif.Field.Path
import Verif.Field.CloverLemmas
import Verif.Field.CloverProps
import Verif.Field.ChargeProps
import Verif.Field.ChargeThreads
import Verif.Rng.PeriodProps
import Verif.Smear.Stout
import Verif.Smear.StoutLemmas
import Verif.Smear.StoutProps
import Verif.Smear.StoutGauge
import Verif.Smear.FlowProps
import Verif.Smear.StoutExamples
import Verif.Gfix.Model
import Verif.Gfix.Orbit
import Verif.Gfix.OrLemmas
import Verif.Gfix.OrStep
import Verif.Gfix.OrSweep
import Verif.Gfix.OrProps
import Verif.Gfix.DerivLemmas
import Verif.Gfix.DerivProps
import Verif.Gfix.Mag
import Verif.Gfix.MagLemmas
import Verif.Gfix.MagProps
import Verif.Mat.GramTri
import Verif.Gfix.FA
import Verif.Gfix.StepDeriv
import Verif.Gfix.FASpec
import Verif.Gfix.FALemmas
import Verif.Gfix.FASteps
import Verif.Gfix.FAProps
import Verif.Gfix.FAInner
import Verif.Gfix.FADefined
import Verif.Gfix.Driver
import Verif.Gfix.DriverProps
import Verif.Smear.FlowDriver
import Verif.Smear.FlowDriverProps
import Verif.Smear.FlowAdaptProps
import Verif.Smear.FlowScaleProps
import Verif.Smear.Givens
import Verif.Smear.GivensLemmas
import Verif.Smear.GivensSpec
import Verif.Smear.GivensProps
import Verif.Smear.GivensCases
import Verif.Smear.GivensFixed
import Verif.Smear.GivensApe
import Verif.Gfix.Residual
import Verif.Gfix.ResidualProps
import Verif.Field.Topo
import Verif.Field.TopoLemmas
import Verif.Field.TopoProps
import Verif.Field.SlabProps
import Verif.Field.MomentProps
import Verif.Smear.Hyp
import Verif.Smear.HypLemmas
import Verif.Smear.HypMat
import Verif.Smear.HypProps
import Verif.Smear.HypGauge
import Verif.Smear.HypStill
import Verif.Smear.Improve
import Verif.Smear.ImproveLemmas
import Verif.Smear.ImproveProps
import Verif.Draught.Improved
import Verif.Draught.ImprovedLemmas
import Verif.Draught.ImprovedProps
import Verif.Smear.ImproveTask
import Verif.Smear.ImproveTaskProps
import Verif.Cuts.Gluon
import Verif.Cuts.GluonLemmas
import Verif.Cuts.GluonProps
import Verif.Cuts.GluonLandau
import Verif.Cuts.GluonFails
import Verif.Cuts.ConfigGluon
import Verif.Cuts.ConfigLemmas
import Verif.Cuts.ConfigProps
import Verif.Cuts.ConfigRace
import Verif.Cuts.MOMgg
import Verif.Cuts.MOMggLemmas
import Verif.Cuts.MOMggProps
import Verif.Cuts.Spatial
import Verif.Cuts.SpatialProps
import Verif.Cuts.OutputProps
import Verif.Cuts.NamesProps
import Verif.U1.Model
import Verif.U1.Spec
import Verif.U1.Lemmas
import Verif.U1.Props
import Verif.U1.ObsProps
import Verif.Cuts.SmearedProp
import Verif.Cuts.SmearedPropProps
import Verif.Rng.Warm
import Verif.Rng.WarmProps
import Verif.Gfix.Luxury
import Verif.Gfix.LuxuryProps
import Verif.Gfix.Coulomb
import Verif.Gfix.CoulombLemmas
import Verif.Gfix.CoulombProps
import Verif.Gfix.CoulombDefined
import Verif.Gfix.CoulombMeasure
import Verif.Gfix.CoulombLine
import Verif.Mat.Eigen
import Verif.Mat.EigenLemmas
import Verif.Mat.EigenProps
import Verif.Mat.Log
import Verif.Mat.LogLemmas
import Verif.Mat.LogProps
import Verif.Mat.LogTwo
import Verif.Field.Instanton
import Verif.Field.InstantonLemmas
import Verif.Field.InstantonProps
import Verif.Cuts.MOMggg
import Verif.Cuts.MOMgggLemmas
import Verif.Cuts.MOMgggProps
import Verif.Cuts.StaticPot
import Verif.Cuts.StaticPotProps
import Verif.Field.RandomModel
import Verif.Field.RandomProps
import Verif.Mat.Nape
import Verif.Mat.NapeLemmas
import Verif.Mat.NapeProps
import Verif.Smear.NapeApe
import Verif.Smear.Dispatch
import Verif.Smear.DispatchProps
import Verif.IO.CheapReader
import Verif.IO.CheapReaderProps
import Verif.Mat.Sse
import Verif.Mat.SseLemmas
import Verif.Mat.SseProps
import Verif.Mat.SseInvertProps
import Verif.Mat.SseGram
import Verif.Mat.SseGramLemmas
import Verif.Mat.SseGramProps
import Verif.Mat.SseTrace
import Verif.Mat.SseTraceProps
import Verif.Update.Sse
import Verif.Update.SseProps
import Verif.Field.SseInline
import Verif.Field.SseInlineProps
import Verif.Gfix.Tests
import Verif.Gfix.TestsProps
import Verif.Alloc.Model
import Verif.Alloc.Lemmas
import Verif.Alloc.Spec
import Verif.Alloc.Props
import Verif.Alloc.FacgProps
import Verif.Mat.BruteLog
import Verif.Mat.BruteLogLemmas
import Verif.Mat.BruteLogProps
import Verif.Field.StepProps
import Verif.Mat.ExpLibProps
import Verif.Gfix.LogTestProps
import Verif.Run.CloseModel
import Verif.Run.CloseProps
import Verif.Sched.TeamModel
import Verif.Sched.TeamLemmas
import Verif.Sched.TeamSpec
import Verif.Sched.TeamLoop
import Verif.Sched.TeamCode
import Verif.Sched.TeamProps
import Verif.Sched.RestartModel
import Verif.Sched.RestartProps
import Verif.Update.SweepModel
import Verif.Update.SweepProps
import Verif.Update.LatticeModel
import Verif.Update.LatticeProps
import Verif.Update.CreutzModel
import Verif.Update.CreutzProps
import Verif.Update.DrawLemmas
import Verif.Update.DrawProps
import Verif.Update.DrawCreutz
import Verif.Update.HaarLemmas
import Verif.Update.HaarProps
import Verif.Update.HaarSphere
import Verif.Update.HaarHeat
import Verif.Update.EnsembleLemmas
import Verif.Update.EnsembleProps
import Verif.Gfix.Accel
import Verif.Gfix.AccelLemmas
import Verif.Gfix.AccelProps
import Verif.Mat.ExpManyLemmas
import Verif.Mat.ExpManyProps
import Verif.Smear.StoutMany
import Verif.Mat.OpNorm
import Verif.Smear.StoutLipschitz
import Verif.Smear.FlowMany
import Verif.Cuts.LieCache
import Verif.Cuts.LieCacheProps
import Verif.Mat.LieMany
import Verif.Mat.LieManyProps
import Verif.Cuts.Checks
import Verif.Cuts.ChecksProps
import Verif.Field.PolyTh
import Verif.Field.PolyThProps
import Verif.Gfix.CoulombSD
import Verif.Gfix.CoulombSDProps
import Verif.Audit
