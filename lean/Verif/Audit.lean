import Verif.Alloc.FacgProps
import Verif.Alloc.Lemmas
import Verif.Alloc.Model
import Verif.Alloc.Props
import Verif.Alloc.Spec
import Verif.Base.Loop
import Verif.Cuts.CacheProps
import Verif.Cuts.Checks
import Verif.Cuts.ChecksProps
import Verif.Cuts.ConfigGluon
import Verif.Cuts.ConfigLemmas
import Verif.Cuts.ConfigProps
import Verif.Cuts.ConfigRace
import Verif.Cuts.CutProps
import Verif.Cuts.CutSpecProps
import Verif.Cuts.Gluon
import Verif.Cuts.GluonFails
import Verif.Cuts.GluonLandau
import Verif.Cuts.GluonLemmas
import Verif.Cuts.GluonProps
import Verif.Cuts.LieCache
import Verif.Cuts.LieCacheProps
import Verif.Cuts.MOMgg
import Verif.Cuts.MOMggLemmas
import Verif.Cuts.MOMggProps
import Verif.Cuts.MOMggg
import Verif.Cuts.MOMgggLemmas
import Verif.Cuts.MOMgggProps
import Verif.Cuts.NamesProps
import Verif.Cuts.OutputProps
import Verif.Cuts.SmearedProp
import Verif.Cuts.SmearedPropProps
import Verif.Cuts.Spatial
import Verif.Cuts.SpatialProps
import Verif.Cuts.StaticPot
import Verif.Cuts.StaticPotProps
import Verif.Cuts.TripProps
import Verif.Draught.Improved
import Verif.Draught.ImprovedLemmas
import Verif.Draught.ImprovedProps
import Verif.Draught.Props
import Verif.Field.ChargeProps
import Verif.Field.ChargeThreads
import Verif.Field.Clover
import Verif.Field.CloverLemmas
import Verif.Field.CloverProps
import Verif.Field.Instanton
import Verif.Field.InstantonLemmas
import Verif.Field.InstantonProps
import Verif.Field.LinksProps
import Verif.Field.MomentProps
import Verif.Field.Path
import Verif.Field.PolyProps
import Verif.Field.PolyTh
import Verif.Field.PolyThProps
import Verif.Field.Props
import Verif.Field.RandomModel
import Verif.Field.RandomProps
import Verif.Field.SlabProps
import Verif.Field.SseInline
import Verif.Field.SseInlineProps
import Verif.Field.StepProps
import Verif.Field.Topo
import Verif.Field.TopoLemmas
import Verif.Field.TopoProps
import Verif.Geom.Props
import Verif.Gfix.Accel
import Verif.Gfix.AccelLemmas
import Verif.Gfix.AccelProps
import Verif.Gfix.Coulomb
import Verif.Gfix.CoulombDefined
import Verif.Gfix.CoulombLemmas
import Verif.Gfix.CoulombLine
import Verif.Gfix.CoulombMeasure
import Verif.Gfix.CoulombProps
import Verif.Gfix.CoulombSD
import Verif.Gfix.CoulombSDProps
import Verif.Gfix.DerivLemmas
import Verif.Gfix.DerivProps
import Verif.Gfix.Driver
import Verif.Gfix.DriverProps
import Verif.Gfix.FA
import Verif.Gfix.FADefined
import Verif.Gfix.FAInner
import Verif.Gfix.FALemmas
import Verif.Gfix.FAProps
import Verif.Gfix.FASpec
import Verif.Gfix.FASteps
import Verif.Gfix.LogTestProps
import Verif.Gfix.Luxury
import Verif.Gfix.LuxuryProps
import Verif.Gfix.Mag
import Verif.Gfix.MagLemmas
import Verif.Gfix.MagProps
import Verif.Gfix.Model
import Verif.Gfix.OrLemmas
import Verif.Gfix.OrProps
import Verif.Gfix.OrStep
import Verif.Gfix.OrSweep
import Verif.Gfix.Orbit
import Verif.Gfix.Residual
import Verif.Gfix.ResidualProps
import Verif.Gfix.StepDeriv
import Verif.Gfix.Tests
import Verif.Gfix.TestsProps
import Verif.IO.CernProps
import Verif.IO.CfgProps
import Verif.IO.CfgReadProps
import Verif.IO.CheapReader
import Verif.IO.CheapReaderProps
import Verif.IO.CheckProps
import Verif.IO.ChkProps
import Verif.IO.HdrProps
import Verif.IO.HdrWriteProps
import Verif.IO.IldgProps
import Verif.IO.InputModel
import Verif.IO.InputProps
import Verif.IO.LimeProps
import Verif.IO.MilcHdrProps
import Verif.IO.SiteProps
import Verif.IO.XmlProps
import Verif.Mat.BruteLog
import Verif.Mat.BruteLogLemmas
import Verif.Mat.BruteLogProps
import Verif.Mat.Eigen
import Verif.Mat.EigenLemmas
import Verif.Mat.EigenProps
import Verif.Mat.ExpLibProps
import Verif.Mat.ExpManyLemmas
import Verif.Mat.ExpManyProps
import Verif.Mat.ExpProps
import Verif.Mat.GenProps
import Verif.Mat.GramProps
import Verif.Mat.GramTri
import Verif.Mat.InvertProps
import Verif.Mat.LieMany
import Verif.Mat.LieManyProps
import Verif.Mat.LieProps
import Verif.Mat.Log
import Verif.Mat.LogLemmas
import Verif.Mat.LogProps
import Verif.Mat.LogTwo
import Verif.Mat.MMulProps
import Verif.Mat.Nape
import Verif.Mat.NapeLemmas
import Verif.Mat.NapeProps
import Verif.Mat.OpNorm
import Verif.Mat.PackProps
import Verif.Mat.Proj
import Verif.Mat.ProjProps
import Verif.Mat.Sse
import Verif.Mat.SseGram
import Verif.Mat.SseGramLemmas
import Verif.Mat.SseGramProps
import Verif.Mat.SseInvertProps
import Verif.Mat.SseLemmas
import Verif.Mat.SseProps
import Verif.Mat.SseTrace
import Verif.Mat.SseTraceProps
import Verif.Mat.UnitaryProps
import Verif.Mat.VdmProps
import Verif.Rng.FileProps
import Verif.Rng.Gauss
import Verif.Rng.PeriodProps
import Verif.Rng.StreamProps
import Verif.Rng.Warm
import Verif.Rng.WarmProps
import Verif.Run.CloseModel
import Verif.Run.CloseProps
import Verif.Run.FileProps
import Verif.Run.ThreadProps
import Verif.Run.UpdateProps
import Verif.Sched.Props
import Verif.Sched.RestartModel
import Verif.Sched.RestartProps
import Verif.Sched.TeamCode
import Verif.Sched.TeamLemmas
import Verif.Sched.TeamLoop
import Verif.Sched.TeamModel
import Verif.Sched.TeamProps
import Verif.Sched.TeamSpec
import Verif.Smear.Dispatch
import Verif.Smear.DispatchProps
import Verif.Smear.FlowAdaptProps
import Verif.Smear.FlowDriver
import Verif.Smear.FlowDriverProps
import Verif.Smear.FlowMany
import Verif.Smear.FlowProps
import Verif.Smear.FlowScaleProps
import Verif.Smear.Givens
import Verif.Smear.GivensApe
import Verif.Smear.GivensCases
import Verif.Smear.GivensFixed
import Verif.Smear.GivensLemmas
import Verif.Smear.GivensProps
import Verif.Smear.GivensSpec
import Verif.Smear.Hyp
import Verif.Smear.HypGauge
import Verif.Smear.HypLemmas
import Verif.Smear.HypMat
import Verif.Smear.HypProps
import Verif.Smear.HypStill
import Verif.Smear.Improve
import Verif.Smear.ImproveLemmas
import Verif.Smear.ImproveProps
import Verif.Smear.ImproveTask
import Verif.Smear.ImproveTaskProps
import Verif.Smear.ImprovedProps
import Verif.Smear.LocalProps
import Verif.Smear.NapeApe
import Verif.Smear.Stout
import Verif.Smear.StoutExamples
import Verif.Smear.StoutGauge
import Verif.Smear.StoutLemmas
import Verif.Smear.StoutLipschitz
import Verif.Smear.StoutMany
import Verif.Smear.StoutProps
import Verif.U1.Lemmas
import Verif.U1.Model
import Verif.U1.ObsProps
import Verif.U1.Props
import Verif.U1.Spec
import Verif.Update.CreutzModel
import Verif.Update.CreutzProps
import Verif.Update.DrawCreutz
import Verif.Update.DrawLemmas
import Verif.Update.DrawProps
import Verif.Update.EnsembleLemmas
import Verif.Update.EnsembleProps
import Verif.Update.HaarHeat
import Verif.Update.HaarLemmas
import Verif.Update.HaarProps
import Verif.Update.HaarSphere
import Verif.Update.LatticeModel
import Verif.Update.LatticeProps
import Verif.Update.Props
import Verif.Update.Sse
import Verif.Update.SseProps
import Verif.Update.SweepModel
import Verif.Update.SweepProps
import Verif.Utils.MemProps
import Verif.Utils.ScaleProps
import Verif.Utils.SplineProps
import Verif.Utils.SumProps
import Lean.Elab.Command
import Lean.Util.CollectAxioms

/-!
# Axiom audit (generated from MANIFEST.json)

`audit_axioms name` fails the build when the named theorem depends on an axiom other
than `propext`, `Classical.choice` and `Quot.sound`, or is not a theorem.
-/

open Lean Elab Command in
elab "audit_axioms " n:ident : command => do
  let name ← liftCoreM <| realizeGlobalConstNoOverloadWithInfo n
  unless ((← getEnv).find? name).any (fun c => c matches .thmInfo _) do
    throwError "{name} is not a theorem"
  let ax ← liftCoreM <| collectAxioms name
  for a in ax do
    unless [``propext, ``Classical.choice, ``Quot.sound].contains a do
      throwError "{name} depends on {a}"

audit_axioms GLU.Geom.C01_index_coords_index
audit_axioms GLU.Geom.C01_coords_index_coords
audit_axioms GLU.Geom.C01_volume
audit_axioms GLU.Geom.C01_slice
audit_axioms GLU.Geom.C02_step
audit_axioms GLU.Geom.C02_inverse
audit_axioms GLU.Geom.C02_commute
audit_axioms GLU.Geom.C02_period
audit_axioms GLU.Geom.C02_period_minimal
audit_axioms GLU.Geom.C03_momconv_even_partial
audit_axioms GLU.Geom.C03_roundtrip_even_partial
audit_axioms GLU.Geom.C03_pipi_site
audit_axioms GLU.Geom.C03_pipi_site_injective
audit_axioms GLU.Geom.C03_odd_extent_fails
audit_axioms GLU.Geom.C04_translation_partial
audit_axioms GLU.Geom.C04_far_negative_fails
audit_axioms GLU.Geom.C05_displacement
audit_axioms GLU.Geom.C05_rsq_minimal
audit_axioms GLU.Geom.C06_hirep_permutation
audit_axioms GLU.Geom.C06_hirep_order
audit_axioms GLU.Draught.C07_partition
audit_axioms GLU.Draught.C07_success_iff
audit_axioms GLU.Draught.C08_neighbours_differ_iff
audit_axioms GLU.Draught.C08_neighbours_differ_partial
audit_axioms GLU.Draught.C08_extent_seven_fails
audit_axioms GLU.Sched.C09_schedule_independent
audit_axioms GLU.Sched.C09_sequential_schedules_finish
audit_axioms GLU.Sched.C09_extent_seven_race
audit_axioms GLU.Mat.C10_multab
audit_axioms GLU.Mat.C10_multabdag
audit_axioms GLU.Mat.C10_multab_dag
audit_axioms GLU.Mat.C10_multab_atomic_left
audit_axioms GLU.Mat.C10_multab_atomic_right
audit_axioms GLU.Mat.C10_multab_dagdag_partial
audit_axioms GLU.Mat.C10_multab_dagdag_generic
audit_axioms GLU.Mat.C10_multab_dagdag_generic_fails
audit_axioms GLU.Gfix.C100_best_partial
audit_axioms GLU.Gfix.C100_orbit
audit_axioms GLU.Gfix.C100_count
audit_axioms GLU.Gfix.C100_none_fails
audit_axioms GLU.Gfix.C100_none_witness_fails
audit_axioms GLU.Gfix.C100_failure_hidden
audit_axioms GLU.Gfix.C100_no_memory
audit_axioms GLU.Gfix.C101_stop_partial
audit_axioms GLU.Gfix.C101_orbit
audit_axioms GLU.Gfix.C101_slices
audit_axioms GLU.Gfix.C101_local
audit_axioms GLU.Gfix.C101_returns
audit_axioms GLU.Gfix.C101_returns_iff
audit_axioms GLU.Gfix.C101_fixed_fails
audit_axioms GLU.Gfix.C101_fixed_run_fails
audit_axioms GLU.Gfix.C101_failure_hidden
audit_axioms GLU.Gfix.C101_one_iteration_fails
audit_axioms GLU.Gfix.C101_one_slice_fails
audit_axioms GLU.Gfix.C101_one_site_fails
audit_axioms GLU.Gfix.C101_no_memory_fails
audit_axioms GLU.Gfix.C102_converged_partial
audit_axioms GLU.Gfix.C102_planes
audit_axioms GLU.Gfix.C102_three
audit_axioms GLU.Gfix.C102_three_sharp
audit_axioms GLU.Gfix.C102_two_site
audit_axioms GLU.Gfix.C102_two_fails
audit_axioms GLU.Gfix.C102_many_site
audit_axioms GLU.Gfix.C102_many_fails
audit_axioms GLU.Gfix.C103_best_partial
audit_axioms GLU.Gfix.C103_line
audit_axioms GLU.Gfix.C103_step
audit_axioms GLU.Mat.C104_three_partial
audit_axioms GLU.Mat.C104_roundtrip_partial
audit_axioms GLU.Mat.C104_hermitian
audit_axioms GLU.Mat.C104_identity_unset
audit_axioms GLU.Mat.C104_fails
audit_axioms GLU.Mat.C104_sinc
audit_axioms GLU.Mat.C104_short3
audit_axioms GLU.Mat.C104_two_partial
audit_axioms GLU.Mat.C104_two_inexact
audit_axioms GLU.Mat.C104_two_fails
audit_axioms GLU.Mat.C104_short2
audit_axioms GLU.Field.C105_links_partial
audit_axioms GLU.Field.C105_where
audit_axioms GLU.Field.C105_nowhere
audit_axioms GLU.Field.C105_fails
audit_axioms GLU.Field.C105_unsupported
audit_axioms GLU.Cuts.C106_projector
audit_axioms GLU.Cuts.C106_longitudinal
audit_axioms GLU.Cuts.C106_tolerance
audit_axioms GLU.Cuts.C106_file_partial
audit_axioms GLU.Cuts.C106_fails
audit_axioms GLU.Cuts.C106_odd
audit_axioms GLU.Cuts.C106_stale
audit_axioms GLU.Cuts.C106_conserved
audit_axioms GLU.Cuts.C106_linear_partial
audit_axioms GLU.Cuts.C106_sine_fails
audit_axioms GLU.Cuts.C106_orbit_fails
audit_axioms GLU.Cuts.C106_edge_fails
audit_axioms GLU.Cuts.C106_rotation
audit_axioms GLU.Cuts.C106_translation
audit_axioms GLU.Cuts.C106_zero
audit_axioms GLU.Cuts.C106_vanishing_first
audit_axioms GLU.Cuts.C107_correlators
audit_axioms GLU.Cuts.C107_direct_partial
audit_axioms GLU.Cuts.C107_direct_fails
audit_axioms GLU.Cuts.C107_reflection
audit_axioms GLU.Cuts.C107_residual
audit_axioms GLU.Cuts.C107_closed
audit_axioms GLU.Cuts.C107_origin
audit_axioms GLU.Field.C108_values
audit_axioms GLU.Field.C108_ends
audit_axioms GLU.Field.C108_order
audit_axioms GLU.Field.C108_drawn
audit_axioms GLU.Field.C108_start_partial
audit_axioms GLU.Field.C108_field_partial
audit_axioms GLU.Field.C108_start_fails
audit_axioms GLU.Field.C108_transform_partial
audit_axioms GLU.Field.C108_unit
audit_axioms GLU.Field.C108_reunit_partial
audit_axioms GLU.Field.C108_case
audit_axioms GLU.Mat.C109_defined
audit_axioms GLU.Mat.C109_projection_partial
audit_axioms GLU.Mat.C109_fixed
audit_axioms GLU.Mat.C109_multiple
audit_axioms GLU.Mat.C109_converges
audit_axioms GLU.Mat.C109_conditioned
audit_axioms GLU.Mat.C109_slow
audit_axioms GLU.Mat.C109_fails
audit_axioms GLU.Smear.C109_ape_partial
audit_axioms GLU.Smear.C109_ape_still
audit_axioms GLU.Smear.C109_ape_singular
audit_axioms GLU.Mat.C11_multab_suNC
audit_axioms GLU.Mat.C11_multabdag_suNC
audit_axioms GLU.Mat.C11_multab_dag_suNC
audit_axioms GLU.Mat.C11_multab_dagdag_suNC_partial
audit_axioms GLU.Mat.C11_multab_dagdag_suNC_fails
audit_axioms GLU.Smear.C110_dispatch_partial
audit_axioms GLU.Smear.C110_direction_fails
audit_axioms GLU.Smear.C110_refused
audit_axioms GLU.Smear.C110_refused_clean
audit_axioms GLU.Smear.C110_links_partial
audit_axioms GLU.Smear.C110_memory
audit_axioms GLU.Smear.C110_status_fails
audit_axioms GLU.Smear.C110_estimate_exact
audit_axioms GLU.Smear.C110_estimate_partial
audit_axioms GLU.Smear.C110_estimate_colours_fails
audit_axioms GLU.Smear.C110_estimate_history_fails
audit_axioms GLU.IO.C111_same
audit_axioms GLU.IO.C111_short
audit_axioms GLU.IO.C111_short_links
audit_axioms GLU.IO.C111_round_trip
audit_axioms GLU.IO.C111_choice
audit_axioms GLU.IO.C111_bqcd_partial
audit_axioms GLU.IO.C111_bqcd_double_fails
audit_axioms GLU.IO.C111_bqcd_history_fails
audit_axioms GLU.Mat.Sse.C112_macros
audit_axioms GLU.Mat.Sse.C112_multab
audit_axioms GLU.Mat.Sse.C112_multabdag
audit_axioms GLU.Mat.Sse.C112_multab_dag
audit_axioms GLU.Mat.Sse.C112_multab_dagdag
audit_axioms GLU.Mat.Sse.C112_multab_atomic_left
audit_axioms GLU.Mat.Sse.C112_multab_atomic_right
audit_axioms GLU.Mat.Sse.C112_multab_suNC
audit_axioms GLU.Mat.Sse.C112_multabdag_suNC
audit_axioms GLU.Mat.Sse.C112_multab_dag_suNC
audit_axioms GLU.Mat.Sse.C112_multab_dagdag_suNC
audit_axioms GLU.Mat.Sse.C112_builds_agree
audit_axioms GLU.Mat.Sse.C112_builds_agree_dagdag_fails
audit_axioms GLU.Mat.Sse.C113_inverse_partial
audit_axioms GLU.Mat.Sse.C113_regular_fails
audit_axioms GLU.Mat.Sse.C113_singular_fails
audit_axioms GLU.Mat.Sse.C114_LU_det
audit_axioms GLU.Mat.Sse.C114_gram_reunit
audit_axioms GLU.Mat.Sse.C114_special_unitary
audit_axioms GLU.Mat.Sse.C114_defined
audit_axioms GLU.Mat.Sse.C114_fixes
audit_axioms GLU.Mat.Sse.C115_trace_abc
audit_axioms GLU.Mat.Sse.C115_trace_abc_dag
audit_axioms GLU.Mat.Sse.C115_trace_abc_dag_Re
audit_axioms GLU.Mat.Sse.C115_Re_trace_abc_dag_suNC
audit_axioms GLU.Mat.Sse.C115_Re_trace_abc_dag_suNC_any
audit_axioms GLU.Mat.Sse.C115_two_colours_third_needed
audit_axioms GLU.Update.Sse.C116_only_subgroup
audit_axioms GLU.Update.Sse.C116_shortened
audit_axioms GLU.Update.Sse.C116_shortened_dag
audit_axioms GLU.Update.Sse.C116_su2_rotate
audit_axioms GLU.Update.Sse.C116_rotate
audit_axioms GLU.Update.Sse.C116_overrelax
audit_axioms GLU.Mat.Sse.C117_plaquette
audit_axioms GLU.Mat.Sse.C117_gtransform
audit_axioms GLU.Mat.Sse.C117_hermitian_proj_short
audit_axioms GLU.Mat.Sse.C117_rotations
audit_axioms GLU.Gfix.C118_max_partial
audit_axioms GLU.Gfix.C118_max_one_thread
audit_axioms GLU.Gfix.C118_max_lost
audit_axioms GLU.Gfix.C118_constance
audit_axioms GLU.Gfix.C118_constance_two_partial
audit_axioms GLU.Gfix.C118_constance_two_fails
audit_axioms GLU.Gfix.C118_constance_one_slice
audit_axioms GLU.Gfix.C118_landau_constant
audit_axioms GLU.Alloc.C119_field
audit_axioms GLU.Alloc.C119_field_refused
audit_axioms GLU.Alloc.C119_field_table_fails
audit_axioms GLU.Alloc.C119_field_matrix_leaks
audit_axioms GLU.Alloc.C119_smear4D_partial
audit_axioms GLU.Alloc.C119_smear4D_refused_fails
audit_axioms GLU.Alloc.C119_smear4D_unknown_fails
audit_axioms GLU.Alloc.C119_read_leaks
audit_axioms GLU.Alloc.C119_flow_partial
audit_axioms GLU.Alloc.C119_flow_silent_fails
audit_axioms GLU.Alloc.C119_flow_refused_fails
audit_axioms GLU.Alloc.C119_flow_memcheap_fails
audit_axioms GLU.Alloc.C119_FACG_partial
audit_axioms GLU.Alloc.C119_FACG_silent_fails
audit_axioms GLU.Alloc.C119_FACG_table_fails
audit_axioms GLU.Alloc.C119_FACG_direction_fails
audit_axioms GLU.Mat.C12_trace
audit_axioms GLU.Mat.C12_speed_trace_Re
audit_axioms GLU.Mat.C12_trace_ab
audit_axioms GLU.Mat.C12_trace_ab_dag
audit_axioms GLU.Mat.C12_trace_ab_dag_Re
audit_axioms GLU.Mat.C12_trace_ab_herm
audit_axioms GLU.Mat.C12_trace_ab_herm_short
audit_axioms GLU.Mat.C12_trace_prod_herm
audit_axioms GLU.Mat.C12_trace_abc
audit_axioms GLU.Mat.C12_trace_abc_dag
audit_axioms GLU.Mat.C12_trace_abc_dag_Re
audit_axioms GLU.Mat.C12_Re_trace_abc_dag_suNC
audit_axioms GLU.Mat.C120_root_partial
audit_axioms GLU.Mat.C120_root_converges
audit_axioms GLU.Mat.C120_root_singular_fails
audit_axioms GLU.Mat.C120_series
audit_axioms GLU.Mat.C120_reports
audit_axioms GLU.Mat.C120_traceless
audit_axioms GLU.Mat.C120_hermitian_partial
audit_axioms GLU.Mat.C120_one
audit_axioms GLU.Mat.C120_outside_fails
audit_axioms GLU.Mat.C120_root_minus_fails
audit_axioms GLU.Mat.C120_minus_fails
audit_axioms GLU.Field.Step.C121_correlator
audit_axioms GLU.Field.Step.C121_susceptibility
audit_axioms GLU.Field.Step.C121_moments_partial
audit_axioms GLU.Field.Step.C121_moments_fails
audit_axioms GLU.Field.Step.C121_zero_fails
audit_axioms GLU.Field.Step.C121_smear_fails
audit_axioms GLU.Mat.C122_value
audit_axioms GLU.Mat.C122_exact_partial
audit_axioms GLU.Mat.C122_fails
audit_axioms GLU.Mat.C122_repeated_fails
audit_axioms GLU.Mat.C122_zero_fails
audit_axioms GLU.Mat.C122_not_unitary_fails
audit_axioms GLU.Gfix.C123_test
audit_axioms GLU.Gfix.C123_three_partial
audit_axioms GLU.Gfix.C123_two_partial
audit_axioms GLU.Gfix.C123_undefined
audit_axioms GLU.Gfix.C123_identity_fails
audit_axioms GLU.Run.Close.C124_defined
audit_axioms GLU.Run.Close.C124_accepted
audit_axioms GLU.Run.Close.C124_closed_partial
audit_axioms GLU.Run.Close.C124_history_partial
audit_axioms GLU.Run.Close.C124_missing_fails
audit_axioms GLU.Run.Close.C124_leak_fails
audit_axioms GLU.Sched.Team.C125_reads
audit_axioms GLU.Sched.Team.C125_same
audit_axioms GLU.Sched.Team.C125_together
audit_axioms GLU.Sched.Team.C125_progress
audit_axioms GLU.Sched.Team.C125_passes
audit_axioms GLU.Sched.Team.C125_no_race
audit_axioms GLU.Sched.Team.C125_landau_sd
audit_axioms GLU.Sched.Team.C125_landau_cg
audit_axioms GLU.Sched.Team.C125_coulomb_sd
audit_axioms GLU.Sched.Team.C125_coulomb_cg
audit_axioms GLU.Sched.Team.C125_landau_sd_left
audit_axioms GLU.Sched.Team.C125_landau_cg_left
audit_axioms GLU.Sched.Team.C125_coulomb_sd_left
audit_axioms GLU.Sched.Team.C125_coulomb_cg_left
audit_axioms GLU.Sched.Team.C125_landau_cg_search
audit_axioms GLU.Sched.Team.C125_coulomb_cg_search
audit_axioms GLU.Sched.Team.C125_loops
audit_axioms GLU.Sched.Team.C125_no_race_partial
audit_axioms GLU.Sched.Team.C125_clear_race_fails
audit_axioms GLU.Sched.Team.hasty_parts
audit_axioms GLU.Sched.Restart.C126_one
audit_axioms GLU.Sched.Restart.C126_together_partial
audit_axioms GLU.Sched.Restart.C126_fails
audit_axioms GLU.Sched.Restart.C126_alone
audit_axioms GLU.Sched.Restart.C126_restarts
audit_axioms GLU.Sched.Restart.C126_leaves
audit_axioms GLU.Sched.Restart.C126_left
audit_axioms GLU.Update.C127_colour
audit_axioms GLU.Update.C127_sweep
audit_axioms GLU.Update.C127_plaquette
audit_axioms GLU.Update.C127_change
audit_axioms GLU.Update.C127_runs
audit_axioms GLU.Update.C127_cold
audit_axioms GLU.Update.C127_one_thread
audit_axioms GLU.Update.C128_group
audit_axioms GLU.Update.C128_runs
audit_axioms GLU.Update.C128_two
audit_axioms GLU.Update.C128_cold
audit_axioms GLU.Update.Draw.C129_kp
audit_axioms GLU.Update.Draw.C129_given
audit_axioms GLU.Update.Draw.C129_draw
audit_axioms GLU.Update.Draw.C129_creutz
audit_axioms GLU.Update.Draw.C129_creutz_given
audit_axioms GLU.Update.Draw.C129_action
audit_axioms GLU.Update.Draw.C129_hb
audit_axioms GLU.Update.Draw.C129_direction
audit_axioms GLU.Update.Draw.C129_product
audit_axioms GLU.Mat.C13_rebuild_pack
audit_axioms GLU.Mat.C13_rebuild_pack_anti
audit_axioms GLU.Mat.C13_pack_rebuild
audit_axioms GLU.Update.Haar.C130_overrelax
audit_axioms GLU.Update.Haar.C130_bath
audit_axioms GLU.Update.Haar.C130_heat
audit_axioms GLU.Update.Haar.C131_overrelax
audit_axioms GLU.Update.Haar.C131_heat
audit_axioms GLU.Update.Haar.C131_update
audit_axioms GLU.Gfix.C132_poisson
audit_axioms GLU.Gfix.C132_slice
audit_axioms GLU.Gfix.C132_unique
audit_axioms GLU.Gfix.C132_uphill
audit_axioms GLU.Gfix.C132_raises
audit_axioms GLU.Gfix.C132_facg_defined
audit_axioms GLU.Cuts.C133_torn
audit_axioms GLU.Cuts.C133_cached
audit_axioms GLU.Cuts.C133_three
audit_axioms GLU.Cuts.C133_crash_partial
audit_axioms GLU.Cuts.C133_fails
audit_axioms GLU.Cuts.C133_stuck
audit_axioms GLU.Cuts.C133_dir_fails
audit_axioms GLU.Cuts.C134_count
audit_axioms GLU.Cuts.C134_good
audit_axioms GLU.Cuts.C134_sound
audit_axioms GLU.Cuts.C134_determinant_fails
audit_axioms GLU.Cuts.C135_value
audit_axioms GLU.Cuts.C135_zero
audit_axioms GLU.Field.C136_polyakov
audit_axioms GLU.Gfix.C137_slice
audit_axioms GLU.Gfix.C137_orbit
audit_axioms GLU.Gfix.C137_measure
audit_axioms GLU.Gfix.C137_three
audit_axioms GLU.Gfix.C137_defined
audit_axioms GLU.Gfix.C137_fixed
audit_axioms GLU.Mat.C14_rebuild_shorten_two
audit_axioms GLU.Mat.C14_rebuild_shorten_three_partial
audit_axioms GLU.Mat.C14_block_diagonal_fails
audit_axioms GLU.Mat.C15_special_unitary
audit_axioms GLU.Mat.C15_defined
audit_axioms GLU.Mat.C15_fixes
audit_axioms GLU.Mat.C15_gram_schmidt
audit_axioms GLU.Mat.C15_unique
audit_axioms GLU.Mat.C16_complete_top
audit_axioms GLU.Mat.C17_matrix_power
audit_axioms GLU.Mat.C18_LU_det
audit_axioms GLU.Mat.C18_LU_det_overwrite
audit_axioms GLU.Mat.C18_det
audit_axioms GLU.Mat.C18_cofactor_transpose
audit_axioms GLU.Mat.C19_inverse_partial
audit_axioms GLU.Mat.C19_two_partial
audit_axioms GLU.Mat.C19_two_singular_fails
audit_axioms GLU.Mat.C19_inverse_adjoint
audit_axioms GLU.Mat.C19_newton
audit_axioms GLU.Mat.C20_exp_special_unitary
audit_axioms GLU.Mat.C20_three_partial
audit_axioms GLU.Mat.C20_two_partial
audit_axioms GLU.Mat.C20_two_small_fails
audit_axioms GLU.Mat.C20_many_partial
audit_axioms GLU.Mat.C20_many
audit_axioms GLU.Mat.C20_many_norm
audit_axioms GLU.Mat.C20_many_small
audit_axioms GLU.Mat.C20_short_many
audit_axioms GLU.Mat.C20_short_three
audit_axioms GLU.Mat.C20_short_two
audit_axioms GLU.Mat.C20_short_many_partial
audit_axioms GLU.Mat.C21_three
audit_axioms GLU.Mat.C21_three_d
audit_axioms GLU.Mat.C21_three_f
audit_axioms GLU.Mat.C21_two_partial
audit_axioms GLU.Mat.C21_two_fails
audit_axioms GLU.Mat.C21_many_partial
audit_axioms GLU.Mat.C21_many_fails
audit_axioms GLU.Mat.C22_hermitian
audit_axioms GLU.Mat.C22_offdiagonal_partial
audit_axioms GLU.Mat.C22_diagonal_fails
audit_axioms GLU.Mat.C23_solver_value
audit_axioms GLU.Mat.C23_interpolates_partial
audit_axioms GLU.Mat.C23_interpolates_only_if
audit_axioms GLU.Mat.C23_solver_fails
audit_axioms GLU.Mat.C24_sound
audit_axioms GLU.Mat.C24_complete
audit_axioms GLU.Mat.C25_mat_mult_vec_partial
audit_axioms GLU.Mat.C25_three_colours_fails
audit_axioms GLU.Update.C26_enumeration
audit_axioms GLU.Update.C26_rotate
audit_axioms GLU.Update.C26_shortened
audit_axioms GLU.Update.C27_overrelax
audit_axioms GLU.Update.C27_projection_defined
audit_axioms GLU.Update.C28_unit_partial
audit_axioms GLU.Update.C28_fails
audit_axioms GLU.Update.C28_link
audit_axioms GLU.Update.C28_creutz
audit_axioms GLU.Update.C28_creutz_fresh
audit_axioms GLU.Field.C29_range
audit_axioms GLU.Field.C29_threads_partial
audit_axioms GLU.Field.C29_threads_fails
audit_axioms GLU.Field.C29_average
audit_axioms GLU.Field.C29_gauge_invariant
audit_axioms GLU.Field.C29_trivial_average
audit_axioms GLU.Field.C29_trivial_temporal
audit_axioms GLU.Field.C29_trivial_all_partial
audit_axioms GLU.Field.C29_trivial_fails
audit_axioms GLU.Field.C30_start_site
audit_axioms GLU.Field.C30_loop_invariant
audit_axioms GLU.Field.C30_average
audit_axioms GLU.Field.C30_gauge_invariant
audit_axioms GLU.Field.C30_direction_guard
audit_axioms GLU.Field.C31_action
audit_axioms GLU.Field.C31_identity
audit_axioms GLU.Field.C31_composition
audit_axioms GLU.Field.C31_slice
audit_axioms GLU.Field.C32_staple
audit_axioms GLU.Field.C32_covariant
audit_axioms GLU.Field.C32_counts
audit_axioms GLU.Smear.C33_smear4D
audit_axioms GLU.Smear.C33_smear3D
audit_axioms GLU.Smear.C33_updates_local
audit_axioms GLU.Smear.C33_updates_spatial
audit_axioms GLU.Smear.C33_smear4D_code
audit_axioms GLU.IO.C34_bswap_16
audit_axioms GLU.IO.C34_bswap_32
audit_axioms GLU.IO.C34_bswap_64
audit_axioms GLU.IO.C34_bounds
audit_axioms GLU.IO.C35_standard
audit_axioms GLU.IO.C35_bounds
audit_axioms GLU.IO.C35_chunks
audit_axioms GLU.IO.C35_detects_bursts
audit_axioms GLU.IO.C35_detects_bytes
audit_axioms GLU.IO.C36_first_read_partial
audit_axioms GLU.IO.C36_accumulates
audit_axioms GLU.IO.C36_second_read_fails
audit_axioms GLU.IO.C36_long_fails
audit_axioms GLU.IO.C37_schedule_independent_partial
audit_axioms GLU.IO.C37_undefined_shift
audit_axioms GLU.IO.C38_partial
audit_axioms GLU.IO.C38_single_fails
audit_axioms GLU.IO.C39_writer
audit_axioms GLU.IO.C39_full_matrix
audit_axioms GLU.IO.C39_two_rows
audit_axioms GLU.IO.C39_truncated
audit_axioms GLU.IO.C40_one_slice_partial
audit_axioms GLU.IO.C40_overruns
audit_axioms GLU.IO.C41_round_trip_partial
audit_axioms GLU.IO.C41_little_fails
audit_axioms GLU.IO.C41_two_colours_fails
audit_axioms GLU.IO.C42_round_trip_partial
audit_axioms GLU.IO.C42_no_race
audit_axioms GLU.IO.C42_odd_fails
audit_axioms GLU.IO.C43_accepted_partial
audit_axioms GLU.IO.C43_scidac
audit_axioms GLU.IO.C43_milc
audit_axioms GLU.IO.C43_nersc_partial
audit_axioms GLU.IO.C43_nersc_fails
audit_axioms GLU.IO.C43_nan_fails
audit_axioms GLU.IO.C43_unchecked_fails
audit_axioms GLU.IO.C43_collision_fails
audit_axioms GLU.IO.reader_total
audit_axioms GLU.IO.C44_safe_partial
audit_axioms GLU.IO.C44_first_match
audit_axioms GLU.IO.C44_well_formed
audit_axioms GLU.IO.C44_fails
audit_axioms GLU.IO.C44_number_fails
audit_axioms GLU.IO.C45_nersc_partial
audit_axioms GLU.IO.C45_zero_fails
audit_axioms GLU.IO.C45_long_label_fails
audit_axioms GLU.IO.C45_milc
audit_axioms GLU.IO.C45_hirep_partial
audit_axioms GLU.IO.C45_hirep_little_fails
audit_axioms GLU.IO.C45_cern
audit_axioms GLU.IO.C45_scidac
audit_axioms GLU.IO.C45_ildg_partial
audit_axioms GLU.IO.C45_ildg_five_fails
audit_axioms GLU.IO.C46_aligned
audit_axioms GLU.IO.C46_file_partial
audit_axioms GLU.IO.C46_binary_length
audit_axioms GLU.IO.C46_many_fails
audit_axioms GLU.IO.C46_truncated
audit_axioms GLU.IO.C46_long_length
audit_axioms GLU.IO.C47_lookup_partial
audit_axioms GLU.IO.C47_number_partial
audit_axioms GLU.IO.C47_order_partial
audit_axioms GLU.IO.C47_fields_partial
audit_axioms GLU.IO.C47_missing_partial
audit_axioms GLU.IO.C47_many_fails
audit_axioms GLU.IO.C47_twice_fails
audit_axioms GLU.IO.C47_long_fails
audit_axioms GLU.IO.C47_missing_fails
audit_axioms GLU.IO.C47_negative_fails
audit_axioms GLU.IO.C47_unit_fails
audit_axioms GLU.Rng.C48_round_trip_partial
audit_axioms GLU.Rng.C48_kiss_partial
audit_axioms GLU.Rng.C48_kiss_fails
audit_axioms GLU.Rng.C48_kiss_witness
audit_axioms GLU.Rng.C48_threads_fails
audit_axioms GLU.Rng.C48_seeded_fails
audit_axioms GLU.Rng.C49_xor1024
audit_axioms GLU.Rng.C49_kiss_partial
audit_axioms GLU.Rng.C49_well512_partial
audit_axioms GLU.Rng.C49_mwc4096_fails
audit_axioms GLU.Rng.C49_mwc1038_fails
audit_axioms GLU.Rng.C49_mwc1038_seeded_fails
audit_axioms GLU.Rng.C50_dbl32
audit_axioms GLU.Rng.C50_dblFull
audit_axioms GLU.Rng.C50_dbl64_partial
audit_axioms GLU.Rng.C50_xor_fails
audit_axioms GLU.Rng.C51_seeded_partial
audit_axioms GLU.Rng.C51_restored_fails
audit_axioms GLU.Rng.C51_missing
audit_axioms GLU.Utils.C52_dandc
audit_axioms GLU.Utils.C52_dandc_range
audit_axioms GLU.Utils.C52_parallel_partial
audit_axioms GLU.Utils.C52_parallel_fails
audit_axioms GLU.Utils.C52_kahan
audit_axioms GLU.Utils.C52_average
audit_axioms GLU.Utils.C52_variance_partial
audit_axioms GLU.Utils.C52_variance_fails
audit_axioms GLU.Utils.C53_derivative
audit_axioms GLU.Utils.C53_too_few
audit_axioms GLU.Utils.C53_interpolation
audit_axioms GLU.Utils.C53_hermite
audit_axioms GLU.Utils.C53_outside
audit_axioms GLU.Utils.C54_first_partial
audit_axioms GLU.Utils.C54_fresh_fits
audit_axioms GLU.Utils.C54_history_fails
audit_axioms GLU.Utils.C54_repeat_fails
audit_axioms GLU.Run.C55_resume
audit_axioms GLU.Run.C55_exact
audit_axioms GLU.Run.C55_torn_fails
audit_axioms GLU.Run.C55_rand_fails
audit_axioms GLU.Run.C55_rand_witness
audit_axioms GLU.Run.C55_zero_fails
audit_axioms GLU.Run.C56_partial
audit_axioms GLU.Run.C56_near
audit_axioms GLU.Run.C56_race_fails
audit_axioms GLU.Run.C56_right_schedule
audit_axioms GLU.Run.C57_buffer
audit_axioms GLU.Run.C57_partial
audit_axioms GLU.Run.C57_distinct
audit_axioms GLU.Run.C57_dots_fails
audit_axioms GLU.Run.C57_relative_fails
audit_axioms GLU.Run.C57_only_dots
audit_axioms GLU.Run.C58_partial
audit_axioms GLU.Run.C58_others
audit_axioms GLU.Run.C58_new
audit_axioms GLU.Run.C58_unreadable_fails
audit_axioms GLU.Run.C58_open_fails
audit_axioms GLU.Run.C58_status_fails
audit_axioms GLU.Cuts.C59_list
audit_axioms GLU.Cuts.C59_reflect
audit_axioms GLU.Cuts.C59_boundary
audit_axioms GLU.Cuts.C59_config
audit_axioms GLU.Cuts.C59_cylinder
audit_axioms GLU.Cuts.C59_cylinder_fails
audit_axioms GLU.Cuts.C59_conical
audit_axioms GLU.Cuts.C59_cuts
audit_axioms GLU.Cuts.C59_even
audit_axioms GLU.Cuts.C59_local
audit_axioms GLU.Cuts.C59_momenta
audit_axioms GLU.Cuts.C60_partial
audit_axioms GLU.Cuts.C60_torn
audit_axioms GLU.Cuts.C60_refused_partial
audit_axioms GLU.Cuts.C60_fails
audit_axioms GLU.Cuts.C60_stuck
audit_axioms GLU.Cuts.C60_empty_fails
audit_axioms GLU.Cuts.C60_dir_fails
audit_axioms GLU.Cuts.C60_trip
audit_axioms GLU.Cuts.C60_triplets
audit_axioms GLU.Cuts.C61_search
audit_axioms GLU.Cuts.C61_conserved
audit_axioms GLU.Cuts.C61_odd
audit_axioms GLU.Cuts.C61_all
audit_axioms GLU.Cuts.C61_position
audit_axioms GLU.Cuts.C61_ratio_fails
audit_axioms GLU.Run.C62_partial
audit_axioms GLU.Run.C62_wrapper_partial
audit_axioms GLU.Run.C62_fails
audit_axioms GLU.Run.C62_processing_fails
audit_axioms GLU.Run.C62_argv_fails
audit_axioms GLU.Mat.C63_add_constant
audit_axioms GLU.Mat.C63_a_plus_b
audit_axioms GLU.Mat.C63_a_plus_CSxb
audit_axioms GLU.Mat.C63_a_plus_Sxb
audit_axioms GLU.Mat.C63_b_min_c
audit_axioms GLU.Mat.C63_dagger
audit_axioms GLU.Mat.C63_transpose
audit_axioms GLU.Mat.C63_diag
audit_axioms GLU.Mat.C63_diag_vect
audit_axioms GLU.Mat.C63_equiv
audit_axioms GLU.Mat.C63_identity
audit_axioms GLU.Mat.C63_M_times_c
audit_axioms GLU.Mat.C63_outerproduct
audit_axioms GLU.Mat.C63_zero_mat
audit_axioms GLU.Draught.C64_rejects
audit_axioms GLU.Draught.C64_outcome
audit_axioms GLU.Draught.C64_fails
audit_axioms GLU.Draught.C64_colouring_partial
audit_axioms GLU.Smear.C64_schedule_partial
audit_axioms GLU.Smear.C64_full_one_loop_fails
audit_axioms GLU.Smear.C65_flow
audit_axioms GLU.Smear.C65_smear_partial
audit_axioms GLU.Smear.C65_smear_wrong_slice
audit_axioms GLU.Smear.C65_smear_fails
audit_axioms GLU.Smear.C65_one_slice
audit_axioms GLU.Field.C66_average
audit_axioms GLU.Field.C66_range
audit_axioms GLU.Field.C66_max_partial
audit_axioms GLU.Field.C66_max_fails
audit_axioms GLU.Smear.C67_memcheap
audit_axioms GLU.Smear.C68_link_three_partial
audit_axioms GLU.Smear.C68_link_two_partial
audit_axioms GLU.Smear.C68_link_many_partial
audit_axioms GLU.Smear.C68_link_many
audit_axioms GLU.Smear.C68_smear4D_many
audit_axioms GLU.Smear.C68_smear3D_many
audit_axioms GLU.Smear.C68_gauge_many
audit_axioms GLU.Smear.C68_flow_many
audit_axioms GLU.Smear.C68_flow_gauge_many
audit_axioms GLU.Smear.C68_smear4D_partial
audit_axioms GLU.Smear.C68_smear3D_partial
audit_axioms GLU.Smear.C68_sweep_three_partial
audit_axioms GLU.Smear.C68_gauge_partial
audit_axioms GLU.Smear.C68_gauge_sweep_three_partial
audit_axioms GLU.Smear.C68_pure_gauge
audit_axioms GLU.Smear.C68_short_log
audit_axioms GLU.Smear.C68_flow_step_partial
audit_axioms GLU.Smear.C68_flow_gauge_partial
audit_axioms GLU.Mat.C69_su3
audit_axioms GLU.Mat.C69_su3_unit
audit_axioms GLU.Mat.C69_su2
audit_axioms GLU.Mat.C69_general3_partial
audit_axioms GLU.Mat.C69_general3_fails
audit_axioms GLU.Mat.C69_general2_partial
audit_axioms GLU.Mat.C69_general2_fails
audit_axioms GLU.Mat.C69_hermitian3_partial
audit_axioms GLU.Mat.C69_hermitian3_fails
audit_axioms GLU.Mat.C69_hermitian2
audit_axioms GLU.Mat.C70_hermitian
audit_axioms GLU.Mat.C70_algebra
audit_axioms GLU.Mat.C70_antihermitian
audit_axioms GLU.Mat.C70_traceless_antihermitian
audit_axioms GLU.Mat.C70_hermitian_short
audit_axioms GLU.Mat.C70_antihermitian_short_partial
audit_axioms GLU.Mat.C70_antihermitian_short_fails
audit_axioms GLU.Mat.C70_two_colours_needs_form
audit_axioms GLU.Mat.quatForm_su
audit_axioms GLU.Mat.quatForm_add
audit_axioms GLU.IO.C71_hirep
audit_axioms GLU.IO.C71_nersc
audit_axioms GLU.IO.C71_scidac_fails
audit_axioms GLU.Rng.C72_box_partial
audit_axioms GLU.Rng.C72_fails
audit_axioms GLU.Rng.C72_reachable
audit_axioms GLU.Utils.C73_scale_partial
audit_axioms GLU.Utils.C73_no_crossing
audit_axioms GLU.Utils.C73_inflection_fails
audit_axioms GLU.Utils.C73_complex_root_fails
audit_axioms GLU.Utils.C73_equal_fails
audit_axioms GLU.Utils.C73_last_fails
audit_axioms GLU.Utils.C73_two_fails
audit_axioms GLU.Run.C74_saved_partial
audit_axioms GLU.Run.C74_fails
audit_axioms GLU.Cuts.C75_pair_file_partial
audit_axioms GLU.Cuts.C75_corr_file_partial
audit_axioms GLU.Cuts.C75_time_file
audit_axioms GLU.Cuts.C75_static_file_partial
audit_axioms GLU.Cuts.C75_field_file_partial
audit_axioms GLU.Cuts.C75_moments_file
audit_axioms GLU.Cuts.C75_restored
audit_axioms GLU.Cuts.C75_lists
audit_axioms GLU.Cuts.C75_overflow
audit_axioms GLU.Field.C76_value_partial
audit_axioms GLU.Field.C76_gauge_invariant_partial
audit_axioms GLU.Field.C76_bounds_partial
audit_axioms GLU.Field.C76_pure_gauge_partial
audit_axioms GLU.Field.C76_symmetry_partial
audit_axioms GLU.Field.C76_reflection_partial
audit_axioms GLU.Field.C76_translation_partial
audit_axioms GLU.Field.moved_exists
audit_axioms GLU.Field.C76_threads
audit_axioms GLU.Field.C76_density
audit_axioms GLU.Field.C76_density_site_partial
audit_axioms GLU.Field.C76_constant
audit_axioms GLU.Field.C76_measurement
audit_axioms GLU.Field.C76_four_colours
audit_axioms GLU.Field.C76_four_dimensions_only
audit_axioms GLU.Smear.C77_fixed_partial
audit_axioms GLU.Smear.C77_fixed_stop_partial
audit_axioms GLU.Smear.C77_adaptive_partial
audit_axioms GLU.Smear.C77_shrink
audit_axioms GLU.Smear.C77_grow
audit_axioms GLU.Smear.C77_scale_fixed
audit_axioms GLU.Smear.C77_scale_adaptive
audit_axioms GLU.Smear.C77_lattice
audit_axioms GLU.Smear.C77_back_fails
audit_axioms GLU.Smear.C77_label_fails
audit_axioms GLU.Smear.C77_meas_start_fails
audit_axioms GLU.Smear.C77_fine_fails
audit_axioms GLU.Smear.C77_status_fails
audit_axioms GLU.Smear.C77_alloc_fails
audit_axioms GLU.Smear.C77_last_fails
audit_axioms GLU.Rng.C78_kiss_period
audit_axioms GLU.Rng.C78_kiss_threads
audit_axioms GLU.Rng.C78_kiss_nonzero
audit_axioms GLU.Rng.C78_kiss_seed_fails
audit_axioms GLU.Rng.C78_xor_threads
audit_axioms GLU.Rng.C78_xor_nonzero
audit_axioms GLU.Rng.C78_mwc1038_fails
audit_axioms GLU.Rng.C78_mwc1038_seeded_fails
audit_axioms GLU.Rng.C78_mwc4096_fails
audit_axioms GLU.Rng.C78_mwc4096_seeded_fails
audit_axioms GLU.Gfix.C79_step
audit_axioms GLU.Gfix.C79_step_defined
audit_axioms GLU.Gfix.C79_landau_partial
audit_axioms GLU.Gfix.C79_coulomb_partial
audit_axioms GLU.Gfix.C79_order_partial
audit_axioms GLU.Gfix.C79_slice_order_partial
audit_axioms GLU.Gfix.C79_undefined
audit_axioms GLU.Gfix.C79_defined
audit_axioms GLU.Gfix.C80_theta
audit_axioms GLU.Gfix.C80_gradient
audit_axioms GLU.Gfix.C80_zero
audit_axioms GLU.Gfix.C80_fast
audit_axioms GLU.Gfix.C80_fast_two_fails
audit_axioms GLU.Gfix.C80_functional
audit_axioms GLU.Gfix.C81_mag
audit_axioms GLU.Gfix.C81_mag_su
audit_axioms GLU.Gfix.C81_complete
audit_axioms GLU.Gfix.C81_canonical
audit_axioms GLU.Gfix.C81_axial
audit_axioms GLU.Gfix.C82_step
audit_axioms GLU.Gfix.C82_defined
audit_axioms GLU.Gfix.C82_slope
audit_axioms GLU.Gfix.C82_uphill
audit_axioms GLU.Gfix.C82_raises
audit_axioms GLU.Gfix.C82_line
audit_axioms GLU.Gfix.C82_minimum_partial
audit_axioms GLU.Gfix.C82_minimum_fails
audit_axioms GLU.Gfix.C82_facg_partial
audit_axioms GLU.Gfix.C82_fasd_partial
audit_axioms GLU.Gfix.C82_alloc_fails
audit_axioms GLU.Gfix.C82_one_iteration_fails
audit_axioms GLU.Gfix.C82_fasd_defined
audit_axioms GLU.Gfix.C82_facg_defined
audit_axioms GLU.Gfix.C82_inner_two
audit_axioms GLU.Gfix.C82_inner_three
audit_axioms GLU.Gfix.C82_inner_many
audit_axioms GLU.Gfix.C82_inner_fails
audit_axioms GLU.Gfix.C83_landau_partial
audit_axioms GLU.Gfix.C83_facg_converged
audit_axioms GLU.Gfix.C83_fasd_fails
audit_axioms GLU.Gfix.C83_unread_fails
audit_axioms GLU.Gfix.C83_unread_witness_fails
audit_axioms GLU.Gfix.C83_gives_up
audit_axioms GLU.Gfix.C83_ignored_fails
audit_axioms GLU.Smear.C84_sweeps
audit_axioms GLU.Smear.C84_projection
audit_axioms GLU.Smear.C84_stationary
audit_axioms GLU.Smear.C84_two_colours
audit_axioms GLU.Smear.C84_covariant_two
audit_axioms GLU.Smear.C84_fixes
audit_axioms GLU.Smear.C84_defined
audit_axioms GLU.Smear.C84_ape
audit_axioms GLU.Smear.C84_ape_still
audit_axioms GLU.Smear.C84_ape_defined
audit_axioms GLU.Smear.C84_ape_covariant_two
audit_axioms GLU.Smear.C84_undefined_fails
audit_axioms GLU.Smear.C84_covariance_fails
audit_axioms GLU.Gfix.C85_transform
audit_axioms GLU.Gfix.C85_orbit
audit_axioms GLU.Gfix.C85_coulomb
audit_axioms GLU.Gfix.C85_critical
audit_axioms GLU.Gfix.C85_gain
audit_axioms GLU.Gfix.C85_best_two
audit_axioms GLU.Gfix.C85_defined
audit_axioms GLU.Gfix.C85_aligned
audit_axioms GLU.Gfix.C85_temporal
audit_axioms GLU.Gfix.C85_undefined_fails
audit_axioms GLU.Gfix.C85_silent_fails
audit_axioms GLU.Field.C86_direct
audit_axioms GLU.Field.C86_fft
audit_axioms GLU.Field.C86_consistent
audit_axioms GLU.Field.C86_temporal
audit_axioms GLU.Field.C86_temporal_partial
audit_axioms GLU.Field.C86_temporal_fails
audit_axioms GLU.Field.C86_norm
audit_axioms GLU.Field.C86_real
audit_axioms GLU.Field.C87_slabs
audit_axioms GLU.Field.C87_full
audit_axioms GLU.Field.C87_race_fails
audit_axioms GLU.Field.C88_time_moments_partial
audit_axioms GLU.Field.C88_Q_partial
audit_axioms GLU.Field.C88_Q2_partial
audit_axioms GLU.Field.C88_fac
audit_axioms GLU.Field.C88_factorial_fails
audit_axioms GLU.Field.C88_overflow_fails
audit_axioms GLU.Field.C88_zeroth_fails
audit_axioms GLU.Smear.C89_simultaneous
audit_axioms GLU.Smear.C89_hypercube
audit_axioms GLU.Smear.C89_fast
audit_axioms GLU.Smear.C89_spatial
audit_axioms GLU.Smear.C89_ape_special_unitary
audit_axioms GLU.Smear.C89_ape_covariant_two_partial
audit_axioms GLU.Smear.C89_stout_partial
audit_axioms GLU.Smear.C89_stout_covariant_partial
audit_axioms GLU.Smear.C89_ape_still
audit_axioms GLU.Smear.C89_stout_still
audit_axioms GLU.Smear.C89_weights_agree
audit_axioms GLU.Smear.C89_weights_partial
audit_axioms GLU.Smear.C89_spatial_weights_fails
audit_axioms GLU.Smear.C90_paths
audit_axioms GLU.Smear.C90_staples_partial
audit_axioms GLU.Smear.C90_one_loop_partial
audit_axioms GLU.Smear.C90_one_loop_fails
audit_axioms GLU.Smear.C90_gauge
audit_axioms GLU.Smear.C90_reads
audit_axioms GLU.Smear.C90_sweep
audit_axioms GLU.Smear.C90_weights_partial
audit_axioms GLU.Smear.C90_weights_fails
audit_axioms GLU.Cuts.C91_propagators_partial
audit_axioms GLU.Cuts.C91_nonneg
audit_axioms GLU.Cuts.C91_landau
audit_axioms GLU.Cuts.C91_landau_output_partial
audit_axioms GLU.Cuts.C91_odd_fails
audit_axioms GLU.Cuts.zero_middle
audit_axioms GLU.Cuts.C92_fft
audit_axioms GLU.Cuts.C92_pointsource
audit_axioms GLU.Cuts.C92_sparse
audit_axioms GLU.Cuts.C92_symmetric
audit_axioms GLU.Cuts.C92_builds_fail
audit_axioms GLU.Cuts.C92_spacing
audit_axioms GLU.Cuts.C92_one_thread
audit_axioms GLU.Cuts.C92_race_out_of_bounds
audit_axioms GLU.Cuts.C92_race_lost
audit_axioms GLU.Cuts.C93_exceptional_partial
audit_axioms GLU.Cuts.C93_lies_partial
audit_axioms GLU.Cuts.C93_average
audit_axioms GLU.Cuts.C93_landau
audit_axioms GLU.Cuts.C93_builds_fail
audit_axioms GLU.Cuts.C94_instantaneous_partial
audit_axioms GLU.Cuts.C94_nonneg
audit_axioms GLU.Cuts.C94_energy_sum
audit_axioms GLU.Cuts.C95_names_partial
audit_axioms GLU.Cuts.C95_conical
audit_axioms GLU.Cuts.C95_conical_differ
audit_axioms GLU.U1.C96_momenta_partial
audit_axioms GLU.U1.C96_fields_partial
audit_axioms GLU.U1.C96_links
audit_axioms GLU.U1.C96_squares
audit_axioms GLU.U1.C96_odd_extent
audit_axioms GLU.U1.C96_three_dimensions
audit_axioms GLU.U1.C96_bound_short
audit_axioms GLU.U1.C97_plaquettes
audit_axioms GLU.U1.C97_rectangles
audit_axioms GLU.U1.C97_ranges
audit_axioms GLU.U1.C97_norm
audit_axioms GLU.U1.C97_norm_zero
audit_axioms GLU.U1.C97_gauge_invariant
audit_axioms GLU.U1.C97_windings_partial
audit_axioms GLU.U1.C97_turn_missed
audit_axioms GLU.U1.C97_no_current_partial
audit_axioms GLU.U1.C97_components
audit_axioms GLU.U1.C97_small_angles_partial
audit_axioms GLU.U1.C97_false_monopoles
audit_axioms GLU.Cuts.C98_same
audit_axioms GLU.Cuts.C98_twice_partial
audit_axioms GLU.Cuts.C98_normalisation
audit_axioms GLU.Cuts.C98_fails
audit_axioms GLU.Rng.C99_order
audit_axioms GLU.Rng.C99_streams_partial
audit_axioms GLU.Rng.C99_shared_iterations_fail
audit_axioms GLU.Rng.C99_neighbour_seeds
