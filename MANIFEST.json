{
 "claims": [
  {
   "property": "C01",
   "status": "proved",
   "theorems": [
    "GLU.Geom.C01_index_coords_index",
    "GLU.Geom.C01_coords_index_coords",
    "GLU.Geom.C01_volume",
    "GLU.Geom.C01_slice"
   ],
   "note": "All shapes with ND >= 2, positive extents and volume below 2^31."
  },
  {
   "property": "C02",
   "status": "proved",
   "theorems": [
    "GLU.Geom.C02_step",
    "GLU.Geom.C02_inverse",
    "GLU.Geom.C02_commute",
    "GLU.Geom.C02_period",
    "GLU.Geom.C02_period_minimal"
   ],
   "note": "Forward/backward tables of init_navig via gen_shift, every shape."
  },
  {
   "property": "C03",
   "status": "partial",
   "theorems": [
    "GLU.Geom.C03_momconv_even_partial",
    "GLU.Geom.C03_roundtrip_even_partial",
    "GLU.Geom.C03_pipi_site",
    "GLU.Geom.C03_pipi_site_injective",
    "GLU.Geom.C03_odd_extent_fails"
   ],
   "note": "Holds when the converted extents are even; for odd extents the conversion is wrong (negation proved). The (-pi,pi) storage position is proved for every shape."
  },
  {
   "property": "C04",
   "status": "partial",
   "theorems": [
    "GLU.Geom.C04_translation_partial",
    "GLU.Geom.C04_far_negative_fails"
   ],
   "note": "Holds for separations not below minus one extent; below that unsigned wrap-around gives a wrong site (negation proved)."
  },
  {
   "property": "C05",
   "status": "proved",
   "theorems": [
    "GLU.Geom.C05_displacement",
    "GLU.Geom.C05_rsq_minimal"
   ],
   "note": ""
  },
  {
   "property": "C06",
   "status": "proved",
   "theorems": [
    "GLU.Geom.C06_hirep_permutation",
    "GLU.Geom.C06_hirep_order"
   ],
   "note": ""
  },
  {
   "property": "C07",
   "status": "proved",
   "theorems": [
    "GLU.Draught.C07_partition",
    "GLU.Draught.C07_success_iff"
   ],
   "note": "For the two lengths the code uses (product of the first DIR extents). Success exactly when there are at least two sites."
  },
  {
   "property": "C08",
   "status": "partial",
   "theorems": [
    "GLU.Draught.C08_neighbours_differ_iff",
    "GLU.Draught.C08_neighbours_differ_partial",
    "GLU.Draught.C08_extent_seven_fails"
   ],
   "note": "Exact condition proved: holds iff no included odd extent is 1 modulo 3; negation with extent 7."
  },
  {
   "property": "C09",
   "status": "proved",
   "theorems": [
    "GLU.Sched.C09_schedule_independent",
    "GLU.Sched.C09_sequential_schedules_finish",
    "GLU.Sched.C09_extent_seven_race"
   ],
   "note": "Every interleaving of single link accesses. The colour condition is shown necessary by a race on 7 x 2."
  },
  {
   "property": "C10",
   "status": "partial",
   "theorems": [
    "GLU.Mat.C10_multab",
    "GLU.Mat.C10_multabdag",
    "GLU.Mat.C10_multab_dag",
    "GLU.Mat.C10_multab_atomic_left",
    "GLU.Mat.C10_multab_atomic_right",
    "GLU.Mat.C10_multab_dagdag_partial",
    "GLU.Mat.C10_multab_dagdag_generic",
    "GLU.Mat.C10_multab_dagdag_generic_fails"
   ],
   "note": "Every number of colours for all products except multab_dagdag, which is right only for two and three colours (negation for every NC > 3 proved)."
  },
  {
   "property": "C100",
   "status": "partial",
   "theorems": [
    "GLU.Gfix.C100_best_partial",
    "GLU.Gfix.C100_orbit",
    "GLU.Gfix.C100_count",
    "GLU.Gfix.C100_none_fails",
    "GLU.Gfix.C100_none_witness_fails",
    "GLU.Gfix.C100_failure_hidden",
    "GLU.Gfix.C100_no_memory"
   ],
   "note": "Proved for every fixing routine: orbit (C100_orbit), the choice of the best converged copy (C100_best_partial) and the count (C100_count). Missing: if no copy is accepted the field is overwritten with uninitialised memory (C100_none_fails, with a field for which this happens in C100_none_witness_fails); a final run that gives up is not recognised by the driver (C100_failure_hidden), and a failed allocation looks like a converged run (C100_no_memory). WORST_COPY is not treated."
  },
  {
   "property": "C101",
   "status": "partial",
   "theorems": [
    "GLU.Gfix.C101_stop_partial",
    "GLU.Gfix.C101_orbit",
    "GLU.Gfix.C101_slices",
    "GLU.Gfix.C101_local",
    "GLU.Gfix.C101_returns",
    "GLU.Gfix.C101_returns_iff",
    "GLU.Gfix.C101_fixed_fails",
    "GLU.Gfix.C101_fixed_run_fails",
    "GLU.Gfix.C101_failure_hidden",
    "GLU.Gfix.C101_one_iteration_fails",
    "GLU.Gfix.C101_one_slice_fails",
    "GLU.Gfix.C101_one_site_fails",
    "GLU.Gfix.C101_no_memory_fails"
   ],
   "note": "Proved: orbit and plaquette (C101_orbit), the matrices of every slice and the iteration count (C101_slices), dependence on the own slice only (C101_local), the two ways a slice is left (C101_stop_partial), and for two or three colours without Fourier acceleration the configurations on which a run can return (C101_returns, C101_returns_iff). Missing: a slice that satisfies the gauge condition leads to a division by zero (C101_fixed_fails, C101_fixed_run_fails); giving up after eight restarts is not reported (C101_failure_hidden); with at most one iteration allowed no slice is left converged (C101_one_iteration_fails); one time slice (C101_one_slice_fails) and one site per slice (C101_one_site_fails) are not handled; a failed allocation frees an unset pointer (C101_no_memory_fails)."
  },
  {
   "property": "C102",
   "status": "partial",
   "theorems": [
    "GLU.Gfix.C102_converged_partial",
    "GLU.Gfix.C102_planes",
    "GLU.Gfix.C102_three",
    "GLU.Gfix.C102_three_sharp",
    "GLU.Gfix.C102_two_site",
    "GLU.Gfix.C102_two_fails",
    "GLU.Gfix.C102_many_site",
    "GLU.Gfix.C102_many_fails"
   ],
   "note": "Proved: the planes are i times the divergence of the rotated links (C102_planes); for three colours the measure is between a third and three times the squared divergence (C102_three, reached: C102_three_sharp), so a slice left with measure tr had mean squared divergence at most 3 tr, and at least tr/3, one step before (C102_converged_partial, if the acceleration does not shorten the direction). Missing: the measure is taken before the last step. Two colours leave the diagonal out (C102_two_site): diagonal fields count as converged after one iteration for every accuracy (C102_two_fails). Four or more colours also leave it out of the first length (C102_many_site): diagonal fields lead to a division by zero (C102_many_fails)."
  },
  {
   "property": "C103",
   "status": "partial",
   "theorems": [
    "GLU.Gfix.C103_best_partial",
    "GLU.Gfix.C103_line",
    "GLU.Gfix.C103_step"
   ],
   "note": "Proved on every lattice: the values used are the functional before the step and after steps of 0.17 and 0.34, up to a constant that does not matter (C103_line); the step is the vertex of the parabola, replaced by 0.34 or 0.08 outside the interval (C103_step); it is the best point of the parabola when that is open downwards and rises at the start (C103_best_partial). Missing: for other shapes it is not, as in C82_minimum_fails; that such a shape occurs in a run is not shown."
  },
  {
   "property": "C104",
   "status": "partial",
   "theorems": [
    "GLU.Mat.C104_three_partial",
    "GLU.Mat.C104_roundtrip_partial",
    "GLU.Mat.C104_hermitian",
    "GLU.Mat.C104_identity_unset",
    "GLU.Mat.C104_fails",
    "GLU.Mat.C104_sinc",
    "GLU.Mat.C104_short3",
    "GLU.Mat.C104_two_partial",
    "GLU.Mat.C104_two_inexact",
    "GLU.Mat.C104_two_fails",
    "GLU.Mat.C104_short2"
   ],
   "note": "Three colours: proved for every link whose eigenvalues are at least 2e-13 apart; Hermitian and traceless for every link but the identity. Fails for the identity (the result is not written; the short version divides by zero) and for diag(-1,-1,1) (division by zero). Two colours: exact for angles from 1e-4 on, within 2e-9 below, where the expansion uses the angle in place of its square; fails for minus one (division by zero). Exact arithmetic; more colours not modelled."
  },
  {
   "property": "C105",
   "status": "partial",
   "theorems": [
    "GLU.Field.C105_links_partial",
    "GLU.Field.C105_where",
    "GLU.Field.C105_nowhere",
    "GLU.Field.C105_fails",
    "GLU.Field.C105_unsupported"
   ],
   "note": "The property is false. Every link is set and special unitary up to the error of exponentiate (C105_links_partial). Asing adds all four components of the position where only the one along the link belongs: the matrix that is exponentiated belongs to the transporter only where the other three add up to zero (C105_where), which no site of any lattice meets (C105_nowhere); next to the centre each link is off by more than a quarter in some diagonal entry (C105_fails). In other than four dimensions the failure is dropped and an unset field is accepted (C105_unsupported)."
  },
  {
   "property": "C106",
   "status": "partial",
   "theorems": [
    "GLU.Cuts.C106_projector",
    "GLU.Cuts.C106_longitudinal",
    "GLU.Cuts.C106_tolerance",
    "GLU.Cuts.C106_file_partial",
    "GLU.Cuts.C106_fails",
    "GLU.Cuts.C106_odd",
    "GLU.Cuts.C106_stale",
    "GLU.Cuts.C106_conserved",
    "GLU.Cuts.C106_linear_partial",
    "GLU.Cuts.C106_sine_fails",
    "GLU.Cuts.C106_orbit_fails",
    "GLU.Cuts.C106_edge_fails",
    "GLU.Cuts.C106_rotation",
    "GLU.Cuts.C106_translation",
    "GLU.Cuts.C106_zero",
    "GLU.Cuts.C106_vanishing_first"
   ],
   "note": "The property is false. The arrays have one entry more than there are triplets: its index is never set, the projector is computed from it and the values of memory are written to the file (C106_fails). An odd maximum overruns the array of counts (C106_odd); the counts are kept in a file whose name does not contain the geometry they depend on (C106_stale); a maximum that reaches the edge of the zone gives the index -1 (C106_edge_fails). In the default build the projector uses 2 sin(p) and the normalisation 2 sin(p/2) of the first triplet of the orbit (C106_sine_fails, C106_orbit_fails). Proved: every other entry of the file is the two- and three-point function of its triplet (C106_file_partial), the projector contracted with the vertex of the action is -p^2 in every dimension but two (C106_projector), products of momenta do not contribute (C106_longitudinal), with PSQ_MOM the normalisation is exact (C106_linear_partial), rotations and shifts. Missing: LIE_PROJECTION, CUT_FORWARD, the other projectors, a warm cache of triplets and projectors."
  },
  {
   "property": "C107",
   "status": "partial",
   "theorems": [
    "GLU.Cuts.C107_correlators",
    "GLU.Cuts.C107_direct_partial",
    "GLU.Cuts.C107_direct_fails",
    "GLU.Cuts.C107_reflection",
    "GLU.Cuts.C107_residual",
    "GLU.Cuts.C107_closed",
    "GLU.Cuts.C107_origin"
   ],
   "note": "With FFTW proved in full for at least three dimensions. Without FFTW the first number is the conjugate (opposite displacement), and the second fails: the conjugate is missing. Smearing before, allocation failures and the NULL list are not part of the model."
  },
  {
   "property": "C108",
   "status": "partial",
   "theorems": [
    "GLU.Field.C108_values",
    "GLU.Field.C108_ends",
    "GLU.Field.C108_order",
    "GLU.Field.C108_drawn",
    "GLU.Field.C108_start_partial",
    "GLU.Field.C108_field_partial",
    "GLU.Field.C108_start_fails",
    "GLU.Field.C108_transform_partial",
    "GLU.Field.C108_unit",
    "GLU.Field.C108_reunit_partial",
    "GLU.Field.C108_case"
   ],
   "note": "The random start is special unitary only for usable numbers: a pair at the centre of the unit circle gives links that are not finite, and the start reports nothing (C108_start_fails). Proved: which numbers each matrix is made from (C108_values), when the loop ends (C108_ends), independence of the interleaving (C108_order), and all other statements for usable numbers. Allocation failures and OBC_HACK are not part of the model."
  },
  {
   "property": "C109",
   "status": "partial",
   "theorems": [
    "GLU.Mat.C109_defined",
    "GLU.Mat.C109_projection_partial",
    "GLU.Mat.C109_fixed",
    "GLU.Mat.C109_multiple",
    "GLU.Mat.C109_converges",
    "GLU.Mat.C109_conditioned",
    "GLU.Mat.C109_slow",
    "GLU.Mat.C109_fails",
    "GLU.Smear.C109_ape_partial",
    "GLU.Smear.C109_ape_still",
    "GLU.Smear.C109_ape_singular"
   ],
   "note": "Proved: defined exactly for invertible matrices (C109_defined), what a success means (C109_projection_partial: the determinant is positive but one only up to the tolerance), special unitary matrices and their multiples (C109_fixed, C109_multiple), success below a condition number (C109_converges, C109_conditioned), the APE link where the link has the larger weight (C109_ape_partial). The property is false beyond that: the passes run out for stretched matrices and the caller, who ignores the result, keeps the unprojected matrix (C109_slow, C109_fails); with the weights 0.4 and 0.6/6 the sum may be singular (C109_ape_singular). The root used by the logarithm (denman_rootY) is modelled but has no theorem."
  },
  {
   "property": "C11",
   "status": "partial",
   "theorems": [
    "GLU.Mat.C11_multab_suNC",
    "GLU.Mat.C11_multabdag_suNC",
    "GLU.Mat.C11_multab_dag_suNC",
    "GLU.Mat.C11_multab_dagdag_suNC_partial",
    "GLU.Mat.C11_multab_dagdag_suNC_fails"
   ],
   "note": "Every number of colours except the double-dagger product, which fails beyond three colours (negation proved for four)."
  },
  {
   "property": "C110",
   "status": "partial",
   "theorems": [
    "GLU.Smear.C110_dispatch_partial",
    "GLU.Smear.C110_direction_fails",
    "GLU.Smear.C110_refused",
    "GLU.Smear.C110_refused_clean",
    "GLU.Smear.C110_links_partial",
    "GLU.Smear.C110_memory",
    "GLU.Smear.C110_status_fails",
    "GLU.Smear.C110_estimate_exact",
    "GLU.Smear.C110_estimate_partial",
    "GLU.Smear.C110_estimate_colours_fails",
    "GLU.Smear.C110_estimate_history_fails"
   ],
   "note": "Proved for every request except a flow restricted to the spatial directions, which runs in all of them (C110_direction_fails). The links are shown to be independent of memory and history for smearings without flow when the work space can be allocated; otherwise success is reported and nothing happens (C110_status_fails). The memory estimate is exact but not compared for four and more colours (C110_estimate_colours_fails) or after a spatial smearing (C110_estimate_history_fails)."
  },
  {
   "property": "C111",
   "status": "partial",
   "theorems": [
    "GLU.IO.C111_same",
    "GLU.IO.C111_short",
    "GLU.IO.C111_short_links",
    "GLU.IO.C111_round_trip",
    "GLU.IO.C111_choice",
    "GLU.IO.C111_bqcd_partial",
    "GLU.IO.C111_bqcd_double_fails",
    "GLU.IO.C111_bqcd_history_fails"
   ],
   "note": "Links, the five NERSC, MILC and SciDAC checksums and the value returned agree for both readers, for every file. BQCD checksum: proved for single precision; undefined in the fast reader for double precision (C111_bqcd_double_fails) and wrong after another file was read with little memory (C111_bqcd_history_fails). Files in another precision than the program are not modelled."
  },
  {
   "property": "C112",
   "status": "proved",
   "theorems": [
    "GLU.Mat.Sse.C112_macros",
    "GLU.Mat.Sse.C112_multab",
    "GLU.Mat.Sse.C112_multabdag",
    "GLU.Mat.Sse.C112_multab_dag",
    "GLU.Mat.Sse.C112_multab_dagdag",
    "GLU.Mat.Sse.C112_multab_atomic_left",
    "GLU.Mat.Sse.C112_multab_atomic_right",
    "GLU.Mat.Sse.C112_multab_suNC",
    "GLU.Mat.Sse.C112_multabdag_suNC",
    "GLU.Mat.Sse.C112_multab_dag_suNC",
    "GLU.Mat.Sse.C112_multab_dagdag_suNC",
    "GLU.Mat.Sse.C112_builds_agree",
    "GLU.Mat.Sse.C112_builds_agree_dagdag_fails"
   ],
   "note": "All products for all numbers of colours, instruction sets and admissible unrolling factors, in exact arithmetic. The product of two adjoints is right here for four and more colours, where the portable one is wrong (C112_builds_agree_dagdag_fails)."
  },
  {
   "property": "C113",
   "status": "partial",
   "theorems": [
    "GLU.Mat.Sse.C113_inverse_partial",
    "GLU.Mat.Sse.C113_regular_fails",
    "GLU.Mat.Sse.C113_singular_fails"
   ],
   "note": "The pivot is searched in the wrong array, so that rows are never exchanged: the result is the inverse exactly when all leading principal minors are nonzero, otherwise its last row is not a number and success is reported (C113_regular_fails: a special unitary matrix; C113_singular_fails)."
  },
  {
   "property": "C114",
   "status": "proved",
   "theorems": [
    "GLU.Mat.Sse.C114_LU_det",
    "GLU.Mat.Sse.C114_gram_reunit",
    "GLU.Mat.Sse.C114_special_unitary",
    "GLU.Mat.Sse.C114_defined",
    "GLU.Mat.Sse.C114_fixes"
   ],
   "note": "For every number of colours above one (determinant: every size above zero), both instruction sets and every content of the scratch array, in exact arithmetic."
  },
  {
   "property": "C115",
   "status": "proved",
   "theorems": [
    "GLU.Mat.Sse.C115_trace_abc",
    "GLU.Mat.Sse.C115_trace_abc_dag",
    "GLU.Mat.Sse.C115_trace_abc_dag_Re",
    "GLU.Mat.Sse.C115_Re_trace_abc_dag_suNC",
    "GLU.Mat.Sse.C115_Re_trace_abc_dag_suNC_any",
    "GLU.Mat.Sse.C115_two_colours_third_needed"
   ],
   "note": "All numbers of colours and instruction sets, in exact arithmetic. For two colours the short cut needs all three matrices special unitary, which its header comment asks for; the portable one needs only the first two (C115_two_colours_third_needed)."
  },
  {
   "property": "C116",
   "status": "proved",
   "theorems": [
    "GLU.Update.Sse.C116_only_subgroup",
    "GLU.Update.Sse.C116_shortened",
    "GLU.Update.Sse.C116_shortened_dag",
    "GLU.Update.Sse.C116_su2_rotate",
    "GLU.Update.Sse.C116_rotate",
    "GLU.Update.Sse.C116_overrelax"
   ],
   "note": "All numbers of colours, subgroup indices and instruction sets, in exact arithmetic; a zero norm is an undefined outcome in both builds."
  },
  {
   "property": "C117",
   "status": "proved",
   "theorems": [
    "GLU.Mat.Sse.C117_plaquette",
    "GLU.Mat.Sse.C117_gtransform",
    "GLU.Mat.Sse.C117_hermitian_proj_short",
    "GLU.Mat.Sse.C117_rotations"
   ],
   "note": "In exact arithmetic. A zero norm in a rotation is an undefined outcome in both builds. The portable plaquette for two colours does not compile (plaqs_links.c:193), so that the vector one is the only one."
  },
  {
   "property": "C118",
   "status": "partial",
   "theorems": [
    "GLU.Gfix.C118_max_partial",
    "GLU.Gfix.C118_max_one_thread",
    "GLU.Gfix.C118_max_lost",
    "GLU.Gfix.C118_constance",
    "GLU.Gfix.C118_constance_two_partial",
    "GLU.Gfix.C118_constance_two_fails",
    "GLU.Gfix.C118_constance_one_slice",
    "GLU.Gfix.C118_landau_constant"
   ],
   "note": "Maximum: with several threads the value reported is one of the local violations and zero only if all are zero, but need not be the largest: two threads can both pass the unprotected test and the smaller value can be stored last (C118_max_lost). With one thread it is the largest. Constance: full for other than two colours; for two colours the diagonal is compared with itself (gftests.c:98), so that a field can change in time and be reported constant (C118_constance_two_fails). With one time slice the number is not defined. Exact arithmetic."
  },
  {
   "property": "C119",
   "status": "partial",
   "theorems": [
    "GLU.Alloc.C119_field",
    "GLU.Alloc.C119_field_refused",
    "GLU.Alloc.C119_field_table_fails",
    "GLU.Alloc.C119_field_matrix_leaks",
    "GLU.Alloc.C119_smear4D_partial",
    "GLU.Alloc.C119_smear4D_refused_fails",
    "GLU.Alloc.C119_smear4D_unknown_fails",
    "GLU.Alloc.C119_read_leaks",
    "GLU.Alloc.C119_flow_partial",
    "GLU.Alloc.C119_flow_silent_fails",
    "GLU.Alloc.C119_flow_refused_fails",
    "GLU.Alloc.C119_flow_memcheap_fails",
    "GLU.Alloc.C119_FACG_partial",
    "GLU.Alloc.C119_FACG_silent_fails",
    "GLU.Alloc.C119_FACG_table_fails",
    "GLU.Alloc.C119_FACG_direction_fails"
   ],
   "note": "Proved when everything is granted (a field is usable and disjoint, smearing, the flow and the conjugate gradient give everything back) and when the very first request of a field is refused. Otherwise the claim is false, with proofs for all patterns: a refused table of a site is followed all the same; a refused matrix loses all the memory already granted; smear4D with any refused request is undefined, because the clean-up follows null; the same for an unknown projection; the flow reports success without having run when only its array of sums is refused, and is undefined when a field is refused; the memory-saving flow with improved smearing releases one time slice as two, also when nothing is refused; the conjugate gradient returns 0 iterations, or releases unset pointers. Partial: the Coulomb and HYP routines are not modelled."
  },
  {
   "property": "C12",
   "status": "proved",
   "theorems": [
    "GLU.Mat.C12_trace",
    "GLU.Mat.C12_speed_trace_Re",
    "GLU.Mat.C12_trace_ab",
    "GLU.Mat.C12_trace_ab_dag",
    "GLU.Mat.C12_trace_ab_dag_Re",
    "GLU.Mat.C12_trace_ab_herm",
    "GLU.Mat.C12_trace_ab_herm_short",
    "GLU.Mat.C12_trace_prod_herm",
    "GLU.Mat.C12_trace_abc",
    "GLU.Mat.C12_trace_abc_dag",
    "GLU.Mat.C12_trace_abc_dag_Re",
    "GLU.Mat.C12_Re_trace_abc_dag_suNC"
   ],
   "note": "All trace routines, unrolled and generic, against Matrix.trace."
  },
  {
   "property": "C120",
   "status": "partial",
   "theorems": [
    "GLU.Mat.C120_root_partial",
    "GLU.Mat.C120_root_converges",
    "GLU.Mat.C120_root_singular_fails",
    "GLU.Mat.C120_series",
    "GLU.Mat.C120_reports",
    "GLU.Mat.C120_traceless",
    "GLU.Mat.C120_hermitian_partial",
    "GLU.Mat.C120_one",
    "GLU.Mat.C120_outside_fails",
    "GLU.Mat.C120_root_minus_fails",
    "GLU.Mat.C120_minus_fails"
   ],
   "note": "Proved for all colours: the root of a unitary matrix without eigenvalue -1 has positive real part, square U Y†Y and Y†Y = 1 up to the tolerance, and is found unless an eigenvalue is within about 2^-17 of -1; after the roots the result is exactly the stated partial sum, cut at the first order in 4..23 that passes the test; it is traceless with Hermitian off-diagonal entries, and Hermitian if the last root is exactly unitary; the logarithm of one is zero. Missing: a bound on exp(iQ) - U. The claim is false at eigenvalue -1: for diag(-1,-1,1,1) in SU(4) the root reports success with a zero row and the logarithm then uses unwritten memory. A series that does not converge is never reported; the table is read outside its bounds instead (shown for the unitary matrix i without roots)."
  },
  {
   "property": "C121",
   "status": "partial",
   "theorems": [
    "GLU.Field.Step.C121_correlator",
    "GLU.Field.Step.C121_susceptibility",
    "GLU.Field.Step.C121_moments_partial",
    "GLU.Field.Step.C121_moments_fails",
    "GLU.Field.Step.C121_zero_fails",
    "GLU.Field.Step.C121_smear_fails"
   ],
   "note": "Correlators and susceptibilities are written under the number of smearings, in order, up to the first failure, which is reported. Refuted: correlators and moments are never measured before the first smearing, so one fewer than asked for is written (in the statement of C121_correlator); a failed moment still leads to a file that contains memory never set (C121_moments_fails); no measurements asked for means use of a refused block (C121_zero_fails); a failed smearing is not noticed (C121_smear_fails)."
  },
  {
   "property": "C122",
   "status": "partial",
   "theorems": [
    "GLU.Mat.C122_value",
    "GLU.Mat.C122_exact_partial",
    "GLU.Mat.C122_fails",
    "GLU.Mat.C122_repeated_fails",
    "GLU.Mat.C122_zero_fails",
    "GLU.Mat.C122_not_unitary_fails"
   ],
   "note": "The property is false: because the solver of C23 never uses the first point, the result is the exponential only if the first eigenvalue found is zero (C122_exact_partial) and otherwise differs whenever the exponentials are not all equal (C122_fails, with the value in C122_value); it is not even unitary on a diagonal matrix (C122_not_unitary_fails). A repeated eigenvalue, as of the zero matrix on a unit field, is a division by zero (C122_repeated_fails, C122_zero_fails). The eigenvalue library itself is taken by its contract."
  },
  {
   "property": "C123",
   "status": "partial",
   "theorems": [
    "GLU.Gfix.C123_test",
    "GLU.Gfix.C123_three_partial",
    "GLU.Gfix.C123_two_partial",
    "GLU.Gfix.C123_undefined",
    "GLU.Gfix.C123_identity_fails"
   ],
   "note": "Value, sign and zeros proved whenever the routine for the logarithm returns Hermitian traceless matrices (C123_test), which it does for three colours with eigenvalues apart (C123_three_partial) and for two colours without links equal to minus one (C123_two_partial). False otherwise: one link without a logarithm makes the number undefined (C123_undefined), so for three colours every field with a link equal to the identity, among them the unit field (C123_identity_fails)."
  },
  {
   "property": "C124",
   "status": "partial",
   "theorems": [
    "GLU.Run.Close.C124_defined",
    "GLU.Run.Close.C124_accepted",
    "GLU.Run.Close.C124_closed_partial",
    "GLU.Run.Close.C124_history_partial",
    "GLU.Run.Close.C124_missing_fails",
    "GLU.Run.Close.C124_leak_fails"
   ],
   "note": "False in two cases: a configuration that needs no file, without a file, on a machine with too little memory closes a null pointer (C124_missing_fails, and by C124_defined only then); a field that is refused by the allocator leaves the file open (C124_leak_fails, and by C124_history_partial only then)."
  },
  {
   "property": "C125",
   "status": "partial",
   "theorems": [
    "GLU.Sched.Team.C125_reads",
    "GLU.Sched.Team.C125_same",
    "GLU.Sched.Team.C125_together",
    "GLU.Sched.Team.C125_progress",
    "GLU.Sched.Team.C125_passes",
    "GLU.Sched.Team.C125_no_race",
    "GLU.Sched.Team.C125_landau_sd",
    "GLU.Sched.Team.C125_landau_cg",
    "GLU.Sched.Team.C125_coulomb_sd",
    "GLU.Sched.Team.C125_coulomb_cg",
    "GLU.Sched.Team.C125_landau_sd_left",
    "GLU.Sched.Team.C125_landau_cg_left",
    "GLU.Sched.Team.C125_coulomb_sd_left",
    "GLU.Sched.Team.C125_coulomb_cg_left",
    "GLU.Sched.Team.C125_landau_cg_search",
    "GLU.Sched.Team.C125_coulomb_cg_search",
    "GLU.Sched.Team.C125_loops",
    "GLU.Sched.Team.C125_no_race_partial",
    "GLU.Sched.Team.C125_clear_race_fails",
    "GLU.Sched.Team.hasty_parts"
   ],
   "note": "False in one place: in the conjugate gradient in Coulomb gauge all threads clear the whole shared array at once (C125_clear_race_fails); the other three loops have no race (C125_no_race_partial), and reading, deciding and leaving together are proved for all four, under the assumption that writing the same number at once from several threads does no harm. Not modelled: the shared result written by all threads with the same value; continuation runs that start with an uncleared array."
  },
  {
   "property": "C126",
   "status": "partial",
   "theorems": [
    "GLU.Sched.Restart.C126_one",
    "GLU.Sched.Restart.C126_together_partial",
    "GLU.Sched.Restart.C126_fails",
    "GLU.Sched.Restart.C126_alone",
    "GLU.Sched.Restart.C126_restarts",
    "GLU.Sched.Restart.C126_leaves",
    "GLU.Sched.Restart.C126_left"
   ],
   "note": "False: the verdict on the solution is a variable of each thread, which sees its own sites only, so when the rejected sites are not spread over all threads some threads start again and the others leave (C126_fails); together otherwise (C126_together_partial), in particular with one thread (C126_one)."
  },
  {
   "property": "C127",
   "status": "proved",
   "theorems": [
    "GLU.Update.C127_colour",
    "GLU.Update.C127_sweep",
    "GLU.Update.C127_plaquette",
    "GLU.Update.C127_change",
    "GLU.Update.C127_runs",
    "GLU.Update.C127_cold",
    "GLU.Update.C127_one_thread"
   ],
   "note": "Real arithmetic, built without IMPROVED_SMEARING and SOR. Division by a zero norm in an update is excluded by the definition of a run. For extents where the colouring fails (C08) and several threads nothing is claimed."
  },
  {
   "property": "C128",
   "status": "proved",
   "theorems": [
    "GLU.Update.C128_group",
    "GLU.Update.C128_runs",
    "GLU.Update.C128_two",
    "GLU.Update.C128_cold"
   ],
   "note": "Real arithmetic, built without IMPROVED_SMEARING and SOR and with USE_KP. Reads and writes of a link are single steps; as the value read is arbitrary in the proof this is no restriction for the claim."
  },
  {
   "property": "C129",
   "status": "proved",
   "theorems": [
    "GLU.Update.Draw.C129_kp",
    "GLU.Update.Draw.C129_given",
    "GLU.Update.Draw.C129_draw",
    "GLU.Update.Draw.C129_creutz",
    "GLU.Update.Draw.C129_creutz_given",
    "GLU.Update.Draw.C129_action",
    "GLU.Update.Draw.C129_hb",
    "GLU.Update.Draw.C129_direction",
    "GLU.Update.Draw.C129_product"
   ],
   "note": "Real arithmetic; the random numbers are assumed independent and uniform on [0,1). If all 43 draws are rejected the last one is used all the same (C28): the claim is for the event that one is accepted, which has a positive probability. That the product with a fixed element preserves the measure of the group is in C130."
  },
  {
   "property": "C13",
   "status": "proved",
   "theorems": [
    "GLU.Mat.C13_rebuild_pack",
    "GLU.Mat.C13_rebuild_pack_anti",
    "GLU.Mat.C13_pack_rebuild"
   ],
   "note": "Both round trips, every number of colours."
  },
  {
   "property": "C130",
   "status": "proved",
   "theorems": [
    "GLU.Update.Haar.C130_overrelax",
    "GLU.Update.Haar.C130_bath",
    "GLU.Update.Haar.C130_heat"
   ],
   "note": "Real arithmetic. A link whose projection is undefined (a division by zero in the code) is left alone by the maps in the theorems. For the heat bath the density of the drawn number is that of C129, so the case of 43 rejected draws is left out."
  },
  {
   "property": "C131",
   "status": "proved",
   "theorems": [
    "GLU.Update.Haar.C131_overrelax",
    "GLU.Update.Haar.C131_heat",
    "GLU.Update.Haar.C131_update"
   ],
   "note": "Real arithmetic. Overrelaxation: every odd extent is not 1 modulo 3, so that the colouring is proper (C08, C127 otherwise). Heat bath: for any sequence of links and subgroups on extents of at least two, with the density of C129 for the drawn number, so the case of 43 rejected draws is left out. A link whose projection is undefined (a division by zero in the code) is left alone by the maps in the theorems."
  },
  {
   "property": "C132",
   "status": "proved",
   "theorems": [
    "GLU.Gfix.C132_poisson",
    "GLU.Gfix.C132_slice",
    "GLU.Gfix.C132_unique",
    "GLU.Gfix.C132_uphill",
    "GLU.Gfix.C132_raises",
    "GLU.Gfix.C132_facg_defined"
   ],
   "note": "Real arithmetic; the transforms are those the FFTW manual states, FFTW itself is not modelled. The extrapolation from a positive slope to the step the line search takes is C82."
  },
  {
   "property": "C133",
   "status": "partial",
   "theorems": [
    "GLU.Cuts.C133_torn",
    "GLU.Cuts.C133_cached",
    "GLU.Cuts.C133_three",
    "GLU.Cuts.C133_crash_partial",
    "GLU.Cuts.C133_fails",
    "GLU.Cuts.C133_stuck",
    "GLU.Cuts.C133_dir_fails"
   ],
   "note": "Build with NOT_CONDOR_MODE, little endian. The undisturbed cache gives back the tables (C133_cached, C133_three). After a stop during the write C133_torn says exactly what a later run reads: from an empty file nothing, so that every contraction is silently zero (C133_fails, for good: C133_stuck); from any other incomplete file memory that was never set or a null pointer; never another number for the antisymmetric contraction (C133_crash_partial). A file that cannot be created is written to a null stream (C133_dir_fails)."
  },
  {
   "property": "C134",
   "status": "partial",
   "theorems": [
    "GLU.Cuts.C134_count",
    "GLU.Cuts.C134_good",
    "GLU.Cuts.C134_sound",
    "GLU.Cuts.C134_determinant_fails"
   ],
   "note": "Count, completeness and soundness within the tolerance proved. The determinant is not part of the test although the comment in the code says non-SU(NC) links are found: C134_determinant_fails. Parallel reductions are sums."
  },
  {
   "property": "C135",
   "status": "proved",
   "theorems": [
    "GLU.Cuts.C135_value",
    "GLU.Cuts.C135_zero"
   ],
   "note": "Real arithmetic; the fields are those after the logarithm or projection, smearing and output are not part of the model."
  },
  {
   "property": "C136",
   "status": "proved",
   "theorems": [
    "GLU.Field.C136_polyakov"
   ],
   "note": "Build with POLY_MEAS. Each thread only writes its own slots; sums of real numbers, so rounding is not part of the model."
  },
  {
   "property": "C137",
   "status": "proved",
   "theorems": [
    "GLU.Gfix.C137_slice",
    "GLU.Gfix.C137_orbit",
    "GLU.Gfix.C137_measure",
    "GLU.Gfix.C137_three",
    "GLU.Gfix.C137_defined",
    "GLU.Gfix.C137_fixed"
   ],
   "note": "Build with GLU_GFIX_SD; that a run ends is not claimed. The conjugate gradients are C101, where the last sentence fails."
  },
  {
   "property": "C14",
   "status": "partial",
   "theorems": [
    "GLU.Mat.C14_rebuild_shorten_two",
    "GLU.Mat.C14_rebuild_shorten_three_partial",
    "GLU.Mat.C14_block_diagonal_fails"
   ],
   "note": "Two colours always; three colours when the modulus of the first entry squared stays above the guard used by the code, the block-diagonal case is a proved failure."
  },
  {
   "property": "C15",
   "status": "proved",
   "theorems": [
    "GLU.Mat.C15_special_unitary",
    "GLU.Mat.C15_defined",
    "GLU.Mat.C15_fixes",
    "GLU.Mat.C15_gram_schmidt",
    "GLU.Mat.C15_unique"
   ],
   "note": "Every number of colours; division by a vanishing norm is a separate outcome that cannot occur for independent leading vectors. The result is the Gram-Schmidt orthonormalisation of the leading vectors, and the only such special unitary matrix."
  },
  {
   "property": "C16",
   "status": "proved",
   "theorems": [
    "GLU.Mat.C16_complete_top"
   ],
   "note": "Every number of colours."
  },
  {
   "property": "C17",
   "status": "proved",
   "theorems": [
    "GLU.Mat.C17_matrix_power"
   ],
   "note": "Every matrix size and power."
  },
  {
   "property": "C18",
   "status": "proved",
   "theorems": [
    "GLU.Mat.C18_LU_det",
    "GLU.Mat.C18_LU_det_overwrite",
    "GLU.Mat.C18_det",
    "GLU.Mat.C18_cofactor_transpose"
   ],
   "note": "Every size; det, LU_det, LU_det_overwrite and cofactor_transpose in double precision."
  },
  {
   "property": "C19",
   "status": "partial",
   "theorems": [
    "GLU.Mat.C19_inverse_partial",
    "GLU.Mat.C19_two_partial",
    "GLU.Mat.C19_two_singular_fails",
    "GLU.Mat.C19_inverse_adjoint",
    "GLU.Mat.C19_newton"
   ],
   "note": "Gauss-Jordan for every size: failure exactly for singular matrices, otherwise a two-sided inverse of finite entries; adjoint build proved; the closed two-colour formula never reports failure (negation proved for every singular matrix); Newton refinement squares the residual."
  },
  {
   "property": "C20",
   "status": "partial",
   "theorems": [
    "GLU.Mat.C20_exp_special_unitary",
    "GLU.Mat.C20_three_partial",
    "GLU.Mat.C20_two_partial",
    "GLU.Mat.C20_two_small_fails",
    "GLU.Mat.C20_many_partial",
    "GLU.Mat.C20_many",
    "GLU.Mat.C20_many_norm",
    "GLU.Mat.C20_many_small",
    "GLU.Mat.C20_short_many",
    "GLU.Mat.C20_short_three",
    "GLU.Mat.C20_short_two",
    "GLU.Mat.C20_short_many_partial"
   ],
   "note": "Against Mathlib's matrix exponential: three colours within 1e-17 entrywise for every argument and equal for separated eigenvalues; two colours within 2e-9 and equal off the series branch, where the result is proved not unitary; more than three colours (rational approximant, nested) special unitary and within (NC+1) rho^9/(2^24*25401600) of the exponential, rho the largest eigenvalue."
  },
  {
   "property": "C21",
   "status": "partial",
   "theorems": [
    "GLU.Mat.C21_three",
    "GLU.Mat.C21_three_d",
    "GLU.Mat.C21_three_f",
    "GLU.Mat.C21_two_partial",
    "GLU.Mat.C21_two_fails",
    "GLU.Mat.C21_many_partial",
    "GLU.Mat.C21_many_fails"
   ],
   "note": "Three colours proved (d, f and combined); for two colours the code returns one half of the trace instead of four times it, which is proved as the exact value and as a negation. For more than three colours the tables computed from the generators are right up to their tolerance for matrices with zeros on the diagonal; with a diagonal the wrong diagonal generators (C22) make the contraction wrong by a factor above 2^125, for every number of colours."
  },
  {
   "property": "C22",
   "status": "partial",
   "theorems": [
    "GLU.Mat.C22_hermitian",
    "GLU.Mat.C22_offdiagonal_partial",
    "GLU.Mat.C22_diagonal_fails"
   ],
   "note": "All generators Hermitian; off-diagonal ones traceless, normalised and orthogonal to all others; every diagonal one is proved to have a nonzero trace because an unsigned index is negated."
  },
  {
   "property": "C23",
   "status": "partial",
   "theorems": [
    "GLU.Mat.C23_solver_value",
    "GLU.Mat.C23_interpolates_partial",
    "GLU.Mat.C23_interpolates_only_if",
    "GLU.Mat.C23_solver_fails"
   ],
   "note": "Exact value of what the solver returns; it interpolates when the first point is zero, and (two or more points) only then or when all values are equal."
  },
  {
   "property": "C24",
   "status": "proved",
   "theorems": [
    "GLU.Mat.C24_sound",
    "GLU.Mat.C24_complete"
   ],
   "note": "Acceptance implies row orthonormality entrywise within PREC_TOL and column orthonormality within NC*PREC_TOL; every unitary matrix is accepted."
  },
  {
   "property": "C25",
   "status": "partial",
   "theorems": [
    "GLU.Mat.C25_mat_mult_vec_partial",
    "GLU.Mat.C25_three_colours_fails"
   ],
   "note": "Right for every number of colours except three; negation for three colours proved."
  },
  {
   "property": "C26",
   "status": "proved",
   "theorems": [
    "GLU.Update.C26_enumeration",
    "GLU.Update.C26_rotate",
    "GLU.Update.C26_shortened"
   ],
   "note": "Every number of colours; the table of subgroups enumerates each pair of rows once; row rotation, and the two shortened products used in gauge fixing."
  },
  {
   "property": "C27",
   "status": "proved",
   "theorems": [
    "GLU.Update.C27_overrelax",
    "GLU.Update.C27_projection_defined"
   ],
   "note": "Every staple; the update is undefined (0/0) exactly when a subgroup projection vanishes, which is characterised."
  },
  {
   "property": "C28",
   "status": "partial",
   "theorems": [
    "GLU.Update.C28_unit_partial",
    "GLU.Update.C28_fails",
    "GLU.Update.C28_link",
    "GLU.Update.C28_creutz",
    "GLU.Update.C28_creutz_fresh"
   ],
   "note": "The generated element is special unitary whenever one of the draws is accepted; if all are rejected it is not (negation). The stored link is special unitary in all cases because of the final reunitarisation. A build with the algorithm of Creutz always generates a special unitary element (C28_creutz) out of numbers of the stream that are used once (C28_creutz_fresh)."
  },
  {
   "property": "C29",
   "status": "partial",
   "theorems": [
    "GLU.Field.C29_range",
    "GLU.Field.C29_threads_partial",
    "GLU.Field.C29_threads_fails",
    "GLU.Field.C29_average",
    "GLU.Field.C29_gauge_invariant",
    "GLU.Field.C29_trivial_average",
    "GLU.Field.C29_trivial_temporal",
    "GLU.Field.C29_trivial_all_partial",
    "GLU.Field.C29_trivial_fails"
   ],
   "note": "Gauge invariance and values for every number of dimensions and colours; the averages over all planes are one on the trivial configuration, but the temporal measurement is normalised by ND-2 instead of ND-1 (exact value proved, negation for ND other than 4 where the code divides by a wrong count; undefined for ND=2). The plaquette summed by threads inside the update and the flow equals it for every schedule in four dimensions, and is proved wrong in three and undefined in two."
  },
  {
   "property": "C30",
   "status": "proved",
   "theorems": [
    "GLU.Field.C30_start_site",
    "GLU.Field.C30_loop_invariant",
    "GLU.Field.C30_average",
    "GLU.Field.C30_gauge_invariant",
    "GLU.Field.C30_direction_guard"
   ],
   "note": "Every valid lattice, colour number and direction below ND; the guard for larger directions is proved useless (out-of-bounds read)."
  },
  {
   "property": "C31",
   "status": "proved",
   "theorems": [
    "GLU.Field.C31_action",
    "GLU.Field.C31_identity",
    "GLU.Field.C31_composition",
    "GLU.Field.C31_slice"
   ],
   "note": "Every number of colours and dimensions; whole lattice and single time slice."
  },
  {
   "property": "C32",
   "status": "proved",
   "theorems": [
    "GLU.Field.C32_staple",
    "GLU.Field.C32_covariant",
    "GLU.Field.C32_counts"
   ],
   "note": "Every number of colours and dimensions, default branch (not the logarithmic one)."
  },
  {
   "property": "C33",
   "status": "proved",
   "theorems": [
    "GLU.Smear.C33_smear4D",
    "GLU.Smear.C33_smear3D",
    "GLU.Smear.C33_updates_local",
    "GLU.Smear.C33_updates_spatial",
    "GLU.Smear.C33_smear4D_code"
   ],
   "note": "Every temporal extent including one and two, arbitrary buffers, any number of iterations; the link updates of the code are proved to read only neighbouring slices."
  },
  {
   "property": "C34",
   "status": "proved",
   "theorems": [
    "GLU.IO.C34_bswap_16",
    "GLU.IO.C34_bswap_32",
    "GLU.IO.C34_bswap_64",
    "GLU.IO.C34_bounds"
   ],
   "note": "Arrays of 16, 32 and 64 bit words of every length; accesses outside the array are a separate outcome."
  },
  {
   "property": "C35",
   "status": "proved",
   "theorems": [
    "GLU.IO.C35_standard",
    "GLU.IO.C35_bounds",
    "GLU.IO.C35_chunks",
    "GLU.IO.C35_detects_bursts",
    "GLU.IO.C35_detects_bytes"
   ],
   "note": "Both loops and all table entries; every burst of at most 32 bits and every change of up to four adjacent bytes is detected."
  },
  {
   "property": "C36",
   "status": "partial",
   "theorems": [
    "GLU.IO.C36_first_read_partial",
    "GLU.IO.C36_accumulates",
    "GLU.IO.C36_second_read_fails",
    "GLU.IO.C36_long_fails"
   ],
   "note": "Proved for the first configuration read in a process (less than 2^32 bytes). Proved false for every later read (static state is never reset) and for data of 2^32 bytes or more."
  },
  {
   "property": "C37",
   "status": "partial",
   "theorems": [
    "GLU.IO.C37_schedule_independent_partial",
    "GLU.IO.C37_undefined_shift"
   ],
   "note": "Proved for every schedule, with the machine's value of a 32-bit shift by 32 as a parameter: the code performs this undefined shift at every site or word whose number is a multiple of 29 or 31."
  },
  {
   "property": "C38",
   "status": "partial",
   "theorems": [
    "GLU.IO.C38_partial",
    "GLU.IO.C38_single_fails"
   ],
   "note": "Proved for the default double-precision output, all byte orders, storage types and schedules, given one machine value for the undefined shift. Proved false for an OUT_SINGLE build."
  },
  {
   "property": "C39",
   "status": "proved",
   "theorems": [
    "GLU.IO.C39_writer",
    "GLU.IO.C39_full_matrix",
    "GLU.IO.C39_two_rows",
    "GLU.IO.C39_truncated"
   ],
   "note": "Default double-precision output. Full matrices bit for bit; two rows for exactly special unitary links in exact arithmetic with a final rounding; truncated files are refused. The low-memory reader is C111; mixed precisions are not modelled."
  },
  {
   "property": "C40",
   "status": "partial",
   "theorems": [
    "GLU.IO.C40_one_slice_partial",
    "GLU.IO.C40_overruns"
   ],
   "note": "Proved for lattices with one time slice; for every lattice with two or more it is proved that the writer runs outside its buffer."
  },
  {
   "property": "C41",
   "status": "partial",
   "theorems": [
    "GLU.IO.C41_round_trip_partial",
    "GLU.IO.C41_little_fails",
    "GLU.IO.C41_two_colours_fails"
   ],
   "note": "Proved for OUT_BIG builds and more than two colours (or full real and imaginary storage). Proved false for two colours and for OUT_LITTLE builds."
  },
  {
   "property": "C42",
   "status": "partial",
   "theorems": [
    "GLU.IO.C42_round_trip_partial",
    "GLU.IO.C42_no_race",
    "GLU.IO.C42_odd_fails"
   ],
   "note": "Proved for lattices with even extents, every schedule of the writer and reader, on little-endian machines. Proved false for odd extents."
  },
  {
   "property": "C43",
   "status": "partial",
   "theorems": [
    "GLU.IO.C43_accepted_partial",
    "GLU.IO.C43_scidac",
    "GLU.IO.C43_milc",
    "GLU.IO.C43_nersc_partial",
    "GLU.IO.C43_nersc_fails",
    "GLU.IO.C43_nan_fails",
    "GLU.IO.C43_unchecked_fails",
    "GLU.IO.C43_collision_fails",
    "GLU.IO.reader_total"
   ],
   "note": "Acceptance characterised for every format. Proved: a changed word (MILC) or up to four changed bytes of a site (SciDAC, ILDG) are refused. Proved false for NERSC (one agreeing quantity is enough), for NaN plaquettes (HiRep, CERN) and for plain LIME and JLQCD files; an intact file whose checksum is the error code is refused."
  },
  {
   "property": "C44",
   "status": "partial",
   "theorems": [
    "GLU.IO.C44_safe_partial",
    "GLU.IO.C44_first_match",
    "GLU.IO.C44_well_formed",
    "GLU.IO.C44_fails",
    "GLU.IO.C44_number_fails"
   ],
   "note": "NERSC text headers. No undefined behaviour for headers whose lines are short enough and contain the separator; the first line matching a key decides; well-formed headers give back their fields. Malformed headers (line without separator, overlong line, too many fields) and numbers that do not fit are proved to reach undefined behaviour."
  },
  {
   "property": "C45",
   "status": "partial",
   "theorems": [
    "GLU.IO.C45_nersc_partial",
    "GLU.IO.C45_zero_fails",
    "GLU.IO.C45_long_label_fails",
    "GLU.IO.C45_milc",
    "GLU.IO.C45_hirep_partial",
    "GLU.IO.C45_hirep_little_fails",
    "GLU.IO.C45_cern",
    "GLU.IO.C45_scidac",
    "GLU.IO.C45_ildg_partial",
    "GLU.IO.C45_ildg_five_fails"
   ],
   "note": "NERSC: accepted with the values that were written, except trajectory number zero (proved refused) and overlong labels (proved undefined behaviour). MILC, CERN and SciDAC proved for every machine; HiRep proved for OUT_BIG builds, proved refused for OUT_LITTLE; ILDG proved in four dimensions, proved to give a wrong extent in five."
  },
  {
   "property": "C46",
   "status": "partial",
   "theorems": [
    "GLU.IO.C46_aligned",
    "GLU.IO.C46_file_partial",
    "GLU.IO.C46_binary_length",
    "GLU.IO.C46_many_fails",
    "GLU.IO.C46_truncated",
    "GLU.IO.C46_long_length"
   ],
   "note": "Proved for every list of at most eleven records before the links and twelve after, any lengths and machines; with twelve records before the links the reader is proved to stop too early and report success. Unchecked allocation of the declared length is characterised."
  },
  {
   "property": "C47",
   "status": "partial",
   "theorems": [
    "GLU.IO.C47_lookup_partial",
    "GLU.IO.C47_number_partial",
    "GLU.IO.C47_order_partial",
    "GLU.IO.C47_fields_partial",
    "GLU.IO.C47_missing_partial",
    "GLU.IO.C47_many_fails",
    "GLU.IO.C47_twice_fails",
    "GLU.IO.C47_long_fails",
    "GLU.IO.C47_missing_fails",
    "GLU.IO.C47_negative_fails",
    "GLU.IO.C47_unit_fails"
   ],
   "note": "Proved for every file of at most 63 lines TAG = VALUE with words below 64 characters: first value wins, only first values matter, an accepted file has every required tag, and the fields carry the values. Proved failures: 64 lines, long values, missing CONFIG_INFO or RANDOM_TRANSFORM, a second call, negative numbers, missing dimensions for UNIT."
  },
  {
   "property": "C48",
   "status": "partial",
   "theorems": [
    "GLU.Rng.C48_round_trip_partial",
    "GLU.Rng.C48_kiss_partial",
    "GLU.Rng.C48_kiss_fails",
    "GLU.Rng.C48_kiss_witness",
    "GLU.Rng.C48_threads_fails",
    "GLU.Rng.C48_seeded_fails"
   ],
   "note": "Multiply-with-carry and xorshift: exact restoration for every state, number of threads and byte order of both machines. KISS: proved for reading on big-endian machines, proved to give byte-reversed words on little-endian ones. Other numbers of threads, or seeding before restoring, are proved to give a new stream. The WELL build does not link."
  },
  {
   "property": "C49",
   "status": "partial",
   "theorems": [
    "GLU.Rng.C49_xor1024",
    "GLU.Rng.C49_kiss_partial",
    "GLU.Rng.C49_well512_partial",
    "GLU.Rng.C49_mwc4096_fails",
    "GLU.Rng.C49_mwc1038_fails",
    "GLU.Rng.C49_mwc1038_seeded_fails"
   ],
   "note": "Xorshift: sixteen numbers determine the whole table. KISS and WELL: every word can matter. Both multiply-with-carry generators are proved to depend on one table word and the carry only."
  },
  {
   "property": "C50",
   "status": "partial",
   "theorems": [
    "GLU.Rng.C50_dbl32",
    "GLU.Rng.C50_dblFull",
    "GLU.Rng.C50_dbl64_partial",
    "GLU.Rng.C50_xor_fails"
   ],
   "note": "Proved for all 32-bit generators with and without FULL_DOUBLE. The xorshift generator is proved to return 1 exactly for its 1024 largest outputs, with a state that does so."
  },
  {
   "property": "C51",
   "status": "partial",
   "theorems": [
    "GLU.Rng.C51_seeded_partial",
    "GLU.Rng.C51_restored_fails",
    "GLU.Rng.C51_missing"
   ],
   "note": "Proved for seeded generators over all histories; after restoring from a file the next initialisation is proved to reseed."
  },
  {
   "property": "C52",
   "status": "partial",
   "theorems": [
    "GLU.Utils.C52_dandc",
    "GLU.Utils.C52_dandc_range",
    "GLU.Utils.C52_parallel_partial",
    "GLU.Utils.C52_parallel_fails",
    "GLU.Utils.C52_kahan",
    "GLU.Utils.C52_average",
    "GLU.Utils.C52_variance_partial",
    "GLU.Utils.C52_variance_fails"
   ],
   "note": "Proved for the divide-and-conquer and compensated sums and the running mean for all arrays, and the variance for two or more data. The threaded sum is proved right exactly when the rounded-up share of the threads leaves something for the last one, and undefined otherwise. The variance of one datum is 0/0."
  },
  {
   "property": "C53",
   "status": "proved",
   "theorems": [
    "GLU.Utils.C53_derivative",
    "GLU.Utils.C53_too_few",
    "GLU.Utils.C53_interpolation",
    "GLU.Utils.C53_hermite",
    "GLU.Utils.C53_outside"
   ],
   "note": "All three rules at every point of every grid; the interpolation reproduces cubics and matches values and slopes at both ends. Outside of the grid and for fewer than three points the behaviour is described by separate theorems."
  },
  {
   "property": "C54",
   "status": "partial",
   "theorems": [
    "GLU.Utils.C54_first_partial",
    "GLU.Utils.C54_fresh_fits",
    "GLU.Utils.C54_history_fails",
    "GLU.Utils.C54_repeat_fails"
   ],
   "note": "Every answer is the one for the first format asked about; histories that change the answer are exhibited."
  },
  {
   "property": "C55",
   "status": "partial",
   "theorems": [
    "GLU.Run.C55_resume",
    "GLU.Run.C55_exact",
    "GLU.Run.C55_torn_fails",
    "GLU.Run.C55_rand_fails",
    "GLU.Run.C55_rand_witness",
    "GLU.Run.C55_zero_fails"
   ],
   "note": "For every crash point after a complete save and before the next one the continued run is exactly the rest of the run; if reunitarisation changes nothing, for every set of left-over files. A crash between configuration and generator state continues with another random sequence without complaint; a torn configuration file is never repaired; an interval of zero is undefined."
  },
  {
   "property": "C56",
   "status": "partial",
   "theorems": [
    "GLU.Run.C56_partial",
    "GLU.Run.C56_near",
    "GLU.Run.C56_race_fails",
    "GLU.Run.C56_right_schedule"
   ],
   "note": "Right under every schedule for one thread or when the saved trajectory is also measured; always right or one too small; otherwise a wrong schedule exists for every such trajectory."
  },
  {
   "property": "C57",
   "status": "partial",
   "theorems": [
    "GLU.Run.C57_buffer",
    "GLU.Run.C57_partial",
    "GLU.Run.C57_distinct",
    "GLU.Run.C57_dots_fails",
    "GLU.Run.C57_relative_fails",
    "GLU.Run.C57_only_dots"
   ],
   "note": "Right for names without dots (or with only a final number) and fewer than eight digits; names with other dots lose everything after the first dot, leading dots are lost, eight digits overflow the buffer."
  },
  {
   "property": "C58",
   "status": "partial",
   "theorems": [
    "GLU.Run.C58_partial",
    "GLU.Run.C58_others",
    "GLU.Run.C58_new",
    "GLU.Run.C58_unreadable_fails",
    "GLU.Run.C58_open_fails",
    "GLU.Run.C58_status_fails"
   ],
   "note": "Holds for readable files; an unreadable but writable file is overwritten, a name that cannot be created is undefined behaviour, a failed write is reported as success."
  },
  {
   "property": "C59",
   "status": "partial",
   "theorems": [
    "GLU.Cuts.C59_list",
    "GLU.Cuts.C59_reflect",
    "GLU.Cuts.C59_boundary",
    "GLU.Cuts.C59_config",
    "GLU.Cuts.C59_cylinder",
    "GLU.Cuts.C59_cylinder_fails",
    "GLU.Cuts.C59_conical",
    "GLU.Cuts.C59_cuts",
    "GLU.Cuts.C59_even",
    "GLU.Cuts.C59_local",
    "GLU.Cuts.C59_momenta"
   ],
   "note": "Momentum-space list proved for every shape and all four cuts; the cylinder cut is a distance from a diagonal only in four directions (C59_cylinder_fails for three); with a momentum on the zone boundary the reflected index is another momentum (C59_boundary)."
  },
  {
   "property": "C60",
   "status": "partial",
   "theorems": [
    "GLU.Cuts.C60_partial",
    "GLU.Cuts.C60_torn",
    "GLU.Cuts.C60_refused_partial",
    "GLU.Cuts.C60_fails",
    "GLU.Cuts.C60_stuck",
    "GLU.Cuts.C60_empty_fails",
    "GLU.Cuts.C60_dir_fails",
    "GLU.Cuts.C60_trip",
    "GLU.Cuts.C60_triplets"
   ],
   "note": "A complete file gives back the list; a file without a complete record is refused; any other beginning of a file is taken for complete (C60_fails), for good (C60_stuck). The triplet caches are checked."
  },
  {
   "property": "C61",
   "status": "partial",
   "theorems": [
    "GLU.Cuts.C61_search",
    "GLU.Cuts.C61_conserved",
    "GLU.Cuts.C61_odd",
    "GLU.Cuts.C61_all",
    "GLU.Cuts.C61_position",
    "GLU.Cuts.C61_ratio_fails"
   ],
   "note": "The search finds exactly the triplets for every squared momentum when the extent ratios are integers in the directions used; a ratio that is no integer misses triplets (C61_ratio_fails)."
  },
  {
   "property": "C62",
   "status": "partial",
   "theorems": [
    "GLU.Run.C62_partial",
    "GLU.Run.C62_wrapper_partial",
    "GLU.Run.C62_fails",
    "GLU.Run.C62_processing_fails",
    "GLU.Run.C62_argv_fails"
   ],
   "note": "Only a refused input file is reported; every other failure gives exit status zero; reading a configuration without output name reads argv past its end."
  },
  {
   "property": "C63",
   "status": "proved",
   "theorems": [
    "GLU.Mat.C63_add_constant",
    "GLU.Mat.C63_a_plus_b",
    "GLU.Mat.C63_a_plus_CSxb",
    "GLU.Mat.C63_a_plus_Sxb",
    "GLU.Mat.C63_b_min_c",
    "GLU.Mat.C63_dagger",
    "GLU.Mat.C63_transpose",
    "GLU.Mat.C63_diag",
    "GLU.Mat.C63_diag_vect",
    "GLU.Mat.C63_equiv",
    "GLU.Mat.C63_identity",
    "GLU.Mat.C63_M_times_c",
    "GLU.Mat.C63_outerproduct",
    "GLU.Mat.C63_zero_mat"
   ],
   "note": ""
  },
  {
   "property": "C64",
   "status": "partial",
   "theorems": [
    "GLU.Draught.C64_rejects",
    "GLU.Draught.C64_outcome",
    "GLU.Draught.C64_fails",
    "GLU.Draught.C64_colouring_partial",
    "GLU.Smear.C64_schedule_partial",
    "GLU.Smear.C64_full_one_loop_fails"
   ],
   "note": "Outcome on every lattice characterised. Missing, with proved negations: the check of the extents is the wrong way round, so that every lattice the colouring is made for is refused (C64_rejects), extents below four lead to undefined behaviour (C64_outcome), and on every lattice accepted some sites are never updated and one site is updated many times in parallel (C64_fails). Behind the check the colouring is right and makes the update independent of the schedule (C64_colouring_partial, C64_schedule_partial); it would not be with all parallelograms of the one-loop action (C64_full_one_loop_fails). The comparison passed to qsort is inconsistent; qsort is taken to permute. Allocation failure is not modelled."
  },
  {
   "property": "C65",
   "status": "partial",
   "theorems": [
    "GLU.Smear.C65_flow",
    "GLU.Smear.C65_smear_partial",
    "GLU.Smear.C65_smear_wrong_slice",
    "GLU.Smear.C65_smear_fails",
    "GLU.Smear.C65_one_slice"
   ],
   "note": "Proved for the flow step; in smear4D every slice but the third from the end is right, and that one is proved wrong for every temporal extent of three or more. One slice: out of bounds in both."
  },
  {
   "property": "C66",
   "status": "partial",
   "theorems": [
    "GLU.Field.C66_average",
    "GLU.Field.C66_range",
    "GLU.Field.C66_max_partial",
    "GLU.Field.C66_max_fails"
   ],
   "note": "Averages, consistency and range proved for every lattice, number of colours and configuration. The largest trace of indivlinks starts from zero, so it is proved to be the maximum of zero and the traces, with the negation when all traces are negative."
  },
  {
   "property": "C67",
   "status": "proved",
   "theorems": [
    "GLU.Smear.C67_memcheap",
    "GLU.Smear.C33_updates_local"
   ],
   "note": "Any local link update, any buffers."
  },
  {
   "property": "C68",
   "status": "partial",
   "theorems": [
    "GLU.Smear.C68_link_three_partial",
    "GLU.Smear.C68_link_two_partial",
    "GLU.Smear.C68_link_many_partial",
    "GLU.Smear.C68_link_many",
    "GLU.Smear.C68_smear4D_many",
    "GLU.Smear.C68_smear3D_many",
    "GLU.Smear.C68_gauge_many",
    "GLU.Smear.C68_flow_many",
    "GLU.Smear.C68_flow_gauge_many",
    "GLU.Smear.C68_smear4D_partial",
    "GLU.Smear.C68_smear3D_partial",
    "GLU.Smear.C68_sweep_three_partial",
    "GLU.Smear.C68_gauge_partial",
    "GLU.Smear.C68_gauge_sweep_three_partial",
    "GLU.Smear.C68_pure_gauge",
    "GLU.Smear.C68_short_log",
    "GLU.Smear.C68_flow_step_partial",
    "GLU.Smear.C68_flow_gauge_partial"
   ],
   "note": "Link, sweep, any number of iterations and one flow step proved for every lattice. For three colours each link is within 2e-16 of the exact update and for two within 4e-9, always; exactly equal, and then exactly covariant over any number of iterations, under the stated hypothesis that the exponential does not use its series for near eigenvalues (C20). For more than three colours, any number of iterations: every link stays special unitary and within an explicit bound (ninth power of the parameter, spread by the later iterations) of exact stout smearing, which is then covariant up to twice that; the same, with flowErr iterated, for any number of steps of the flow. Missing: the distance over many iterations for two and three colours with near eigenvalues."
  },
  {
   "property": "C69",
   "status": "partial",
   "theorems": [
    "GLU.Mat.C69_su3",
    "GLU.Mat.C69_su3_unit",
    "GLU.Mat.C69_su2",
    "GLU.Mat.C69_general3_partial",
    "GLU.Mat.C69_general3_fails",
    "GLU.Mat.C69_general2_partial",
    "GLU.Mat.C69_general2_fails",
    "GLU.Mat.C69_hermitian3_partial",
    "GLU.Mat.C69_hermitian3_fails",
    "GLU.Mat.C69_hermitian2"
   ],
   "note": "Proved in full for SU(2) and SU(3). For general 3x3 matrices: right whenever no division by zero occurs, which covers every invertible matrix with tr^2 != 3 tr(adj); fails for the cyclic permutation (0/0). For general 2x2: right except for singular matrices with a trace on the left, where it divides by zero. Hermitian traceless: proved for two colours, for three colours except the zero matrix (0/0). Exact arithmetic; more than three colours not modelled."
  },
  {
   "property": "C70",
   "status": "partial",
   "theorems": [
    "GLU.Mat.C70_hermitian",
    "GLU.Mat.C70_algebra",
    "GLU.Mat.C70_antihermitian",
    "GLU.Mat.C70_traceless_antihermitian",
    "GLU.Mat.C70_hermitian_short",
    "GLU.Mat.C70_antihermitian_short_partial",
    "GLU.Mat.C70_antihermitian_short_fails",
    "GLU.Mat.C70_two_colours_needs_form",
    "GLU.Mat.quatForm_su",
    "GLU.Mat.quatForm_add"
   ],
   "note": "All full-matrix projections and the packed Hermitian one proved for every number of colours. Packed anti-Hermitian routine proved for two and three colours; for four colours it subtracts the real number tr instead of i tr, proved as a negation."
  },
  {
   "property": "C71",
   "status": "partial",
   "theorems": [
    "GLU.IO.C71_hirep",
    "GLU.IO.C71_nersc",
    "GLU.IO.C71_scidac_fails"
   ],
   "note": "HiRep headers and NERSC storage types refused; SciDAC headers for another number of colours proved to be accepted."
  },
  {
   "property": "C72",
   "status": "partial",
   "theorems": [
    "GLU.Rng.C72_box_partial",
    "GLU.Rng.C72_fails",
    "GLU.Rng.C72_reachable"
   ],
   "note": "Finite with the right modulus unless the accepted pair is the centre; failures at the centre and at zero proved, with generator states producing these values."
  },
  {
   "property": "C73",
   "status": "partial",
   "theorems": [
    "GLU.Utils.C73_scale_partial",
    "GLU.Utils.C73_no_crossing",
    "GLU.Utils.C73_inflection_fails",
    "GLU.Utils.C73_complex_root_fails",
    "GLU.Utils.C73_equal_fails",
    "GLU.Utils.C73_last_fails",
    "GLU.Utils.C73_two_fails"
   ],
   "note": "Proved unless the cubic is degenerate or has a non-real root whose real part lies in the interval. Proved failures: the inflection case, the real part of a complex root, a measurement equal to the scale, a crossing in the last interval, two measurements."
  },
  {
   "property": "C74",
   "status": "partial",
   "theorems": [
    "GLU.Run.C74_saved_partial",
    "GLU.Run.C74_fails"
   ],
   "note": "Every multiple strictly inside the run is saved if no file of that number exists; the last one never is."
  },
  {
   "property": "C75",
   "status": "partial",
   "theorems": [
    "GLU.Cuts.C75_pair_file_partial",
    "GLU.Cuts.C75_corr_file_partial",
    "GLU.Cuts.C75_time_file",
    "GLU.Cuts.C75_static_file_partial",
    "GLU.Cuts.C75_field_file_partial",
    "GLU.Cuts.C75_moments_file",
    "GLU.Cuts.C75_restored",
    "GLU.Cuts.C75_lists",
    "GLU.Cuts.C75_overflow"
   ],
   "note": "All writers of cut_output.c in use: same bytes on both byte orders, read back exactly by the independent reader, every strict prefix rejected, arrays restored. Partial because the buffer size of a momentum list is an int: from 429496730 four-dimensional momenta on the writer leaves its buffer (C75_overflow). Short writes of fwrite are not noticed by the code and are covered only as prefixes of the file."
  },
  {
   "property": "C76",
   "status": "partial",
   "theorems": [
    "GLU.Field.C76_value_partial",
    "GLU.Field.C76_gauge_invariant_partial",
    "GLU.Field.C76_bounds_partial",
    "GLU.Field.C76_pure_gauge_partial",
    "GLU.Field.C76_symmetry_partial",
    "GLU.Field.C76_reflection_partial",
    "GLU.Field.C76_translation_partial",
    "GLU.Field.moved_exists",
    "GLU.Field.C76_threads",
    "GLU.Field.C76_density",
    "GLU.Field.C76_density_site_partial",
    "GLU.Field.C76_constant",
    "GLU.Field.C76_measurement",
    "GLU.Field.C76_four_colours",
    "GLU.Field.C76_four_dimensions_only"
   ],
   "note": "Proved for two and three colours and every definition of the field strength; threads, density sum and reported integer for every number of colours. With four colours the measured action is wrong (proved). Reflections of the plaquette definition not covered. Other than four dimensions is undefined behaviour (proved)."
  },
  {
   "property": "C77",
   "status": "partial",
   "theorems": [
    "GLU.Smear.C77_fixed_partial",
    "GLU.Smear.C77_fixed_stop_partial",
    "GLU.Smear.C77_adaptive_partial",
    "GLU.Smear.C77_shrink",
    "GLU.Smear.C77_grow",
    "GLU.Smear.C77_scale_fixed",
    "GLU.Smear.C77_scale_adaptive",
    "GLU.Smear.C77_lattice",
    "GLU.Smear.C77_back_fails",
    "GLU.Smear.C77_label_fails",
    "GLU.Smear.C77_meas_start_fails",
    "GLU.Smear.C77_fine_fails",
    "GLU.Smear.C77_status_fails",
    "GLU.Smear.C77_alloc_fails",
    "GLU.Smear.C77_last_fails"
   ],
   "note": "Drivers proved for any integrator and measurements; C77_lattice shows that lattice fields in four dimensions meet the hypothesis on the plaquette (C29_threads_fails covers other dimensions). Missing, with proved negations: the measurement after the fixed-step flow has gone back to the stopping time has the wrong time, action and plaquette and makes the scales be computed (C77_back_fails, C77_label_fails); a later start of the measurements stops the fixed-step flow early (C77_meas_start_fails); the fine measurements are not bounded by the number of iterations (C77_fine_fails); the status is ignored (C77_status_fails) or success on allocation failure (C77_alloc_fails); a twentieth shortening that succeeds is reported as failure (C77_last_fails)."
  },
  {
   "property": "C78",
   "status": "partial",
   "theorems": [
    "GLU.Rng.C78_kiss_period",
    "GLU.Rng.C78_kiss_threads",
    "GLU.Rng.C78_kiss_nonzero",
    "GLU.Rng.C78_kiss_seed_fails",
    "GLU.Rng.C78_xor_threads",
    "GLU.Rng.C78_xor_nonzero",
    "GLU.Rng.C78_mwc1038_fails",
    "GLU.Rng.C78_mwc1038_seeded_fails",
    "GLU.Rng.C78_mwc4096_fails",
    "GLU.Rng.C78_mwc4096_seeded_fails"
   ],
   "note": "KISS: no recurrence within 2^32 draws from any state, different seeds never coincide, and the xorshift word stays non-zero; one seed is exhibited for which it is zero for ever. XOR_1024: never all zero and different seeds never coincide; no lower bound on the period is proved. Both multiply-with-carry generators (including the default one) are proved to repeat within 2^40 and 2^47 draws for every seed."
  },
  {
   "property": "C79",
   "status": "partial",
   "theorems": [
    "GLU.Gfix.C79_step",
    "GLU.Gfix.C79_step_defined",
    "GLU.Gfix.C79_landau_partial",
    "GLU.Gfix.C79_coulomb_partial",
    "GLU.Gfix.C79_order_partial",
    "GLU.Gfix.C79_slice_order_partial",
    "GLU.Gfix.C79_undefined",
    "GLU.Gfix.C79_defined"
   ],
   "note": "One rotation, and whole Landau and Coulomb runs, proved for every number of colours and every schedule. A rotation divides by zero where the sum over the links of a site vanishes in a subgroup: exactly characterised, a special unitary field for which the run gives NaN is exhibited, and a run is proved defined for fields whose functional is close to its maximum. Independence of the order of sites needs the hypothesis on odd extents of C08."
  },
  {
   "property": "C80",
   "status": "partial",
   "theorems": [
    "GLU.Gfix.C80_theta",
    "GLU.Gfix.C80_gradient",
    "GLU.Gfix.C80_zero",
    "GLU.Gfix.C80_fast",
    "GLU.Gfix.C80_fast_two_fails",
    "GLU.Gfix.C80_functional"
   ],
   "note": "Value, gradient, zero set, packed sums and functional proved for every number of colours. Missing: the return value of the quick routine for two colours, which is a quarter of the generic one (proved as a negation with a witness)."
  },
  {
   "property": "C81",
   "status": "proved",
   "theorems": [
    "GLU.Gfix.C81_mag",
    "GLU.Gfix.C81_mag_su",
    "GLU.Gfix.C81_complete",
    "GLU.Gfix.C81_canonical",
    "GLU.Gfix.C81_axial"
   ],
   "note": "With the gauge field allocated. In axial_gauge a failed allocation compares and frees an uninitialised pointer (the model's none), and in MAG_fix it returns the failure code."
  },
  {
   "property": "C82",
   "status": "partial",
   "theorems": [
    "GLU.Gfix.C82_step",
    "GLU.Gfix.C82_defined",
    "GLU.Gfix.C82_slope",
    "GLU.Gfix.C82_uphill",
    "GLU.Gfix.C82_raises",
    "GLU.Gfix.C82_line",
    "GLU.Gfix.C82_minimum_partial",
    "GLU.Gfix.C82_minimum_fails",
    "GLU.Gfix.C82_facg_partial",
    "GLU.Gfix.C82_fasd_partial",
    "GLU.Gfix.C82_alloc_fails",
    "GLU.Gfix.C82_one_iteration_fails",
    "GLU.Gfix.C82_fasd_defined",
    "GLU.Gfix.C82_facg_defined",
    "GLU.Gfix.C82_inner_two",
    "GLU.Gfix.C82_inner_three",
    "GLU.Gfix.C82_inner_many",
    "GLU.Gfix.C82_inner_fails"
   ],
   "note": "Steps, slope, line search values, whole runs and the inner products proved. Missing, with proved negations: the parabola of the line search is only used rightly when it opens upwards with its minimum after the start (C82_minimum_fails); the inner product of the conjugate gradient has a sign error for three colours and leaves out the diagonal for four and more (C82_inner_three, C82_inner_many, C82_inner_fails); an allocation failure returns the count zero (C82_alloc_fails); a limit of one iteration never succeeds (C82_one_iteration_fails); the reported accuracy is that of the field before the last step, and a fraction of the convergence test (in the partial theorems). Two to eighteen colours; the exponential step and more colours are not modelled."
  },
  {
   "property": "C83",
   "status": "partial",
   "theorems": [
    "GLU.Gfix.C83_landau_partial",
    "GLU.Gfix.C83_facg_converged",
    "GLU.Gfix.C83_fasd_fails",
    "GLU.Gfix.C83_unread_fails",
    "GLU.Gfix.C83_unread_witness_fails",
    "GLU.Gfix.C83_gives_up",
    "GLU.Gfix.C83_ignored_fails"
   ],
   "note": "Every way a run can end is characterised, for every method that stays on the orbit (instances: conjugate gradient and steepest descent). Missing, with proved negations: a failed second read of the file is returned as the count 123456789 with a field off the orbit; a run of steepest descent that did not converge is never restarted nor reported; the caller ignores the failure code and writes the field. A file that cannot be opened again is undefined behaviour. LUXURY_GAUGE is not modelled."
  },
  {
   "property": "C84",
   "status": "partial",
   "theorems": [
    "GLU.Smear.C84_sweeps",
    "GLU.Smear.C84_projection",
    "GLU.Smear.C84_stationary",
    "GLU.Smear.C84_two_colours",
    "GLU.Smear.C84_covariant_two",
    "GLU.Smear.C84_fixes",
    "GLU.Smear.C84_defined",
    "GLU.Smear.C84_ape",
    "GLU.Smear.C84_ape_still",
    "GLU.Smear.C84_ape_defined",
    "GLU.Smear.C84_ape_covariant_two",
    "GLU.Smear.C84_undefined_fails",
    "GLU.Smear.C84_covariance_fails"
   ],
   "note": "Special unitary result, overlap never falling, critical points, fixed points and optimality for two colours proved for every number of colours or for two as stated. Missing, with proved negations: the projection of the sum of a link and staples of the group can divide zero by zero (C84_undefined_fails; C84_defined and C84_ape_defined give a sufficient condition), and for three colours APE smearing does not commute with gauge transformations (C84_covariance_fails). Also not guaranteed by the code: a negative overlap ends the loop after one sweep, since the stopping test divides by it without absolute value."
  },
  {
   "property": "C85",
   "status": "partial",
   "theorems": [
    "GLU.Gfix.C85_transform",
    "GLU.Gfix.C85_orbit",
    "GLU.Gfix.C85_coulomb",
    "GLU.Gfix.C85_critical",
    "GLU.Gfix.C85_gain",
    "GLU.Gfix.C85_best_two",
    "GLU.Gfix.C85_defined",
    "GLU.Gfix.C85_aligned",
    "GLU.Gfix.C85_temporal",
    "GLU.Gfix.C85_undefined_fails",
    "GLU.Gfix.C85_silent_fails"
   ],
   "note": "Transformation, kept Coulomb gauge, gain and special cases proved. Missing, with proved negations: the fix divides by zero on some fields of special unitary links (C85_undefined_fails; C85_defined gives the condition), and failures never reach the caller (C85_silent_fails). The HERM_PROJ and SINGLE_PREC branches are not modelled."
  },
  {
   "property": "C86",
   "status": "partial",
   "theorems": [
    "GLU.Field.C86_direct",
    "GLU.Field.C86_fft",
    "GLU.Field.C86_consistent",
    "GLU.Field.C86_temporal",
    "GLU.Field.C86_temporal_partial",
    "GLU.Field.C86_temporal_fails",
    "GLU.Field.C86_norm",
    "GLU.Field.C86_real"
   ],
   "note": "Correlator of every separation, agreement of both builds, total, and temporal correlator of a build with FFTW proved; C86_real supplies the real density for two and three colours. Missing, with a proved negation: without FFTW the file of the temporal correlator gets the unnormalised charges of the slices, not their correlator (C86_temporal_partial, C86_temporal_fails). FFTW itself is taken by the contract in its manual; files and allocation are not modelled."
  },
  {
   "property": "C87",
   "status": "partial",
   "theorems": [
    "GLU.Field.C87_slabs",
    "GLU.Field.C87_full",
    "GLU.Field.C87_race_fails"
   ],
   "note": "Slab averages for every direction and thickness proved for both builds (without FFTW: for one thread), and the full slab. Missing, with a proved negation: without FFTW the inner parallel loop adds to a shared variable without protection, and updates can be lost (C87_race_fails). Result files and allocation are not modelled."
  },
  {
   "property": "C88",
   "status": "partial",
   "theorems": [
    "GLU.Field.C88_time_moments_partial",
    "GLU.Field.C88_Q_partial",
    "GLU.Field.C88_Q2_partial",
    "GLU.Field.C88_fac",
    "GLU.Field.C88_factorial_fails",
    "GLU.Field.C88_overflow_fails",
    "GLU.Field.C88_zeroth_fails"
   ],
   "note": "Moments of charge and correlator for extents up to 13, both builds. Missing, with proved negations: larger extents overflow the integer powers (C88_overflow_fails); the entry for 10! is wrong (C88_factorial_fails); the slice half way round is left out, so that the zeroth moment is not the charge (C88_zeroth_fails). Files and allocation are not modelled."
  },
  {
   "property": "C89",
   "status": "partial",
   "theorems": [
    "GLU.Smear.C89_simultaneous",
    "GLU.Smear.C89_hypercube",
    "GLU.Smear.C89_fast",
    "GLU.Smear.C89_spatial",
    "GLU.Smear.C89_ape_special_unitary",
    "GLU.Smear.C89_ape_covariant_two_partial",
    "GLU.Smear.C89_stout_partial",
    "GLU.Smear.C89_stout_covariant_partial",
    "GLU.Smear.C89_ape_still",
    "GLU.Smear.C89_stout_still",
    "GLU.Smear.C89_weights_agree",
    "GLU.Smear.C89_weights_partial",
    "GLU.Smear.C89_spatial_weights_fails"
   ],
   "note": "Proved for any projection: all links updated at once, dependence on the hypercubes only, precomputed and spatial routines equal to the recursive one. APE projection: special unitary, fixed points, covariance for two colours (C89_ape_covariant_two_partial: wherever both sides are defined). Stout projection: the construction itself, special unitarity and covariance wherever no exponential fell back on its series (C89_stout_partial, C89_stout_covariant_partial). Missing, with proved negations: the weights of link and staples add up to one in four dimensions only (C89_weights_partial), and not for spatial smearing (C89_spatial_weights_fails). The spatial routine in two dimensions, LOG projection, allocation failure and printing are not modelled."
  },
  {
   "property": "C90",
   "status": "partial",
   "theorems": [
    "GLU.Smear.C90_paths",
    "GLU.Smear.C90_staples_partial",
    "GLU.Smear.C90_one_loop_partial",
    "GLU.Smear.C90_one_loop_fails",
    "GLU.Smear.C90_gauge",
    "GLU.Smear.C90_reads",
    "GLU.Smear.C90_sweep",
    "GLU.Smear.C90_weights_partial",
    "GLU.Smear.C90_weights_fails"
   ],
   "note": "Squares and rectangles, covariance (one-loop term included), range and the buffered flow proved. Missing: more than three colours, where a product routine is wrong (C11). With proved negations: the one-loop term leaves out half of the parallelograms (C90_one_loop_partial, C90_one_loop_fails), and the weights of DBW2 do not add up to one (C90_weights_partial, C90_weights_fails). The weights of the one-loop action and SM_LOG (staples as logarithms) are not modelled."
  },
  {
   "property": "C91",
   "status": "partial",
   "theorems": [
    "GLU.Cuts.C91_propagators_partial",
    "GLU.Cuts.C91_nonneg",
    "GLU.Cuts.C91_landau",
    "GLU.Cuts.C91_landau_output_partial",
    "GLU.Cuts.C91_odd_fails",
    "GLU.Cuts.zero_middle"
   ],
   "note": "Proved for even extents, even cuts that keep the zero momentum and none at the edge of the zone, and tolerances below the squared momenta kept; positivity for every lattice and list. Missing: odd extents, where the projectors use a wrong momentum (C91_odd_fails, a field in Landau gauge gets a non-zero longitudinal propagator), and momenta at the edge of the zone, where the list is not symmetric (C59_boundary). An empty list is read (undefined)."
  },
  {
   "property": "C92",
   "status": "partial",
   "theorems": [
    "GLU.Cuts.C92_fft",
    "GLU.Cuts.C92_pointsource",
    "GLU.Cuts.C92_sparse",
    "GLU.Cuts.C92_symmetric",
    "GLU.Cuts.C92_builds_fail",
    "GLU.Cuts.C92_spacing",
    "GLU.Cuts.C92_one_thread",
    "GLU.Cuts.C92_race_out_of_bounds",
    "GLU.Cuts.C92_race_lost"
   ],
   "note": "Both builds proved equal to their double sums, for every spacing; time reversal proved. The statement for the transform is for one thread. Missing, with proved negations: the two builds give different numbers (C92_builds_fail: only one includes the temporal direction, and the normalisations differ), a spacing of zero never ends without the transform and a spacing above the extent fails only with it (C92_spacing), and the loop variable over directions is shared by the threads, so that directions are lost or an element past the end is read (C92_race_lost, C92_race_out_of_bounds)."
  },
  {
   "property": "C93",
   "status": "partial",
   "theorems": [
    "GLU.Cuts.C93_exceptional_partial",
    "GLU.Cuts.C93_lies_partial",
    "GLU.Cuts.C93_average",
    "GLU.Cuts.C93_landau",
    "GLU.Cuts.C93_builds_fail"
   ],
   "note": "Proved for even extents and cuts as in C91. Missing: odd extents and the edge of the zone (as in C91). Proved negation: the build with the structure constants writes other numbers than the other two (C93_builds_fail), namely their average over the momentum and its reflection (C93_lies_partial with C93_average, three colours; two colours have a wrong factor, C21)."
  },
  {
   "property": "C94",
   "status": "partial",
   "theorems": [
    "GLU.Cuts.C94_instantaneous_partial",
    "GLU.Cuts.C94_nonneg",
    "GLU.Cuts.C94_energy_sum"
   ],
   "note": "Proved for every lattice. Missing: momenta at the edge of the zone, where the list is not symmetric (C59_boundary), and cuts without the zero momentum."
  },
  {
   "property": "C95",
   "status": "partial",
   "theorems": [
    "GLU.Cuts.C95_names_partial",
    "GLU.Cuts.C95_conical",
    "GLU.Cuts.C95_conical_differ"
   ],
   "note": "Names determine the measurement for all settings that enter them. Missing: with the combined cylinder and cone cut the width is not in the name (C95_conical), while it changes the kept momenta (C95_conical_differ); the smearing parameters and the number of times of the configuration space correlator are not in the name. Widths are compared as the text printed by %g."
  },
  {
   "property": "C96",
   "status": "partial",
   "theorems": [
    "GLU.U1.C96_momenta_partial",
    "GLU.U1.C96_fields_partial",
    "GLU.U1.C96_links",
    "GLU.U1.C96_squares",
    "GLU.U1.C96_odd_extent",
    "GLU.U1.C96_three_dimensions",
    "GLU.U1.C96_bound_short"
   ],
   "note": "Four dimensions and even extents: proved for all random numbers. Other cases are negated: any odd extent writes outside the arrays (C96_odd_extent), and in three dimensions the pairing loop ends too early so that opposite momenta are not conjugate and an imaginary part is dropped (C96_three_dimensions). The statements about links and squares hold on every lattice on which the call gets that far. Two dimensions and five or more are not treated."
  },
  {
   "property": "C97",
   "status": "partial",
   "theorems": [
    "GLU.U1.C97_plaquettes",
    "GLU.U1.C97_rectangles",
    "GLU.U1.C97_ranges",
    "GLU.U1.C97_norm",
    "GLU.U1.C97_norm_zero",
    "GLU.U1.C97_gauge_invariant",
    "GLU.U1.C97_windings_partial",
    "GLU.U1.C97_turn_missed",
    "GLU.U1.C97_no_current_partial",
    "GLU.U1.C97_components",
    "GLU.U1.C97_small_angles_partial",
    "GLU.U1.C97_false_monopoles"
   ],
   "note": "Averages, ranges, norm and gauge invariance proved in full. Windings: the count is the number of whole turns or one less (C97_windings_partial), a turn can be missed (C97_turn_missed), two of the four current components vanish for windings without monopoles (C97_no_current_partial), and a field whose links are all one gets monopoles and a sheet (C97_false_monopoles)."
  },
  {
   "property": "C98",
   "status": "partial",
   "theorems": [
    "GLU.Cuts.C98_same",
    "GLU.Cuts.C98_twice_partial",
    "GLU.Cuts.C98_normalisation",
    "GLU.Cuts.C98_fails"
   ],
   "note": "The property is false: the copied sites share the links, so the two arrays are equal whatever the smearing (C98_same), both are those of the smeared field transformed and corrected twice (C98_twice_partial), and for a constant SU(3) field without smearing both have zero where the propagator is positive (C98_fails). C98_twice_partial is what the code computes, for every smearing that depends only on the links of the lattice."
  },
  {
   "property": "C99",
   "status": "partial",
   "theorems": [
    "GLU.Rng.C99_order",
    "GLU.Rng.C99_streams_partial",
    "GLU.Rng.C99_shared_iterations_fail",
    "GLU.Rng.C99_neighbour_seeds"
   ],
   "note": "Proved: the order of the draws does not matter (C99_order), and with one iteration per thread the states are a function of the seed (C99_streams_partial). Missing: OpenMP does not promise one iteration per thread, and the loop warms up the generator of the running thread instead of that of the iteration, so other assignments give other states (C99_shared_iterations_fail). Different seeds do not give different streams: neighbouring ones share all but one (C99_neighbour_seeds)."
  }
 ]
}