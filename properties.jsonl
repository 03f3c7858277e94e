{"id": "C01", "title": "Site index and coordinates are inverse bijections", "statement": "Converting a site index below the lattice volume to coordinates and back gives the same index, converting in-range coordinates to an index and back gives the same coordinates, and every index produced from in-range coordinates is below the volume.", "quantifier": "every number of dimensions, every choice of positive lattice extents, every site and every in-range coordinate vector", "why_tests_cant": "The lattice sizes are unbounded and ND is a compile-time constant, so a test fixes one shape; a radix error in one direction only shows for extents that differ from each other.", "anchors": ["src/Geometry/geometry.c:gen_site", "src/Geometry/geometry.c:get_mom_2piBZ"]}
{"id": "C02", "title": "Nearest-neighbour tables form a periodic lattice", "statement": "The forward and backward neighbour of a site in one direction are mutual inverses, moves in two directions commute, moving L times along a direction of extent L returns to the start, and each move changes exactly one coordinate by one modulo the extent. Direction code d>=0 means forward along d and d<0 means backward along -d-1.", "quantifier": "every lattice shape with positive extents, every site, every pair of directions", "why_tests_cant": "Periodicity and commutation must hold for every shape and every site including wrap-around corners and extent 1; a finite set of shapes does not establish the modular arithmetic.", "anchors": ["src/Geometry/geometry.c:gen_shift", "src/Geometry/init.c:init_navig"]}
{"id": "C03", "title": "Momentum index maps between the two Brillouin-zone conventions are inverse", "statement": "Shifting a momentum index from the [0,2pi) convention to the (-pi,pi) convention and back returns the original index, and the momentum attached to an index differs from its [0,2pi) momentum by a multiple of the extent in each direction.", "quantifier": "every lattice shape, every momentum index, every omitted direction", "why_tests_cant": "The failing case is an odd extent at one single coordinate value (L/2 rounded down), which even-sized test lattices never contain.", "anchors": ["src/Geometry/geometry.c:get_site_2piBZ", "src/Geometry/geometry.c:get_site_pipiBZ", "src/Geometry/geometry.c:get_mom_pipi", "src/Geometry/geometry.c:TwoPI_mpipi_momconv"]}
{"id": "C04", "title": "Translation by a separation vector is the periodic translation", "statement": "The site found at a given separation from a start site has coordinates equal to start plus separation modulo the extents, for any separation vector.", "quantifier": "every lattice shape, start site and signed separation vector", "why_tests_cant": "Signed/unsigned mixing only shows for separations beyond minus one extent and only for extents that are not powers of two.", "anchors": ["src/Geometry/geometry.c:compute_spacing"]}
{"id": "C05", "title": "Displacement from the origin is the shortest periodic representative", "statement": "The displacement vector reported for a site is congruent to its coordinates modulo the extents and each component has absolute value at most half the extent; the reported squared radius is the minimum over all periodic images.", "quantifier": "every lattice shape and every site", "why_tests_cant": "Minimality quantifies over infinitely many periodic images and all shapes.", "anchors": ["src/Geometry/geometry.c:get_vec_from_origin", "src/Geometry/geometry.c:compute_rsq"]}
{"id": "C06", "title": "HiRep site order visits every site exactly once", "statement": "The translation used when reading or writing HiRep files is a permutation of the sites.", "quantifier": "every lattice shape with positive extents", "why_tests_cant": "A permutation claim ranges over every shape; an extent swap is invisible on cubic test lattices.", "anchors": ["src/Geometry/geometry.c:get_mom_2piBZ_hirep2", "src/IO/HIREP.c"]}
{"id": "C07", "title": "Draughtboard colours partition the sites", "statement": "After a successful draughtboard initialisation every site appears in exactly one colour list, exactly once, and every recorded list has the recorded length.", "quantifier": "every lattice shape, every number of included directions", "why_tests_cant": "Coverage and disjointness over all sites of all shapes; a missed site silently is never updated.", "anchors": ["src/Geometry/draughtboard.c:init_cb", "src/Geometry/draughtboard.c:get_midx"]}
{"id": "C08", "title": "Neighbouring sites never share a draughtboard colour", "statement": "If draughtboard initialisation succeeds then no site has a nearest neighbour in its own colour list, so all sites of one colour can be updated at the same time.", "quantifier": "every lattice shape accepted by the initialisation, every site and direction", "why_tests_cant": "The violation needs an odd extent congruent to 1 modulo 3 (for example 7), not present in usual tests.", "anchors": ["src/Geometry/draughtboard.c:init_cb", "src/Geometry/draughtboard.c:get_midx"]}
{"id": "C09", "title": "Parallel single-colour updates are independent of the thread schedule", "statement": "Updating all links of one direction on all sites of one colour gives the same lattice whatever the order in which threads process the sites, provided each update depends only on the staple around the link and the link.", "quantifier": "every schedule (permutation of the sites of one colour), every lattice field, every staple-local update function, every lattice shape on which neighbours have different colours", "why_tests_cant": "Schedules are exponentially many and races are non-deterministic.", "anchors": ["src/Update/relax.c:OR_lattice", "src/Update/hb.c:hb_lattice", "src/Smear/staples.c:all_staples"]}
{"id": "C10", "title": "Matrix products compute the mathematical product", "statement": "The product routines for A.B, A^dagger.B, A.B^dagger and A^dagger.B^dagger, and the in-place left and right products, return exactly the corresponding matrix product, for the unrolled 2- and 3-colour code and for the generic-N code.", "quantifier": "every pair of complex matrices (no assumption of unitarity), every number of colours", "why_tests_cant": "An identity over a continuum of matrices; a single wrong index in an unrolled formula can cancel on symmetric or real test matrices.", "anchors": ["src/Matrix_Ops/MMUL/MMUL.c:multab", "src/Matrix_Ops/MMUL/MMULdag.c:multabdag", "src/Matrix_Ops/MMUL/MMUL_dag.c:multab_dag", "src/Matrix_Ops/MMUL/MMULdagdag.c:multab_dagdag", "src/Matrix_Ops/MMUL/MMUL.c:multab_atomic_left", "src/Matrix_Ops/MMUL/MMUL.c:multab_atomic_right"]}
{"id": "C100", "title": "Best of several gauge copies", "statement": "Landau gauge fixing compiled to choose the best of several copies returns a field on the gauge orbit of its input, fixed to the requested accuracy, starting from the copy with the smallest functional; if the fixing does not converge this is reported.", "quantifier": "every input field, every sequence of random gauge transformations, every behaviour of the fixing routine", "why_tests_cant": "Which copies converge and which is best depends on random numbers; the paths on which no copy is accepted or the last run gives up are rare and their return values look like iteration counts.", "anchors": ["src/Gfix/Landau.c: luxury_copy_fast, Landau", "src/Gfix/gftests.c: gauge_functional", "src/Headers/GLU_definitions.h: BEST_COPY"]}
{"id": "C101", "title": "Coulomb gauge fixing works slice by slice along the gauge orbit", "statement": "Coulomb gauge fixing with the conjugate gradient returns a gauge transform of its input with the plaquette unchanged. The matrices of a time slice depend only on the spatial links of that slice, and the number returned is the sum of the iterations over the slices. A slice is left only when it has converged, and if it has not this is reported; a slice that satisfies the condition already is left as it is.", "quantifier": "every gauge configuration, lattice shape, accuracy, iteration limit and sequence of random restarts", "why_tests_cant": "The run goes through a data-dependent number of line searches and random restarts on every slice, and each slice is transformed by matrices of two slices; the bad cases are shapes and fields the examples do not use.", "anchors": ["src/Gfix/CFACG.c: Coulomb_FA, steep_fix, steep_step_FACG, steep_deriv_CG, sum_DER2, sum_PR, adequate_solution", "src/Gfix/Coulomb.c: Coulomb", "src/Gfix/line_search.c: line_search_Coulomb, line_search_CoulombOdd, exponentiate_gauge_CG", "src/Gfix/CGalloc.c: allocate_temp_cg, free_temp_cg"]}
{"id": "C102", "title": "The convergence measure of Coulomb gauge fixing bounds the divergence", "statement": "The number that Coulomb gauge fixing compares with the accuracy, and prints, bounds the mean squared divergence of the spatial links of the slice, for every number of colours.", "quantifier": "every special unitary field, every set of matrices reached during a run, every number of colours", "why_tests_cant": "The measure is computed from packed matrices with a different formula for two, three and more colours; a missing diagonal or a wrong sign still goes to zero on the generic fields used in tests.", "anchors": ["src/Gfix/CFACG.c: steep_deriv_CG, sum_DER2, sum_PR, steep_step_FACG", "src/Matrix_Ops/U_Nops.c: trace_ab_herm_short", "src/Headers/GLU_definitions.h: GFNORM_COULOMB"]}
{"id": "C103", "title": "The Coulomb line search measures the functional and takes the best step", "statement": "Each step of Coulomb gauge fixing along a search direction ends where the parabola through the gauge functional of the time slice (the sum of the real traces of its spatial links) before the step and after two trial steps is highest, on every lattice whatever its extents.", "quantifier": "every special unitary field, every set of matrices of the slice, every search direction, every lattice, two and three colours of the draughtboard", "why_tests_cant": "The traces are summed over one colour of a draughtboard when the extents allow it and over all sites otherwise; a link counted twice or missed shifts the step by an amount that still converges on the lattices tested.", "anchors": ["src/Gfix/line_search.c: line_search_Coulomb, line_search_CoulombOdd, exponentiate_gauge_CG, approx_minimum", "src/Geometry/draughtboard.c: init_cb"]}
{"id": "C104", "title": "The exact logarithm inverts the exponential", "statement": "For every special unitary link with two or three colours the logarithm is a traceless Hermitian matrix Q with exp(iQ) equal to the link, and the packed version holds the same entries.", "quantifier": "every SU(2) and SU(3) matrix, every previous content of the result", "why_tests_cant": "The closed formula has singular points (degenerate eigenvalues, the identity, minus one) and an expansion near zero that random links do not reach; a wrong expansion there changes the result by 1e-9.", "anchors": ["src/Matrix_Ops/exactQ.c: exact_log_slow, exact_log_slow_short", "src/Matrix_Ops/effs.c: f_hermitian_log_suNC"]}
{"id": "C105", "title": "The instanton start is the lattice version of an instanton", "statement": "Asking for an instanton start gives special unitary links that are the parallel transporters of the gauge field of an instanton of size 4 in the singular gauge around the centre of the lattice, or the request is refused.", "quantifier": "every lattice, every link, two and three colours, every number of dimensions", "why_tests_cant": "the result is a field of numbers with no reference to compare with; a test sees the plaquette or the charge of one lattice and not that the phase of every link is off", "anchors": ["src/Geometry/BPST_config.c: instanton_config, Asing", "src/IO/read_config.c: get_config_SUNC"]}
{"id": "C106", "title": "The three-gluon vertex at the symmetric point", "statement": "The measurement of the nonexceptional three-gluon vertex writes, for every pair of momenta p, q with p^2 = q^2 = (p+q)^2 below the maximum, each once, the two- and three-point functions of the transformed field at p, q and -p-q, the latter contracted with a projector that is normalised to the vertex of the action; nothing else is in the file, and the result depends on the field, the lattice and the options only.", "quantifier": "every lattice, field, cut and maximum, every content of fresh memory and of files of earlier runs", "why_tests_cant": "the last entry is whatever was in memory, which a test usually sees as zero; the normalisation is a statement about a sum over all components for all momenta", "anchors": ["src/Cuts/MOMggg.c: write_nonexceptional_g2g3", "src/Cuts/triplet_gen.c: get_proj_gracey, compute_projector, read_trip, read_triplet_and_proj, get_triplet"]}
{"id": "C107", "title": "Static quark correlators", "statement": "With a cut of type STATIC_POTENTIAL and a number T the program writes, for every displacement of its list and every length t from 1 to T-1, the two colour contractions of temporal lines of t links at that displacement: the trace of a line times the conjugate of the other, and the product of the trace of one and the conjugate trace of the other, summed over a time slice and averaged over the times. Builds with and without FFTW give the same numbers. The values at the opposite displacement are the complex conjugates. The first number does not change under gauge transformations that depend only on the time; the second does not change under any when the lines go around the lattice.", "quantifier": "every lattice of at least three dimensions, every gauge field, every cut, every T, builds with and without FFTW", "why_tests_cant": "The statement ranges over all gauge fields, lengths and displacements; a test compares one build on one configuration, and on fields with nearly real traces a missing conjugate does not show.", "anchors": ["src/Field/POLY.c: Coul_staticpot, static_quark_correlator, compute_trtr, compute_tr"]}
{"id": "C108", "title": "Random, unit and reunitarised configurations", "statement": "A random start fills every link with a special unitary matrix made from the random numbers of the thread that fills it, each number used once and in order; how the threads run relative to each other does not matter. A random gauge transformation leaves the field special unitary and changes no plaquette, Polyakov loop, action density or topological charge. A unit start makes every link the unit matrix whatever was there before: plaquette and link trace are one and the Polyakov loops equal the number of colours. Reunitarising a field leaves special unitary matrices and does not change a special unitary field.", "quantifier": "every stream of random numbers of every thread, every distribution of the links on threads and every interleaving, every lattice and number of colours above one, every earlier content of the field", "why_tests_cant": "A test fixes a seed, a number of threads and one interleaving; numbers that give linearly dependent rows or a pair at the centre of the unit circle never come up in it.", "anchors": ["src/Geometry/random_config.c: random_suNC, random_gtrans, random_transform, trivial, latt_reunitU", "src/Matrix_Ops/gramschmidt.c: Sunitary_gen", "src/Utils/par_rng.c: par_generate_NCxNC, par_polar_box"]}
{"id": "C109", "title": "The n-APE projection", "statement": "Projecting a matrix with the rescaled (n-APE) projection, the one APE and HYP smearing use unless the library is configured otherwise, gives the matrix times a positive matrix and a number, unitary up to the tolerance and with a positive determinant, or reports a failure. It does not change special unitary matrices and their positive multiples. APE smearing of a special unitary link with special unitary staples gives such a matrix.", "quantifier": "every matrix and number of colours; every link, set of staples and smearing weights", "why_tests_cant": "How many passes the iteration needs depends on the condition number; a test tries matrices near the group and never one on which the passes run out or whose sum with the staples is singular.", "anchors": ["src/Matrix_Ops/taylor_logs.c: nape_reunit, denman_rootZ, denman_rootY", "src/Smear/projectors.c: project_APE", "src/Headers/GLU_definitions.h: N_APE"]}
{"id": "C11", "title": "Reduced special-unitary products equal the full product", "statement": "For special-unitary operands the cheap products, which compute part of the result and complete the rest, return exactly the full matrix product, and the result is special unitary.", "quantifier": "every pair of SU(2) or SU(3) matrices", "why_tests_cant": "Holds only on a curved continuum of inputs; floating-point tests cannot separate a wrong completion sign on special inputs from rounding.", "anchors": ["src/Matrix_Ops/MMUL/MMUL_SUNC.c:multab_suNC", "src/Matrix_Ops/MMUL/MMULdag_SUNC.c:multabdag_suNC", "src/Matrix_Ops/MMUL/MMUL_dag_SUNC.c:multab_dag_suNC", "src/Matrix_Ops/MMUL/MMULdagdag_SUNC.c:multab_dagdag_suNC"]}
{"id": "C110", "title": "The smearing routine that is run", "statement": "A smearing request (type, directions, iterations) that reports success runs a routine that does what was asked for: the links in the directions asked for are updated simultaneously, the asked number of times, with the asked kind of smearing. The links do not depend on how much memory the machine has or on which smearings were done before. A flow for which there is too little memory is refused and leaves the library as it was. The routine that keeps all dressed links is chosen only if they fit into the memory.", "quantifier": "every smearing type, direction and number of iterations, every lattice of at least three dimensions, every amount of memory, every history of earlier smearing calls", "why_tests_cant": "The routine depends on the memory of the machine and on answers remembered from earlier calls in the same process; a test runs on one machine and sees one of the routines.", "anchors": ["src/Wrappers/SM_wrap.c: SM_wrap_struct, hyp_chooser", "src/Utils/GLU_memcheck.c: have_memory_hyp, have_memory_wf"]}
{"id": "C111", "title": "Reading with little memory", "statement": "Reading a configuration gives the same links and the same checksum whether the machine has memory for the whole file or reads it site by site; a configuration that was written is given back bit for bit; a file that is too short is refused. The BQCD checksum is that of the file.", "quantifier": "every file, byte order, precision, storage type, lattice of at most 2^32 sites, schedule of the fast reader, and history of earlier reads", "why_tests_cant": "Which reader runs depends on the memory of the machine; a test on one machine runs one of them.", "anchors": ["src/IO/readers.c: lattice_reader_suNC_cheaper, lattice_reader_suNC, DML_checksum_accum", "src/IO/read_config.c: get_config_SUNC"]}
{"id": "C112", "title": "Vectorised matrix products", "statement": "The matrix products compiled for processors with vector instructions give the same matrices as the mathematical definition: a product with any pattern of adjoints, the in-place products, and on special unitary matrices the shortened products, whatever instruction set and unrolling factor the library was built with. The vectorised and the portable build therefore agree.", "quantifier": "every pair of matrices, number of colours, instruction set (SSE2, SSE3, FMA) and unrolling factor the build accepts", "why_tests_cant": "A test runs on one processor and one number of colours; the lanes are shuffled differently in each variant of the macros.", "anchors": ["src/Headers/SSE2_OPS.h: SSE2_MUL, SSE2_MULCONJ, SSE2_MUL_CONJ, SSE2_MUL_CONJCONJ", "src/Matrix_Ops/MMUL/MMUL_SSE.c: multab, multab_atomic_left, multab_atomic_right", "src/Matrix_Ops/MMUL/MMULdag_SSE.c: multabdag", "src/Matrix_Ops/MMUL/MMUL_dag_SSE.c: multab_dag", "src/Matrix_Ops/MMUL/MMULdagdag_SSE.c: multab_dagdag", "src/Matrix_Ops/MMUL/MMUL_SUNC_SSE.c: multab_suNC", "configure.ac: NBLOCK"]}
{"id": "C113", "title": "Vectorised matrix inversion", "statement": "Compiled for processors with vector instructions, the inversion routine returns the inverse of every regular matrix and reports a failure for every singular one, as the portable build does.", "quantifier": "every number of colours and every complex matrix, in particular those with a vanishing leading minor", "why_tests_cant": "Matrices with a vanishing leading minor have measure zero among random ones, so a test on random matrices never meets the pivoting code; a test on one build says nothing on the other.", "anchors": ["src/Matrix_Ops/invert_SSE.c: gauss_jordan, eliminate_column, swap_rows, SSE2_inverse, absfac, inverse"]}
{"id": "C114", "title": "Vectorised determinant and reunitarisation", "statement": "Compiled for processors with vector instructions, the elimination routine returns the determinant of every matrix, and the reunitarisation returns, whenever it does not divide by zero, the same special unitary matrix as the portable build; a special unitary matrix is left as it is.", "quantifier": "every number of colours, every complex matrix, every content of the uninitialised scratch array and both instruction sets (with and without fused multiply-add)", "why_tests_cant": "Agreement of two builds is a statement about all matrices; a test of one build runs one of them, on sample matrices, and the branch for four and more colours is never compiled in the default configuration.", "anchors": ["src/Matrix_Ops/LU_SSE.c: LU_det, LU_det_overwrite", "src/Matrix_Ops/gramschmidt_SSE.c: gram_reunit"]}
{"id": "C115", "title": "Vectorised traces of triple products", "statement": "Compiled for processors with vector instructions, the traces of products of three matrices, with the last one daggered or not, are those of the matrices passed, and the short cut that returns the real part for special unitary matrices returns it.", "quantifier": "every number of colours, every three complex matrices (special unitary ones for the short cut) and all three instruction sets", "why_tests_cant": "The value is a polynomial in up to 27 (three colours) or arbitrarily many entries; tests compare sample values, and the loop branch is not compiled in the default configuration.", "anchors": ["src/Matrix_Ops/trace_abc_SSE.c: trace_abc, trace_abc_dag, trace_abc_dag_Re, Re_trace_abc_dag_suNC"]}
{"id": "C116", "title": "Vectorised SU(2) subgroup operations", "statement": "Compiled for processors with vector instructions, the projection of a link times staple on an SU(2) subgroup, the multiplication of two rows or columns by a subgroup matrix and the rotation of a link give what the portable build gives; an overrelaxation step keeps the link special unitary and the local action unchanged.", "quantifier": "every number of colours, every subgroup index, every link and staple, all three instruction sets", "why_tests_cant": "Equality of builds for all inputs; the branch for four and more colours is never compiled in the default configuration.", "anchors": ["src/Update/SU2_rotate_SSE.c: only_subgroup, shortened_su2_multiply, shortened_su2_multiply_dag, su2_rotate", "src/Update/relax.c: overrelax"]}
{"id": "C117", "title": "Vector instructions used inline", "statement": "Compiled for processors with vector instructions, the plaquette of four special unitary links is the real trace of their product, the gauge transformation of a link is the product of the three matrices and special unitary, the traceless hermitian projection of a link (three colours) and the rotations of the trace-maximising projection (three colours) are those of the portable build.", "quantifier": "every special unitary links and transformation matrices, every number of colours for the plaquette and the gauge transformation, every matrix for the projections, all instruction sets, every content of the scratch arrays", "why_tests_cant": "Each routine is some fifty hand written vector statements per number of colours; tests sample values on one build.", "anchors": ["src/Field/plaqs_links.c: complete_plaquette", "src/Gfix/gtrans.c: inline_gtransform_local", "src/Matrix_Ops/exactQ.c: Hermitian_proj_short", "src/Matrix_Ops/givens.c: rotation1, rotation2, rotation3"]}
{"id": "C118", "title": "The numbers printed about a gauge fixed field", "statement": "The largest local violation of the gauge condition that is printed is the largest over all sites, for every number of threads and every interleaving. The temporal constance printed is zero exactly if the temporal gauge potential summed over a time slice is the same for all slices, and it is zero for a field exactly in Landau gauge.", "quantifier": "every field, every lattice, every number of colours, every assignment of sites to threads and every interleaving of their tests and assignments", "why_tests_cant": "The maximum is found by a test outside the lock and an assignment inside it; the lost update needs a particular interleaving. The constance has a branch for each number of colours.", "anchors": ["src/Gfix/gftests.c: theta_test_lin, theta_test_log, const_time", "src/Wrappers/OBS_wrap.c: gf_check"]}
{"id": "C119", "title": "Running out of memory", "statement": "If a request for memory is refused at any point, the routine reports failure, does not touch memory it does not own, and gives back what it had been granted. If all requests are granted, the fields can be used, do not overlap, and all memory is given back at the end.", "quantifier": "every pattern of granted and refused requests, every lattice size, either allocator", "why_tests_cant": "Refusals happen at any of the many thousand requests of a run; a test would have to refuse each one in turn, and reading an unset pointer may go unnoticed.", "anchors": ["src/Utils/GLU_malloc.c: GLU_malloc, allocate_lat, free_lat, allocate_s_site, free_s_site", "src/Smear/smear.c: smear4D", "src/Smear/wflowfuncs.c: allocate_WF, free_WF", "src/Smear/wflow.c: flow_RK3", "src/Gfix/CGalloc.c: allocate_temp_lg, free_temp_lg", "src/Gfix/FACG.c: FACG", "src/Wrappers/GLUlib_wrap.c: read_file"]}
{"id": "C12", "title": "Trace routines return the trace of the product they name", "statement": "Each trace routine (Tr A, Tr AB, Tr AB^dagger, Tr ABC, Tr ABC^dagger and the Hermitian and packed-Hermitian forms) returns the trace of the product it documents, under its documented assumptions on the operands.", "quantifier": "every operand satisfying the documented assumption", "why_tests_cant": "Identity over a continuum of matrices with hidden assumptions (tracelessness, hermiticity) that particular test matrices may satisfy by accident.", "anchors": ["src/Matrix_Ops/U_Nops.c:trace_ab", "src/Matrix_Ops/U_Nops.c:trace_ab_dag", "src/Matrix_Ops/U_Nops.c:trace_ab_herm", "src/Matrix_Ops/U_Nops.c:trace_ab_herm_short", "src/Matrix_Ops/trace_abc.c"]}
{"id": "C120", "title": "Logarithm for more than three colours", "statement": "For more than three colours the logarithm of a gauge link is a traceless Hermitian matrix Q with exp(iQ) equal to the link, or a failure is reported. The nested square roots are principal roots, the series is cut only where its last term is negligible, and no memory outside the table of coefficients is read.", "quantifier": "every number of colours, every unitary matrix, every number of roots", "why_tests_cant": "The matrices near an eigenvalue minus one, where roots and series stop converging, have measure zero and are not met by random or sample links; the result for a generic link says nothing about them.", "anchors": ["src/Matrix_Ops/taylor_logs.c: denman_rootY, precompute_taylor_factors, brute_force_log", "src/Matrix_Ops/exactQ.c: exact_log_slow"]}
{"id": "C121", "title": "Topological charge along a smearing history", "statement": "A run that measures the topological charge while it smears writes, under the number k, the measurement of the field after exactly k rounds of smearing, in order and without gaps, as many as were asked for. A failed smearing or measurement is reported and nothing unmeasured is written.", "quantifier": "every smearing and measurement, every number of measurements, every point of failure", "why_tests_cant": "Which measurements fail, and when, depends on memory and files; a test sees one history and cannot tell memory never set from a measured number.", "anchors": ["src/Field/Qsusc.c: compute_Qsusc_step", "src/Wrappers/CUT_wrap.c: cuts_wrap_struct"]}
{"id": "C122", "title": "Exponential with an eigenvalue library", "statement": "For more than three colours, in a build with GSL or LAPACKE, exponentiating a traceless Hermitian matrix Q gives exp(iQ), whatever the eigenvalues are and in whatever order the library returns them.", "quantifier": "every number of colours, every Hermitian matrix, every order of its eigenvalues", "why_tests_cant": "The order of the eigenvalues is up to the library, and matrices with a repeated eigenvalue have measure zero; a test of a random matrix checks one order of distinct eigenvalues.", "anchors": ["src/Matrix_Ops/expMat.c: exponentiate", "src/Matrix_Ops/effs.c: calculate_effs_VDM_herm", "src/Matrix_Ops/vandermonde.c: solvandermonde_new", "src/Matrix_Ops/evalues.c: Eigenvalues_hermitian"]}
{"id": "C123", "title": "Gauge fixing test with the logarithm", "statement": "For two and three colours the second test printed for a configuration is the mean squared lattice divergence of the potential A with exp(iA) equal to the link. It is a number for every configuration, not negative, and zero exactly if the divergence vanishes at every site; for the Coulomb test only the spatial directions enter.", "quantifier": "every configuration of special unitary links, every lattice, both numbers of directions", "why_tests_cant": "A single link for which the routine divides by zero spoils the number for the whole lattice; random configurations do not contain such links, while the unit field consists of them.", "anchors": ["src/Gfix/gftests.c: theta_test_log", "src/Gfix/log_derivs.c: log_deriv", "src/Wrappers/OBS_wrap.c: gf_check", "src/Matrix_Ops/exactQ.c: exact_log_slow_short"]}
{"id": "C124", "title": "Files opened for reading are closed", "statement": "Reading a configuration closes the file it opened exactly once and closes nothing else, whichever step fails; a program that reads any number of configurations, good or bad, has the same files open afterwards as before. A missing file is an error unless the configuration is one that is made rather than read, and then it is never touched.", "quantifier": "every kind of header, every combination of outcomes of the steps, every history of readings, every set of files open before", "why_tests_cant": "The failing steps are refused memory, damaged files and missing files in every combination and order; a file left open shows only after very many readings, and closing a file that was never opened need not show at all.", "anchors": ["src/Wrappers/GLUlib_wrap.c: read_file", "src/IO/read_headers.c: read_header", "src/IO/read_config.c: get_config_SUNC, checks", "src/Utils/GLU_memcheck.c: have_memory_gauge"]}
{"id": "C125", "title": "The threads of a team agree on when to stop", "statement": "While the gauge is being fixed by several threads, every thread that has come to a barrier has read exactly the sums of what all threads contributed in this pass, so that all threads take the same decisions, come to the same barriers and leave the loop after the same number of passes; no thread waits at a barrier the others do not come to, and no two threads touch an entry of the shared array at once with one of them changing it.", "quantifier": "every number of threads, every interleaving of their reads and writes, every division of the work among them, every contribution of the sites in every pass, whatever the shared array held before; any arithmetic, also rounded", "why_tests_cant": "Whether the sums are read before they are complete or after they are cleared again depends on the interleaving; a run of the program sees one of astronomically many, and a missing barrier may show only on another machine.", "anchors": ["src/Gfix/FACG.c: steep_Landau_FASD, steep_Landau_FACG", "src/Gfix/CFACG.c: steep_step_FACG, steep_step_FASD"]}
{"id": "C126", "title": "The threads of a team start again together", "statement": "When a slice has been fixed to Coulomb gauge but the result is rejected, all threads of the team start again from random matrices, and when it is accepted all leave; the team does what one thread would do. A slice is started again at most eight times, and the number reported is the number of times it was.", "quantifier": "every number of threads, every division of the sites among them, every sequence of results of the method and every set of rejected sites in every pass", "why_tests_cant": "A result is rejected because of rounding at single sites, which no test can bring about at a chosen site; whether the threads then part depends on which thread was given the site.", "anchors": ["src/Gfix/CFACG.c: steep_fix, adequate_solution"]}
{"id": "C127", "title": "Overrelaxation of the lattice leaves the average plaquette unchanged", "statement": "Any number of overrelaxation sweeps over a lattice of group elements, by any number of threads, gives links that are group elements and the average plaquette that was there before, as long as no update divides by zero. For several threads no odd extent may leave one on division by three; a single thread does so for all extents of at least two.", "quantifier": "every number of colours of at least two, every number of dimensions, all extents as stated, every field of group elements, every interleaving of the accesses of the threads and every number of sweeps", "why_tests_cant": "The plaquette stays the same only if no two links of a square are changed at the same time; whether they are depends on the colouring of every shape and on the schedule, and the rounding of a measurement hides a small change.", "anchors": ["src/Update/relax.c: OR_lattice, overrelax", "src/Update/KPHB.c: update_lattice"]}
{"id": "C128", "title": "Updates leave group elements in the lattice", "statement": "After any number of heat bath sweeps with overrelaxations, from links in the group, every link is in the group unless a division by zero or the logarithm of zero has gone into it; this holds for lattices of all extents, also those for which the colouring lets a link be read while it is changed.", "quantifier": "every number of colours of at least two, all extents, every coupling, all random numbers in [0,1), every schedule of the threads, every number of sweeps", "why_tests_cant": "The random numbers range over a continuum and the schedules are unbounded; a draw that is rejected 43 times gives a matrix outside of the group that only the final reunitarisation repairs.", "anchors": ["src/Update/hb.c: hb_lattice, hb", "src/Update/relax.c: OR_lattice", "src/Update/KPHB.c: update_lattice, hb_update"]}
{"id": "C129", "title": "The heat bath draws from the Boltzmann weight", "statement": "With independent uniform random numbers, the number drawn by the heat bath for a subgroup, given that a draw is accepted, has the density of the Boltzmann weight of the link in the action at the given coupling: sqrt(1-a0^2) exp(a0/NORM), with the NORM the code computes from the coupling and the staple. The direction of the vector part is uniform on the sphere and the new subgroup element is the drawn one times the inverse of the projected one. This holds for the algorithm of Kennedy and Pendleton, also over the 43 draws that are allowed, and for that of Creutz.", "quantifier": "every coupling, every number of colours of at least two, every subgroup, every link in the group and staple for which the projection is defined, every measurable set of outcomes", "why_tests_cant": "A law of a continuous random variable; a histogram can only bound a deviation at one coupling, and a wrong power or constant can hide below its error.", "anchors": ["src/Update/hb.c: KP, Creutz, generate_SU2, hb", "src/Update/SU2_rotate.c: only_subgroup, su2_rotate", "src/Update/KPHB.c: hb_update"]}
{"id": "C13", "title": "Packed Hermitian storage loses nothing", "statement": "Packing a traceless Hermitian matrix and rebuilding it returns the same matrix, and packing a rebuilt matrix returns the same packed data.", "quantifier": "every traceless Hermitian matrix and every packed array, 2, 3 and N colours", "why_tests_cant": "Round trip over a continuum, plus index bookkeeping for general N.", "anchors": ["src/Matrix_Ops/U_Nops.c:pack_hermitian", "src/Matrix_Ops/U_Nops.c:rebuild_hermitian", "src/Matrix_Ops/U_Nops.c:rebuild_antihermitian"]}
{"id": "C130", "title": "The updates leave the Boltzmann distribution of a link unchanged", "statement": "If a link is distributed with the weight exp(beta/NC Re tr(U S^dagger)) with respect to the invariant measure of SU(NC), S being its staple, it has the same distribution after overrelaxation of the link, and after the heat bath in each subgroup when the drawn number has the density of the draws and the direction is made of two uniform numbers. Overrelaxation leaves the invariant measure itself unchanged.", "quantifier": "every number of colours of at least two, every staple, every coupling, every subgroup, every measurable function of the link", "why_tests_cant": "A statement on the distribution of the outcome over a whole continuous group; a run can only show averages within errors, and an update with a slightly wrong measure gives plausible averages.", "anchors": ["src/Update/relax.c: overrelax, microcanonical", "src/Update/hb.c: generate_SU2, hb", "src/Update/SU2_rotate.c: only_subgroup, su2_rotate"]}
{"id": "C131", "title": "The updates leave the distribution of the whole lattice unchanged", "statement": "Configurations distributed with the weight exp(beta/NC times the sum of the real traces of all plaquettes) with respect to the product of the invariant measures of the links have the same distribution after a sweep of overrelaxation over the lattice, whatever the number and the schedule of the threads. They also have the same distribution after any sequence of heat bath steps on links and subgroups, the drawn number of each having the density of the draws, and after the heat bath followed by any number of sweeps of overrelaxation.", "quantifier": "every number of colours of at least two, every lattice whose extents can be coloured, every coupling, every link and subgroup, every interleaving of the threads, every measurable function of the configuration", "why_tests_cant": "A statement on the distribution over the product of continuous groups for every schedule; a run only shows averages within errors on one schedule.", "anchors": ["src/Update/relax.c: OR_lattice, overrelax", "src/Update/hb.c: hb_lattice, hb, generate_SU2", "src/Update/SU2_rotate.c: only_subgroup, su2_rotate", "src/Geometry/draughtboard.c: init_cb"]}
{"id": "C132", "title": "Fourier acceleration solves the lattice Poisson equation", "statement": "The Fourier acceleration of the gauge fixing replaces every component of the direction by the only solution of the Poisson equation on the periodic lattice with that component as its source, the mean being kept with the factor four times the number of dimensions; in the Coulomb gauge the same holds on a time slice. The accelerated direction still stands for traceless matrices of the Lie algebra and points uphill: the functional grows along it at every field that is not stationary, so short steps raise it. The accelerated conjugate gradient for two and three colours never divides by zero when started there.", "quantifier": "every lattice of valid extents (three and more dimensions for a time slice), every field, every number of colours from 2 to 18 for the step and 2 or 3 for the conjugate gradient", "why_tests_cant": "A statement on all fields and all extents: a wrong factor for one momentum, a wrong order of the extents or a wrong zero mode still gives an algorithm that converges on typical fields, only more slowly.", "anchors": ["src/Geometry/geometry.c: gen_p_sq", "src/Gfix/Landau.c: Landau", "src/Gfix/Coulomb.c: Coulomb", "src/Gfix/FACG.c: FOURIER_ACCELERATE3, steep_Landau_FA, steep_Landau_FACG", "src/Gfix/CFACG.c: FOURIER_ACCELERATE2", "src/Geometry/plan_ffts.c: create_plans_DFT", "src/Headers/GLU_definitions.h: MAX_LANDAU, MAX_COULOMB"]}
{"id": "C133", "title": "A cached table of structure constants is the computed one", "statement": "In a build that keeps the colour structure constants in a file between runs, contractions with a table read from the file give the numbers of the table a run without file computes, and a run that stops at any moment never makes a later run compute with anything else.", "quantifier": "every table, every crash point during the write of the cache, every later run", "why_tests_cant": "the crash points are not reachable by a test and the stale file is looked at only by later runs", "anchors": ["src/Matrix_Ops/lie_mats.c: compute_fs_and_ds, ifabc_ABC, dabc_ABC"]}
{"id": "C134", "title": "The report of bad links", "statement": "The number of bad links printed with the observables is the number of links of the lattice that fail the unitarity test. It is zero for every lattice of unitary links, and zero means that every link is unitary within the tolerance. It is announced as a check for links outside of SU(N), so links with a determinant other than one are reported.", "quantifier": "every lattice, every number of colours and dimensions, every content of the stack", "why_tests_cant": "a sample of lattices cannot show that no bad link is missed or good link reported", "anchors": ["src/Wrappers/OBS_wrap.c: check_links", "src/Matrix_Ops/U_Nops.c: is_unitary"]}
{"id": "C135", "title": "The Landau gauge accuracy printed with the configuration space propagator", "statement": "The number printed is the sum over the sites of the squared entries of the divergence of the gauge fields, divided by the number of colours and sites. It is never negative and zero exactly when the Landau condition holds at every site.", "quantifier": "every Hermitian traceless field on every lattice, every number of colours and dimensions", "why_tests_cant": "cancellations between sites or directions would only show for particular fields", "anchors": ["src/Cuts/config_gluons.c: check_landau_condition"]}
{"id": "C136", "title": "Polyakov loops measured by several threads", "statement": "In a build that prints Polyakov loops during the updates, the real and imaginary part printed for each direction are those of the average Polyakov loop of that direction, for any number of threads, any distribution of the loops over the threads and whatever the shared array held before.", "quantifier": "every lattice, every field, every number of threads, every distribution of the iterations", "why_tests_cant": "a run shows one distribution of the iterations out of a number that grows exponentially", "anchors": ["src/Field/POLY.c: poly_th, poly", "src/Update/KPHB.c: perform_measurements"]}
{"id": "C137", "title": "Coulomb gauge fixing by steepest descent", "statement": "In a build configured for steepest descent, Coulomb gauge fixing that returns has replaced the configuration by a gauge transform of it, found slice by slice from the original configuration; all links are special unitary, the average plaquette is unchanged and the number returned is the sum of the iterations of the slices. A slice is left when the measure is at most the accuracy or after eight random restarts; the measure is the normalised length of the direction of the last step. With two or three colours no step on any configuration is undefined, and a slice that already satisfies the gauge condition is left after one iteration with measure zero.", "quantifier": "every lattice, every special unitary field, every accuracy, step and number of iterations, every choice of random matrices; two or three colours for the last sentence", "why_tests_cant": "the number of iterations and restarts is not bounded by anything a test could enumerate, and the case of a direction of length zero is met only on exactly fixed configurations", "anchors": ["src/Gfix/CFACG.c: steep_step_SD, steep_step_FASD, steep_fix, Coulomb_FA", "src/Gfix/Coulomb.c: Coulomb"]}
{"id": "C14", "title": "Compressed SU(3) storage reproduces the matrix", "statement": "Rebuilding an SU(3) matrix from its shortened 8-parameter form returns the matrix that was shortened.", "quantifier": "every SU(3) matrix", "why_tests_cant": "The failing set (both off-diagonal entries of the first row zero) has measure zero, so random tests never hit it although gauge fixing produces it.", "anchors": ["src/Matrix_Ops/U_Nops.c:shorten", "src/Matrix_Ops/U_Nops.c:rebuild"]}
{"id": "C15", "title": "Reunitarisation returns a special unitary matrix and fixes special unitary ones", "statement": "Reunitarising a matrix with linearly independent leading columns returns a special unitary matrix, and reunitarising a special unitary matrix returns it unchanged.", "quantifier": "every complex matrix with independent leading columns; every SU(2) and SU(3) matrix", "why_tests_cant": "A statement about a continuum of inputs; tests check samples to a tolerance.", "anchors": ["src/Matrix_Ops/gramschmidt.c:gram_reunit"]}
{"id": "C16", "title": "Completing a truncated link restores the full special unitary matrix", "statement": "A link stored without its last row is restored exactly when the original link was special unitary.", "quantifier": "every SU(2) and SU(3) link", "why_tests_cant": "Continuum of matrices; a sign or conjugation error in the completion is invisible on real or diagonal matrices.", "anchors": ["src/IO/readers.c:complete_top", "src/IO/readers.c:rebuild_lat"]}
{"id": "C17", "title": "Integer matrix power is the repeated product", "statement": "Raising a matrix to a non-negative integer power by the binary method returns the n-fold product.", "quantifier": "every square complex matrix and every non-negative power", "why_tests_cant": "Unbounded exponent; correctness depends on the binary expansion of every n.", "anchors": ["src/Matrix_Ops/U_Nops.c:matrix_power"]}
{"id": "C18", "title": "Determinant by pivoted elimination is the determinant", "statement": "The elimination routine returns the determinant of the matrix for every size, including singular matrices where it returns zero.", "quantifier": "every size and every complex square matrix", "why_tests_cant": "Pivot order depends on the data, so there are factorially many elimination paths; singular inputs are measure zero.", "anchors": ["src/Matrix_Ops/LU.c:LU_det_overwrite", "src/Matrix_Ops/U_Nops.c:det", "src/Matrix_Ops/U_Nops.c:cofactor_transpose"]}
{"id": "C19", "title": "Matrix inversion returns the inverse or reports failure", "statement": "If the inversion routine reports success then its result times the input is the identity; a singular matrix is reported as failure.", "quantifier": "every complex 2x2 and 3x3 matrix and every matrix treated by Gauss-Jordan elimination", "why_tests_cant": "Singular matrices are a measure-zero set and the elimination path depends on data.", "anchors": ["src/Matrix_Ops/invert.c:inverse", "src/Matrix_Ops/invert.c:gauss_jordan"]}
{"id": "C20", "title": "Exponentiating a traceless Hermitian matrix gives a special unitary matrix", "statement": "The exponentiation routine returns exp(i Q), which is special unitary, for traceless Hermitian Q.", "quantifier": "every traceless Hermitian 2x2 (and 3x3) matrix including those near zero", "why_tests_cant": "The routine switches formulas on thresholds, so the claim must cover every point of each branch including tiny arguments.", "anchors": ["src/Matrix_Ops/expMat.c:exponentiate", "src/Matrix_Ops/expMat.c:exponentiate_short", "src/Matrix_Ops/effs.c:f_hermitian_log_suNC"]}
{"id": "C21", "title": "Structure-constant contractions equal the trace they stand for", "statement": "The tabulated f and d structure constants contracted with the colour components of three traceless matrices give the trace they are documented to give (four times Tr(ABC)).", "quantifier": "every triple of traceless matrices, every number of colours", "why_tests_cant": "One wrong entry out of 112 table entries only shows for field components along that index triple.", "anchors": ["src/Matrix_Ops/lie_mats.c:compute_f_and_d", "src/Matrix_Ops/lie_mats.c:ifabc_dabc_ABC", "src/Matrix_Ops/lie_mats.c:lie_data"]}
{"id": "C22", "title": "Generated SU(N) generators are traceless Hermitian and normalised", "statement": "Each generated generator is traceless and Hermitian and the trace of the product of two generators is one half on equal indices and zero otherwise.", "quantifier": "every number of colours above three and every pair of generators", "why_tests_cant": "Parametric in N; the defect is an unsigned negation producing huge entries.", "anchors": ["src/Matrix_Ops/lie_mats.c:init_generators"]}
{"id": "C23", "title": "Vandermonde solver returns the interpolating coefficients", "statement": "The solver returns the coefficients of the polynomial that takes the given values at the given distinct points.", "quantifier": "every number of points, all distinct points and all values", "why_tests_cant": "Parametric in the number of points and over a continuum of nodes.", "anchors": ["src/Matrix_Ops/vandermonde.c:solvandermonde"]}
{"id": "C24", "title": "Unitarity check accepts exactly the unitary matrices", "statement": "The unitarity check reports true only for matrices whose rows and columns are orthonormal within tolerance.", "quantifier": "every complex matrix", "why_tests_cant": "Soundness of an acceptance test ranges over all rejected inputs.", "anchors": ["src/Matrix_Ops/U_Nops.c:is_unitary"]}
{"id": "C25", "title": "Matrix times vector returns the product", "statement": "Multiplying a matrix by a vector returns the mathematical product for every number of colours.", "quantifier": "every matrix and vector", "why_tests_cant": "A single wrong entry in the unrolled 3-colour formula is invisible when two entries coincide.", "anchors": ["src/Matrix_Ops/U_Nops.c:mat_mult_vec"]}
{"id": "C26", "title": "SU(2) subgroup rotations act as left multiplication and keep the link in the group", "statement": "Applying an SU(2) subgroup rotation to a link multiplies it from the left by a special unitary matrix that differs from the identity only in the two rows of the subgroup, so the link stays special unitary; the subgroups enumerated are all index pairs, each once.", "quantifier": "every number of colours, every SU(2) element, every link, every subgroup index", "why_tests_cant": "Continuum of group elements and parametric number of subgroups.", "anchors": ["src/Update/SU2_rotate.c:su2_rotate", "src/Update/SU2_rotate.c:shortened_su2_multiply", "src/Update/SU2_rotate.c:compute_pertinent_indices", "src/Update/SU2_rotate.c:only_subgroup"]}
{"id": "C27", "title": "Overrelaxation leaves the action unchanged", "statement": "An overrelaxation update of a link leaves the real trace of link times staple-dagger unchanged and keeps the link special unitary.", "quantifier": "every link in the group and every staple for which the subgroup projection is non-zero", "why_tests_cant": "Exact conservation over a continuum; tests see only agreement up to rounding on samples.", "anchors": ["src/Update/relax.c:overrelax", "src/Update/relax.c:microcanonical"]}
{"id": "C28", "title": "Heat-bath updates produce group elements", "statement": "The SU(2) element generated by the heat bath is special unitary whatever the random numbers are.", "quantifier": "every stream of random numbers and every staple norm", "why_tests_cant": "The failing path needs the maximum number of consecutive rejections, which has tiny probability in a test.", "anchors": ["src/Update/hb.c:generate_SU2", "src/Update/hb.c:KP", "src/Update/hb.c:hb"]}
{"id": "C29", "title": "The average plaquette is gauge invariant and normalised", "statement": "Any gauge transformation of the lattice leaves every plaquette measurement unchanged, and on the trivial configuration every average plaquette equals one.", "quantifier": "every lattice shape, gauge field and gauge transformation; every number of dimensions", "why_tests_cant": "Gauge invariance quantifies over all fields and all local transformations; the normalisation is parametric in the number of dimensions.", "anchors": ["src/Field/plaqs_links.c:complete_plaquette", "src/Field/plaqs_links.c:av_plaquette", "src/Field/plaqs_links.c:all_plaquettes", "src/Gfix/gtrans.c:gtransform"]}
{"id": "C30", "title": "Polyakov loops are gauge invariant", "statement": "Any gauge transformation leaves the traced loop that winds once around any direction unchanged, whatever the start site along the loop.", "quantifier": "every lattice shape, gauge field, gauge transformation, direction and start site", "why_tests_cant": "Requires induction over the extent and holds for all fields and transformations.", "anchors": ["src/Field/POLY.c:poly", "src/Field/POLY.c:small_poly", "src/Gfix/gtrans.c:gtransform"]}
{"id": "C31", "title": "Gauge transformations form a group action and keep links in the group", "statement": "Transforming by the identity does nothing, transforming by g then h equals transforming by the product hg, and special unitary links stay special unitary.", "quantifier": "every gauge field and pair of transformations", "why_tests_cant": "Continuum statement over all lattice fields.", "anchors": ["src/Gfix/gtrans.c:gtransform", "src/Gfix/gtrans.c:inline_gtransform_local"]}
{"id": "C32", "title": "Staples transform like the link they surround", "statement": "The staple sum around a link transforms under a gauge transformation exactly as the link, so Re Tr(link . staple^dagger) is gauge invariant, and the sum over links of Re Tr(link . staple^dagger) counts each plaquette four times.", "quantifier": "every lattice shape, field, transformation, site and direction", "why_tests_cant": "Universal over fields; index slips in a staple survive on uniform fields.", "anchors": ["src/Smear/staples.c:all_staples"]}
{"id": "C33", "title": "Buffered in-place smearing equals simultaneous smearing", "statement": "One iteration of four-dimensional smearing that overwrites the lattice time slice by time slice through delay buffers gives the same lattice as computing every new link from the old lattice.", "quantifier": "every temporal extent (including 1 and 2), every field, every link update that reads only the time slices t-1, t and t+1", "why_tests_cant": "The delay schedule must be right for every number of time slices; boundary slices are handled separately from the bulk.", "anchors": ["src/Smear/smear.c:smear4D"]}
{"id": "C34", "title": "Byte swapping is exact reversal and its own inverse", "statement": "Swapping an array of words reverses the bytes of each word and swapping twice restores the array.", "quantifier": "every array of 32-bit or 64-bit words of every length", "why_tests_cant": "2^32 and 2^64 word values and unbounded lengths.", "anchors": ["src/Utils/GLU_bswap.c:bswap_32", "src/Utils/GLU_bswap.c:bswap_64"]}
{"id": "C35", "title": "The CRC-32 used for the SciDAC checksum is the standard CRC and composes over chunks", "statement": "The table-driven CRC of a byte string equals the bit-by-bit polynomial CRC-32, does not depend on how the string is split into calls, and changes whenever a single byte of the data changes.", "quantifier": "every byte string of every length, every split, every single-byte corruption", "why_tests_cant": "Unbounded inputs; a wrong table entry or loop unrolling tail only shows for specific bytes and lengths.", "anchors": ["src/IO/crc.c:crc32", "src/IO/crc.c:crc_table", "src/IO/readers.c:lattice_reader_suNC"]}
{"id": "C36", "title": "The BQCD checksum of a configuration is the POSIX cksum of its data", "statement": "The checksum accumulated over any number of data blocks equals the POSIX cksum of their concatenation, for each configuration read in a process.", "quantifier": "every sequence of data blocks and every sequence of reads in one process", "why_tests_cant": "History-dependent: static state survives from one read to the next, which a single-read test does not see.", "anchors": ["src/IO/crc.c:CKSUM_ADD", "src/IO/crc.c:CKSUM_GET"]}
{"id": "C37", "title": "Configuration checksums do not depend on the thread schedule", "statement": "The NERSC sum, MILC rotated sums and SciDAC rank-weighted sums come out the same for any partition of the sites over threads and any order.", "quantifier": "every partition and order of sites, every site data", "why_tests_cant": "Exponentially many schedules.", "anchors": ["src/IO/readers.c:DML_checksum_accum", "src/IO/readers.c:lattice_reader_suNC", "src/IO/writers.c:compute_checksum", "src/IO/writers.c:checksum"]}
{"id": "C38", "title": "Writer and reader agree on the checksum of what was written", "statement": "For each native format, the checksum computed while writing a configuration equals the one recomputed when the written data are read back.", "quantifier": "every configuration, both byte orders, every lattice shape", "why_tests_cant": "Depends on every data word, the byte order and the site order.", "anchors": ["src/IO/writers.c:write_lat", "src/IO/readers.c:lattice_reader_suNC", "src/IO/read_config.c:check_sums"]}
{"id": "C39", "title": "Writing then reading a configuration restores it", "statement": "With the default double-precision output, reading back the link data written for each storage type gives the same links: full matrices always, two stored rows when the links are special unitary. A file that is too short is refused.", "quantifier": "every special unitary configuration, lattice shape and byte order", "why_tests_cant": "Continuum of fields, all shapes.", "anchors": ["src/IO/writers.c:grab_sitedata", "src/IO/writers.c:copy_data", "src/IO/writers.c:write_binary_data", "src/IO/readers.c:lattice_reader_suNC"]}
{"id": "C40", "title": "Low-memory writer stays inside its buffer and writes the same bytes", "statement": "The slice-by-slice writer used when memory is short never writes outside its buffer and produces the same file as the whole-lattice writer.", "quantifier": "every lattice shape with more than one time slice", "why_tests_cant": "The memory-short path is not selected on test machines.", "anchors": ["src/IO/writers.c:write_binary_data_cheap"]}
{"id": "C41", "title": "HiRep files round trip", "statement": "Reading a HiRep file that was written from a configuration restores the configuration.", "quantifier": "every lattice shape, configuration and number of colours", "why_tests_cant": "Depends on site permutation, direction order and colour-specific storage.", "anchors": ["src/IO/HIREP.c:read_gauge_field", "src/IO/HIREP.c:write_gauge_field"]}
{"id": "C42", "title": "CERN (openQCD) files round trip", "statement": "Reading a CERN file that was written from a configuration restores every link.", "quantifier": "every lattice shape and configuration", "why_tests_cant": "Each link is stored by exactly one odd site only if all extents are even.", "anchors": ["src/IO/CERN.c:read_CLS_field", "src/IO/CERN.c:write_CLS_field"]}
{"id": "C43", "title": "A corrupted configuration is rejected", "statement": "A configuration whose header checksum, plaquette or link trace disagrees with the recomputed value is not accepted; in particular a file that differs from an accepted one in a few bytes is refused under the same header.", "quantifier": "every combination of header values and recomputed values, every pair of files differing in a few bytes", "why_tests_cant": "Acceptance logic over all combinations, including checksum values that collide with error codes.", "anchors": ["src/IO/read_config.c:check_sums", "src/IO/read_config.c:get_config_SUNC", "src/Wrappers/GLUlib_wrap.c:read_file", "src/IO/readers.c:lattice_reader_suNC"]}
{"id": "C44", "title": "Header parsing is memory safe and returns the first matching field", "statement": "Parsing a header accepts or rejects any text without undefined behaviour, and a looked-up key returns the value of its first occurrence.", "quantifier": "every header text", "why_tests_cant": "Adversarial inputs of every length; tests use well-formed headers.", "anchors": ["src/IO/chklat_stuff.c:get_header", "src/IO/chklat_stuff.c:get_string"]}
{"id": "C45", "title": "Configurations written by the program have headers the program accepts", "statement": "Any header written for a configuration is accepted by the reader of the same format and gives back the trajectory number and dimensions.", "quantifier": "every lattice shape, machine byte order and every trajectory number including zero", "why_tests_cant": "The rejected trajectory number is the starting value of fresh runs and is a single value among all; byte-order combinations need two machines.", "anchors": ["src/IO/write_headers.c:write_header_NERSC", "src/IO/write_headers.c:write_header_MILC", "src/IO/read_headers.c:get_header_data_NERSC", "src/IO/read_headers.c:get_header_data_MILC", "src/IO/read_headers.c:get_header_data_HIREP", "src/IO/read_headers.c:get_header_data_CERN", "src/IO/Scidac.c:write_header_SCIDAC", "src/IO/Scidac.c:write_header_ILDG", "src/IO/XML_info.c:parse_and_set_xml_SCIDAC"]}
{"id": "C46", "title": "LIME records are aligned and skippable", "statement": "Every LIME record written is padded to a multiple of eight bytes with fewer than eight padding bytes, so a reader that skips by the declared lengths arrives exactly at the next record.", "quantifier": "every sequence of records of any length, any machine byte order", "why_tests_cant": "Unbounded lengths and sequences.", "anchors": ["src/IO/Scidac.c:write_SCIDAC_binary", "src/IO/Scidac.c:parse_SCIDAC_hdr", "src/IO/Scidac.c:get_header_data_SCIDAC"]}
{"id": "C47", "title": "Input-file lookup returns the first value for a tag and never reads outside the table", "statement": "Looking up a tag in the parsed input file returns the value from the first line with that tag, and a missing tag is reported as failure without reading outside the table.", "quantifier": "every input file, every tag", "why_tests_cant": "Adversarial inputs: number of lines, line length, missing tags.", "anchors": ["src/IO/input_reader.c:pack_inputs", "src/IO/input_reader.c:tag_search", "src/IO/input_reader.c:get_input_data"]}
{"id": "C48", "title": "Saving and restoring the random state continues the same stream", "statement": "After writing the generator state and reading it back, all later random numbers equal those of the uninterrupted run.", "quantifier": "every generator state, every number of later draws, every generator type, both byte orders", "why_tests_cant": "Infinite streams; byte-order mistakes depend on the state words.", "anchors": ["src/Utils/par_rng.c:write_par_rng_state", "src/Utils/par_rng.c:read_par_rng_state", "src/Utils/par_KISS.c", "src/Utils/par_MWC_1038.c", "src/Utils/par_MWC_4096.c", "src/Utils/par_WELL_512.c", "src/Utils/par_XOR_1024.c"]}
{"id": "C49", "title": "The generators use their whole state", "statement": "Each generator cycles through its whole state table, so that the output depends on every table word.", "quantifier": "every seed and every number of draws", "why_tests_cant": "A stuck index still produces random-looking output on any finite sample.", "anchors": ["src/Utils/par_MWC_4096.c:par_MWC_4096", "src/Utils/par_MWC_1038.c", "src/Utils/par_WELL_512.c", "src/Utils/par_XOR_1024.c"]}
{"id": "C50", "title": "Uniform random doubles lie in the half-open unit interval", "statement": "The uniform generator returns a value at least zero and below one.", "quantifier": "every 32-bit or 64-bit generator output", "why_tests_cant": "The value one only arises for about a thousand of the 2^64 outputs, by rounding.", "anchors": ["src/Utils/par_MWC_1038.c", "src/Utils/par_MWC_4096.c", "src/Utils/par_WELL_512.c", "src/Utils/par_XOR_1024.c", "src/Utils/par_KISS.c"]}
{"id": "C51", "title": "A restored generator is not silently reseeded", "statement": "After restoring the generator from a file, later initialisation calls with no file keep the restored state.", "quantifier": "every history of initialise and free calls", "why_tests_cant": "History property over arbitrary call sequences.", "anchors": ["src/Utils/par_rng.c:initialise_par_rng"]}
{"id": "C52", "title": "Tree and compensated sums return the sum", "statement": "The divide-and-conquer sum, its threaded version and the running mean and variance return the exact sum, mean and variance of the data.", "quantifier": "every array of every length and every number of threads", "why_tests_cant": "The failing thread counts depend on the array length; long arrays and all splits.", "anchors": ["src/Utils/GLU_sums.c:dandc_sum", "src/Utils/GLU_sums.c:par_danc_sum", "src/Utils/GLU_sums.c:knuth_average", "src/Utils/GLU_sums.c:knuth_average_err"]}
{"id": "C53", "title": "Numerical derivatives are exact on polynomials of the stencil order", "statement": "The three-, four- and five-point derivative rules on a non-uniform grid return the exact derivative of every polynomial of degree two, three and four, and the cubic interpolant passes through its nodes with the given slopes.", "quantifier": "every grid of distinct points, every polynomial of the degree", "why_tests_cant": "Continuum of grids; uniform grids hide most coefficient errors.", "anchors": ["src/Utils/GLU_splines.c:spline_derivative", "src/Utils/GLU_splines.c:cubic_eval"]}
{"id": "C54", "title": "The memory-mode decision depends only on the configuration", "statement": "The choice between fast and slow input/output is the same for the same settings whatever was asked before.", "quantifier": "every sequence of queries", "why_tests_cant": "History property.", "anchors": ["src/Utils/GLU_memcheck.c"]}
{"id": "C55", "title": "A resumed update run equals the uninterrupted run", "statement": "Starting again from any saved configuration and its saved random state gives the same later configurations and measurements as the run that was not interrupted.", "quantifier": "every save point, every crash point after it, every run length and save interval", "why_tests_cant": "All crash points and histories.", "anchors": ["src/Update/KPHB.c:hb_update", "src/Utils/par_rng.c", "src/IO/writers.c:write_lat"]}
{"id": "C56", "title": "Saved configurations carry the trajectory number they belong to", "statement": "The trajectory number written in the header of a saved configuration is the number of completed updates.", "quantifier": "every thread schedule, save interval and measurement interval", "why_tests_cant": "A missing barrier makes the outcome schedule-dependent.", "anchors": ["src/Update/KPHB.c:hb_update"]}
{"id": "C57", "title": "Saved trajectory files have the requested path", "statement": "A saved configuration goes to the requested name followed by the trajectory number, without overflowing the name buffer.", "quantifier": "every requested path and trajectory number", "why_tests_cant": "Paths containing dots and numbers with many digits are unbounded families.", "anchors": ["src/Update/KPHB.c:hb_update"]}
{"id": "C58", "title": "An existing configuration file is never overwritten", "statement": "Writing a configuration to a name that already exists leaves the existing file unchanged.", "quantifier": "every file-system state and file name", "why_tests_cant": "All file-system states.", "anchors": ["src/Wrappers/CUT_wrap.c", "src/Wrappers/GLUlib_wrap.c:write_configuration"]}
{"id": "C59", "title": "The momentum list contains exactly the momenta inside the cut", "statement": "The list holds each lattice momentum that satisfies the chosen cut exactly once, each with the storage index at which the Fourier transform puts that momentum; reflecting the list reflects the momenta when no momentum lies on the zone boundary.", "quantifier": "every lattice shape, cut type and maximum momentum", "why_tests_cant": "All shapes and cut parameters; boundary momenta at even extents.", "anchors": ["src/Cuts/cut_routines.c:compute_veclist", "src/Cuts/cut_routines.c:get_mom_veclist", "src/Cuts/cut_routines.c:get_veclist", "src/Cuts/cut_routines.c:safe_momenta"]}
{"id": "C60", "title": "A damaged momentum-list cache is not used as if complete", "statement": "If the process stops while writing the cached momentum list, a later run never treats the partial file as a complete list.", "quantifier": "every crash point during the write of the cache", "why_tests_cant": "Crash points cannot be enumerated by unit tests.", "anchors": ["src/Cuts/cut_routines.c:compute_veclist"]}
{"id": "C61", "title": "Momentum triplets conserve momentum and are complete", "statement": "The triplet search returns exactly the pairs of momenta whose squares and whose sum's square all equal the requested value, and the first counting pass gives the same count as the filling pass.", "quantifier": "every requested squared momentum", "why_tests_cant": "Completeness over all integer vectors.", "anchors": ["src/Cuts/triplet_gen.c:recurse_p", "src/Cuts/triplet_gen.c:recurse_p2"]}
{"id": "C62", "title": "A failed operation is visible in the process exit status", "statement": "If reading or processing the configuration fails the program exits with a failure status.", "quantifier": "every command line and every failure", "why_tests_cant": "All failure combinations of an entire program run.", "anchors": ["src/Run/Mainfile.c:main"]}
{"id": "C63", "title": "Elementary matrix operations do what they say", "statement": "Adding matrices, scaled additions, adjoint, transpose, diagonal and identity constructors, scaling, copying, clearing and outer product produce exactly the named matrix in every entry.", "quantifier": "every matrix, every scalar and every number of colours", "why_tests_cant": "Every unrolled entry for every number of colours and every value.", "anchors": ["src/Matrix_Ops/U_Nops.c:dagger", "src/Matrix_Ops/U_Nops.c:outerproduct", "src/Matrix_Ops/U_Nops.c:a_plus_CSxb", "src/Matrix_Ops/U_Nops.c:diag_vect"]}
{"id": "C64", "title": "Draughtboard for rectangle actions", "statement": "When the heat bath is built with an improved action, the initialisation of the draughtboard succeeds on every four-dimensional lattice whose extents are multiples of four and refuses all others; after success the four lists of every direction hold every site exactly once, and updating the links of one list in parallel gives the same field whatever the schedule of the threads.", "quantifier": "every lattice shape, direction, field, update rule, interleaving of the reads and writes of the threads, order in which the sort leaves the lists", "why_tests_cant": "The colouring must be right for every shape and every pair of sites two steps apart; a race changes results only under unlucky schedules, and a site left out is never noticed.", "anchors": ["src/Geometry/draughtboard.c: init_improved_cb", "src/Update/hb.c: hb_lattice", "src/Update/relax.c: OR_lattice", "src/Smear/staples.c: all_staples_improve"]}
{"id": "C65", "title": "Improved smearing through delay buffers equals simultaneous smearing", "statement": "With the improved staples (which reach two time slices away) one iteration of four-dimensional smearing, and one memory-saving flow step, give the same lattice as computing every new link from the old lattice.", "quantifier": "every temporal extent, every field, every link update that reads at most two time slices away, any initial buffer contents", "why_tests_cant": "A wrong slice in the delay schedule only shows on lattices with enough slices and looks like a slightly different amount of smearing.", "anchors": ["src/Smear/smear.c:smear4D", "src/Smear/wflowfuncs.c:RK3step_memcheap"]}
{"id": "C66", "title": "Link traces are the stated averages", "statement": "Each link-trace measurement returns the mean over the stated sites and directions of the real trace divided by the number of colours, the three results of the combined measurement agree with the separate ones, the mean lies in [-1,1] and is 1 exactly for unit links, and the reported largest trace is the largest real trace.", "quantifier": "every lattice shape, number of colours and gauge configuration", "why_tests_cant": "Ranges over all configurations and lattice shapes; the extreme cases (all traces negative) are never generated by tests.", "anchors": ["src/Field/plaqs_links.c:all_links", "src/Field/plaqs_links.c:links", "src/Field/plaqs_links.c:s_links", "src/Field/plaqs_links.c:t_links", "src/Field/plaqs_links.c:indivlinks"]}
{"id": "C67", "title": "Memory-saving flow step equals the memory-expensive one", "statement": "The flow step that buffers single time slices produces the same links and the same accumulated update matrices as the step that stores a second copy of the lattice.", "quantifier": "every lattice, field, accumulated matrices, smearing type and buffer contents", "why_tests_cant": "The choice between the two depends on free memory, so runs on different machines silently take different paths; equality must hold for all lattices.", "anchors": ["src/Smear/wflowfuncs.c:RK3step", "src/Smear/wflowfuncs.c:RK3step_memcheap"]}
{"id": "C68", "title": "Stout smearing and the Wilson flow move each link by the exponential of the plaquette force", "statement": "One stout iteration multiplies every link by the exponential of i alpha times the traceless Hermitian part of staple times daggered link, one flow step is the published third-order Runge-Kutta scheme for the same force, the result stays in the group, smearing a gauge transformed field gives the gauge transform of the smeared field (so gauge invariant measurements do not change), and a pure gauge field does not move.", "quantifier": "every lattice size, number of dimensions, special unitary configuration, smearing parameter, step size, gauge transformation and number of iterations", "why_tests_cant": "A sign or index error in one staple orientation still gives smooth-looking fields, and covariance is a statement about every transformation of every configuration.", "anchors": ["src/Smear/projectors.c:project_STOUT", "src/Smear/smear.c:smear4D", "src/Smear/smear.c:smear3D", "src/Smear/wflowfuncs.c:step_distance", "src/Smear/wflowfuncs.c:RK3step", "src/Smear/wflowfuncs.c:step_distance_memcheap", "src/Smear/projectors.c:project_STOUT_wflow_short", "src/Smear/wflowfuncs.c:make_short_log"]}
{"id": "C69", "title": "The eigenvalue routines return the eigenvalues", "statement": "For every special unitary matrix with two or three colours, on both sides of the threshold near the identity, the three (two) numbers returned are the eigenvalues with their multiplicities, of modulus one and with product one. The routines for general and for Hermitian traceless matrices return the eigenvalues too.", "quantifier": "every SU(2) and SU(3) matrix, every 2x2 and 3x3 complex matrix, every traceless Hermitian 2x2 and 3x3 matrix", "why_tests_cant": "The closed formula has branches (choice of the square root, of the cube root, a vanishing denominator, a threshold of 1e-12) that random matrices never reach: degenerate eigenvalues, a vanishing trace, the neighbourhood of the identity.", "anchors": ["src/Matrix_Ops/evalues.c: Eigenvalues_suNC, Eigenvalues_su3_stab, Eigenvalues, Eigenvalues_hermitian, squarert, cubert"]}
{"id": "C70", "title": "Lie algebra projections are the projections", "statement": "The Hermitian projection of a matrix U is the traceless part of (U-U^dagger)/(2i), the anti-Hermitian one is (U-U^dagger)/2, the trace-free anti-Hermitian one is i times the Hermitian projection, and every packed variant stores the same numbers in the packed layout; the result is Hermitian and traceless.", "quantifier": "every number of colours and every matrix (for two colours every matrix that is a real combination of special unitary ones, which is all the library passes)", "why_tests_cant": "Quantifies over all complex matrices and all numbers of colours; three separate hand-written code branches must agree.", "anchors": ["src/Matrix_Ops/exactQ.c:Hermitian_proj", "src/Matrix_Ops/exactQ.c:Hermitian_proj_short", "src/Matrix_Ops/exactQ.c:AntiHermitian_proj", "src/Matrix_Ops/exactQ.c:AntiHermitian_proj_short", "src/Matrix_Ops/exactQ.c:trf_AntiHermitian_proj"]}
{"id": "C71", "title": "Configurations for another number of colours are refused", "statement": "Reading a configuration whose header declares another number of colours than the program was compiled for is reported as failure.", "quantifier": "every pair of different colour numbers, every lattice, HiRep, NERSC and SciDAC files", "why_tests_cant": "The check exists for every format and prints a message; whether its result reaches the caller has to be followed through all layers.", "anchors": ["src/IO/read_headers.c:get_header_data_HIREP", "src/IO/read_headers.c:get_header_data_NERSC", "src/IO/XML_info.c:parse_and_set_xml_SCIDAC", "src/IO/Scidac.c:parse_SCIDAC_hdr"]}
{"id": "C72", "title": "Gaussian random numbers are finite", "statement": "The Gaussian generators return a finite number for every sequence of uniform numbers.", "quantifier": "every sequence of uniform random numbers", "why_tests_cant": "The failing uniform values have probability about 2^-32 or 2^-64 per draw.", "anchors": ["src/Utils/par_rng.c:par_polar", "src/Utils/par_rng.c:par_polar_box"]}
{"id": "C73", "title": "The flow scale returned is where the measurements cross it", "statement": "If the flow measurements cross the requested scale, the scale setting returns a flow time inside of the interval of the last crossing at which the interpolation of the measurements has the requested value; otherwise it reports failure.", "quantifier": "every set of measurements, every scale, every increasing set of flow times", "why_tests_cant": "Continuum of data; the wrong root is chosen for a region of cubic coefficients that smooth test data do not visit.", "anchors": ["src/Utils/GLU_splines.c:solve_spline", "src/Utils/GLU_splines.c:cubic_solve", "src/Smear/wflowfuncs.c:evaluate_scale", "src/Smear/wflowfuncs.c:scaleset"]}
{"id": "C74", "title": "The last lattice of an update run is saved", "statement": "When the requested number of updates is a multiple of the save interval the lattice after the last update is saved with its generator state, like those at the earlier multiples.", "quantifier": "every run length, start, save interval and set of existing files", "why_tests_cant": "All run lengths and intervals, and the existing files.", "anchors": ["src/Update/KPHB.c:hb_update"]}
{"id": "C75", "title": "Measurement files read back the same on every machine", "statement": "Every binary file of the momentum-space and time-slice measurements (propagators, vertices, fields, correlators, static potential, charge moments) is the same whatever the byte order of the machine, can be read back with the published layout (big-endian, every array preceded by its length, every momentum by its number of components) to give exactly the momenta and the numbers that were measured, bit for bit, and a file whose end is missing is never mistaken for a complete one. Writing leaves the data in memory as they were.", "quantifier": "All momentum lists, data, dimensions, both byte orders, all points at which the file may be cut off", "why_tests_cant": "A test writes one small file on one machine; the layout must be right for every list length, sign of a component, bit pattern and byte order.", "anchors": ["src/Cuts/cut_output.c: FWRITE, write_mom_veclist, write_g2g3_to_list, write_g2_to_list, write_complex_g2g3_to_list, write_lattice_fields, write_tslice_list, write_moments", "src/Field/POLY.c: Coul_staticpot", "src/Field/Qcorr.c", "src/Field/Qslab.c", "src/Cuts/cuts.c: cuts_struct"]}
{"id": "C76", "title": "Action density and topological charge", "statement": "The measured action is the sum over sites and the six planes of tr F F, and the measured charge the contraction of F with its dual, where F is the traceless Hermitian projection of the sum of the Wilson loops of the selected definition (plaquette, four leaves, or the improved clover with up to five shapes). Both are unchanged by gauge transformations and translations; a reflection changes the sign of the charge and nothing else; the action is non-negative and twice the modulus of the charge does not exceed it; both vanish on gauge transforms of unit links. The threaded measurement gives the same numbers for every assignment of sites to threads, the charge density adds up to the charge, and an integer charge is reported exactly when the charge is within 0.1 of an integer and within 0.005 of the previous value.", "quantifier": "every four-dimensional lattice, every SU(N) field, every definition of the field strength and every set of improvement weights, every gauge transformation and lattice symmetry, every thread schedule", "why_tests_cant": "Quantifies over all fields, gauge transformations, symmetries and schedules; tests fix a handful of configurations and can not tell a wrong leaf from noise.", "anchors": ["src/Field/clover.c:compute_Gmunu", "src/Field/clover.c:compute_Gmunu_th", "src/Field/clover.c:compute_Gmunu_array", "src/Field/clover.c:compute_clover_s1", "src/Field/plaqs_links.c:gauge_topological_meas_th"]}
{"id": "C77", "title": "Flow measurements belong to the flow time they are labelled with", "statement": "Running the Wilson flow with fixed or adaptive steps prints and uses measurements each of which is taken on the input field flowed to exactly the time printed with it. The field handed back has been flowed by at most the stopping time, in at most the requested number of iterations; every adaptive step meets the error target or the run reports failure; scale setting reads exactly the measurements made, at increasing times.", "quantifier": "every field, every integrator and measurement, every step size, number of iterations, stopping and starting time, and every history of accepted and rejected steps", "why_tests_cant": "Which steps are rejected, when the flow passes the stopping time and when the fine measurements start depend on the field; no finite set of runs covers the histories.", "anchors": ["src/Smear/wflow.c:flow_RK3", "src/Smear/adaptive_flow.c:flow_adaptive_RK3", "src/Smear/adaptive_flow.c:twostep_adaptive", "src/Smear/wflowfuncs.c:update_meas_list", "src/Smear/wflowfuncs.c:scaleset", "src/Wrappers/SM_wrap.c:SM_wrap_struct"]}
{"id": "C78", "title": "A random stream does not repeat early or get stuck", "statement": "A generator is not back in an earlier state before a number of draws that no run reaches; no component of a seeded generator gets stuck at zero; and two threads seeded differently are in different states after every equal number of draws.", "quantifier": "every state or seed and every number of draws", "why_tests_cant": "A repeat after a billion draws, or one bad seed in four billion, is out of reach of tests.", "anchors": ["src/Utils/par_KISS.c:JKISS32", "src/Utils/par_MWC_1038.c:MWC_1038", "src/Utils/par_MWC_4096.c:par_MWC_4096", "src/Utils/par_XOR_1024.c:par_XOR_1024", "src/Utils/par_XOR_1024.c:GLU_set_par_XOR_1024_table"]}
{"id": "C79", "title": "Over-relaxed gauge fixing only moves along the gauge orbit and never lowers the functional", "statement": "Every rotation of the over-relaxation gauge fixing is a gauge transformation at one site, it never lowers the sum of real link traces in the fixed directions, and leaves it unchanged only where the site is already stationary for that subgroup; the whole Landau or Coulomb run therefore returns a configuration gauge equivalent to the input with the same average plaquette and a functional at least as good, stops within the allowed number of iterations, and does not depend on the order in which threads take the sites of a colour.", "quantifier": "every lattice size, number of colours and dimensions, special unitary configuration, over-relaxation parameter in [0,1), sequence of random numbers, thread schedule and iteration limit", "why_tests_cant": "Leaving the gauge orbit by an index error changes gauge invariant quantities only slightly, and monotonicity and order independence quantify over all configurations and schedules.", "anchors": ["src/Gfix/Or.c:OrRotation", "src/Gfix/Or.c:OR_single", "src/Gfix/Or.c:OR_iteration_th", "src/Gfix/Or.c:OrLandau", "src/Gfix/Or.c:OrCoulomb"]}
{"id": "C80", "title": "The gauge fixing convergence test measures the gradient of the gauge functional", "statement": "The number the gauge fixing compares with the accuracy is a positive multiple of the mean square of the lattice divergence of the gauge potential; that divergence is the gradient of the link-trace functional under gauge transformations, so the test is zero exactly for the fields that no infinitesimal gauge transformation improves; the quick and the generic routine for the divergence agree, and the reported functional is one minus the average link trace.", "quantifier": "every lattice size, number of colours and dimensions, special unitary configuration, number of fixed directions and direction in the gauge group", "why_tests_cant": "The equivalence of a small number on one side and the absence of any improving transformation on the other quantifies over all transformations of all configurations.", "anchors": ["src/Gfix/lin_derivs.c:latt_deriv_AntiHermitian_proj", "src/Gfix/lin_derivs.c:trace_deriv", "src/Gfix/lin_derivs.c:fast_deriv_AntiHermitian_proj", "src/Gfix/gftests.c:theta_test_lin", "src/Gfix/gftests.c:gauge_functional"]}
{"id": "C81", "title": "Axial gauge fixing reaches the axial gauge by a gauge transformation and leaves only a global rotation", "statement": "The maximal axial gauge routine returns a gauge transform of its input in which every link of the maximal tree is the identity; any gauge transformation between two such fields is constant, so gauge equivalent inputs give the same output up to one global rotation, whatever the order in which threads take the lines. The axial gauge in one direction makes all links in that direction the identity except the last of each line.", "quantifier": "every lattice size, number of colours and dimensions, configuration whose links can be projected to the group, direction, and order of the parallel loops", "why_tests_cant": "Which links end up as the identity and whether earlier directions survive the later transformations must hold for every extent and every configuration; uniqueness quantifies over all gauge transformations.", "anchors": ["src/Gfix/MAG.c:gauge_set", "src/Gfix/MAG.c:MAG_fix", "src/Gfix/MAG.c:mag", "src/Gfix/MAG.c:axial_gauge"]}
{"id": "C82", "title": "Fourier-accelerated Landau gauge fixing stays on the gauge orbit, climbs, and reports what it measured", "statement": "Every step of the Fourier-accelerated steepest descent and conjugate gradient is a gauge transformation of the field, so every run leaves gauge invariant quantities unchanged; a short step along the steepest direction raises the gauge functional unless the field is stationary; the line search takes the minimum of the parabola through the functional at three step lengths; the conjugate gradient uses the inner product of the algebra; the returned count tells convergence from failure and the returned accuracy belongs to the returned field.", "quantifier": "every lattice size, number of colours from two to eighteen, special unitary configuration, accelerating map, accuracy, iteration limit and number of continuation runs", "why_tests_cant": "The step is reunitarised, so that its direction survives is a statement about derivatives at every configuration; whether a run can end at a field off the orbit or report success wrongly ranges over all runs.", "anchors": ["src/Gfix/FACG.c:FA_deriv", "src/Gfix/FACG.c:sum_DER3", "src/Gfix/FACG.c:sum_PR3", "src/Gfix/FACG.c:steep_Landau_FA", "src/Gfix/FACG.c:steep_Landau_FACG", "src/Gfix/FACG.c:FACG", "src/Gfix/FACG.c:FASD", "src/Gfix/CG.c:set_gauge_matrix", "src/Gfix/line_search.c:approx_minimum", "src/Gfix/line_search.c:egauge_Landau", "src/Gfix/line_search.c:line_search_Landau"]}
{"id": "C83", "title": "The Landau gauge driver returns a fixed field or reports failure", "statement": "Running the program in Landau gauge fixing mode either leaves a field that is gauge equivalent to the configuration in the file and meets the requested accuracy, or reports failure and writes nothing. In particular random restarts start again from the configuration in the file, and failures to converge or to read the file again are visible in the return value.", "quantifier": "every configuration, accuracy, iteration limit, sequence of outcomes of the up to seven runs, contents of the file at each restart and random transformation", "why_tests_cant": "Restarts need a run that fails to converge; combinations of failures of runs and reads at each restart cannot be produced by a unit test.", "anchors": ["src/Gfix/Landau.c:Landau", "src/Gfix/Landau.c:grab_file", "src/Gfix/Landau.c:output_fixing_info", "src/Wrappers/GF_wrap.c:GF_wrap_landau", "src/Wrappers/GLUlib_wrap.c:read_and_fix", "src/Geometry/random_config.c:random_transform"]}
{"id": "C84", "title": "Projecting a matrix onto the gauge group by maximising the trace", "statement": "Whenever the trace-maximising projection of a matrix returns, its result is special unitary, overlaps with the matrix at least as much as the Gram-Schmidt guess it starts from and is at least as near; it is reached by at most 75 sweeps none of which lowers the overlap, and a sweep that does not raise it has found a critical point. Special unitary matrices and their positive multiples are left alone. For two colours the result is the one best matrix of the group. APE smearing built on it returns a group element, leaves a link that agrees with its staples alone, is defined for every link and staples of the group and commutes with gauge transformations.", "quantifier": "every number of colours, every matrix, every link, staples and smearing parameters", "why_tests_cant": "The projection is an iterative search over a continuous group with a data-dependent stopping rule; tests see sample matrices and cannot show monotonicity, optimality, or the inputs on which a normalisation divides by zero.", "anchors": ["src/Matrix_Ops/givens.c: givens_reunit, rotation, rotation1, rotation2, rotation3", "src/Smear/projectors.c: project_APE"]}
{"id": "C85", "title": "Residual gauge fixing after Coulomb gauge", "statement": "Residual gauge fixing transforms the field by special unitary matrices that depend on the time only, whatever the order of the parallel loop: the links stay special unitary, closed loops and the plaquette do not change, and Coulomb gauge is kept exactly (same divergence up to rotation, same convergence measure). In every time slice but the last the averaged temporal link is aligned with the unit matrix as far as its projection goes; if the temporal links do not depend on space they become the unit matrix. It runs on every field, and a failure is reported to the caller.", "quantifier": "every lattice, number of colours, special unitary field, every order of the parallel loop, every allocation result", "why_tests_cant": "The result depends on a product over all earlier slices and on the iterative projection; that no other gauge condition is spoilt is a statement about all fields and all orders of execution.", "anchors": ["src/Gfix/MAG.c: residual_fix", "src/Wrappers/GF_wrap.c: GF_wrap"]}
{"id": "C86", "title": "Topological charge correlator", "statement": "The correlator written for every separation is the normalised sum over all pairs of sites of that separation of the product of the charge densities, the same with and without the Fourier transform library; its sum over time slices is the temporal correlator, and its total is the squared charge.", "quantifier": "every lattice, every real charge density, both builds, every separation and time", "why_tests_cant": "The equality of the two builds is the convolution theorem on a lattice of arbitrary extents and dimension; a test compares two numbers on one lattice.", "anchors": ["src/Field/Qcorr.c: compute_Qcorr, temporal_correlator", "src/Field/plan_ffts.c: small_create_plans_DFT", "src/Geometry/geometry.c: compute_spacing"]}
{"id": "C87", "title": "Slab sums of the topological charge", "statement": "For every direction and thickness the slab method gives the squared charge of a slab averaged over all its positions on the periodic lattice, the same for both builds and any number of threads; for the full thickness it gives the square of the total charge.", "quantifier": "every lattice, direction, thickness, real density, both builds, every interleaving of two threads", "why_tests_cant": "The sum ranges over all positions and wraps round; whether the parallel loop loses updates depends on the schedule.", "anchors": ["src/Field/Qslab.c: compute_slabs, slab_idx"]}
{"id": "C88", "title": "Moments of the topological charge", "statement": "For every direction the twelve moments written are the sums of t^n Q(t)/n! over all signed coordinates, with the signs of the expansion of the Fourier transform, for the charge and for its correlator, whichever way the program was built.", "quantifier": "every lattice, direction, density, number of the moment, both builds", "why_tests_cant": "Powers of the coordinate in machine integers overflow only for large lattices; a wrong entry in a table shows up in one moment only.", "anchors": ["src/Field/Qmoments.c: Time_Moments, compute_Q_moments, compute_Q2_moments"]}
{"id": "C89", "title": "Hypercubic smearing", "statement": "Every iteration of hypercubic smearing replaces all links at the same time by the links of the Hasenfratz-Knechtli construction from the links before it, whichever of the three routines (recursive, precomputed, spatial) the user's settings select; each new link depends only on links of the hypercubes around it; links stay special unitary, the result is gauge covariant, and gauge transforms of the unit field do not move.", "quantifier": "every lattice of two or more dimensions, every field, number of iterations, contents of the buffers, smearing parameters, projection", "why_tests_cant": "The recursion has as many levels as dimensions and the buffered sweep a wrap round in time; tests compare the routines on one field in one dimension.", "anchors": ["src/Smear/HYP.c: HYPSLsmear3D, get_spatial_lv1, staples3D", "src/Smear/4D_fast.c: HYPSLsmear4D_expensive, get_lv1, get_lv2, gen_staples_4D", "src/Smear/ND_generic_HYP.c: HYsmearND, recurse_staples, init_smearing_alphas", "src/Headers/GLU_definitions.h: alpha1"]}
{"id": "C90", "title": "Improved staples", "statement": "With improved smearing the staple of a link is the weighted sum of the ordered products along every path that closes an elementary square, and along every path that closes a rectangle of sides one and two, with the link (with the one-loop action also every parallelogram), each once; it transforms under gauge transformations like the link, reads no further than two slices away in time, so that the buffered improved flow updates all links at once, and the weights leave the continuum limit of the action alone.", "quantifier": "every lattice, field of special unitary links, site, direction, weights, over-improvement parameter, gauge transformation", "why_tests_cant": "There are dozens of paths with sites two steps away, some of them shared products; a missing or doubled path or a wrong neighbour gives a staple that is still smooth, covariant and close to the right one.", "anchors": ["src/Smear/staples.c: all_staples_improve", "src/Headers/GLU_definitions.h: IWA_WEIGHT1, IWA_WEIGHT2"]}
{"id": "C91", "title": "Gluon propagators", "statement": "The gluon propagator measurement writes, for every momentum of the list in the order of the list, the transverse and the longitudinal propagator of the Fourier transform of the gauge field (placed at the middle of its links) at that momentum, with the stated normalisation per colour, polarisation and site; the zero momentum is the middle of the list; every number is non-negative; and for a field in lattice Landau gauge every longitudinal propagator is zero.", "quantifier": "every lattice shape, number of colours, gauge field and definition of its logarithm, momentum cut, sign of the transform, definition of the lattice momentum", "why_tests_cant": "Half of the numbers are never computed but copied from the reflected momentum; whether that is right depends on the ordering of the list, the cut, the extents of the lattice and the hermiticity of the field together.", "anchors": ["src/Cuts/cuts.c: mom_gauge, cuts_struct", "src/Cuts/pspace_landau.c: correct_pspace_landau", "src/Cuts/glueprop.c: psq_calc, project_trans_long, compute_gluon_prop"]}
{"id": "C92", "title": "Gluon correlator in configuration space", "statement": "The configuration-space gluon correlator written for the time separation t is the stated normalisation times the sum over all pairs of sites (or of the sites of the sparse grid that the spacing selects) separated by t in time of the trace of the product of the two fields, summed over the directions; it is symmetric under reversal of time; it does not depend on the build (with or without the Fourier transform) or on the schedule of the threads.", "quantifier": "every lattice shape, number of colours, hermitian gauge field, spacing and sign of the transform; every interleaving of the threads", "why_tests_cant": "The double sum over the volume is replaced by a transform and a product; the agreement is an identity for all fields. The loop variable over directions is shared by the threads, so that a wrong answer needs a rare schedule.", "anchors": ["src/Cuts/config_gluons.c: spatial_correlator, spatial_pointsource, recurse_sum, contract_slices, cuts_struct_configspace"]}
{"id": "C93", "title": "Exceptional three-gluon vertex", "statement": "The exceptional three-gluon measurement writes, for every momentum p of the list in the order of the list, the two-point function of the field at p and -p and the three-point function at p, -p and 0 contracted with the transverse projector and the momentum, with the stated normalisation; the three ways of compiling the contraction give the same numbers; in Landau gauge the two-point function is the transverse propagator of the gluon propagator measurement.", "quantifier": "every lattice shape, number of colours, field, momentum cut, sign of the transform and definition of the lattice momentum; every build", "why_tests_cant": "The equality of the three contractions is an identity between sums over all directions and colours; a difference that averages to zero over an ensemble is invisible in measurements.", "anchors": ["src/Cuts/MOMgg.c: write_exceptional_g2g3_MOMgg, contraction_matrices, contraction_traces, contraction_lies, psq_calc", "src/Matrix_Ops/lie_mats.c: ifabc_ABC"]}
{"id": "C94", "title": "Instantaneous gluon propagators", "statement": "The instantaneous propagator measurement writes, for every spatial momentum of the list in the order of the list, the spatial and the temporal equal-time propagator averaged over all time slices, with the stated normalisation, whatever the correction for the position of the links; every number is non-negative; and the sum over all energies of the propagator on the whole lattice is the equal-time propagator times the temporal extent.", "quantifier": "every lattice shape (odd extents included), number of colours, field, momentum cut and sign of the transform", "why_tests_cant": "The half-link factors are applied to the first time slice only, which is harmless only because they cancel in every product; that must hold for every momentum and field.", "anchors": ["src/Cuts/3Dcuts.c: cuts_spatial, mom_gauge_spatial", "src/Cuts/pspace_landau.c: correct_pspace_landau"]}
{"id": "C95", "title": "Different measurements go to different files", "statement": "Two measurement files of the same build in the same directory have the same name only if they come from the same mode, lattice, configuration number, momentum limit, cut (with its parameters) and field definition; no run overwrites the result of a run with other settings.", "quantifier": "All settings: modes, dimensions, configuration numbers, limits, kinds of cut with width and angle, field definitions, measurement numbers", "why_tests_cant": "A test compares the names of a few settings; ambiguities come from numbers and tags running into each other and from settings that are left out of the name.", "anchors": ["src/Cuts/cut_output.c: output_str_struct", "src/Field/Qcorr.c: compute_Qcorr, temporal_correlator", "src/Field/Qslab.c: compute_slabs", "src/Headers/GLU_enum.h: cut_mode"]}
{"id": "C96", "title": "A quenched U(1) field is real, has no modes without spatial momentum and only changes the phases of the links", "statement": "Crossing a configuration with a quenched U(1) field multiplies each link by a phase and nothing else: unitary links stay unitary, and every elementary square picks up the phase of the curl of the field. The field itself is the Fourier transform of numbers that are conjugate for opposite momenta, with the weight one over the length of the lattice momentum and no mode without spatial momentum, so that it is real without anything being thrown away and adds up to zero on every time slice, whatever numbers the random generator hands out.", "quantifier": "All lattice shapes, random numbers, couplings, charges and gauge fields", "why_tests_cant": "The random numbers and the shape are unbounded inputs; a plaquette test cannot tell a field that lost half of its modes from a correct one.", "anchors": ["src/U1/SUNCxU1_config.c: compute_zeropoint, conjugate_site, periodic_dft, create_u1, suNC_cross_u1", "src/Geometry/geometry.c: gen_p_sq_feyn, get_mom_pipi, get_site_2piBZ", "src/Geometry/plan_ffts.c: create_plans_DFT"]}
{"id": "C97", "title": "U(1) observables are the stated averages and gauge invariant", "statement": "The noncompact and compact U(1) plaquette are the averages of the square and of the cosine of the plaquette angle over all sites and planes, the rectangles the same for pairs of adjacent plaquettes of both orientations; the compact plaquette lies between minus one and one; the printed norm is zero for generated fields; plaquettes, rectangles, monopole number, Dirac sheet and charge do not change under gauge transformations; and fields that give the same links have the same number of monopoles.", "quantifier": "All lattice shapes, U(1) fields and gauge transformations", "why_tests_cant": "Equality of averages and invariance have to hold for every field; a test with one field does not see a missing plane, and small test fields have no windings.", "anchors": ["src/U1/U1_obs.c: non_plaquette, U1_rectangle, normU, compute_U1_obs", "src/U1/U1_top.c: mod_2pi, noncompact_face, dirac, dirac_sheet, current, non_Qtop, U1_topological"]}
{"id": "C98", "title": "Propagators before and after smearing", "statement": "The measurement that compares the gluon propagator of a field with the one of the smeared field writes two arrays: the transverse propagators of the field that was passed, and those of its smeared version, for every kept momentum.", "quantifier": "every gauge field, every smearing, every definition of the gauge field, lattice and cut", "why_tests_cant": "Whether two arrays of structures share the memory behind their pointers does not show in the values of a small test where both results are merely plausible numbers; that they agree whatever the smearing does is a statement about all smearings.", "anchors": ["src/Cuts/smearing_param.c: cuts_struct_smeared, mom_gauge, psq_calc, project_trans_long", "src/Headers/GLU_types.h: struct site"]}
{"id": "C99", "title": "A seed fixes the random streams", "statement": "A run with a given non-zero seed and number of threads starts every thread with the same generator state in every execution, and runs with different seeds use different streams.", "quantifier": "every execution of the parallel warm-up loop: every assignment of iterations to threads and every interleaving of their draws; every seed; all generators", "why_tests_cant": "The warm-up loop runs in parallel; a test sees the one schedule that its OpenMP run-time happens to use, and one pair of seeds.", "anchors": ["src/Utils/par_rng.c: initialise_par_rng, par_rng_dbl", "src/Headers/Mainfile.h: get_GLU_thread"]}
