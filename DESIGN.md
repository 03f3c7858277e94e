# Formal model of GLU: design

The subject is the C code in `/repo/src` (GLU, a lattice gauge theory library).
The model is written in Lean 4 under `lean/Verif`.  `properties.jsonl` lists the
properties, `MANIFEST.json` maps each of them to theorem names, and
`seeded/LOG.jsonl` records the attempts to break the theorems with wrong models.

## 1. Trusted base

* The Lean 4.33 kernel, and the definitions of Mathlib used in statements
  (`Matrix`, `Finset.sum`, `Equiv`, `BitVec`, `Complex`, ...).
* Axioms: no theorem uses anything beyond `propext`, `Classical.choice`,
  `Quot.sound`.  There is no `sorry`, no added axiom, no `native_decide`, no
  `bv_decide`.  `lean/Verif/Audit.lean` prints the axioms of every property
  theorem during the build.
* The reading of the C source.  The code is never compiled or run here.  Each
  definition cites the file and lines it models.
* Floating point: complex and real arithmetic is modelled exactly, in an
  arbitrary commutative ring with involution, an arbitrary field, or `ℝ`/`ℂ`.
  Rounding, overflow to infinity and NaN propagation are outside the model,
  except where a property is about them (the conversion of a 64-bit integer to a
  double, and divisions by zero which are a separate outcome).
* C integers: `size_t` is 64 bits and `int` 32 bits.  Where a property depends on
  wrap-around the model uses `BitVec` or reduction modulo 2^64, otherwise `Nat`
  or `Int` with the range assumption in the hypothesis.
* Undefined behaviour (out-of-bounds access, division by zero, null
  dereference, non-termination) is a separate outcome (`none`, or a constructor
  of an outcome type), never a default value.
* The portable C versions of the linear algebra are modelled
  (`!(defined HAVE_IMMINTRIN_H) || defined SINGLE_PREC`).  The `*_SSE.c`
  variants are modelled separately (C112 to C117).
* FFTW is represented by the documented contract of `fftw_plan_dft` (the sum it
  computes), LIME, MPI, OpenMP and the C library by what their documentation says
  of the calls in use.
* Not modelled: file
  system calls other than the byte sequences passed to them; text printed to the
  terminal; timers (`GLU_timer.c`); the help texts (`input_help.c`); XML beyond
  tokenisation; planning and wisdom (`plan_ffts.c`); and the files
  `Gfix/log_derivs.c`, `Cuts/gluearb.c`,
  `Field/balls.c`,
  the iterative part of `Matrix_Ops/evalues.c` (more than three colours), the logarithms of `Matrix_Ops/taylor_logs.c`, `Wrappers/OBS_wrap.c`,
  `Utils/GLU_malloc.c`, unless a row of Section 3 or 5 names them.

## 2. Layout of the Lean project

* `Verif/<Area>/Model.lean`   definitions that transcribe the code, with citations
* `Verif/<Area>/Spec.lean`    independent specification, when one is needed
* `Verif/<Area>/Lemmas.lean`  helper lemmas
* `Verif/<Area>/Props.lean`   the property theorems and their non-vacuity examples

Small areas use fewer files, but property theorems always sit apart from helpers.

## 3. Plan per property

| id | property | model and proof |
|---|---|---|
| C01 | Site index and coordinates are inverse bijections | Mixed-radix loops over `Nat`-indexed extents, any number of dimensions; induction on the number of dimensions. |
| C02 | Nearest-neighbour tables form a periodic lattice | `gen_shift` on coordinates; consequences of C01 plus modular arithmetic. |
| C03 | Momentum index maps between the two Brillouin-zone conventions are inverse | Integer model of the Brillouin-zone maps; proved for even extents, negation with an odd witness. |
| C04 | Translation by a separation vector is the periodic translation | `size_t` arithmetic modulo 2^64; proved for |sep| <= L, negation beyond. |
| C05 | Displacement from the origin is the shortest periodic representative | Integer arithmetic; minimality over all images. |
| C06 | HiRep site order visits every site exactly once | Mixed-radix with the order of the directions reversed; permutation as an `Equiv`. |
| C07 | Draughtboard colours partition the sites | Model of the two counting passes with arrays; induction over sites. |
| C08 | Neighbouring sites never share a draughtboard colour | Colour function modulo 2 or 3; exact characterisation of the shapes on which it holds; negation with L=7. |
| C09 | Parallel single-colour updates are independent of the thread schedule | Footprint of the staple reads; commutation of local updates; any permutation by induction. |
| C10 | Matrix products compute the mathematical product | Row-major arrays over a commutative star ring; unrolled code checked entrywise, loops by induction; negation for the generic double-dagger product. |
| C11 | Reduced special-unitary products equal the full product | Unitarity and determinant hypotheses give the adjugate identity; `linear_combination`. |
| C12 | Trace routines return the trace of the product they name | Entrywise against `Matrix.trace`. |
| C13 | Packed Hermitian storage loses nothing | Round trips entrywise; general N by index arithmetic. |
| C14 | Compressed SU(3) storage reproduces the matrix | Exact square roots over `ℂ`; round trip off the degenerate set; negation on it. |
| C15 | Reunitarisation returns a special unitary matrix and fixes special unitary ones | Gram-Schmidt over `ℂ` with the square root of the norm; special unitarity and fixed points. |
| C16 | Completing a truncated link restores the full special unitary matrix | Cross-product completion equals the third row for SU(3). |
| C17 | Integer matrix power is the repeated product | Linked list of binary digits; induction. |
| C18 | Determinant by pivoted elimination is the determinant | Elimination with pivoting as a recursive procedure; invariant on `Matrix.det`. |
| C19 | Matrix inversion returns the inverse or reports failure | Gauss-Jordan with NaN/inf as a separate value; invariant carrying the accumulated row operations, for every size; adjoint build; two colours regular; negation for two colours singular. |
| C20 | Exponentiating a traceless Hermitian matrix gives a special unitary matrix | Spectral theorem: the interpolating coefficients are evaluated on the eigenvalues (roots of the characteristic cubic), error bound on the series branch; Pade nesting unitary for more colours; negation for two colours and tiny arguments. |
| C21 | Structure-constant contractions equal the trace they stand for | The whole tables as lists; contraction evaluated symbolically with s^2=3. |
| C22 | Generated SU(N) generators are traceless Hermitian and normalised | `size_t` negation modulo 2^64; loop invariant gives every generator; orthogonality for the off-diagonal ones, negation for every diagonal one. |
| C23 | Vandermonde solver returns the interpolating coefficients | Divided-difference invariant for the first stage, Newton form interpolates (shift identity), nested form for the second; negation, partial when the first node is zero. |
| C24 | Unitarity check accepts exactly the unitary matrices | Real-valued tolerance checks with the loop flags; soundness (rows entrywise, columns through the Frobenius norm) and completeness. |
| C25 | Matrix times vector returns the product | Entrywise; negation for three colours, proof for two and generic. |
| C26 | SU(2) subgroup rotations act as left multiplication and keep the link in the group | Rows as functions; determinant by row operations; subgroup enumeration by arithmetic. |
| C27 | Overrelaxation leaves the action unchanged | Algebra of SU(2) with a normalised projection. |
| C28 | Heat-bath updates produce group elements | Rejection loop with fuel equal to the constant in the code; arbitrary stream. |
| C29 | The average plaquette is gauge invariant and normalised | Fields over `Equiv` shifts, links in a group or star ring; trace cyclicity. |
| C30 | Polyakov loops are gauge invariant | Induction on the length of the line. |
| C31 | Gauge transformations form a group action and keep links in the group | Direct. |
| C32 | Staples transform like the link they surround | Direct; counting argument with finite sums over sites. |
| C33 | Buffered in-place smearing equals simultaneous smearing | Time-slice state machine with three buffers; induction on the slice. |
| C34 | Byte swapping is exact reversal and its own inverse | `BitVec` byte extraction. |
| C35 | The CRC-32 used for the SciDAC checksum is the standard CRC and composes over chunks | `BitVec 32`; table compared with bitwise division over all 256 entries, linearity lemma for the rest. |
| C36 | The BQCD checksum of a configuration is the POSIX cksum of its data | Same, non-reflected; state machine for the static variables. |
| C37 | Configuration checksums do not depend on the thread schedule | Commutative folds; permutation invariance. |
| C38 | Writer and reader agree on the checksum of what was written | Byte-level writer and reader. |
| C39 | Writing then reading a configuration restores it | Words as an abstract type with a byte swap involution; SU(3) completion from C16. |
| C40 | Low-memory writer stays inside its buffer and writes the same bytes | Buffer with bounds as an explicit outcome; negation, partial for one slice. |
| C41 | HiRep files round trip | Permutation of C06 and storage order; negation for 2 colours. |
| C42 | CERN (openQCD) files round trip | Parity argument; proved for even extents, negation for odd. |
| C43 | A corrupted configuration is rejected | Decision function over all flag combinations; negation. |
| C44 | Header parsing is memory safe and returns the first matching field | Tokeniser over character lists with an undefined-behaviour outcome. |
| C45 | Configurations written by the program have headers the program accepts | Writers and parsers of all formats modelled on bytes and text; composition proved to give back the fields; negations for trajectory zero, overlong labels, OUT_LITTLE HiRep and five-dimensional ILDG. |
| C46 | LIME records are aligned and skippable | Byte-exact record writer and reader with the treatment of the text as a parameter; induction over the records; negation beyond twelve records. |
| C47 | Input-file lookup returns the first value for a tag and never reads outside the table | Table with capacity and an out-of-bounds outcome. |
| C48 | Saving and restoring the random state continues the same stream | Words to bytes and back; stream equality from state equality. |
| C49 | The generators use their whole state | Invariant on the table index; negation for the 4096-word generator. |
| C50 | Uniform random doubles lie in the half-open unit interval | Integer to double rounding as an explicit function; bound. |
| C51 | A restored generator is not silently reseeded | Call-history state machine; negation. |
| C52 | Tree and compensated sums return the sum | Recursion on the interval; negation for thread counts that do not fit. |
| C53 | Numerical derivatives are exact on polynomials of the stencil order | `field_simp` on general grids. |
| C54 | The memory-mode decision depends only on the configuration | Call-history state machine; negation. |
| C55 | A resumed update run equals the uninterrupted run | Run as a fold over updates with a save log; crash and resume. |
| C56 | Saved configurations carry the trajectory number they belong to | Two-thread interleaving of the master update and the next save; negation. |
| C57 | Saved trajectory files have the requested path | String functions (first token at dots); negation; buffer length arithmetic. |
| C58 | An existing configuration file is never overwritten | File-system map. |
| C59 | The momentum list contains exactly the momenta inside the cut | Filter over the index range; index map from C03. |
| C60 | A damaged momentum-list cache is not used as if complete | Byte prefix of the cache file; negation. |
| C61 | Momentum triplets conserve momentum and are complete | Depth-first enumeration of the integer box equals the box; filter. |
| C62 | A failed operation is visible in the process exit status | Decision logic of main; negation. |
| C63 | Elementary matrix operations do what they say | Entrywise, unrolled cases and loops. |
| C65 | Improved smearing through delay buffers equals simultaneous smearing | Model of the improved branches with two-slice buffers; proved for the flow step; for smear4D the third slice from the end is proved wrong. |
| C67 | Memory-saving flow step equals the memory-expensive one | Both steps modelled with arbitrary link update and proved equal to the simultaneous update. |
| C71 | Configurations for another number of colours are refused | Proved for HiRep headers and NERSC storage types; for SciDAC the header is proved to be accepted. |
| C72 | Gaussian random numbers are finite | Model over the reals with the logarithm of zero as a separate outcome; prove finiteness and the modulus for every accepted pair but the centre, and the failure at the centre and at zero. |
| C73 | The flow scale returned is where the measurements cross it | Model the cubic solver over the complex numbers (cube root by modulus and argument); prove the three numbers are all roots (trigonometric and Cardano case), hence the result; prove the failing cases with concrete data. |
| C74 | The last lattice of an update run is saved | Events of the run from C55; induction over the loop; negation for the last one. |
| C66 | Link traces are the stated averages | Loops as in the file over complex matrices; sums by induction; range from the Frobenius norm of 1-U; negation for the largest trace when all traces are negative. |
| C70 | Lie algebra projections are the projections | Assignments and loops as in the file over complex arrays, compared with the matrix formula; packed loops by an invariant on the running index; negation for the packed anti-Hermitian routine with more than three colours, which subtracts a real instead of an imaginary trace. |
| C76 | Action density and topological charge | All 28 loop blocks of the file as products of links, each proved to be the transporter along a named rectangle (a path specification separate from the model); field strength and contraction with the Levi-Civita tensor as sum over permutations; symmetries as signed axis permutations; schedules as permutations of the site list. Negation with four colours, where a product of two conjugated links omits the conjugation. |
| C78 | A random stream does not repeat early or get stuck | State after n draws by iteration; the Weyl component of KISS gives a lower bound on every recurrence; xorshift words by injectivity; both multiply-with-carry generators, which use a single table word, shown by the pigeonhole principle to repeat within 2^40 and 2^47 draws for every seed. |
| C68 | Stout smearing and the Wilson flow move each link by the exponential of the plaquette force | Projection, link update and flow substeps composed from the staple, projection, exponential and product models; the specification is written with matrices, NormedSpace.exp and a gauge transformation; buffering proofs of C33, C65 and C67 reduce the sweeps to simultaneous updates. |
| C79 | Over-relaxed gauge fixing only moves along the gauge orbit and never lowers the functional | One rotation composed from the su(2) multiplication models of the update area; schedule is a list per colour; gain proved by completing a square; iteration by invariants; the gauge orbit is an existential over special unitary site matrices. |
| C80 | The gauge fixing convergence test measures the gradient of the gauge functional | Packed sums reduced to the traceless Hermitian part of the links by C70 and C12; gradient by differentiating the trace along an arbitrary differentiable path of transformations; equivalence with stationarity of the over-relaxation sums via the subgroup enumeration of C26. |
| C81 | Axial gauge fixing reaches the axial gauge by a gauge transformation and leaves only a global rotation | Lines processed in an arbitrary order; invariant over the directions with the gauge matrices kept between them; tree of links stated by coordinates; completeness by induction along the tree. |
| C82 | Fourier-accelerated Landau gauge fixing stays on the gauge orbit, climbs, and reports what it measured | Derivative of Gram-Schmidt at the identity gives the direction of the step; slope from C80; loops of both drivers by induction over iterations and continuation runs; exact values of the inner products against minus the trace of the product. |
| C83 | The Landau gauge driver returns a fixed field or reports failure | Driver over an arbitrary method that stays on the orbit and an arbitrary outcome of each read; induction over the restarts; instances for the conjugate gradient and steepest descent; negations with concrete runs. |
| C77 | Flow measurements belong to the flow time they are labelled with | Drivers as functions over an arbitrary step and arbitrary measurements, with the unbounded fine loops as a bounded search that may be unfinished; invariants over the passes; negations with concrete runs. |
| C84 | Projecting a matrix onto the gauge group by maximising the trace | Model the block, the row and column rotations, the sweep and the loop with its stopping test; division by zero is `none`. Each rotation multiplies by a subgroup matrix that is the best in its subgroup, so the real trace of the product never falls; equality forces every block to be a quaternion, which is the critical equation. Two colours: Cauchy-Schwarz for quaternions. Undefined inputs and loss of covariance for three colours by witnesses. |
| C85 | Residual gauge fixing after Coulomb gauge | Model the averages, the recursion over the slices and the parallel loop as a fold over any permutation of the sites. Show that it is a gauge transformation constant on slices, so that spatial divergences are conjugated. Undefined average and silent failure by witnesses. |
| C86 | Topological charge correlator | Model the transform by the contract in the FFTW manual, prove the convolution theorem from orthogonality of the phases, and identify separations with sites. What each build leaves for the temporal correlator by a separate theorem. |
| C87 | Slab sums of the topological charge | Show that the local index of a slab is in bijection with the sites of the slab. The unprotected shared sum is modelled by loads and stores of two threads and refuted with an interleaving. |
| C88 | Moments of the topological charge | Model the running powers in 32-bit integers with overflow as undefined; invariant over the loop on moments. Overflow, the table entry for 10! and the slice left out by separate theorems. |
| C89 | Hypercubic smearing | Model the three routines over an arbitrary type of matrices with an arbitrary projection; the recursive routine reads only the hypercube, so the buffered sweep is simultaneous; identify the precomputed links with the recursive ones; then instantiate with the matrices and projections of the code. Weights by a separate theorem and its negation. |
| C90 | Improved staples | Specify the staples as the words that, followed by the link backwards, are a rotation of the boundary of a square, rectangle or parallelogram; show the model sums the products along exactly these words; covariance from that of paths; range from the coordinates. One-loop term and weights by partial theorems and their negations. |
| C64 | Draughtboard for rectangle actions | Model the construction of the lists with undefined outcomes for arrays of no elements and writes past the end. Characterise the outcome for every lattice; identify the lists with the classes of a linear form modulo four; interleave programs that read the links of the improved staple one by one. Where the code departs, prove the negation and keep the theorem for the body without its check. |
| C91 | Gluon propagators | Model the chain transform, half-link phases, projection, mirrored filling of the arrays. Specify the propagators as sums over the lattice. Use the ordering of the momentum list (C59) and the conversion of momenta (C03). Cauchy-Schwarz for positivity, summation by parts for the Landau gauge. An odd extent is refuted on 3x4x4x4. |
| C92 | Gluon correlator in configuration space | Model both builds and, separately, the loop over directions as threads stepping on the shared variable. Specify the correlator as a double sum over slices. Autocorrelation theorem for the transform; induction over the recursion for the sparse sum. The agreement of the builds and the independence of the schedule are refuted. |
| C93 | Exceptional three-gluon vertex | Model the three contractions and the loop over the list; specify by sums over directions of traces of the transforms. Cyclicity of the trace for the two builds with traces; the build with structure constants is shown to write the average over the momentum and its reflection, and a field in Landau gauge refutes the equality of the builds. |
| C94 | Instantaneous gluon propagators | Model the transform of each slice, the correction and the loop over the list. Specify by sums over the sites of a slice. The factors cancel between a momentum and its partner in the list (C59). Orthogonality of the roots of unity for the sum over energies. |
| C75 | Measurement files read back the same on every machine | Model each writer as a function to bytes that threads the swapped arrays, an independent reader as specification, round-trip by composition lemmas for readers, prefix rejection from the fact that readers stream. The int variable that holds the size of the momentum buffer overflows for huge lists: negation. |
| C95 | Different measurements go to different files | Model of the name as a list of characters, injectivity by splitting at characters that the preceding piece cannot contain. The width of the cylinder is left out of the name for the combined cut: negation with two settings that keep different momenta. |
| C96 | A quenched U(1) field is real, has no modes without spatial momentum and only changes the phases of the links | Invariant of the pairing loop (what every element holds after n passes), each pair has a member below the loop bound by induction on the digits, reality and slice sums by re-indexing the transform. Negations: any odd extent makes the loop write outside the arrays; in three dimensions the bound is too small. |
| C97 | U(1) observables are the stated averages and gauge invariant | Loops to sums, angles of rectangles as sums of two curls, invariance of the curl. Negations: a whole turn that is not counted because the angle is converted to an integer before the division, and monopoles counted for a field with all links one because two of the four current components have a wrong sign. |
| C98 | Propagators before and after smearing | Heap of link tables, arrays of sites as pointers into it. Negation: the copy of the sites copies the pointers, so both arrays are equal for every smearing, and belong to a field that was smeared, and then transformed twice; a constant field gives zero at zero momentum where the propagator is positive. |
| C99 | A seed fixes the random streams | Schedules as sequences of draws by threads; the state of a thread depends on its own draws only. Negations: if one thread runs two iterations the states differ for every seed (KISS); runs with neighbouring seeds share all streams but one. |
| C100 | Best of several gauge copies | Loop invariant over the copies for an arbitrary fixing routine. Negations: without an accepted copy the field is filled from memory that was never written, and the failure code of the final run is added to the iterations of the last copy so that the driver does not recognise it. |
| C101 | Coulomb gauge fixing works slice by slice along the gauge orbit | Model of the slice loop over an arbitrary method for one slice, proved equal to one gauge transformation because the method looks only at the spatial links; invariants of the conjugate gradient keep the matrices special unitary. Negations: a slice already fixed gives a division by zero; one time slice or one site per slice; a slice that never converges is not reported; a limit of one iteration never ends converged. |
| C102 | The convergence measure of Coulomb gauge fixing bounds the divergence | Express the planes through the divergence of the rotated field and compare what each site adds with the trace of the square. Negations: two colours leave out the diagonal in the loop, four or more colours leave it out everywhere, so that diagonal fields stop at once or lead to a division by zero. |
| C103 | The Coulomb line search measures the functional and takes the best step | Show that each trace is that of a rotated link, that the links at the first square are all the links once each (the shift is a bijection between the squares), and that directions with one site only add a constant to the three values, to which the parabola's vertex is blind. Then the known rule of the parabola. |
| C69 | The eigenvalue routines return the eigenvalues | Compare the characteristic polynomial with the product of X - z_k. Cardano's identity; for unitary matrices the discriminant is real and not negative (the roots have modulus one), so that the root kept as a real number is the right one; the sign choice makes the vanishing denominator harmless. General and Hermitian: same identity, and witnesses for the divisions by zero. |
| C104 | The exact logarithm inverts the exponential | With three eigenvalues apart, the coefficients interpolate exp at the three angles; the denominator vanishes only if three points of the circle lie on a line; the eigenvectors of the link diagonalise the result, whose exponential is then computed. Two colours: the square of the result is a number. Witnesses for the identity, diag(-1,-1,1), minus one and small angles. |
| C105 | The instanton start is the lattice version of an instanton | Model Asing, the embedding of the Pauli matrices and the loop over the links; specify the field by 't Hooft's symbols and the transporter by its differential equation; solve the equation along a link and compare the angles. |
| C106 | The three-gluon vertex at the symmetric point | Model the counts, the index arrays with explicit initial contents, the default projector and the loop over the orbits; prove the formula of every entry, the contraction of the projector with the vertex in any dimension, and symmetries; prove the negation where memory, stale counts, the zone edge or the momentum definitions break the statement. |
| C107 | Static quark correlators | Model the lines as they are extended, both versions of the correlator (FFTW by its documented sum), and prove the correlator equal to the sum over pairs of sites at the displacement; the direct version fails for the product of traces. |
| C108 | Random, unit and reunitarised configurations | Model the streams as lists of pairs of uniform numbers and the loops as schedules; describe every matrix by the block of pairs it is made from, prove schedules with the same work per thread equivalent by commuting iterations, and carry over the invariance theorems; a pair at the centre of the circle is the counterexample. |
| C109 | The n-APE projection | Model the iteration pass by pass with division by zero as no result; carry positivity, commutation and the root identity through the passes; bound the trace of the distance from the unit matrix linearly and quadratically to count the passes; a stretched diagonal matrix and a singular sum of link and staples are the counterexamples. |
| C110 | The smearing routine that is run | Model the dispatcher and the two memory questions with their static variables; a history is a list of calls on machines of any size; compare with a table of what each type means; compose with the theorems that all the routines make simultaneous updates; flows restricted to spatial links, an allocation that fails, four colours, and a spatial smearing before a four-dimensional one are the counterexamples. |
| C111 | Reading with little memory | Model the site-by-site loop with its buffer of one site, the rest of the file as its state; show that each site does what the fast reader does for it and add up; truncated files by the number of complete sites. The BQCD checksum of the fast reader goes through the wrong pointer in double precision, and the low-memory reader adds every file to it: both are counterexamples. |
| C112 | Vectorised matrix products | A vector register is a pair of real lanes; each macro variant is written in intrinsics on lanes and shown to be the complex operation; unrolled bodies by evaluation, unrolled loops with running pointers by invariants, the blocks reduced to one iteration count; the in-place transposition by an invariant on the pairs exchanged. |
| C113 | Vectorised matrix inversion | Entries are Option ℂ with none for not-a-number. Invariant of the first loop: the row operations are unit lower triangular, hence the array searched for a pivot is zero there, hence no rows are exchanged, and the diagonal entry is the quotient of consecutive leading minors. |
| C114 | Vectorised determinant and reunitarisation | Simulation: each vectorised loop is related to the portable one by reading two lanes as one complex number; the portable theorems (C15, C18) are then transported. |
| C115 | Vectorised traces of triple products | Statement by statement transcription on pairs of lanes; reading two lanes as a complex number turns each into the trace formula. The running pointer into the third matrix is part of the state. |
| C116 | Vectorised SU(2) subgroup operations | Simulation by reading lanes as complex numbers; in the row and column loops the two positions written are distinct by the enumeration of subgroups (C26). |
| C117 | Vector instructions used inline | Statement by statement transcription on pairs of lanes, compared entry by entry with matrix products; the third column is completed by the cofactor identity of special unitary matrices. |
| C118 | The numbers printed about a gauge fixed field | The loop is a transition system with one step per test and one per assignment; invariants over reachable states. The constance is compared with the slice sums of the projected links; in Landau gauge the divergence summed over a slice telescopes. |
| C119 | Running out of memory | A memory of numbered blocks, an arbitrary answer to each request, and `none` for every undefined step. Loop invariants give the memory after each allocation and release; refused requests are followed to the point where a missing pointer is used. |
| C120 | Logarithm for more than three colours | The iteration is modelled with the stale inverse that a singular matrix leaves behind. Invariants Y†Y = M and Y² = U M for the root, a closed form for the Horner loop, an index invariant for the last loops; concrete matrices for the failures. |
| C121 | Topological charge along a smearing history | The smearing and the measurements are parameters; induction over the loop relates the records to the iterated smearing. The request for the table is computed in size_t; entries never set are a value of their own. |
| C122 | Exponential with an eigenvalue library | The eigenvalues are any numbers whose product of linear factors is the characteristic polynomial. The Vandermonde solver is the one of C23; the loop is a Horner scheme. The action on eigenvectors gives the value; the failures are proved for all matrices with the stated eigenvalues and on concrete ones. |
| C123 | Gauge fixing test with the logarithm | The packed sum is followed entry by entry through the loop over directions; the logarithm is the model of C104, whose undefined results stop the sum. |
| C124 | Files opened for reading are closed | The open files are a finite set of handles, fclose of a null pointer or of a file not open is undefined; one reading is described completely by cases, histories by induction. |
| C125 | The threads of a team agree on when to stop | The threads are programs of reads, writes and additions on a shared array with barriers, in any interleaving. Compatible programs end in the same memory in every interleaving (a confluence argument, by an invariant over the steps), so the state at every barrier is that of the threads run one after another; induction over barriers. |
| C126 | The threads of a team start again together | One thread is followed through the function and the shared constructs it comes to are listed; the lists of two threads are compared, by induction over the passes. |
| C127 | Overrelaxation of the lattice leaves the average plaquette unchanged | The sweep is modelled over the interleaved tasks of C09. The change of the sum of the squares is computed for any change of links of which no two share a square (C127_change); the single updates of C27 make it vanish; induction over passes and sweeps. |
| C128 | Updates leave group elements in the lattice | The iterations are programs that read arbitrary values of other links; the own link ends in the group whatever they are (C28, C27). Induction over the schedule, the passes and the sweeps. A spoilt link is a value of its own that spreads. |
| C129 | The heat bath draws from the Boltzmann weight | Product measures on the random numbers; changes of variable with Mathlib's integration (exponential and half-normal parts, the arctangent for the angle, Archimedes for the sphere); a geometric sum over the rejected draws; the trace of the rotated link for the action. |
| C130 | The updates leave the Boltzmann distribution of a link unchanged | Haar measure of the special unitary group in Mathlib; the embedded subgroup acts by left translations, so the average over the link is an average over its cosets; invariance of the measure of SU(2) under inversion and translation; the measure of SU(2) in the coordinates of the code through the volume of the ball in four dimensions. |
| C131 | The updates leave the distribution of the whole lattice unchanged | Product of Haar measures over the links; the sites of one colour do not enter the staples of one another, so a sweep over one colour and direction is a map of these links with the others held fixed, and its measure is handled link by link with the marginals of the product; the sum of the plaquettes depends on a link only through the trace with its staple. |
| C132 | Fourier acceleration solves the lattice Poisson equation | Plane waves are eigenvectors of the Laplacian with the eigenvalues gen_p_sq; orthogonality of the waves gives inversion; uniqueness of the solution gives a real kernel, so the operation acts on the packed real and imaginary parts separately; Parseval gives a positive slope. |
| C133 | A cached table of structure constants is the computed one | Byte prefixes of the file with counts and records, memory with unset entries; negation for the empty file. |
| C134 | The report of bad links | Loops over sites and directions with the modelled unitarity test; negation for the determinant. |
| C135 | The Landau gauge accuracy printed with the configuration space propagator | Loops over sites, directions and entries; the trace of the square of a Hermitian matrix is the sum of its squared entries. |
| C136 | Polyakov loops measured by several threads | Shared array with one slot per thread, schedules as lists of iterations with threads; column sums as the invariant. |
| C137 | Coulomb gauge fixing by steepest descent | The loop as a recursive function on the matrices of a slice; reuse of the slice-locality argument of C101; definedness of the exponentiation for two and three colours. |

## 4. Disagreements between code and property

For every property that does not hold of the code as stated, the exact extent to which it holds and the proved
counterexamples. The table is generated from `MANIFEST.json`; theorems named `_fails`, `_witness` or similar are
the negations.

| id | property | what is proved, and what fails | negations |
|---|---|---|---|
| C03 | Momentum index maps between the two Brillouin-zone conventions are inverse | Holds when the converted extents are even; for odd extents the conversion is wrong (negation proved). The (-pi,pi) storage position is proved for every shape. | `C03_odd_extent_fails` |
| C04 | Translation by a separation vector is the periodic translation | Holds for separations not below minus one extent; below that unsigned wrap-around gives a wrong site (negation proved). | `C04_far_negative_fails` |
| C08 | Neighbouring sites never share a draughtboard colour | Exact condition proved: holds iff no included odd extent is 1 modulo 3; negation with extent 7. | `C08_extent_seven_fails` |
| C10 | Matrix products compute the mathematical product | Every number of colours for all products except multab_dagdag, which is right only for two and three colours (negation for every NC > 3 proved). | `C10_multab_dagdag_generic_fails` |
| C100 | Best of several gauge copies | Proved for every fixing routine: orbit (C100_orbit), the choice of the best converged copy (C100_best_partial) and the count (C100_count). Missing: if no copy is accepted the field is overwritten with uninitialised memory (C100_none_fails, with a field for which this happens in C100_none_witness_fails); a final run that gives up is not recognised by the driver (C100_failure_hidden), and a failed allocation looks like a converged run (C100_no_memory). WORST_COPY is not treated. | `C100_none_fails`, `C100_none_witness_fails` |
| C101 | Coulomb gauge fixing works slice by slice along the gauge orbit | Proved: orbit and plaquette (C101_orbit), the matrices of every slice and the iteration count (C101_slices), dependence on the own slice only (C101_local), the two ways a slice is left (C101_stop_partial), and for two or three colours without Fourier acceleration the configurations on which a run can return (C101_returns, C101_returns_iff). Missing: a slice that satisfies the gauge condition leads to a division by zero (C101_fixed_fails, C101_fixed_run_fails); giving up after eight restarts is not reported (C101_failure_hidden); with at most one iteration allowed no slice is left converged (C101_one_iteration_fails); one time slice (C101_one_slice_fails) and one site per slice (C101_one_site_fails) are not handled; a failed allocation frees an unset pointer (C101_no_memory_fails). | `C101_fixed_fails`, `C101_fixed_run_fails`, `C101_one_iteration_fails`, `C101_one_slice_fails`, `C101_one_site_fails`, `C101_no_memory_fails` |
| C102 | The convergence measure of Coulomb gauge fixing bounds the divergence | Proved: the planes are i times the divergence of the rotated links (C102_planes); for three colours the measure is between a third and three times the squared divergence (C102_three, reached: C102_three_sharp), so a slice left with measure tr had mean squared divergence at most 3 tr, and at least tr/3, one step before (C102_converged_partial, if the acceleration does not shorten the direction). Missing: the measure is taken before the last step. Two colours leave the diagonal out (C102_two_site): diagonal fields count as converged after one iteration for every accuracy (C102_two_fails). Four or more colours also leave it out of the first length (C102_many_site): diagonal fields lead to a division by zero (C102_many_fails). | `C102_two_fails`, `C102_many_fails` |
| C103 | The Coulomb line search measures the functional and takes the best step | Proved on every lattice: the values used are the functional before the step and after steps of 0.17 and 0.34, up to a constant that does not matter (C103_line); the step is the vertex of the parabola, replaced by 0.34 or 0.08 outside the interval (C103_step); it is the best point of the parabola when that is open downwards and rises at the start (C103_best_partial). Missing: for other shapes it is not, as in C82_minimum_fails; that such a shape occurs in a run is not shown. |  |
| C104 | The exact logarithm inverts the exponential | Three colours: proved for every link whose eigenvalues are at least 2e-13 apart; Hermitian and traceless for every link but the identity. Fails for the identity (the result is not written; the short version divides by zero) and for diag(-1,-1,1) (division by zero). Two colours: exact for angles from 1e-4 on, within 2e-9 below, where the expansion uses the angle in place of its square; fails for minus one (division by zero). Exact arithmetic; more colours not modelled. | `C104_fails`, `C104_two_fails` |
| C105 | The instanton start is the lattice version of an instanton | The property is false. Every link is set and special unitary up to the error of exponentiate (C105_links_partial). Asing adds all four components of the position where only the one along the link belongs: the matrix that is exponentiated belongs to the transporter only where the other three add up to zero (C105_where), which no site of any lattice meets (C105_nowhere); next to the centre each link is off by more than a quarter in some diagonal entry (C105_fails). In other than four dimensions the failure is dropped and an unset field is accepted (C105_unsupported). | `C105_fails` |
| C106 | The three-gluon vertex at the symmetric point | The property is false. The arrays have one entry more than there are triplets: its index is never set, the projector is computed from it and the values of memory are written to the file (C106_fails). An odd maximum overruns the array of counts (C106_odd); the counts are kept in a file whose name does not contain the geometry they depend on (C106_stale); a maximum that reaches the edge of the zone gives the index -1 (C106_edge_fails). In the default build the projector uses 2 sin(p) and the normalisation 2 sin(p/2) of the first triplet of the orbit (C106_sine_fails, C106_orbit_fails). Proved: every other entry of the file is the two- and three-point function of its triplet (C106_file_partial), the projector contracted with the vertex of the action is -p^2 in every dimension but two (C106_projector), products of momenta do not contribute (C106_longitudinal), with PSQ_MOM the normalisation is exact (C106_linear_partial), rotations and shifts. Missing: LIE_PROJECTION, CUT_FORWARD, the other projectors, a warm cache of triplets and projectors. | `C106_fails`, `C106_sine_fails`, `C106_orbit_fails`, `C106_edge_fails` |
| C107 | Static quark correlators | With FFTW proved in full for at least three dimensions. Without FFTW the first number is the conjugate (opposite displacement), and the second fails: the conjugate is missing. Smearing before, allocation failures and the NULL list are not part of the model. | `C107_direct_fails` |
| C108 | Random, unit and reunitarised configurations | The random start is special unitary only for usable numbers: a pair at the centre of the unit circle gives links that are not finite, and the start reports nothing (C108_start_fails). Proved: which numbers each matrix is made from (C108_values), when the loop ends (C108_ends), independence of the interleaving (C108_order), and all other statements for usable numbers. Allocation failures and OBC_HACK are not part of the model. | `C108_start_fails` |
| C109 | The n-APE projection | Proved: defined exactly for invertible matrices (C109_defined), what a success means (C109_projection_partial: the determinant is positive but one only up to the tolerance), special unitary matrices and their multiples (C109_fixed, C109_multiple), success below a condition number (C109_converges, C109_conditioned), the APE link where the link has the larger weight (C109_ape_partial). The property is false beyond that: the passes run out for stretched matrices and the caller, who ignores the result, keeps the unprojected matrix (C109_slow, C109_fails); with the weights 0.4 and 0.6/6 the sum may be singular (C109_ape_singular). The root used by the logarithm (denman_rootY) is modelled but has no theorem. | `C109_fails` |
| C11 | Reduced special-unitary products equal the full product | Every number of colours except the double-dagger product, which fails beyond three colours (negation proved for four). | `C11_multab_dagdag_suNC_fails` |
| C110 | The smearing routine that is run | Proved for every request except a flow restricted to the spatial directions, which runs in all of them (C110_direction_fails). The links are shown to be independent of memory and history for smearings without flow when the work space can be allocated; otherwise success is reported and nothing happens (C110_status_fails). The memory estimate is exact but not compared for four and more colours (C110_estimate_colours_fails) or after a spatial smearing (C110_estimate_history_fails). | `C110_direction_fails`, `C110_refused`, `C110_refused_clean`, `C110_status_fails`, `C110_estimate_colours_fails`, `C110_estimate_history_fails` |
| C111 | Reading with little memory | Links, the five NERSC, MILC and SciDAC checksums and the value returned agree for both readers, for every file. BQCD checksum: proved for single precision; undefined in the fast reader for double precision (C111_bqcd_double_fails) and wrong after another file was read with little memory (C111_bqcd_history_fails). Files in another precision than the program are not modelled. | `C111_bqcd_double_fails`, `C111_bqcd_history_fails` |
| C113 | Vectorised matrix inversion | The pivot is searched in the wrong array, so that rows are never exchanged: the result is the inverse exactly when all leading principal minors are nonzero, otherwise its last row is not a number and success is reported (C113_regular_fails: a special unitary matrix; C113_singular_fails). | `C113_regular_fails`, `C113_singular_fails` |
| C118 | The numbers printed about a gauge fixed field | Maximum: with several threads the value reported is one of the local violations and zero only if all are zero, but need not be the largest: two threads can both pass the unprotected test and the smaller value can be stored last (C118_max_lost). With one thread it is the largest. Constance: full for other than two colours; for two colours the diagonal is compared with itself (gftests.c:98), so that a field can change in time and be reported constant (C118_constance_two_fails). With one time slice the number is not defined. Exact arithmetic. | `C118_constance_two_fails` |
| C119 | Running out of memory | Proved when everything is granted (a field is usable and disjoint, smearing, the flow and the conjugate gradient give everything back) and when the very first request of a field is refused. Otherwise the claim is false, with proofs for all patterns: a refused table of a site is followed all the same; a refused matrix loses all the memory already granted; smear4D with any refused request is undefined, because the clean-up follows null; the same for an unknown projection; the flow reports success without having run when only its array of sums is refused, and is undefined when a field is refused; the memory-saving flow with improved smearing releases one time slice as two, also when nothing is refused; the conjugate gradient returns 0 iterations, or releases unset pointers. Partial: the Coulomb and HYP routines are not modelled. | `C119_field_refused`, `C119_field_table_fails`, `C119_smear4D_refused_fails`, `C119_smear4D_unknown_fails`, `C119_flow_silent_fails`, `C119_flow_refused_fails`, `C119_flow_memcheap_fails`, `C119_FACG_silent_fails`, `C119_FACG_table_fails`, `C119_FACG_direction_fails` |
| C120 | Logarithm for more than three colours | Proved for all colours: the root of a unitary matrix without eigenvalue -1 has positive real part, square U Y†Y and Y†Y = 1 up to the tolerance, and is found unless an eigenvalue is within about 2^-17 of -1; after the roots the result is exactly the stated partial sum, cut at the first order in 4..23 that passes the test; it is traceless with Hermitian off-diagonal entries, and Hermitian if the last root is exactly unitary; the logarithm of one is zero. Missing: a bound on exp(iQ) - U. The claim is false at eigenvalue -1: for diag(-1,-1,1,1) in SU(4) the root reports success with a zero row and the logarithm then uses unwritten memory. A series that does not converge is never reported; the table is read outside its bounds instead (shown for the unitary matrix i without roots). | `C120_root_singular_fails`, `C120_outside_fails`, `C120_root_minus_fails`, `C120_minus_fails` |
| C121 | Topological charge along a smearing history | Correlators and susceptibilities are written under the number of smearings, in order, up to the first failure, which is reported. Refuted: correlators and moments are never measured before the first smearing, so one fewer than asked for is written (in the statement of C121_correlator); a failed moment still leads to a file that contains memory never set (C121_moments_fails); no measurements asked for means use of a refused block (C121_zero_fails); a failed smearing is not noticed (C121_smear_fails). | `C121_moments_fails`, `C121_zero_fails`, `C121_smear_fails` |
| C122 | Exponential with an eigenvalue library | The property is false: because the solver of C23 never uses the first point, the result is the exponential only if the first eigenvalue found is zero (C122_exact_partial) and otherwise differs whenever the exponentials are not all equal (C122_fails, with the value in C122_value); it is not even unitary on a diagonal matrix (C122_not_unitary_fails). A repeated eigenvalue, as of the zero matrix on a unit field, is a division by zero (C122_repeated_fails, C122_zero_fails). The eigenvalue library itself is taken by its contract. | `C122_fails`, `C122_repeated_fails`, `C122_zero_fails`, `C122_not_unitary_fails` |
| C123 | Gauge fixing test with the logarithm | Value, sign and zeros proved whenever the routine for the logarithm returns Hermitian traceless matrices (C123_test), which it does for three colours with eigenvalues apart (C123_three_partial) and for two colours without links equal to minus one (C123_two_partial). False otherwise: one link without a logarithm makes the number undefined (C123_undefined), so for three colours every field with a link equal to the identity, among them the unit field (C123_identity_fails). | `C123_undefined`, `C123_identity_fails` |
| C124 | Files opened for reading are closed | False in two cases: a configuration that needs no file, without a file, on a machine with too little memory closes a null pointer (C124_missing_fails, and by C124_defined only then); a field that is refused by the allocator leaves the file open (C124_leak_fails, and by C124_history_partial only then). | `C124_missing_fails`, `C124_leak_fails` |
| C125 | The threads of a team agree on when to stop | False in one place: in the conjugate gradient in Coulomb gauge all threads clear the whole shared array at once (C125_clear_race_fails); the other three loops have no race (C125_no_race_partial), and reading, deciding and leaving together are proved for all four, under the assumption that writing the same number at once from several threads does no harm. Not modelled: the shared result written by all threads with the same value; continuation runs that start with an uncleared array. | `C125_clear_race_fails` |
| C126 | The threads of a team start again together | False: the verdict on the solution is a variable of each thread, which sees its own sites only, so when the rejected sites are not spread over all threads some threads start again and the others leave (C126_fails); together otherwise (C126_together_partial), in particular with one thread (C126_one). | `C126_fails` |
| C133 | A cached table of structure constants is the computed one | Build with NOT_CONDOR_MODE, little endian. The undisturbed cache gives back the tables (C133_cached, C133_three). After a stop during the write C133_torn says exactly what a later run reads: from an empty file nothing, so that every contraction is silently zero (C133_fails, for good: C133_stuck); from any other incomplete file memory that was never set or a null pointer; never another number for the antisymmetric contraction (C133_crash_partial). A file that cannot be created is written to a null stream (C133_dir_fails). | `C133_torn`, `C133_fails`, `C133_stuck`, `C133_dir_fails` |
| C134 | The report of bad links | Count, completeness and soundness within the tolerance proved. The determinant is not part of the test although the comment in the code says non-SU(NC) links are found: C134_determinant_fails. Parallel reductions are sums. | `C134_determinant_fails` |
| C14 | Compressed SU(3) storage reproduces the matrix | Two colours always; three colours when the modulus of the first entry squared stays above the guard used by the code, the block-diagonal case is a proved failure. | `C14_block_diagonal_fails` |
| C19 | Matrix inversion returns the inverse or reports failure | Gauss-Jordan for every size: failure exactly for singular matrices, otherwise a two-sided inverse of finite entries; adjoint build proved; the closed two-colour formula never reports failure (negation proved for every singular matrix); Newton refinement squares the residual. | `C19_two_singular_fails` |
| C20 | Exponentiating a traceless Hermitian matrix gives a special unitary matrix | Against Mathlib's matrix exponential: three colours within 1e-17 entrywise for every argument and equal for separated eigenvalues; two colours within 2e-9 and equal off the series branch, where the result is proved not unitary; more than three colours (rational approximant, nested) special unitary and within (NC+1) rho^9/(2^24*25401600) of the exponential, rho the largest eigenvalue. | `C20_two_small_fails` |
| C21 | Structure-constant contractions equal the trace they stand for | Three colours proved (d, f and combined); for two colours the code returns one half of the trace instead of four times it, which is proved as the exact value and as a negation. For more than three colours the tables computed from the generators are right up to their tolerance for matrices with zeros on the diagonal; with a diagonal the wrong diagonal generators (C22) make the contraction wrong by a factor above 2^125, for every number of colours. | `C21_two_fails`, `C21_many_fails` |
| C22 | Generated SU(N) generators are traceless Hermitian and normalised | All generators Hermitian; off-diagonal ones traceless, normalised and orthogonal to all others; every diagonal one is proved to have a nonzero trace because an unsigned index is negated. | `C22_diagonal_fails` |
| C23 | Vandermonde solver returns the interpolating coefficients | Exact value of what the solver returns; it interpolates when the first point is zero, and (two or more points) only then or when all values are equal. | `C23_solver_fails` |
| C25 | Matrix times vector returns the product | Right for every number of colours except three; negation for three colours proved. | `C25_three_colours_fails` |
| C28 | Heat-bath updates produce group elements | The generated element is special unitary whenever one of the draws is accepted; if all are rejected it is not (negation). The stored link is special unitary in all cases because of the final reunitarisation. A build with the algorithm of Creutz always generates a special unitary element (C28_creutz) out of numbers of the stream that are used once (C28_creutz_fresh). | `C28_fails` |
| C29 | The average plaquette is gauge invariant and normalised | Gauge invariance and values for every number of dimensions and colours; the averages over all planes are one on the trivial configuration, but the temporal measurement is normalised by ND-2 instead of ND-1 (exact value proved, negation for ND other than 4 where the code divides by a wrong count; undefined for ND=2). The plaquette summed by threads inside the update and the flow equals it for every schedule in four dimensions, and is proved wrong in three and undefined in two. | `C29_threads_fails`, `C29_trivial_fails` |
| C36 | The BQCD checksum of a configuration is the POSIX cksum of its data | Proved for the first configuration read in a process (less than 2^32 bytes). Proved false for every later read (static state is never reset) and for data of 2^32 bytes or more. | `C36_second_read_fails`, `C36_long_fails` |
| C37 | Configuration checksums do not depend on the thread schedule | Proved for every schedule, with the machine's value of a 32-bit shift by 32 as a parameter: the code performs this undefined shift at every site or word whose number is a multiple of 29 or 31. | `C37_undefined_shift` |
| C38 | Writer and reader agree on the checksum of what was written | Proved for the default double-precision output, all byte orders, storage types and schedules, given one machine value for the undefined shift. Proved false for an OUT_SINGLE build. | `C38_single_fails` |
| C40 | Low-memory writer stays inside its buffer and writes the same bytes | Proved for lattices with one time slice; for every lattice with two or more it is proved that the writer runs outside its buffer. |  |
| C41 | HiRep files round trip | Proved for OUT_BIG builds and more than two colours (or full real and imaginary storage). Proved false for two colours and for OUT_LITTLE builds. | `C41_little_fails`, `C41_two_colours_fails` |
| C42 | CERN (openQCD) files round trip | Proved for lattices with even extents, every schedule of the writer and reader, on little-endian machines. Proved false for odd extents. | `C42_odd_fails` |
| C43 | A corrupted configuration is rejected | Acceptance characterised for every format. Proved: a changed word (MILC) or up to four changed bytes of a site (SciDAC, ILDG) are refused. Proved false for NERSC (one agreeing quantity is enough), for NaN plaquettes (HiRep, CERN) and for plain LIME and JLQCD files; an intact file whose checksum is the error code is refused. | `C43_nersc_fails`, `C43_nan_fails`, `C43_unchecked_fails`, `C43_collision_fails` |
| C44 | Header parsing is memory safe and returns the first matching field | NERSC text headers. No undefined behaviour for headers whose lines are short enough and contain the separator; the first line matching a key decides; well-formed headers give back their fields. Malformed headers (line without separator, overlong line, too many fields) and numbers that do not fit are proved to reach undefined behaviour. | `C44_fails`, `C44_number_fails` |
| C45 | Configurations written by the program have headers the program accepts | NERSC: accepted with the values that were written, except trajectory number zero (proved refused) and overlong labels (proved undefined behaviour). MILC, CERN and SciDAC proved for every machine; HiRep proved for OUT_BIG builds, proved refused for OUT_LITTLE; ILDG proved in four dimensions, proved to give a wrong extent in five. | `C45_zero_fails`, `C45_long_label_fails`, `C45_hirep_little_fails`, `C45_ildg_five_fails` |
| C46 | LIME records are aligned and skippable | Proved for every list of at most eleven records before the links and twelve after, any lengths and machines; with twelve records before the links the reader is proved to stop too early and report success. Unchecked allocation of the declared length is characterised. | `C46_many_fails` |
| C47 | Input-file lookup returns the first value for a tag and never reads outside the table | Proved for every file of at most 63 lines TAG = VALUE with words below 64 characters: first value wins, only first values matter, an accepted file has every required tag, and the fields carry the values. Proved failures: 64 lines, long values, missing CONFIG_INFO or RANDOM_TRANSFORM, a second call, negative numbers, missing dimensions for UNIT. | `C47_many_fails`, `C47_twice_fails`, `C47_long_fails`, `C47_missing_fails`, `C47_negative_fails`, `C47_unit_fails` |
| C48 | Saving and restoring the random state continues the same stream | Multiply-with-carry and xorshift: exact restoration for every state, number of threads and byte order of both machines. KISS: proved for reading on big-endian machines, proved to give byte-reversed words on little-endian ones. Other numbers of threads, or seeding before restoring, are proved to give a new stream. The WELL build does not link. | `C48_kiss_fails`, `C48_kiss_witness`, `C48_threads_fails`, `C48_seeded_fails` |
| C49 | The generators use their whole state | Xorshift: sixteen numbers determine the whole table. KISS and WELL: every word can matter. Both multiply-with-carry generators are proved to depend on one table word and the carry only. | `C49_mwc4096_fails`, `C49_mwc1038_fails`, `C49_mwc1038_seeded_fails` |
| C50 | Uniform random doubles lie in the half-open unit interval | Proved for all 32-bit generators with and without FULL_DOUBLE. The xorshift generator is proved to return 1 exactly for its 1024 largest outputs, with a state that does so. | `C50_xor_fails` |
| C51 | A restored generator is not silently reseeded | Proved for seeded generators over all histories; after restoring from a file the next initialisation is proved to reseed. | `C51_restored_fails` |
| C52 | Tree and compensated sums return the sum | Proved for the divide-and-conquer and compensated sums and the running mean for all arrays, and the variance for two or more data. The threaded sum is proved right exactly when the rounded-up share of the threads leaves something for the last one, and undefined otherwise. The variance of one datum is 0/0. | `C52_parallel_fails`, `C52_variance_fails` |
| C54 | The memory-mode decision depends only on the configuration | Every answer is the one for the first format asked about; histories that change the answer are exhibited. | `C54_history_fails`, `C54_repeat_fails` |
| C55 | A resumed update run equals the uninterrupted run | For every crash point after a complete save and before the next one the continued run is exactly the rest of the run; if reunitarisation changes nothing, for every set of left-over files. A crash between configuration and generator state continues with another random sequence without complaint; a torn configuration file is never repaired; an interval of zero is undefined. | `C55_torn_fails`, `C55_rand_fails`, `C55_rand_witness`, `C55_zero_fails` |
| C56 | Saved configurations carry the trajectory number they belong to | Right under every schedule for one thread or when the saved trajectory is also measured; always right or one too small; otherwise a wrong schedule exists for every such trajectory. | `C56_race_fails` |
| C57 | Saved trajectory files have the requested path | Right for names without dots (or with only a final number) and fewer than eight digits; names with other dots lose everything after the first dot, leading dots are lost, eight digits overflow the buffer. | `C57_dots_fails`, `C57_relative_fails` |
| C58 | An existing configuration file is never overwritten | Holds for readable files; an unreadable but writable file is overwritten, a name that cannot be created is undefined behaviour, a failed write is reported as success. | `C58_unreadable_fails`, `C58_open_fails`, `C58_status_fails` |
| C59 | The momentum list contains exactly the momenta inside the cut | Momentum-space list proved for every shape and all four cuts; the cylinder cut is a distance from a diagonal only in four directions (C59_cylinder_fails for three); with a momentum on the zone boundary the reflected index is another momentum (C59_boundary). | `C59_boundary`, `C59_cylinder_fails` |
| C60 | A damaged momentum-list cache is not used as if complete | A complete file gives back the list; a file without a complete record is refused; any other beginning of a file is taken for complete (C60_fails), for good (C60_stuck). The triplet caches are checked. | `C60_torn`, `C60_refused_partial`, `C60_fails`, `C60_stuck`, `C60_empty_fails`, `C60_dir_fails` |
| C61 | Momentum triplets conserve momentum and are complete | The search finds exactly the triplets for every squared momentum when the extent ratios are integers in the directions used; a ratio that is no integer misses triplets (C61_ratio_fails). | `C61_ratio_fails` |
| C62 | A failed operation is visible in the process exit status | Only a refused input file is reported; every other failure gives exit status zero; reading a configuration without output name reads argv past its end. | `C62_fails`, `C62_processing_fails`, `C62_argv_fails` |
| C64 | Draughtboard for rectangle actions | Outcome on every lattice characterised. Missing, with proved negations: the check of the extents is the wrong way round, so that every lattice the colouring is made for is refused (C64_rejects), extents below four lead to undefined behaviour (C64_outcome), and on every lattice accepted some sites are never updated and one site is updated many times in parallel (C64_fails). Behind the check the colouring is right and makes the update independent of the schedule (C64_colouring_partial, C64_schedule_partial); it would not be with all parallelograms of the one-loop action (C64_full_one_loop_fails). The comparison passed to qsort is inconsistent; qsort is taken to permute. Allocation failure is not modelled. | `C64_fails`, `C64_full_one_loop_fails` |
| C65 | Improved smearing through delay buffers equals simultaneous smearing | Proved for the flow step; in smear4D every slice but the third from the end is right, and that one is proved wrong for every temporal extent of three or more. One slice: out of bounds in both. | `C65_smear_wrong_slice`, `C65_smear_fails` |
| C66 | Link traces are the stated averages | Averages, consistency and range proved for every lattice, number of colours and configuration. The largest trace of indivlinks starts from zero, so it is proved to be the maximum of zero and the traces, with the negation when all traces are negative. | `C66_max_fails` |
| C68 | Stout smearing and the Wilson flow move each link by the exponential of the plaquette force | Link, sweep, any number of iterations and one flow step proved for every lattice. For three colours each link is within 2e-16 of the exact update and for two within 4e-9, always; exactly equal, and then exactly covariant over any number of iterations, under the stated hypothesis that the exponential does not use its series for near eigenvalues (C20). For more than three colours, any number of iterations: every link stays special unitary and within an explicit bound (ninth power of the parameter, spread by the later iterations) of exact stout smearing, which is then covariant up to twice that; the same, with flowErr iterated, for any number of steps of the flow. Missing: the distance over many iterations for two and three colours with near eigenvalues. |  |
| C69 | The eigenvalue routines return the eigenvalues | Proved in full for SU(2) and SU(3). For general 3x3 matrices: right whenever no division by zero occurs, which covers every invertible matrix with tr^2 != 3 tr(adj); fails for the cyclic permutation (0/0). For general 2x2: right except for singular matrices with a trace on the left, where it divides by zero. Hermitian traceless: proved for two colours, for three colours except the zero matrix (0/0). Exact arithmetic; more than three colours not modelled. | `C69_general3_fails`, `C69_general2_fails`, `C69_hermitian3_fails` |
| C70 | Lie algebra projections are the projections | All full-matrix projections and the packed Hermitian one proved for every number of colours. Packed anti-Hermitian routine proved for two and three colours; for four colours it subtracts the real number tr instead of i tr, proved as a negation. | `C70_antihermitian_short_fails` |
| C71 | Configurations for another number of colours are refused | HiRep headers and NERSC storage types refused; SciDAC headers for another number of colours proved to be accepted. | `C71_scidac_fails` |
| C72 | Gaussian random numbers are finite | Finite with the right modulus unless the accepted pair is the centre; failures at the centre and at zero proved, with generator states producing these values. | `C72_fails` |
| C73 | The flow scale returned is where the measurements cross it | Proved unless the cubic is degenerate or has a non-real root whose real part lies in the interval. Proved failures: the inflection case, the real part of a complex root, a measurement equal to the scale, a crossing in the last interval, two measurements. | `C73_inflection_fails`, `C73_complex_root_fails`, `C73_equal_fails`, `C73_last_fails`, `C73_two_fails` |
| C74 | The last lattice of an update run is saved | Every multiple strictly inside the run is saved if no file of that number exists; the last one never is. | `C74_fails` |
| C75 | Measurement files read back the same on every machine | All writers of cut_output.c in use: same bytes on both byte orders, read back exactly by the independent reader, every strict prefix rejected, arrays restored. Partial because the buffer size of a momentum list is an int: from 429496730 four-dimensional momenta on the writer leaves its buffer (C75_overflow). Short writes of fwrite are not noticed by the code and are covered only as prefixes of the file. |  |
| C76 | Action density and topological charge | Proved for two and three colours and every definition of the field strength; threads, density sum and reported integer for every number of colours. With four colours the measured action is wrong (proved). Reflections of the plaquette definition not covered. Other than four dimensions is undefined behaviour (proved). |  |
| C77 | Flow measurements belong to the flow time they are labelled with | Drivers proved for any integrator and measurements; C77_lattice shows that lattice fields in four dimensions meet the hypothesis on the plaquette (C29_threads_fails covers other dimensions). Missing, with proved negations: the measurement after the fixed-step flow has gone back to the stopping time has the wrong time, action and plaquette and makes the scales be computed (C77_back_fails, C77_label_fails); a later start of the measurements stops the fixed-step flow early (C77_meas_start_fails); the fine measurements are not bounded by the number of iterations (C77_fine_fails); the status is ignored (C77_status_fails) or success on allocation failure (C77_alloc_fails); a twentieth shortening that succeeds is reported as failure (C77_last_fails). | `C77_back_fails`, `C77_label_fails`, `C77_meas_start_fails`, `C77_fine_fails`, `C77_status_fails`, `C77_alloc_fails`, `C77_last_fails` |
| C78 | A random stream does not repeat early or get stuck | KISS: no recurrence within 2^32 draws from any state, different seeds never coincide, and the xorshift word stays non-zero; one seed is exhibited for which it is zero for ever. XOR_1024: never all zero and different seeds never coincide; no lower bound on the period is proved. Both multiply-with-carry generators (including the default one) are proved to repeat within 2^40 and 2^47 draws for every seed. | `C78_kiss_seed_fails`, `C78_mwc1038_fails`, `C78_mwc1038_seeded_fails`, `C78_mwc4096_fails`, `C78_mwc4096_seeded_fails` |
| C79 | Over-relaxed gauge fixing only moves along the gauge orbit and never lowers the functional | One rotation, and whole Landau and Coulomb runs, proved for every number of colours and every schedule. A rotation divides by zero where the sum over the links of a site vanishes in a subgroup: exactly characterised, a special unitary field for which the run gives NaN is exhibited, and a run is proved defined for fields whose functional is close to its maximum. Independence of the order of sites needs the hypothesis on odd extents of C08. | `C79_undefined` |
| C80 | The gauge fixing convergence test measures the gradient of the gauge functional | Value, gradient, zero set, packed sums and functional proved for every number of colours. Missing: the return value of the quick routine for two colours, which is a quarter of the generic one (proved as a negation with a witness). | `C80_fast_two_fails` |
| C82 | Fourier-accelerated Landau gauge fixing stays on the gauge orbit, climbs, and reports what it measured | Steps, slope, line search values, whole runs and the inner products proved. Missing, with proved negations: the parabola of the line search is only used rightly when it opens upwards with its minimum after the start (C82_minimum_fails); the inner product of the conjugate gradient has a sign error for three colours and leaves out the diagonal for four and more (C82_inner_three, C82_inner_many, C82_inner_fails); an allocation failure returns the count zero (C82_alloc_fails); a limit of one iteration never succeeds (C82_one_iteration_fails); the reported accuracy is that of the field before the last step, and a fraction of the convergence test (in the partial theorems). Two to eighteen colours; the exponential step and more colours are not modelled. | `C82_minimum_fails`, `C82_alloc_fails`, `C82_one_iteration_fails`, `C82_inner_fails` |
| C83 | The Landau gauge driver returns a fixed field or reports failure | Every way a run can end is characterised, for every method that stays on the orbit (instances: conjugate gradient and steepest descent). Missing, with proved negations: a failed second read of the file is returned as the count 123456789 with a field off the orbit; a run of steepest descent that did not converge is never restarted nor reported; the caller ignores the failure code and writes the field. A file that cannot be opened again is undefined behaviour. LUXURY_GAUGE is not modelled. | `C83_fasd_fails`, `C83_unread_fails`, `C83_unread_witness_fails`, `C83_ignored_fails` |
| C84 | Projecting a matrix onto the gauge group by maximising the trace | Special unitary result, overlap never falling, critical points, fixed points and optimality for two colours proved for every number of colours or for two as stated. Missing, with proved negations: the projection of the sum of a link and staples of the group can divide zero by zero (C84_undefined_fails; C84_defined and C84_ape_defined give a sufficient condition), and for three colours APE smearing does not commute with gauge transformations (C84_covariance_fails). Also not guaranteed by the code: a negative overlap ends the loop after one sweep, since the stopping test divides by it without absolute value. | `C84_undefined_fails`, `C84_covariance_fails` |
| C85 | Residual gauge fixing after Coulomb gauge | Transformation, kept Coulomb gauge, gain and special cases proved. Missing, with proved negations: the fix divides by zero on some fields of special unitary links (C85_undefined_fails; C85_defined gives the condition), and failures never reach the caller (C85_silent_fails). The HERM_PROJ and SINGLE_PREC branches are not modelled. | `C85_undefined_fails`, `C85_silent_fails` |
| C86 | Topological charge correlator | Correlator of every separation, agreement of both builds, total, and temporal correlator of a build with FFTW proved; C86_real supplies the real density for two and three colours. Missing, with a proved negation: without FFTW the file of the temporal correlator gets the unnormalised charges of the slices, not their correlator (C86_temporal_partial, C86_temporal_fails). FFTW itself is taken by the contract in its manual; files and allocation are not modelled. | `C86_temporal_fails` |
| C87 | Slab sums of the topological charge | Slab averages for every direction and thickness proved for both builds (without FFTW: for one thread), and the full slab. Missing, with a proved negation: without FFTW the inner parallel loop adds to a shared variable without protection, and updates can be lost (C87_race_fails). Result files and allocation are not modelled. | `C87_race_fails` |
| C88 | Moments of the topological charge | Moments of charge and correlator for extents up to 13, both builds. Missing, with proved negations: larger extents overflow the integer powers (C88_overflow_fails); the entry for 10! is wrong (C88_factorial_fails); the slice half way round is left out, so that the zeroth moment is not the charge (C88_zeroth_fails). Files and allocation are not modelled. | `C88_factorial_fails`, `C88_overflow_fails`, `C88_zeroth_fails` |
| C89 | Hypercubic smearing | Proved for any projection: all links updated at once, dependence on the hypercubes only, precomputed and spatial routines equal to the recursive one. APE projection: special unitary, fixed points, covariance for two colours (C89_ape_covariant_two_partial: wherever both sides are defined). Stout projection: the construction itself, special unitarity and covariance wherever no exponential fell back on its series (C89_stout_partial, C89_stout_covariant_partial). Missing, with proved negations: the weights of link and staples add up to one in four dimensions only (C89_weights_partial), and not for spatial smearing (C89_spatial_weights_fails). The spatial routine in two dimensions, LOG projection, allocation failure and printing are not modelled. | `C89_spatial_weights_fails` |
| C90 | Improved staples | Squares and rectangles, covariance (one-loop term included), range and the buffered flow proved. Missing: more than three colours, where a product routine is wrong (C11). With proved negations: the one-loop term leaves out half of the parallelograms (C90_one_loop_partial, C90_one_loop_fails), and the weights of DBW2 do not add up to one (C90_weights_partial, C90_weights_fails). The weights of the one-loop action and SM_LOG (staples as logarithms) are not modelled. | `C90_one_loop_fails`, `C90_weights_fails` |
| C91 | Gluon propagators | Proved for even extents, even cuts that keep the zero momentum and none at the edge of the zone, and tolerances below the squared momenta kept; positivity for every lattice and list. Missing: odd extents, where the projectors use a wrong momentum (C91_odd_fails, a field in Landau gauge gets a non-zero longitudinal propagator), and momenta at the edge of the zone, where the list is not symmetric (C59_boundary). An empty list is read (undefined). | `C91_odd_fails` |
| C92 | Gluon correlator in configuration space | Both builds proved equal to their double sums, for every spacing; time reversal proved. The statement for the transform is for one thread. Missing, with proved negations: the two builds give different numbers (C92_builds_fail: only one includes the temporal direction, and the normalisations differ), a spacing of zero never ends without the transform and a spacing above the extent fails only with it (C92_spacing), and the loop variable over directions is shared by the threads, so that directions are lost or an element past the end is read (C92_race_lost, C92_race_out_of_bounds). |  |
| C93 | Exceptional three-gluon vertex | Proved for even extents and cuts as in C91. Missing: odd extents and the edge of the zone (as in C91). Proved negation: the build with the structure constants writes other numbers than the other two (C93_builds_fail), namely their average over the momentum and its reflection (C93_lies_partial with C93_average, three colours; two colours have a wrong factor, C21). |  |
| C94 | Instantaneous gluon propagators | Proved for every lattice. Missing: momenta at the edge of the zone, where the list is not symmetric (C59_boundary), and cuts without the zero momentum. |  |
| C95 | Different measurements go to different files | Names determine the measurement for all settings that enter them. Missing: with the combined cylinder and cone cut the width is not in the name (C95_conical), while it changes the kept momenta (C95_conical_differ); the smearing parameters and the number of times of the configuration space correlator are not in the name. Widths are compared as the text printed by %g. |  |
| C96 | A quenched U(1) field is real, has no modes without spatial momentum and only changes the phases of the links | Four dimensions and even extents: proved for all random numbers. Other cases are negated: any odd extent writes outside the arrays (C96_odd_extent), and in three dimensions the pairing loop ends too early so that opposite momenta are not conjugate and an imaginary part is dropped (C96_three_dimensions). The statements about links and squares hold on every lattice on which the call gets that far. Two dimensions and five or more are not treated. |  |
| C97 | U(1) observables are the stated averages and gauge invariant | Averages, ranges, norm and gauge invariance proved in full. Windings: the count is the number of whole turns or one less (C97_windings_partial), a turn can be missed (C97_turn_missed), two of the four current components vanish for windings without monopoles (C97_no_current_partial), and a field whose links are all one gets monopoles and a sheet (C97_false_monopoles). | `C97_false_monopoles` |
| C98 | Propagators before and after smearing | The property is false: the copied sites share the links, so the two arrays are equal whatever the smearing (C98_same), both are those of the smeared field transformed and corrected twice (C98_twice_partial), and for a constant SU(3) field without smearing both have zero where the propagator is positive (C98_fails). C98_twice_partial is what the code computes, for every smearing that depends only on the links of the lattice. | `C98_fails` |
| C99 | A seed fixes the random streams | Proved: the order of the draws does not matter (C99_order), and with one iteration per thread the states are a function of the seed (C99_streams_partial). Missing: OpenMP does not promise one iteration per thread, and the loop warms up the generator of the running thread instead of that of the iteration, so other assignments give other states (C99_shared_iterations_fail). Different seeds do not give different streams: neighbouring ones share all but one (C99_neighbour_seeds). |  |

## 5. Modelling decisions, area by area

General. Arrays of matrix entries are functions `ℕ → ℂ`; a C loop is `forN` or `forFrom` (`Base/Loop.lean`). An
operation the C standard leaves undefined, a division by zero and a not-a-number are separate outcomes. Constants
such as `OneO3` or the literal for the square root of three are taken as the exact numbers unless the comment at the
definition says otherwise. `Verif/Audit.lean` is generated from `MANIFEST.json` and makes the build fail if a theorem
listed there depends on any axiom other than the three above.

| area | what is modelled | what is left out or idealised |
|---|---|---|
| `Geom`, `Draught`, `Sched` | `geometry.c`, both draughtboards of `draughtboard.c`, sweeps over a colour with any order of the sites | GPU or vector code |
| `Mat` | `MMUL*.c`, `U_Nops.c`, `LU.c`, `invert.c`, `expMat.c`, `trace_abc.c`, `lie_mats.c` (fixed tables), `gramschmidt.c`, `vandermonde.c`, the vectorised products `MMUL/*_SSE.c` on pairs of real lanes, `invert_SSE.c`, `LU_SSE.c`, `gramschmidt_SSE.c`, `trace_abc_SSE.c`, and the inline vector code of `givens.c`, `exactQ.c`, `gtrans.c`, `plaqs_links.c` | rounding; eigenvalues of the exponential come from the closed formulas of the code, over ℝ The Denman iteration and `nape_reunit` of `taylor_logs.c` are over ℂ; `cpow` is the principal power. |
| `Update` | `SU2_rotate.c`, `SU2_rotate_SSE.c`, `relax.c`, `hb.c` | the random stream of a heat bath is an arbitrary sequence |
| `Field` | plaquettes, Polyakov loops, gauge transformation, staples, topological charge correlators, slabs and moments, instanton, random and unit starts | the two-colour `complete_plaquette` uses the SSE formula, because the portable branch does not compile (undeclared names); fields are functions of site and direction; FFTW transforms are taken by the contract in the FFTW manual; arrays of the charge density are functions of the site |
| `Smear` | buffering of `smear4D`, `smear3D`, improved smearing, the flow step of the memory-saving flow; the update of one link is an arbitrary function of its staple in the generic theorems; the fixed-step and adaptive flow drivers, with the list of measurements, over an arbitrary integrator; the trace-maximising projection and the APE link (without `N_APE` and `OBC_HACK`); the improved staples with their weights (not the one-loop weights); the three hypercubic routines over an arbitrary projection, with the APE and stout projections as instances; the dispatcher with its two memory questions and their static variables (with `HAVE_UNISTD_H` and `DANGEROUS`: the memory is one number) | printing, timing; `TOP_VALUE`. `project_APE` is modelled twice: with `GIVENS_APE` (C84 and the HYP theorems) and for the default build, where the test `(defined NC==2)` in `GLU_definitions.h` is always false and `nape_reunit` is used (C109). |
| `IO` | byte order, CRC32 and 29/31 checksums, both readers, both writers, headers, LIME records, XML fields, input file | words are bit vectors, double arithmetic enters as a parameter where a float is converted; the value of an undefined 32-bit shift by 32 is a parameter `X`; HiRep `neg` and `reunit` are parameters; the CERN reader is the little-endian one; doubles in checks are `Option ℝ` with `none` for not-a-number; `scanf` of floating-point numbers, `alloc` and `handle` of LIME records are parameters; BQCD records are left out |
| `Rng` | the five generators, save and restore, conversion to double, Gaussian numbers | seeding formulas and warm-up are arbitrary; rounding of the conversion to double is modelled; Gaussian numbers over ℝ; the WELL build does not link because of a missing symbol |
| `Utils` | sums, averages, derivatives, splines, scale setting, memory choice | over ℝ with `none` for an unusable number; memory sizes in natural numbers of bytes |
| `Run` | update loop, saves, crash and restart, header trajectory number under threads, file names, overwriting, exit status | an update is an arbitrary deterministic step; a crash is a prefix of the list of file-system events; `Latt.flow` is read with sequential consistency; the file system is a map from names |
| `Cuts` | momentum lists, the four cuts, caches, triplets, gluon propagators, configuration-space correlator, three-gluon vertex with one vanishing momentum and at the symmetric point (arrays with explicit initial contents), instantaneous propagators and static quark correlators (with the documented contract of FFTW), layout and names of the output files | `CYLINDER_AS` and `PSQ_MOM` builds left out; depth of recursion not limited; the cache name is fixed; ASCII_CHECK output left out; fopen and fwrite succeed |
| `Gfix` | over-relaxed gauge fixing, divergence and gauge functional, axial gauges, Fourier-accelerated Landau gauge fixing and its driver, residual gauge fixing, Coulomb gauge fixing slice by slice (without `HERM_PROJ` and `SINGLE_PREC`) | a division by zero is `none`; the comparison of the stopping quantity with the accuracy distinguishes infinite and NaN; the sites of a colour are taken in an arbitrary order with arbitrary random numbers |
| `U1` | quenched U(1) field, its multiplication onto the links, plaquettes, rectangles, monopoles, sheets, charge | the random numbers are an arbitrary field, the transform is the documented contract of FFTW; an access outside the arrays and a conversion out of range are `none`; over ℝ and ℂ |
