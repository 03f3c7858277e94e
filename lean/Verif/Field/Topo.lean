import Verif.Field.Model
import Mathlib.Analysis.SpecialFunctions.Complex.Circle

/-!
# Topological charge correlators

Models of `src/Field/Qcorr.c`, `src/Field/Qslab.c` and `src/Field/Qmoments.c`: what is computed from the charge density.  The
files written, the printing and failed allocations are not modelled.  Real arithmetic in place of doubles.
-/

namespace GLU.Field

open Complex GLU.Mat GLU.Geom

/-! ## The Fourier transform -/

/-- Number of entries after direction `s` in an array of extents `n` stored in row-major order. -/
def rowStride (rank : ℕ) (n : ℕ → ℕ) (s : ℕ) : ℕ := ∏ u ∈ Finset.Ico (s + 1) rank, n u

/-- What an unnormalised complex transform of FFTW writes, from the FFTW manual (`fftw_plan_dft`): extents `n 0`, ...,
`n (rank-1)`, row-major storage, exponent of sign `sign`.  FFTW itself is not modelled. -/
noncomputable def fftw (rank : ℕ) (n : ℕ → ℕ) (sign : ℝ) (f : ℕ → ℂ) (k : ℕ) : ℂ :=
  ∑ j ∈ Finset.range (∏ s ∈ Finset.range rank, n s), f j *
    exp ((sign * (2 * Real.pi * ∑ s ∈ Finset.range rank,
      ((j / rowStride rank n s % n s : ℕ) : ℝ) * ((k / rowStride rank n s % n s : ℕ) : ℝ) / (n s : ℝ)) : ℝ) * I)

/-- `small_create_plans_DFT`, `plan_ffts.c:188-240`, with `DIR = ND`: the directions are handed over in reverse; sign -1 is
`FFTW_FORWARD`, sign 1 is `FFTW_BACKWARD`. -/
noncomputable def small_plan (L : Latt) (sign : ℝ) (f : ℕ → ℂ) : ℕ → ℂ :=
  fftw L.ND (fun mu => L.dims (L.ND - 1 - mu)) sign f

/-! ## The correlator, Qcorr.c -/

/-- `NORM`, `Qcorr.c:92`, `Qslab.c:73`, `Qmoments.c:163`. -/
noncomputable def NORM : ℝ := -0.001583143494411527678811

/-- `NORMSQ`, `Qcorr.c:93`. -/
noncomputable def NORMSQ : ℝ := NORM * NORM

/-- The numbers printed in `Qcorr.c:139-145`: charge, its square, and the sum of the squares of the densities. -/
noncomputable def printedQ (L : Latt) (q : ℕ → ℂ) : ℝ × ℝ × ℝ :=
  let s := forN (volume L) (fun i (s : ℝ × ℝ) => (s.1 + (q i).re, s.2 + (q i * q i).re)) (0, 0)
  (s.1 * NORM, s.1 * s.1 * NORMSQ, s.2 * NORMSQ)

/-- `FFTW.in` after `Qcorr.c:150-161` (with FFTW). -/
noncomputable def qcorr_fft (L : Latt) (q : ℕ → ℂ) : ℕ → ℂ :=
  let out := small_plan L (-1) q
  let mulfac : ℝ := NORMSQ / (volume L : ℝ)
  let out := fun i => out i * (star (out i) * (mulfac : ℂ))
  small_plan L 1 out

/-- `qcorr[i]` of `Qcorr.c:179-195` (without FFTW) for the separation `list[i].idx`. -/
noncomputable def qcorr_direct (L : Latt) (q : ℕ → ℂ) (idx : ℕ) : ℝ :=
  forN (volume L) (fun source sumqq =>
    sumqq + (q source * q (compute_spacing L (fun mu => (coord L L.ND idx mu : ℤ)) source L.ND)).re) 0 * NORMSQ

/-- `ct[t]` of `temporal_correlator`, `Qcorr.c:55-64`, of the array it is given. -/
noncomputable def temporal_correlator (L : Latt) (qtop : ℕ → ℂ) (t : ℕ) : ℝ :=
  forN (lcu L) (fun i sum => sum + (qtop (lcu L * t + i)).re) 0

/-- `compute_Qcorr`, `Qcorr.c:87-229`, from the charge density `q`: the correlator at the separation `idx` and the numbers of
the file `.tcorr`.  `fft` tells whether the program was built with FFTW; if not, `FFTW.in` still holds the density when the
temporal correlator is formed (line 199). -/
noncomputable def compute_Qcorr (fft : Bool) (L : Latt) (q : ℕ → ℂ) : (ℕ → ℝ) × (ℕ → ℝ) :=
  if fft then
    let inn := qcorr_fft L q
    (fun idx => (inn idx).re, temporal_correlator L inn)
  else (qcorr_direct L q, temporal_correlator L q)

/-! ## Slabs, Qslab.c -/

/-- The array `dims`, `Qslab.c:107-115`, as a lattice. -/
def slabLatt (L : Latt) (dir T1 : ℕ) : Latt := ⟨L.ND, Function.update L.dims dir T1⟩

/-- `slab_idx`, `Qslab.c:53-63` (`get_mom_2piBZ_slab`, lines 31-49, is `get_mom_2piBZ` for the extents of the slab). -/
def slab_idx (L : Latt) (dir T1 T0 i : ℕ) : ℕ :=
  gen_site L (Function.update (fun mu => (coord (slabLatt L dir T1) L.ND i mu : ℤ)) dir
    (((coord (slabLatt L dir T1) L.ND i dir + T0) % L.dims dir : ℕ) : ℤ))

/-- What one pass of the loop `Qslab.c:158-161` adds. -/
noncomputable def slabTerm (L : Latt) (q : ℕ → ℂ) (dir T1 T0 i j : ℕ) : ℝ :=
  (((q (slab_idx L dir T1 T0 i)).re : ℂ) * q (slab_idx L dir T1 T0 j)).re

/-- `sum_slab`, `Qslab.c:153-162` (without FFTW), executed by one thread. -/
noncomputable def slab_direct (L : Latt) (q : ℕ → ℂ) (dir T1 T0 : ℕ) : ℝ :=
  let subvol := volume (slabLatt L dir T1)
  forN subvol (fun i sum_slab => forN subvol (fun j sum_slab => sum_slab + slabTerm L q dir T1 T0 i j) sum_slab) 0

/-- `sum_slab`, `Qslab.c:136-150` (with FFTW). -/
noncomputable def slab_fft (L : Latt) (q : ℕ → ℂ) (dir T1 T0 : ℕ) : ℝ :=
  let S := slabLatt L dir T1
  let out := small_plan S (-1) fun i => q (slab_idx L dir T1 T0 i)
  let out := fun i => out i * star (out i)
  let inn := small_plan S 1 out
  forN (volume S) (fun i sum_slab => sum_slab + (inn i).re) 0

/-- `ct[T1-1]` of `compute_slabs`, `Qslab.c:104-177`. -/
noncomputable def compute_slabs (fft : Bool) (L : Latt) (q : ℕ → ℂ) (dir T1 : ℕ) : ℝ :=
  let tsum := forN (L.dims dir) (fun T0 tsum => tsum + if fft then slab_fft L q dir T1 T0 else slab_direct L q dir T1 T0) 0
  let tsum := if fft then tsum / (volume (slabLatt L dir T1) : ℝ) else tsum
  tsum * NORMSQ / (L.dims dir : ℝ)

/-! The parallel loop `Qslab.c:153-162` adds to the shared variable `sum_slab` without protection. -/

/-- One access to a shared variable by a thread: it is read into the register of the thread, or the register plus a number is
stored. -/
inductive Access
  | load (th : ℕ)
  | store (th : ℕ) (v : ℝ)

/-- The thread of an access. -/
def Access.thread : Access → ℕ
  | .load th => th
  | .store th _ => th

/-- Memory and registers after one access. -/
noncomputable def Access.run (s : ℝ × (ℕ → ℝ)) : Access → ℝ × (ℕ → ℝ)
  | .load th => (s.1, Function.update s.2 th s.1)
  | .store th v => (s.2 th + v, s.2)

/-- The accesses `sum_slab += v` of a thread, for the numbers `v` of a list. -/
def adds (th : ℕ) (vs : List ℝ) : List Access := vs.flatMap fun v => [.load th, .store th v]

/-- The numbers that a thread adds that is given the iterations `is` of the loop over `i`. -/
noncomputable def slabWork (L : Latt) (q : ℕ → ℂ) (dir T1 T0 : ℕ) (is : List ℕ) : List ℝ :=
  is.flatMap fun i => (List.range (volume (slabLatt L dir T1))).map (slabTerm L q dir T1 T0 i)

/-! ## Moments, Qmoments.c -/

/-- `loc_idx`, `Qmoments.c:58-73`, for the extents of lines 94-101 (the direction `dir` of extent one). -/
def loc_idx (L : Latt) (dir i slice : ℕ) : ℕ :=
  gen_site L (Function.update (fun mu => (coord (slabLatt L dir 1) L.ND i mu : ℤ)) dir (slice : ℤ))

/-- `Qt[t]`, `Qmoments.c:105-113`; `norm` is the parameter `NORM` of `Time_Moments`. -/
noncomputable def momentQt (L : Latt) (q : ℕ → ℂ) (norm : ℝ) (dir t : ℕ) : ℂ :=
  forN (volume (slabLatt L dir 1)) (fun i sum => sum + q (loc_idx L dir i t)) 0 * (norm : ℂ)

/-- `fac`, `Qmoments.c:86-88`. -/
def fac : ℕ → ℝ := fun n => [1, 1, 2, 6, 24, 120, 720, 5040, 40320, 362880, 362800, 39916800].getD n 0

/-- The loop over `t`, `Qmoments.c:124-128`, from `(sum, tpow)`; `tpow` holds values of type `int` and an overflow of the
product is undefined: `none`. -/
noncomputable def momentLoop (LT : ℕ) (Qt : ℕ → ℂ) (s : ℝ × (ℕ → ℤ)) : Option (ℝ × (ℕ → ℤ)) :=
  forN (2 * (LT / 2) - 1) (fun k o => o.bind fun s =>
    let t : ℤ := -(LT / 2 : ℕ) + 1 + k
    let posit := ((t + LT) % LT).toNat
    let sum := s.1 + (s.2 posit : ℝ) * (Qt posit).re
    let p := s.2 posit * t
    if -2 ^ 31 ≤ p ∧ p < 2 ^ 31 then some (sum, Function.update s.2 posit p) else none) (some s)

/-- `Time_Moments`, `Qmoments.c:76-155`, with `NQMOMENTS = 12`. -/
noncomputable def Time_Moments (L : Latt) (Moment : ℕ → ℝ) (q : ℕ → ℂ) (norm : ℝ) (dir : ℕ) : Option (ℕ → ℝ) :=
  let Qt := momentQt L q norm dir
  (forN 12 (fun n (o : Option ((ℕ → ℝ) × (ℕ → ℤ))) => o.bind fun s =>
    (momentLoop (L.dims dir) Qt (0, s.2)).map fun r =>
      let sum := r.1 / fac n
      (Function.update s.1 (n + 12 * dir) (if n % 4 = 0 ∨ n % 4 = 1 then sum else -sum), r.2))
    (some (Moment, fun _ => 1))).map Prod.fst

/-- `compute_Q_moments`, `Qmoments.c:158-172`. -/
noncomputable def compute_Q_moments (L : Latt) (Q : ℕ → ℝ) (q : ℕ → ℂ) : Option (ℕ → ℝ) :=
  forN L.ND (fun mu o => o.bind fun Q => Time_Moments L Q q NORM mu) (some Q)

/-- `compute_Q2_moments`, `Qmoments.c:176-229`. -/
noncomputable def compute_Q2_moments (fft : Bool) (L : Latt) (Q2 : ℕ → ℝ) (q : ℕ → ℂ) : Option (ℕ → ℝ) :=
  if fft then
    let mulfac : ℝ := NORMSQ / (volume L : ℝ)
    let out := small_plan L (-1) q
    let out := fun i => out i * star (out i)
    let inn := small_plan L 1 out
    forN L.ND (fun mu o => o.bind fun Q2 => Time_Moments L Q2 inn mulfac mu) (some Q2)
  else
    let out : ℕ → ℂ := fun i => forN (volume L) (fun source sum =>
      sum + q source * q (compute_spacing L (fun mu => (coord L L.ND i mu : ℤ)) source L.ND)) 0
    forN L.ND (fun mu o => o.bind fun Q2 => Time_Moments L Q2 out NORMSQ mu) (some Q2)

end GLU.Field
