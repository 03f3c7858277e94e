import Verif.Cuts.CutModel
import Verif.Field.Topo

/-!
# Model: correlators of temporal lines

`src/Field/POLY.c:113-419`.  Smearing (`POLY.c:316`) is done before and is not part of the model; allocations succeed; the
layout of the file is that of `static_file` in `Cuts/Output.lean`.  A build without FFTW is `fft = false`.
-/

namespace GLU.Cuts

open Complex GLU.Mat GLU.Geom GLU.Field

/-- The lattice of one time slice, as the arguments `Latt.dims` and `ND-1` of `small_create_plans_DFT`, `POLY.c:216`. -/
def sliceLatt (L : Latt) : Latt := ⟨L.ND - 1, L.dims⟩

/-- `FFTW.in` at the end of `compute_trtr`, `POLY.c:126-139`, for the time slice `t`. -/
noncomputable def compute_trtr (NC : ℕ) (L : Latt) (poly : ℕ → Arr ℂ) (t : ℕ) : ℕ → ℂ :=
  let out := small_plan (sliceLatt L) (-1) fun i => Mat.trace NC (poly (i + lcu L * t))
  small_plan (sliceLatt L) 1 fun i => out i * conj (out i)

/-- `FFTW.in` at the end of `compute_tr`, `POLY.c:160-185`, for the time slice `t`. -/
noncomputable def compute_tr (NC : ℕ) (L : Latt) (poly : ℕ → Arr ℂ) (t : ℕ) : ℕ → ℂ :=
  let slice_poly : ℕ → Arr ℂ := fun i => equiv NC scratch (poly (i + lcu L * t))
  let slice_poly : ℕ → Arr ℂ := fun i j => small_plan (sliceLatt L) (-1) (fun i => slice_poly i j) i
  small_plan (sliceLatt L) 1 fun i => trace_ab_dag NC (slice_poly i) (slice_poly i)

/-- `( result[i] , trtr[i] )` of `static_quark_correlator` with FFTW, `POLY.c:195-247`, for `list[i].idx = idx`; the arrays
are zero before (`POLY.c:378`). -/
noncomputable def static_quark_correlator_fft (NC : ℕ) (L : Latt) (poly : ℕ → Arr ℂ) (idx : ℕ) : ℂ × ℂ :=
  let s := forN (L.dims (L.ND - 1)) (fun t (s : ℂ × ℂ) =>
    (s.1 + compute_tr NC L poly t idx, s.2 + compute_trtr NC L poly t idx)) (0, 0)
  let NORM : ℝ := 1 / ((lcu L : ℝ) * L.dims (L.ND - 1))
  (s.1 * NORM, s.2 * NORM)

/-- `( result[i] , trtr[i] )` of `static_quark_correlator` without FFTW, `POLY.c:253-305`. -/
noncomputable def static_quark_correlator_direct (NC : ℕ) (L : Latt) (poly : ℕ → Arr ℂ) (idx : ℕ) : ℂ × ℂ :=
  let separation := fun mu => (coord L (L.ND - 1) idx mu : ℤ)
  let s := forN (lcu L) (fun k (s : ℂ × ℂ) =>
    let translate := compute_spacing L separation k (L.ND - 1)
    forN (L.dims (L.ND - 1)) (fun t (s : ℂ × ℂ) =>
      let source := k + lcu L * t
      let sink := translate + lcu L * t
      (s.1 + trace_ab_dag NC (poly source) (poly sink),
        s.2 + Mat.trace NC (poly source) * Mat.trace NC (poly sink))) s) (0, 0)
  let NORM : ℝ := 1 / (L.dims (L.ND - 1) : ℝ)
  (s.1 * NORM, s.2 * NORM)

/-- `static_quark_correlator`, `POLY.c:195-305`. -/
noncomputable def static_quark_correlator (fft : Bool) (NC : ℕ) (L : Latt) (poly : ℕ → Arr ℂ) (idx : ℕ) : ℂ × ℂ :=
  if fft then static_quark_correlator_fft NC L poly idx else static_quark_correlator_direct NC L poly idx

/-- The multiplication of the next link into the lines, `POLY.c:384-386`. -/
noncomputable def extendLines (NC : ℕ) (L : Latt) (lat : Gauge) (t : ℕ) (poly : ℕ → Arr ℂ) : ℕ → Arr ℂ := fun i =>
  if i < volume L then multab_atomic_right NC (poly i) (lat ((i + t * lcu L) % volume L, L.ND - 1)) else poly i

/-- The loop over the lengths, `POLY.c:371-400`: `n` passes from the length `t` on.  The rows handed to
`write_complex_g2g3_to_list`. -/
noncomputable def staticLoop (fft : Bool) (NC : ℕ) (L : Latt) (lat : Gauge) (list : List Vec) :
    (n t : ℕ) → (ℕ → Arr ℂ) → List (List (ℂ × ℂ))
  | 0, _, _ => []
  | n + 1, t, poly =>
    let poly := extendLines NC L lat t poly
    (list.map fun v => static_quark_correlator fft NC L poly v.idx) :: staticLoop fft NC L lat list n (t + 1) poly

/-- `Coul_staticpot`, `POLY.c:309-419`: the list of displacements and the rows; `none` is the reported failure of line
322. -/
noncomputable def Coul_staticpot (fft : Bool) (NC : ℕ) (L : Latt) (lat : Gauge) (keep : (ℕ → ℤ) → Bool) (max_t : ℕ) :
    Option (List Vec × List (List (ℂ × ℂ))) :=
  if max_t < 1 ∨ volume L < 1 then none else
  let list := get_veclist L keep (L.ND - 1)
  some (list, staticLoop fft NC L lat list (max_t - 1) 1 fun _ => Mat.identity NC scratch)

end GLU.Cuts
