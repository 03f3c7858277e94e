import Verif.Cuts.CutModel
import Verif.Field.Topo

/-!
# Gluon propagators: `src/Cuts/cuts.c`, `src/Cuts/pspace_landau.c`, `src/Cuts/glueprop.c`

Complex and real numbers stand for the floating-point numbers of the code.  A build with FFTW is modelled; without
FFTW `cuts_struct` returns `GLU_FAILURE`.  `sign` is 1 for the default (backward) transform and -1 when compiled with
`CUT_FORWARD`.  What is only printed (the gauge fixing error of `correct_pspace_landau`) is left out, and so are
failures of `malloc` and `fopen`.
-/

namespace GLU.Cuts

open Complex GLU.Mat GLU.Geom GLU.Field

/-- `Latt.twiddles[ mu ]`, `src/Geometry/init.c`: `2 pi / Latt.dims[ mu ]`. -/
noncomputable def twiddle (L : Latt) (mu : ℕ) : ℝ := 2 * Real.pi / (L.dims mu : ℝ)

/-- `mom_gauge`, `cuts.c:36-98`.  `log` is the matrix that the chosen definition of the gauge field writes for a link;
each of its elements is transformed over the whole lattice. -/
noncomputable def mom_gauge (NC : ℕ) (L : Latt) (sign : ℝ) (log : Arr ℂ → Arr ℂ) (A : Gauge) : Gauge :=
  fun l j => if l.1 < volume L ∧ l.2 < L.ND ∧ j < NC * NC then
      small_plan L sign (fun x => log (A (x, l.2)) j) l.1
    else A l j

/-- `exp_cache`, `pspace_landau.c:49-67`. -/
noncomputable def exp_cache (L : Latt) (sign : ℝ) (n : ℕ → ℤ) (mu : ℕ) : ℂ :=
  let cache : ℝ := 0.5 * n mu * twiddle L mu
  let p_mu : ℝ := 2 * Real.sin cache
  (Real.cos cache : ℂ) + sign * I * 0.5 * p_mu

/-- One pass of the loop of `correct_pspace_landau`, `pspace_landau.c:40-77`. -/
noncomputable def landauEntry (NC : ℕ) (L : Latt) (sign : ℝ) (DIMS : ℕ) (A : Gauge) (v : Vec) : Gauge :=
  fun l j => if l.1 = v.idx ∧ l.2 < DIMS ∧ j < NC * NC then A l j * exp_cache L sign v.MOM l.2 else A l j

/-- `correct_pspace_landau`, `pspace_landau.c:29-86`. -/
noncomputable def correct_pspace_landau (NC : ℕ) (L : Latt) (sign : ℝ) (list : List Vec) (DIMS : ℕ) (A : Gauge) :
    Gauge :=
  list.foldl (landauEntry NC L sign DIMS) A

/-- The array `mom` written by `psq_calc`, `glueprop.c:35-46`; `sinMom` when compiled with `SIN_MOM` (the
default). -/
noncomputable def psq_mom (sinMom : Bool) (L : Latt) (posit mu : ℕ) : ℝ :=
  let k := TwoPI_mpipi_momconv L posit L.ND
  if sinMom then 2 * Real.sin (k mu * twiddle L mu * 0.5) else k mu * twiddle L mu

/-- The number returned by `psq_calc`, `glueprop.c:31-50`, with `tol` for `PREC_TOL`. -/
noncomputable def psq_calc (tol : ℝ) (sinMom : Bool) (L : Latt) (posit : ℕ) : ℝ :=
  let tspsq := acc (fun mu => psq_mom sinMom L posit mu * psq_mom sinMom L posit mu) L.ND
  open Classical in if tspsq < tol then 1 else tspsq

/-- `project_trans_long`, `glueprop.c:66-89`: the pair (transverse, longitudinal). -/
noncomputable def project_trans_long (NC : ℕ) (tol : ℝ) (sinMom : Bool) (L : Latt) (A : Gauge) (posit : ℕ) : ℝ × ℝ :=
  let spsq := 1 / psq_calc tol sinMom L posit
  let mom := psq_mom sinMom L posit
  forN L.ND (fun mu (s : ℝ × ℝ) => forN L.ND (fun nu (s : ℝ × ℝ) =>
      let tr := (trace_ab_dag NC (A (posit, mu)) (A (posit, nu))).re
      let common := mom mu * mom nu * spsq * tr
      (s.1 + (if mu ≠ nu then -common else tr - common), s.2 + common)) s) (0, 0)

/-- `compute_gluon_prop`, `glueprop.c:92-151`: the arrays (transverse, longitudinal) that are written out.  `junk` is
what `malloc` returns.  `none` is the read of `list[ 0 ]` of an empty list, which is undefined. -/
noncomputable def compute_gluon_prop (NC : ℕ) (tol : ℝ) (sinMom : Bool) (L : Latt) (A : Gauge) (list : List Vec)
    (junk : ℕ → ℝ × ℝ) : Option (ℕ → ℝ × ℝ) :=
  let num := list.length
  let g2_norm : ℝ := 2 / ((NC * NC - 1) * (L.ND - 1) * volume L)
  let g0_norm : ℝ := 2 / ((NC * NC - 1) * L.ND * volume L)
  let long_norm : ℝ := 2 / ((NC * NC - 1) * volume L)
  let zero_pos := num / 2
  match list[zero_pos]? with
  | none => none
  | some z =>
    let proj := project_trans_long NC tol sinMom L A
    let p1 : ℕ → ℝ × ℝ := fun i => match list[i]? with
      | some v => if i < zero_pos then ((proj v.idx).1 * g2_norm, (proj v.idx).2 * long_norm) else junk i
      | none => junk i
    let p2 := Function.update p1 zero_pos ((proj z.idx).1 * g0_norm, (proj z.idx).2 * long_norm)
    some fun i => if zero_pos + 1 ≤ i ∧ i < num then p2 (num - i - 1) else p2 i

/-- The case `GLUON_PROPS` of `cuts_struct`, `cuts.c:112-184`.  An empty list is the null pointer of
`compute_veclist`, which `compute_gluon_prop` reads. -/
noncomputable def gluon_props (NC : ℕ) (tol : ℝ) (sinMom : Bool) (L : Latt) (sign : ℝ) (log : Arr ℂ → Arr ℂ)
    (keep : (ℕ → ℤ) → Bool) (junk : ℕ → ℝ × ℝ) (A : Gauge) : Option (ℕ → ℝ × ℝ) :=
  match compute_veclist L keep L.ND false with
  | none => none
  | some list => compute_gluon_prop NC tol sinMom L
      (correct_pspace_landau NC L sign list L.ND (mom_gauge NC L sign log A)) list junk

end GLU.Cuts
