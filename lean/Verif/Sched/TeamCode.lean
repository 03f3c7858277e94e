import Verif.Sched.TeamModel
import Mathlib.Data.Real.Basic

/-!
# The four loops of the Fourier-accelerated gauge fixing

Built without `GLU_FR_CG` and `GLU_GFIX_SD`, so with the line search. Where the source has more barriers than the model
(inside the Fourier transform, and at the loops over the arrays of the conjugate gradient) the model allows more
schedules than the source. Columns 0 to 2 are those of the line search (`LINE_NSTEPS`), 3 and 4 those of the conjugate
gradient, 5 the one of the derivative.
-/

namespace GLU.Sched.Team

/-- `CLINE`, `src/Headers/GLU_definitions.h:467-471`. -/
def CLINE (ND : ℕ) : ℕ := if 2 * ND > 8 then 2 * ND else 8

/-- What the loops depend on: the factor `GFNORM_LANDAU` or `GFNORM_COULOMB`, the accuracy, `CG_TOL`, the limit on the
iterations, what the sites contribute, and how `omp for` divides the clearing among the threads. -/
structure Setting (n : ℕ) where
  ND : ℕ
  norm : ℝ
  acc : ℝ
  tol : ℝ
  max_iters : ℕ
  contrib : (k p : ℕ) → Fin n → (c : ℕ) → List ℝ
  split : Fin n → List ℕ

/-- The sum of numbers read, `FACG.c:225-227`. -/
def total (l : List ℝ) : ℝ := l.foldl (· + ·) 0

open Classical in
/-- `( *tr > acc ) && ( loc_iters < max_iters )`, `FACG.c:232` and `:334`, `CFACG.c:379` and `:427`. -/
noncomputable def more {n : ℕ} (P : Setting n) (k : ℕ) (tr : ℝ) : Bool :=
  decide (P.acc < tr) && decide (k + 1 < P.max_iters)

/-- `steep_Landau_FASD`, `FACG.c:201-235`: the derivative, the line search and the step, then the sum of column 5. -/
noncomputable def landauSD {n : ℕ} (P : Setting n) : Loop n ℝ where
  CLINE := CLINE P.ND
  share := P.split
  contrib := P.contrib
  part _ p _ := match p with
    | 0 => some ([], [5])
    | 1 => some ([], [0, 1, 2])
    | 2 => some ([0, 1, 2], [])
    | 3 => some ([5], [])
    | _ => none
  again k seen := more P k (total (seen.drop (3 * n)) * P.norm)

open Classical in
/-- The loop of `steep_Landau_FACG`, `FACG.c:270-334`: the derivative; the sum of column 5 and the two sums of
`sum_PR3`; these are read, and if the accuracy is not below `CG_TOL` the line search is done. -/
noncomputable def landauCG {n : ℕ} (P : Setting n) : Loop n ℝ where
  CLINE := CLINE P.ND
  share := P.split
  contrib := P.contrib
  part _ p seen :=
    let search := if total (seen.take n) * P.norm > P.tol then [0, 1, 2] else []
    match p with
    | 0 => some ([], [5])
    | 1 => some ([5], [3, 4])
    | 2 => some ([3, 4], search)
    | 3 => some (search, [])
    | _ => none
  again k seen := more P k (total (seen.take n) * P.norm)

/-- `steep_step_FASD`, `CFACG.c:384-430`: the line search, the step, and `sum_DER2`. -/
noncomputable def coulombSD {n : ℕ} (P : Setting n) : Loop n ℝ where
  CLINE := CLINE P.ND
  share := P.split
  contrib := P.contrib
  part _ p _ := match p with
    | 0 => some ([], [0, 1, 2])
    | 1 => some ([0, 1, 2], [3])
    | 2 => some ([3], [])
    | _ => none
  again k seen := more P k (total (seen.drop (3 * n)) * P.norm)

open Classical in
/-- The loop of `steep_step_FACG`, `CFACG.c:328-379`. Here every thread clears the whole array, `CFACG.c:332-334`. -/
noncomputable def coulombCG {n : ℕ} (P : Setting n) : Loop n ℝ where
  CLINE := CLINE P.ND
  share _ := List.range (3 + CLINE P.ND * n)
  contrib := P.contrib
  part _ p seen :=
    let search := if total (seen.take n) * P.norm > P.tol then [0, 1, 2] else []
    match p with
    | 0 => some ([], [3, 4])
    | 1 => some ([3, 4], [])
    | 2 => some ([], search)
    | 3 => some (search, [])
    | _ => none
  again k seen := more P k (total (seen.take n) * P.norm)

end GLU.Sched.Team
