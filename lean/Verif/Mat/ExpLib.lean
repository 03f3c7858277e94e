import Verif.Mat.Lie
import Verif.Mat.BruteLog

/-!
# The exponential for more than three colours in a build with GSL or LAPACKE

Model of `exponentiate` in the branch `expMat.c:289-300` and of `calculate_effs_VDM_herm`, `effs.c:29-40`. The
eigenvalues come from `gsl_eigen_herm` (`evalues.c:282-303`), which does not order them, or from `LAPACKE_zheev`
(`evalues.c:275-281`), which does; here they are an argument.
-/

namespace GLU.Mat

open Complex

/-- `calculate_effs_VDM_herm`, `effs.c:29-40`. `none` is a division by zero. -/
noncomputable def calculate_effs_VDM_herm (NC : ℕ) (z : Arr ℝ) : Option (Arr ℂ) :=
  solvandermonde NC (fun i => (Real.cos (z i) : ℂ) + I * (Real.sin (z i) : ℂ)) z

/-- The loop `expMat.c:297-300`; the pass number `m` has `i = NC - 1 - m`. -/
noncomputable def expand_f (NC : ℕ) (Q f U : Arr ℂ) : Arr ℂ :=
  forN (NC - 1) (fun m U => addDiag NC (f (NC - 1 - m - 1)) (multab_atomic_left NC U Q)) U

/-- `exponentiate`, `expMat.c:289-300`, with the eigenvalues `z`; `g` is what `U` held before. -/
noncomputable def exponentiateLib (NC : ℕ) (Q : Arr ℂ) (z : Arr ℝ) (g : Arr ℂ) : Option (Arr ℂ) :=
  (calculate_effs_VDM_herm NC z).map fun f => expand_f NC Q f (diag NC g (f (NC - 1)))

end GLU.Mat
