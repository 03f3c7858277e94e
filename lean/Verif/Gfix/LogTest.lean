import Verif.Gfix.Model
import Verif.Mat.Log

/-!
# The convergence test with the logarithm

Model of `log_deriv`, `src/Gfix/log_derivs.c:27-50`, and `theta_test_log`, `src/Gfix/gftests.c:252-290`, which are used
for two and three colours (`OBS_wrap.c:101-104`, `116-120`).
-/

namespace GLU.Gfix

open Complex GLU.Mat GLU.Geom GLU.Field

/-- `exact_log_slow_short`, `exactQ.c:240-311`, for two and three colours. `none` is a division by zero; other numbers
of colours are not part of this definition. -/
noncomputable def logShort (NC : ℕ) (Q U : Arr ℂ) : Option (Arr ℂ) :=
  if NC = 3 then exact_log_slow_short3 Q U else if NC = 2 then exact_log_slow_short2 Q U else none

/-- One pass of the loop `log_derivs.c:40-48`: the packed sum and the functional. -/
noncomputable def log_deriv_step (NC : ℕ) (L : Latt) (scratch : Arr ℂ) (lat : Gauge) (i mu : ℕ) (s : Arr ℂ × ℝ) :
    Option (Arr ℂ × ℝ) :=
  (logShort NC scratch (lat (i, mu))).bind fun A =>
  (logShort NC scratch (lat (back L i mu, mu))).bind fun shiftA =>
  some (a_plus_Sxbminc_short NC s.1 1 shiftA A, s.2 + trace_ab_herm_short NC A A)

/-- `log_deriv`, `log_derivs.c:27-50`, with `sum` cleared by the caller: the return value and the functional. `scratch`
is what the local arrays held. -/
noncomputable def log_deriv (NC : ℕ) (L : Latt) (scratch : Arr ℂ) (lat : Gauge) (i MAX_DIR : ℕ) : Option (ℝ × ℝ) :=
  (forN MAX_DIR (fun mu s => s.bind (log_deriv_step NC L scratch lat i mu)) (some (fun _ => 0, 0))).map
    fun s => (trace_deriv NC s.1, s.2)

/-- `theta_test_log`, `gftests.c:252-290`: return value; the maximum is in `Verif.Gfix.Tests`. -/
noncomputable def theta_test_log (NC : ℕ) (L : Latt) (scratch : Arr ℂ) (lat : Gauge) (MAX_DIR : ℕ) : Option ℝ :=
  (forN (volume L) (fun i s => s.bind fun tr => (log_deriv NC L scratch lat i MAX_DIR).map fun r => tr + r.1)
    (some 0)).bind fun tr => fdiv (2 * tr) ((NC * volume L : ℕ) : ℝ)

end GLU.Gfix
