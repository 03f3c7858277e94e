import Verif.Mat.UnitaryProps
import Verif.Cuts.Gluon

/-!
# Checks of the links and of the gauge condition

`check_links` of `Wrappers/OBS_wrap.c` and `check_landau_condition` of `Cuts/config_gluons.c`.  What is modelled is the number that
each of them prints; real numbers stand for the floating-point numbers of the code.
-/

namespace GLU.Cuts

open Complex GLU.Mat GLU.Geom GLU.Field

/-- `NBADLINKS` at the end of `check_links`, OBS_wrap.c:44-72.  `temp` is what the stack of `is_unitary` holds before the call at
each link.  The sites are taken in order; the reduction of the threads adds the same numbers. -/
noncomputable def check_links (NC : ℕ) (L : Latt) (lat : Gauge) (temp : ℕ × ℕ → Arr ℂ) : ℕ :=
  forN (volume L) (fun i n => forN L.ND (fun mu n =>
    if is_unitary NC (lat (i, mu)) (temp (i, mu)) = false then n + 1 else n) n) 0

/-- `dA` at a site, config_gluons.c:76-85, from the fields `A`. -/
noncomputable def siteDiv (NC : ℕ) (L : Latt) (A : Gauge) (i : ℕ) : Arr ℂ :=
  forN L.ND (fun mu dA => forN (NC * NC) (fun elem dA =>
    Function.update dA elem (dA elem + (A (i, mu) elem - A (back L i mu, mu) elem))) dA) fun _ => 0

/-- The number printed by `check_landau_condition`, config_gluons.c:68-92. -/
noncomputable def check_landau_condition (NC : ℕ) (L : Latt) (A : Gauge) : ℝ :=
  forN (volume L) (fun i sum => sum + trace_ab_herm NC (siteDiv NC L A i) (siteDiv NC L A i)) 0 / (NC * volume L)

end GLU.Cuts
