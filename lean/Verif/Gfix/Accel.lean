import Verif.Gfix.FA
import Verif.U1.Model

/-!
# Fourier acceleration

Models of `gen_p_sq` (`src/Geometry/geometry.c`), of the factors `FFTW.psq` of `src/Gfix/Landau.c` and
`src/Gfix/Coulomb.c`, of `FOURIER_ACCELERATE3` (`src/Gfix/FACG.c`) and `FOURIER_ACCELERATE2` (`src/Gfix/CFACG.c`), all with
FFTW.  Real arithmetic in place of doubles; the transforms are those of the FFTW manual (`fftw`).
-/

namespace GLU.Gfix

open Complex GLU.Mat GLU.Geom GLU.Field

/-- `kcos` after the loop of `gen_p_sq`, `geometry.c:174-180`. -/
noncomputable def kcosLoop (L : Latt) (i DIMS : ℕ) : ℝ :=
  forN DIMS (fun mu kcos => kcos + Real.cos ((coord L DIMS i mu : ℝ) * U1.twiddle L mu)) 0

open Classical in
/-- `gen_p_sq`, `geometry.c:169-186`. -/
noncomputable def gen_p_sq (L : Latt) (i DIMS : ℕ) : ℝ :=
  if kcosLoop L i DIMS = (DIMS : ℝ) then 1 else 2 * ((DIMS : ℝ) - kcosLoop L i DIMS)

/-- `FFTW.psq[i]`, `Landau.c:279-284`, with `MAX_LANDAU` from `Headers/GLU_definitions.h:414`. -/
noncomputable def psqLandau (L : Latt) (i : ℕ) : ℝ := 4 * (L.ND : ℝ) / (volume L : ℝ) / gen_p_sq L i L.ND

/-- `FFTW.psq[i]`, `Coulomb.c:56-59`, with `MAX_COULOMB` from `Headers/GLU_definitions.h:420`. -/
noncomputable def psqCoulomb (L : Latt) (i : ℕ) : ℝ := 4 * ((L.ND : ℝ) - 1) / (lcu L : ℝ) / gen_p_sq L i (L.ND - 1)

/-- The two plans of `create_plans_DFT`, `plan_ffts.c:102-168`, for one plane: `DIR` directions, handed over in reverse. -/
noncomputable def plan (L : Latt) (DIR : ℕ) (sign : ℝ) (f : ℕ → ℂ) : ℕ → ℂ :=
  fftw DIR (fun mu => L.dims (DIR - 1 - mu)) sign f

/-- `FOURIER_ACCELERATE3`, `FACG.c:76-95`: `FFTW -> in` afterwards.  The planes are shared between the threads. -/
noncomputable def FOURIER_ACCELERATE3 (NC : ℕ) (L : Latt) (inp : Planes) : Planes := fun mu i =>
  if mu < TRUE_HERM NC ∧ i < volume L then
    plan L L.ND 1 (fun i => plan L L.ND (-1) (inp mu) i * (psqLandau L i : ℂ)) i
  else inp mu i

/-- `FOURIER_ACCELERATE2`, `CFACG.c:69-89`: `FFTW -> in` afterwards. -/
noncomputable def FOURIER_ACCELERATE2 (NC : ℕ) (L : Latt) (inp : Planes) : Planes := fun mu i =>
  if mu < TRUE_HERM NC ∧ i < lcu L then
    plan L (L.ND - 1) 1 (fun i => plan L (L.ND - 1) (-1) (inp mu) i * (psqCoulomb L i : ℂ)) i
  else inp mu i

end GLU.Gfix
