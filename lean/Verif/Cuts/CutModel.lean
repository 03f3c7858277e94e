import Verif.Geom.Model
import Mathlib.Analysis.SpecialFunctions.Trigonometric.Inverse

/-!
# Momentum cuts: `src/Cuts/cut_routines.c`

Real numbers stand for the floating-point numbers of the code. The alternative cylinder cut compiled with
`CYLINDER_AS` is left out (the macro is commented out in line 38, and the branch passes a `GLU_real` array to an `int`
parameter).
-/

namespace GLU.Cuts
open GLU.Geom

/-- A loop that adds `f 0`, ..., `f (n - 1)` to zero. -/
noncomputable def acc (f : ℕ → ℝ) : ℕ → ℝ
  | 0 => 0
  | n + 1 => acc f n + f n

/-- `momentum_cut_def`, `src/Headers/GLU_enum.h`. -/
inductive CutType where
  | hypercubic | psq | cylinder | cylinderConical
deriving DecidableEq

/-- The part of `struct cut_info` that is used. -/
structure Cut where
  type : CutType
  max_mom : ℕ
  cyl_width : ℝ
  angle : ℕ

/-- The variable `small` after `simorb_ratios( DIMS )`, `cut_routines.c:77-83`. -/
def smallest (dims : ℕ → ℕ) : ℕ → ℕ
  | 0 => dims 0
  | n + 1 => if n = 0 then dims 0 else if dims n < smallest dims n then dims n else smallest dims n

/-- The global `rats[ mu ]`, `cut_routines.c:86`. -/
noncomputable def ratio (L : Latt) (small mu : ℕ) : ℝ := (small : ℝ) / (L.dims mu : ℝ)

/-- `get_diagonal`, `cut_routines.c:97-115`; `subvol` is `2 ^ mu` in direction `mu`. -/
def get_diagonal (i DIMS mu : ℕ) : ℤ :=
  if mu < DIMS then
    let n : ℤ := (((i - i % 2 ^ mu) / 2 ^ mu) % 2 : ℕ)
    if n = 0 then n - 1 else n
  else 0

/-- One pass of the loop of `cylinder_DF`, `cut_routines.c:203-223`: the square root that is compared with the
width. -/
noncomputable def offAxisDF (ND DIMS : ℕ) (q : ℕ → ℝ) (x : ℕ → ℤ) : ℝ :=
  let norm : ℝ := 1 / (2 * √(DIMS : ℝ))
  let scalar_prod := acc (fun nu => q nu * x nu) ND * norm
  √(acc (fun nu => (q nu - scalar_prod * x nu) * (q nu - scalar_prod * x nu)) ND)

/-- `cylinder_DF`, `cut_routines.c:191-225`; `2 << ( ND - 1 )` is `2 ^ ND`. -/
def cylinder_DF (ND DIMS : ℕ) (q : ℕ → ℝ) (width : ℝ) : Prop :=
  ∃ i < 2 ^ ND, offAxisDF ND DIMS q (get_diagonal i DIMS) ≤ width

/-- The angle of `cylinder_CJD`, `cut_routines.c:273-287`, for the diagonal `x`. -/
noncomputable def thetaCJD (DIMS : ℕ) (q : ℕ → ℝ) (x : ℕ → ℤ) : ℝ :=
  let qnorm : ℝ := 1 / √(acc (fun mu => q mu * q mu) DIMS)
  let nnorm : ℝ := qnorm / √(acc (fun nu => (x nu : ℝ) * x nu) DIMS)
  Real.arccos (acc (fun nu => q nu * x nu * nnorm) DIMS)

/-- `cylinder_CJD`, `cut_routines.c:245-295`, with `tol` for `PREC_TOL` and `rad` for the angle in radians
(`ang( arc )`). -/
def cylinder_CJD (ND DIMS : ℕ) (q : ℕ → ℝ) (width rad tol : ℝ) : Prop :=
  acc (fun mu => q mu * q mu) DIMS < tol ∨
    ∃ i < 2 ^ ND, Real.sin (thetaCJD DIMS q (get_diagonal i DIMS)) / (1 / √(acc (fun mu => q mu * q mu) DIMS)) ≤ width ∧
      thetaCJD DIMS q (get_diagonal i DIMS) ≤ rad

/-- `gen_calc_psq`, `cut_routines.c:300-311`. -/
noncomputable def gen_calc_psq (rats : ℕ → ℝ) (k : ℕ → ℤ) (DIMS : ℕ) : ℝ :=
  acc (fun mu => (rats mu * k mu) * (rats mu * k mu)) DIMS

/-- The counter `flag` of `gen_calc_hyp`, `cut_routines.c:319-324`. -/
noncomputable def hypFlag (rats : ℕ → ℝ) (k : ℕ → ℤ) (root : ℝ) : ℕ → ℕ
  | 0 => 0
  | mu + 1 => open Classical in if |(k mu : ℝ) * rats mu| ≤ root then hypFlag rats k root mu + 1
      else hypFlag rats k root mu

/-- `compute_p`, `src/Geometry/geometry.c:149-166`, with the default `SIN_MOM`; `Latt.twiddles[ mu ]` is
`2 pi / Latt.dims[ mu ]`. -/
noncomputable def compute_p (L : Latt) (n : ℕ → ℤ) (DIMS mu : ℕ) : ℝ :=
  if mu < DIMS then 2 * Real.sin (n mu * (2 * Real.pi / (L.dims mu : ℝ)) * (1 / 2)) else 0

/-- `safe_momenta`, `cut_routines.c:333-379`. `small` and with it the ratios are global variables. -/
def safe_momenta (L : Latt) (small : ℕ) (tol : ℝ) (c : Cut) (DIMS : ℕ) (n : ℕ → ℤ) : Prop :=
  let latt_width := 2 * Real.pi * c.cyl_width / (small : ℝ)
  match c.type with
  | .hypercubic => hypFlag (ratio L small) n (√(c.max_mom : ℝ)) DIMS = DIMS
  | .psq => gen_calc_psq (ratio L small) n DIMS ≤ c.max_mom
  | .cylinder => gen_calc_psq (ratio L small) n DIMS ≤ c.max_mom ∧
      cylinder_DF L.ND DIMS (compute_p L n DIMS) latt_width
  | .cylinderConical => gen_calc_psq (ratio L small) n DIMS ≤ c.max_mom ∧
      cylinder_CJD L.ND DIMS (compute_p L n DIMS) latt_width (c.angle * 0.01745329251994330) tol

/-- `LOOP`, `cut_routines.c:497-500`. -/
def loopSize (dims : ℕ → ℕ) : ℕ → ℕ
  | 0 => 1
  | n + 1 => loopSize dims n * dims n

/-- `struct veclist`. -/
structure Vec where
  idx : ℕ
  MOM : ℕ → ℤ

/-- The indices kept by the first loop of `get_mom_veclist`, `cut_routines.c:399-409`. -/
def keptIdx (keep : (ℕ → ℤ) → Bool) (mom : ℕ → ℕ → ℤ) (LOOP : ℕ) : List ℕ :=
  (List.range LOOP).filter fun i => keep (mom i)

/-- `get_mom_veclist`, `cut_routines.c:383-454`; the test of the cut is a parameter. -/
def get_mom_veclist (L : Latt) (keep : (ℕ → ℤ) → Bool) (DIMS : ℕ) : List Vec :=
  (keptIdx keep (fun i => mom_pipi L i DIMS) (loopSize L.dims DIMS)).map fun i =>
    ⟨get_site_pipiBZ L (mom_pipi L i DIMS) DIMS, mom_pipi L i DIMS⟩

/-- `get_veclist`, `cut_routines.c:469-484`. -/
def get_veclist (L : Latt) (keep : (ℕ → ℤ) → Bool) (DIMS : ℕ) : List Vec :=
  (keptIdx keep (fun i => get_vec_from_origin L i DIMS) (loopSize L.dims DIMS)).map fun i =>
    ⟨i, get_vec_from_origin L i DIMS⟩

/-- `compute_veclist` without cache (`CONDOR_MODE`), `cut_routines.c:608-632`: no list if nothing is kept. -/
def compute_veclist (L : Latt) (keep : (ℕ → ℤ) → Bool) (DIMS : ℕ) (configspace : Bool) : Option (List Vec) :=
  let kept := if configspace then get_veclist L keep DIMS else get_mom_veclist L keep DIMS
  if kept.length = 0 then none else some kept

end GLU.Cuts
