import Verif.Gfix.CoulombDefined

/-!
# Coulomb gauge fixing by steepest descent

The method used when the library is configured with `GLU_GFIX_SD`: `steep_step_SD` and `steep_step_FASD`,
`src/Gfix/CFACG.c:261-283,384-430`, called by `steep_fix` and `Coulomb_FA` as the conjugate gradients are
(`src/Gfix/Coulomb.c:77-82`).  The sums are over the real numbers and on one thread.
-/

namespace GLU.Gfix

open Complex Matrix Finset GLU.Mat GLU.Geom GLU.Field GLU.Draught

/-- `steep_step_SD`, `CFACG.c:261-283`, with `GLU_GFIX_SD`: the planes left in `FFTW -> in` and the matrices.  `P.accel` is
`FOURIER_ACCELERATE2`, lines 70-89. -/
noncomputable def steep_step_SD (P : FaParams) (lat : Gauge) (t : ℕ) (gauge : SGauge) : Option (Planes × SGauge) :=
  let inp := P.accel (steep_deriv_CG P.NC P.L lat gauge t)
  (exponentiate_gauge_CG P.NC P.L P.scratch gauge inp P.gf_alpha).map fun g => (inp, g)

/-- The loop of `steep_step_FASD`, `CFACG.c:398-427`: the matrices, `*tr` and `loc_iters`; `n` is `max_iters - 1`, for the
body is executed once whatever `max_iters`. -/
noncomputable def sdLoop (P : FaParams) (lat : Gauge) (t : ℕ) (acc : ℝ) : ℕ → SGauge → Option (SGauge × ℝ × ℕ)
  | 0, g => (steep_step_SD P lat t g).map fun r => (r.2, sum_DER2 P.NC P.L r.1 * GFNORM_COULOMB P, 1)
  | n + 1, g => (steep_step_SD P lat t g).bind fun r =>
    let tr := sum_DER2 P.NC P.L r.1 * GFNORM_COULOMB P
    open Classical in
    if acc < tr then (sdLoop P lat t acc n r.2).map fun q => (q.1, q.2.1, q.2.2 + 1) else some (r.2, tr, 1)

/-- `steep_step_FASD`, `CFACG.c:384-430`: the matrices, `*tr` and the return value. -/
noncomputable def steep_step_FASD (P : FaParams) (lat : Gauge) (t : ℕ) (acc : ℝ) (max_iters : ℕ) (gauge : SGauge) :
    Option (SGauge × ℝ × ℕ) :=
  sdLoop P lat t acc (max_iters - 1) gauge

/-- `steep_fix`, `CFACG.c:459-529`, called for one slice by `Coulomb_FA` with `f = steep_step_FASD`, line 553. -/
noncomputable def fixSliceSD (P : FaParams) (rand : ℕ → ℕ → SGauge) (acc : ℝ) (max_iters passes : ℕ) (lat : Gauge)
    (t : ℕ) : FixOut :=
  steep_fix P.NC P.L P.scratch (steep_step_FASD P lat t acc max_iters) (rand t) acc max_iters passes 0 0 false
    (idSlice P.NC)

/-- `Coulomb`, `Coulomb.c:33-106`, with `GLU_GFIX_SD`, and `Coulomb_FA`, `CFACG.c:531-636`, with `FACG` false.  The
draughtboard is set up (`CGalloc.c:38-41`) though nothing uses it; as in `Coulomb_FA` a failure of that or of an allocation
frees what nothing has initialised. -/
noncomputable def CoulombSD (P : FaParams) (alloc : Bool) (rand : ℕ → ℕ → SGauge) (acc : ℝ) (max_iters passes : ℕ)
    (lat : Gauge) : CoulombOut :=
  match init_cb P.L (lcu P.L) (P.L.ND - 1) with
  | .ok _ _ _ =>
    if alloc = false then .undef
    else match coulombRegion P.NC P.L (fixSliceSD P rand acc max_iters passes) lat with
      | .done lat iters =>
        match latt_reunitU P.NC P.L P.scratch lat with
        | some lat => .done lat iters
        | none => .undef
      | r => r
  | _ => .undef

end GLU.Gfix
