import Verif.Mat.Invert
import Mathlib.Analysis.SpecialFunctions.Pow.Complex

/-!
# The n-APE projection

`denman_rootZ` and `nape_reunit` of `src/Matrix_Ops/taylor_logs.c`. The header
`GLU_definitions.h:480-486` selects the Givens projection for two and three colours by
`#if (defined NC==2) || (defined NC==3)`; as `defined NC` is one, the condition is false for every number of
colours, and unless the library is configured with `--enable-GIVENS_APE` this projection is the one in use.

Arithmetic is that of `ℂ`. `none` is a result that is not made of finite numbers (a singular matrix has been
inverted, or zero raised to a negative power).
-/

namespace GLU.Mat

open Complex

/-- The `NC * NC` numbers written by `inverse`, `invert.c:215-255`, when all are finite; its return value is not looked
at in `taylor_logs.c:118`. For a singular `M` nothing (or nothing finite) is written; this is `none`. The stale content
of `INVM` that the C code would then use matters only for `denman_rootY`, which has its own model. -/
noncomputable def inverseNumbers (NC : ℕ) (M : Arr ℂ) : Option (Arr ℂ) :=
  (inverse NC M).bind fun v => if ∀ n < NC * NC, (v n).isSome then some fun n => (v n).getD 0 else none

/-- `M[ i*(NC+1) ] += 1.0` for all `i`, `taylor_logs.c:67-70` and `:121-124`. -/
noncomputable def addOne (NC : ℕ) (M : Arr ℂ) : Arr ℂ :=
  forN NC (fun i M => Function.update M (i * (NC + 1)) (M (i * (NC + 1)) + 1)) M

/-- `fabs( tol - NC )` for the sum over the diagonal, `taylor_logs.c:80-85` and `:134-140`. -/
noncomputable def diagTol (NC : ℕ) (M : Arr ℂ) : ℝ :=
  |forN NC (fun i (tol : ℝ) =>
    let c := M (i * (NC + 1))
    tol + (c.re * c.re + c.im * c.im)) 0 - NC|

/-- One pass of the loop of `denman_rootZ`, `taylor_logs.c:117-140`: `Z`, `M` and `tol`. -/
noncomputable def denmanZ_step (NC : ℕ) (Z M : Arr ℂ) : Option (Arr ℂ × Arr ℂ × ℝ) :=
  (inverseNumbers NC M).map fun INVM =>
    let INVM := addOne NC INVM
    let M := addOne NC M
    let Z := multab_atomic_left NC Z INVM
    let Z : Arr ℂ := fun i => Z i * (1 / 2)
    let M : Arr ℂ := fun i => 1 / 4 * (M i + INVM i)
    (Z, M, diagTol NC M)

/-- The loop `taylor_logs.c:115-150` with `left` passes allowed, `iters = 25 - left`; `tol` is above the
limit on entry. The result is the return value (`true` for `GLU_SUCCESS`) and the matrix; pass number `iters == 24`
returns a failure whatever its `tol`. -/
noncomputable def denmanLoop (NC : ℕ) (step : Arr ℂ → Arr ℂ → Option (Arr ℂ × Arr ℂ × ℝ)) :
    (left : ℕ) → Arr ℂ → Arr ℂ → Option (Bool × Arr ℂ)
  | 0, Z, _ => some (true, Z)
  | left + 1, Z, M =>
    (step Z M).bind fun r =>
      if left = 0 then some (false, r.1)
      else if r.2.2 > PREC_TOL NC then denmanLoop NC step left r.1 r.2.1
      else some (true, r.1)

/-- `denman_rootZ`, `taylor_logs.c:100-153`. -/
noncomputable def denman_rootZ (NC : ℕ) (Z : Arr ℂ) : Option (Bool × Arr ℂ) :=
  let M := Z
  let Z : Arr ℂ := fun i => if i % (NC + 1) ≠ 0 then 0 else 1
  denmanLoop NC (denmanZ_step NC) 25 Z M

/-- `cpow( d , -1./(double)NC )`, `taylor_logs.c:480-481`; infinite for `d = 0`. -/
noncomputable def rootFactor (NC : ℕ) (d : ℂ) : Option ℂ :=
  if d = 0 then none else some (d ^ (-1 / (NC : ℂ)))

/-- `nape_reunit`, `taylor_logs.c:472-495`: the return value (`true` for `GLU_SUCCESS`) and the matrix. -/
noncomputable def nape_reunit (NC : ℕ) (U : Arr ℂ) : Option (Bool × Arr ℂ) :=
  let Z := multabdag NC U U (fun _ => 0)
  (rootFactor NC (det NC Z)).bind fun dtvvd =>
  (rootFactor NC (det NC U)).bind fun dtv =>
  let Z : Arr ℂ := fun i => Z i * dtvvd
  let U : Arr ℂ := fun i => U i * dtv
  (denman_rootZ NC Z).map fun r =>
    if r.1 then (true, multab_atomic_right NC U r.2) else (false, U)

end GLU.Mat
