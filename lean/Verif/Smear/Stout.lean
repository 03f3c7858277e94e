import Verif.Smear.Model
import Verif.Mat.Exp
import Verif.Mat.Proj

/-!
# Stout smearing and the Runge-Kutta steps of the Wilson flow

`src/Smear/projectors.c` and `src/Smear/wflowfuncs.c`.  Exponentiation has no result (`none`)
where the C code would divide by zero or take the arc cosine of a number outside `[-1, 1]`, so
fields of `Option` matrices are used: `none` spreads to everything computed from it.
-/

namespace GLU.Smear

open GLU.Geom GLU.Sched GLU.Mat GLU.Field Complex

/-- Scaling of the Hermitian matrix in place, `projectors.c:164-184` (the same text at
`projectors.c:97-117`): for two and three colours the lower triangle and the last diagonal entry
are filled in from the scaled entries. -/
noncomputable def scaleHerm (NC : ℕ) (α : ℝ) (a : Arr ℂ) : Arr ℂ :=
  if NC = 3 then
    arr [a 0 * α, a 1 * α, a 2 * α, conj (a 1 * α), a 4 * α, a 5 * α, conj (a 2 * α), conj (a 5 * α),
      -(a 0 * α) - a 4 * α]
  else if NC = 2 then arr [a 0 * α, a 1 * α, conj (a 1 * α), -(a 0 * α)]
  else forN (NC * NC) (fun k a => Function.update a k (a k * α)) a

/-- `project_STOUT`, `projectors.c:153-188`. -/
noncomputable def project_STOUT (NC : ℕ) (staple link : Arr ℂ) (smear_alpha al : ℝ) : Option (Arr ℂ) :=
  let a : Arr ℂ := Function.update (fun _ => 0) 0 (al : ℂ)
  let b := multab_dag NC staple link fun _ => 0
  let a := Hermitian_proj NC a b
  let a := scaleHerm NC smear_alpha a
  (exponentiate NC a b).map fun b => multab_suNC NC b link scratch

/-- `make_short_log`, `wflowfuncs.c:37-60`. -/
noncomputable def make_short_log (NC : ℕ) (short staple : Arr ℂ) : Arr ℂ :=
  if NC = 3 then arr [staple 0, staple 1, staple 2, staple 4, staple 5]
  else if NC = 2 then arr [staple 0, staple 1]
  else (forN (NC - 1) (fun i (s : ℕ × Arr ℂ) => forFrom i NC (fun j (s : ℕ × Arr ℂ) =>
    (s.1 + 1, Function.update s.2 s.1 (staple (j + i * NC)))) s) (0, short)).2

/-- `TRUE_HERM`, `GLU_definitions.h:216-233`. -/
def TRUE_HERM (NC : ℕ) : ℕ := if NC = 3 then 4 else NC * (NC + 1) / 2 - 1

/-- `set_zmatrix`, `wflowfuncs.c:63-85`, for one link. -/
noncomputable def set_zmatrix (NC : ℕ) (Z short : Arr ℂ) (multiplier : ℝ) : Arr ℂ :=
  if NC = 3 then
    arr [Z 0 + (multiplier * (short 0).re + I * multiplier * (short 3).re), Z 1 + multiplier * short 1,
      Z 2 + multiplier * short 2, Z 3 + multiplier * short 4]
  else if NC = 2 then arr [Z 0 + multiplier * (short 0).re, Z 1 + multiplier * short 1]
  else forN (TRUE_HERM NC) (fun k Z => Function.update Z k (Z k + multiplier * short k)) Z

/-- The packed matrix handed to the exponentiation, `projectors.c:197-212` and
`projectors.c:130-146`; `a` is uninitialised memory. -/
noncomputable def scaleZ (NC : ℕ) (Z : Arr ℂ) (α : ℝ) (a : Arr ℂ) : Arr ℂ :=
  if NC = 3 then arr [((Z 0).re * α : ℝ), Z 1 * α, Z 2 * α, ((Z 0).im * α : ℝ), Z 3 * α]
  else if NC = 2 then arr [((Z 0).re * α : ℝ), Z 1 * α]
  else forN (NC * (NC + 1) / 2 - 1) (fun k a => Function.update a k (Z k * α)) a

/-- `project_STOUT_wflow_short`, `projectors.c:191-216`, and `project_LOG_wflow_short`,
`projectors.c:124-150`, which differ only in names. -/
noncomputable def project_STOUT_wflow_short (NC : ℕ) (Z link : Arr ℂ) (smear_alpha : ℝ) : Option (Arr ℂ) :=
  (exponentiate_short NC (scaleZ NC Z smear_alpha scratch) scratch).map fun b =>
    multab_suNC NC b link scratch

/-! ### Fields of possibly undefined matrices -/

/-- `f` where both arguments are defined. -/
def lift2 {α β γ : Type} (f : α → β → γ) (a : Option α) (b : Option β) : Option γ :=
  a.bind fun a => b.map (f a)

/-- The operations of `all_staples` on possibly undefined matrices, `staples.c:72-78`. -/
noncomputable def opsO (NC : ℕ) : MatOps (Option (Arr ℂ)) where
  multab := lift2 (ops NC).multab
  multab_dag := lift2 (ops NC).multab_dag
  multabdag := lift2 (ops NC).multabdag
  a_plus_b := lift2 (ops NC).a_plus_b

/-- The update of `smear3D` (`dir = ND - 1`) and `smear4D` (`dir = ND`) for `SM_STOUT`,
`smear.c:113-124`, `270-279` and `291-300`. -/
noncomputable def stoutLink (NC : ℕ) (L : Latt) (alpha1 one_min_a1 : ℝ) (dir : ℕ) :
    Upd (Option (Arr ℂ)) Unit :=
  smearLink L (opsO NC) (some (zero_mat NC scratch))
    (fun s u => s.bind fun s => u.bind fun u => project_STOUT NC s u alpha1 one_min_a1) dir

/-- The update of `RK3step` and `flow_directions` for stout links, `wflowfuncs.c:103-126` and
`145-171`. -/
noncomputable def flowStout (NC : ℕ) (L : Latt) (multiplier delta_t : ℝ) :
    Upd (Option (Arr ℂ)) (Option (Arr ℂ)) :=
  flowLink L (opsO NC) (some (zero_mat NC scratch))
    (fun z s u => z.bind fun z => s.bind fun s => u.map fun u =>
      let temp := multab_dag NC s u scratch
      let short := Hermitian_proj_short NC scratch temp
      set_zmatrix NC z short multiplier)
    (fun z u => z.bind fun z => u.bind fun u => project_STOUT_wflow_short NC z u delta_t)

/-- `memset( WF.Z[i].O[mu] , 0.0 , TRUE_HERM*sizeof( GLU_complex ) )`, `wflowfuncs.c:526-532`
and `559-565`; the matrices of `Z` have `TRUE_HERM` entries (`wflowfuncs.c:343` and `355`), so
all of them are cleared. -/
noncomputable def clearZ (L : Latt) (z : Loc → Option (Arr ℂ)) : Loc → Option (Arr ℂ) :=
  forN (volume L) (fun i z => forN L.ND (fun mu z =>
    Function.update z (i, mu) (some fun _ => 0)) z) z

/-- `step_distance`, `wflowfuncs.c:508-538`: the three substeps of one integration step, by
`step` = `RK3step`.  `step_distance_memcheap`, `wflowfuncs.c:541-571`, has `step` =
`RK3step_memcheap`. -/
noncomputable def step_distance (NC : ℕ) (L : Latt)
    (step : Upd (Option (Arr ℂ)) (Option (Arr ℂ)) → St (Option (Arr ℂ)) (Option (Arr ℂ)) →
      St (Option (Arr ℂ)) (Option (Arr ℂ))) (delta_t : ℝ) (s : St (Option (Arr ℂ)) (Option (Arr ℂ))) :
    St (Option (Arr ℂ)) (Option (Arr ℂ)) :=
  let rk1 := -0.52941176470588235294 * delta_t
  let rk2 := delta_t
  let rk3 := -delta_t
  let mthreeOfour := -3.0 / 4.0
  let mseventeenOthsix := -17.0 / 36.0
  let eightOnine := 8.0 / 9.0
  let s := { s with z := clearZ L s.z }
  let s := step (flowStout NC L mseventeenOthsix rk1) s
  let s := step (flowStout NC L eightOnine rk2) s
  step (flowStout NC L mthreeOfour rk3) s

end GLU.Smear
