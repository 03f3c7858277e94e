import Verif.Gfix.Model
import Verif.Smear.Givens

/-!
# Residual gauge fixing

`residual_fix`, `src/Gfix/MAG.c:168-250`: the gauge freedom that Coulomb gauge leaves, one matrix per time slice.  Without
`HERM_PROJ` and in double precision.
-/

namespace GLU.Gfix

open Complex GLU.Mat GLU.Geom GLU.Field

/-- The sum of the temporal links of the slice `t`, `MAG.c:195-201`, with the factor `one_LCU`.  The matrix `scratch` is the
uninitialised `sum`. -/
noncomputable def temporalAverage (NC : ℕ) (L : Latt) (scratch : Arr ℂ) (lat : Gauge) (t : ℕ) : Arr ℂ :=
  let sum := forN (lcu L) (fun i sum => a_plus_b NC sum (lat (i + lcu L * t, L.ND - 1))) (zero_mat NC scratch)
  mapN (NC * NC) (fun _ x => x * ((1 / (lcu L : ℝ) : ℝ) : ℂ)) sum

/-- The loop over the time slices, `MAG.c:192-218`; `none` when the projection divides by zero. -/
noncomputable def residual_gauges (NC : ℕ) (L : Latt) (scratch : Arr ℂ) (lat : Gauge) : Option (ℕ → Arr ℂ) :=
  forN (L.dims (L.ND - 1) - 1) (fun t o => o.bind fun gauge =>
    (Smear.givens_reunit NC (temporalAverage NC L scratch lat t) scratch).map fun sum =>
      Function.update gauge (t + 1) (multab_suNC NC (gauge t) sum (gauge (t + 1))))
    (some fun _ => identity NC scratch)

/-- One iteration of the parallel loop `MAG.c:220-237`. -/
noncomputable def residual_site (NC : ℕ) (L : Latt) (scratch : Arr ℂ) (gauge : ℕ → Arr ℂ) (i : ℕ) (lat : Gauge) : Gauge :=
  let t := i / lcu L
  let tup := if t = L.dims (L.ND - 1) - 1 then 0 else t + 1
  let temp := multab_dag_suNC NC (lat (i, L.ND - 1)) (gauge tup) scratch
  let lat := Function.update lat (i, L.ND - 1) (multab_suNC NC (gauge t) temp (lat (i, L.ND - 1)))
  forN (L.ND - 1) (fun mu lat =>
    let temp := multab_dag_suNC NC (lat (i, mu)) (gauge t) scratch
    Function.update lat (i, mu) (multab_suNC NC (gauge t) temp (lat (i, mu)))) lat

/-- `residual_fix`, `MAG.c:168-250`: the field and the return value.  `order` is the order in which the iterations of the
parallel loop are executed.  `table` tells whether the table of pointers could be allocated and `mats` whether all the
matrices could: if the table could not, `gauge` is still `NULL` and `GLU_FAILURE` is returned; if a matrix could not, pointers
that were never set are freed (lines 243-245): `none`. -/
noncomputable def residual_fix (NC : ℕ) (L : Latt) (scratch : Arr ℂ) (table mats : Bool) (order : List ℕ) (lat : Gauge) :
    Option (Gauge × ℤ) :=
  if table then
    if mats then
      (residual_gauges NC L scratch lat).map fun gauge =>
        (order.foldl (fun lat i => residual_site NC L scratch gauge i lat) lat, 0)
    else none
  else some (lat, -1)

/-- The case `GLU_COULOMB_RESIDUAL_FIX` of `GF_wrap`, `GF_wrap.c:197-202`, with `coulomb` for the field `GF_wrap_coulomb`
leaves: the field and the return value.  Neither return value is looked at. -/
noncomputable def wrap_coulomb_residual (NC : ℕ) (L : Latt) (scratch : Arr ℂ) (table mats : Bool) (order : List ℕ)
    (coulomb : Gauge × ℤ) : Option (Gauge × ℤ) :=
  (residual_fix NC L scratch table mats order coulomb.1).map fun r => (r.1, 0)

end GLU.Gfix
