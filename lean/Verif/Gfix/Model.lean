import Verif.Field.Model
import Verif.Mat.Gram
import Verif.Mat.Proj
import Verif.Mat.UNops
import Verif.Mat.PackProps
import Verif.Update.Model
import Verif.Draught.Model

/-!
# Over-relaxed gauge fixing

`src/Gfix/Or.c`, with the divergence of `src/Gfix/lin_derivs.c` and the tests of `src/Gfix/gftests.c` it uses.
Numbers are real and complex numbers; a division by zero is the outcome `none`, except in the stopping quantity, where
the code compares the result with the accuracy and the comparison is modelled.
-/

namespace GLU.Gfix

open Complex GLU.Mat GLU.Geom GLU.Field GLU.Update GLU.Draught

/-! ## Divergence and its square -/

/-- `a_plus_Sxbminc_short`, `U_Nops.c:114-136`.  The unrolled branches write out the same loop. -/
noncomputable def a_plus_Sxbminc_short (NC : ℕ) (a : Arr ℂ) (S : ℝ) (B C : Arr ℂ) : Arr ℂ :=
  mapN (HERMSIZE NC) (fun mu x => x + S * (B mu - C mu)) a

/-- `trace_deriv`, `lin_derivs.c:29-52`. -/
noncomputable def trace_deriv (NC : ℕ) (sum : Arr ℂ) : ℝ :=
  if NC = 3 then
    4 * ((sum 0).re * (sum 0).re + (sum 3).re * (sum 3).re + (sum 0).re * (sum 3).re + (sum 1).re * (sum 1).re +
      (sum 1).im * (sum 1).im + (sum 2).re * (sum 2).re + (sum 2).im * (sum 2).im + (sum 4).re * (sum 4).re +
      (sum 4).im * (sum 4).im)
  else if NC = 2 then
    4 * ((sum 0).re * (sum 0).re + (sum 1).re * (sum 1).re + (sum 1).im * (sum 1).im)
  else 2 * trace_ab_herm_short NC sum sum

/-- The loop of `latt_deriv_AntiHermitian_proj`, `lin_derivs.c:61-68`: the accumulated packed matrix.  `scratch` is the
content of the local arrays `A` and `shiftA` before they are written. -/
noncomputable def derivSum (NC : ℕ) (L : Latt) (scratch : Arr ℂ) (sum : Arr ℂ) (lat : Gauge) (i MAX_DIR : ℕ) : Arr ℂ :=
  forN MAX_DIR (fun mu sum =>
    a_plus_Sxbminc_short NC sum 1 (Hermitian_proj_short NC scratch (lat (back L i mu, mu)))
      (Hermitian_proj_short NC scratch (lat (i, mu)))) sum

/-- `latt_deriv_AntiHermitian_proj`, `lin_derivs.c:55-70`: return value. -/
noncomputable def latt_deriv_AntiHermitian_proj (NC : ℕ) (L : Latt) (scratch : Arr ℂ) (sum : Arr ℂ) (lat : Gauge)
    (i MAX_DIR : ℕ) : ℝ :=
  trace_deriv NC (derivSum NC L scratch sum lat i MAX_DIR)

/-- `fast_deriv_AntiHermitian_proj`, `lin_derivs.c:74-193`, with the derivative `deriv_lin`: the packed sum and the
return value.  The constant `VAL`, 0.4444444444444444, is read as 4/9. -/
noncomputable def fast_deriv_AntiHermitian_proj (NC : ℕ) (L : Latt) (scratch : Arr ℂ) (lat : Gauge) (i : ℕ) :
    Arr ℂ × ℝ :=
  if NC = 3 then
    let q := fun mu => lat (i, mu)
    let s := fun mu => lat (back L i mu, mu)
    let REsum0 := forN L.ND (fun mu r => r + (2 * (s mu 0).im - (s mu 4).im - (s mu 8).im) +
      (-2 * (q mu 0).im + (q mu 4).im + (q mu 8).im)) 0
    let REsum1 := forN L.ND (fun mu r => r + ((s mu 1).re - (s mu 3).re - (q mu 1).re + (q mu 3).re)) 0
    let IMsum1 := forN L.ND (fun mu r => r + ((s mu 1).im + (s mu 3).im - (q mu 1).im - (q mu 3).im)) 0
    let REsum2 := forN L.ND (fun mu r => r + ((s mu 2).re - (s mu 6).re - (q mu 2).re + (q mu 6).re)) 0
    let IMsum2 := forN L.ND (fun mu r => r + ((s mu 2).im + (s mu 6).im - (q mu 2).im - (q mu 6).im)) 0
    let REsum3 := forN L.ND (fun mu r => r + (2 * (s mu 4).im - (s mu 0).im - (s mu 8).im) +
      (-2 * (q mu 4).im + (q mu 0).im + (q mu 8).im)) 0
    let REsum4 := forN L.ND (fun mu r => r + ((s mu 5).re - (s mu 7).re - (q mu 5).re + (q mu 7).re)) 0
    let IMsum4 := forN L.ND (fun mu r => r + ((s mu 5).im + (s mu 7).im - (q mu 5).im - (q mu 7).im)) 0
    (arr [((REsum0 / 3 : ℝ) : ℂ), -(REsum1 : ℂ) * 0.5 * I + 0.5 * IMsum1, -(REsum2 : ℂ) * 0.5 * I + 0.5 * IMsum2,
        ((REsum3 / 3 : ℝ) : ℂ), -(REsum4 : ℂ) * 0.5 * I + 0.5 * IMsum4],
      4 / 9 * (REsum0 * REsum0 + REsum3 * (REsum3 + REsum0)) + (REsum1 * REsum1 + IMsum1 * IMsum1 + REsum2 * REsum2 +
        IMsum2 * IMsum2 + REsum4 * REsum4 + IMsum4 * IMsum4))
  else if NC = 2 then
    let q := fun mu => lat (i, mu)
    let s := fun mu => lat (back L i mu, mu)
    let REsum0 := forN L.ND (fun mu r => r + ((s mu 0).im - (q mu 0).im)) 0
    let REsum1 := forN L.ND (fun mu r => r + ((s mu 1).re - (q mu 1).re)) 0
    let IMsum1 := forN L.ND (fun mu r => r + ((s mu 1).im - (q mu 1).im)) 0
    (arr [(REsum0 : ℂ), -I * REsum1 + IMsum1], REsum0 * REsum0 + REsum1 * REsum1 + IMsum1 * IMsum1)
  else
    let sum := derivSum NC L scratch (fun _ => 0) lat i L.ND
    (sum, trace_deriv NC sum)

/-- `theta_test_lin`, `gftests.c:214-250`: return value (the maximum is only printed). -/
noncomputable def theta_test_lin (NC : ℕ) (L : Latt) (scratch : Arr ℂ) (lat : Gauge) (MAX_DIR : ℕ) : Option ℝ :=
  fdiv (2 * forN (volume L) (fun i tr =>
    tr + latt_deriv_AntiHermitian_proj NC L scratch (fun _ => 0) lat i MAX_DIR) 0) ((NC * volume L : ℕ) : ℝ)

/-- `gauge_functional`, `gftests.c:132-147`. -/
noncomputable def gauge_functional (NC : ℕ) (L : Latt) (lat : Gauge) : Option ℝ :=
  (fdiv (forN (volume L) (fun i trAA =>
    trAA + forN L.ND (fun mu t => t + (trace NC (lat (i, mu))).re) 0) 0) ((L.ND * NC * volume L : ℕ) : ℝ)).map
      fun x => 1 - x

/-! ## One rotation -/

/-- `OrRotation`, `Or.c:37-54`. -/
noncomputable def OrRotation (s0 s1 : ℂ) (OrParam : ℝ) : Option (ℂ × ℂ) :=
  let asq := s0.im * s0.im + s1.re * s1.re + s1.im * s1.im
  let a0sq := s0.re * s0.re
  if a0sq + asq = 0 then none else
  let x := (OrParam * a0sq + asq) / (a0sq + asq)
  let r := Real.sqrt (a0sq + x * x * asq)
  if r = 0 then none else
  let xdr := x / r
  some ((s0.re / r : ℝ) + I * (s0.im * xdr : ℝ), s1 * xdr)

/-- The other branch of the stochastic choice, `Or.c:110-115`. -/
noncomputable def relax (s0 s1 : ℂ) : Option (ℂ × ℂ) :=
  let n := Real.sqrt (s0.re * s0.re + s0.im * s0.im + s1.re * s1.re + s1.im * s1.im)
  if n = 0 then none else
  let NORM := 1 / n
  some (s0 * NORM, s1 * NORM)

/-- The stochastic choice, `Or.c:106-116` (`SOR` is defined at line 34).  `coin` is the number drawn from the generator
of the executing thread. -/
noncomputable def orChoice (OrParam coin : ℝ) (s : ℂ × ℂ) : Option (ℂ × ℂ) :=
  if coin < OrParam then OrRotation s.1 s.2 2 else relax s.1 s.2

/-- The sums over the links that touch the site, `Or.c:65-102`. -/
noncomputable def orSum (NC : ℕ) (L : Latt) (lat : Gauge) (su2_index i DIMS : ℕ) : ℂ × ℂ :=
  let d := su2_data NC su2_index
  let a1 := d.idx_a / NC
  let a2 := d.idx_a % NC
  let b1 := d.idx_b / NC
  let b2 := d.idx_b % NC
  let c1 := d.idx_c / NC
  let c2 := d.idx_c % NC
  let d1 := d.idx_d / NC
  let d2 := d.idx_d % NC
  let aidx1 := a1 + a2 * NC
  let aidx2 := a2 + a1 * NC
  let bidx1 := b1 + b2 * NC
  let bidx2 := b2 + b1 * NC
  let cidx1 := c1 + c2 * NC
  let cidx2 := c2 + c1 * NC
  let didx1 := d1 + d2 * NC
  let didx2 := d2 + d1 * NC
  forN DIMS (fun mu (s : ℂ × ℂ) =>
    let back := back L i mu
    (s.1 + (conj (lat (i, mu) aidx1) + lat (i, mu) didx1 + lat (back, mu) aidx2 + conj (lat (back, mu) didx2)),
      s.2 + (conj (lat (i, mu) bidx1) - lat (i, mu) cidx1 + lat (back, mu) bidx2 - conj (lat (back, mu) cidx2)))) (0, 0)

/-- The rotation of every link that touches the site, `Or.c:122-126`. -/
noncomputable def orApply (NC : ℕ) (L : Latt) (su2_index i : ℕ) (s : ℂ × ℂ) (lat : Gauge) : Gauge :=
  forN L.ND (fun mu lat =>
    let back := back L i mu
    let lat := Function.update lat (i, mu) (shortened_su2_multiply NC (lat (i, mu)) s.1 s.2 su2_index)
    Function.update lat (back, mu) (shortened_su2_multiply_dag NC (lat (back, mu)) s.1 s.2 su2_index)) lat

/-- `OR_single`, `Or.c:57-129`. -/
noncomputable def OR_single (NC : ℕ) (L : Latt) (su2_index : ℕ) (OrParam : ℝ) (DIMS : ℕ) (coin : ℝ) (i : ℕ)
    (lat : Gauge) : Option Gauge :=
  (orChoice OrParam coin (orSum NC L lat su2_index i DIMS)).map fun s => orApply NC L su2_index i s lat

/-! ## Sweeps -/

/-- The sites of one colour, `Or.c:143-147`, in the order in which the threads take them, each with the number drawn
for it.  The order and the numbers are arbitrary. -/
noncomputable def OR_colour (NC : ℕ) (L : Latt) (su2_index : ℕ) (OrParam : ℝ) (DIMS : ℕ) (steps : List (ℕ × ℝ))
    (lat : Gauge) : Option Gauge :=
  steps.foldl (fun o x => o.bind (OR_single NC L su2_index OrParam DIMS x.2 x.1)) (some lat)

/-- `OR_iteration_th`, `Or.c:131-150`. -/
noncomputable def OR_iteration_th (NC : ℕ) (L : Latt) (Ncolors su2_index : ℕ) (OrParam : ℝ) (DIMS : ℕ)
    (sched : ℕ → List (ℕ × ℝ)) (lat : Gauge) : Option Gauge :=
  forN Ncolors (fun c o => o.bind (OR_colour NC L su2_index OrParam DIMS (sched c))) (some lat)

/-- The loop over subgroups, `Or.c:214-220` and `Or.c:303-309`. -/
noncomputable def OR_sweep (NC : ℕ) (L : Latt) (Ncolors : ℕ) (OrParam : ℝ) (DIMS : ℕ)
    (sched : ℕ → ℕ → List (ℕ × ℝ)) (lat : Gauge) : Option Gauge :=
  forN (NSU2SUBGROUPS NC) (fun s o => o.bind (OR_iteration_th NC L Ncolors s OrParam DIMS (sched s))) (some lat)

/-! ## Iterations -/

/-- A floating point number as the comparison with the accuracy sees it. -/
inductive Theta where
  | num (x : ℝ)
  | inf
  | nan

/-- `(newlink - oldlink) / newlink`, `Or.c:229` and `Or.c:314`. -/
noncomputable def orTheta (newlink oldlink : ℝ) : Theta :=
  if newlink = 0 then (if newlink - oldlink = 0 then .nan else .inf) else .num ((newlink - oldlink) / newlink)

/-- `fabs( *theta ) > ACC`: true for an infinite value, false for a NaN. -/
def Theta.Exceeds (ACC : ℝ) : Theta → Prop
  | .num x => ACC < |x|
  | .inf => True
  | .nan => False

/-- The `while` of `Or.c:209-232` and `Or.c:298-317`; `n` is `MAX_ITERS - iters`.  `measure` is the average link trace
and `sweep k` the work of iteration `k`. -/
noncomputable def orLoop (measure : Gauge → Option ℝ) (sweep : ℕ → Gauge → Option Gauge) (ACC : ℝ) :
    ℕ → ℕ → Gauge → ℝ → Theta → Option (Gauge × ℕ × Theta)
  | 0, iters, lat, _, theta => some (lat, iters, theta)
  | n + 1, iters, lat, newlink, theta =>
    open Classical in
    if theta.Exceeds ACC then
      let oldlink := newlink
      (sweep iters lat).bind fun lat =>
      (measure lat).bind fun newlink =>
      orLoop measure sweep ACC n (iters + 1) lat newlink (orTheta newlink oldlink)
    else some (lat, iters, theta)

/-- `latt_reunitU`, `random_config.c:42-57`, without `OBC_HACK`. -/
noncomputable def latt_reunitU (NC : ℕ) (L : Latt) (scratch : Arr ℂ) (lat : Gauge) : Option Gauge :=
  forN (volume L) (fun i o => forN L.ND (fun mu o => o.bind fun lat =>
    (gram_reunit NC (lat (i, mu)) scratch).map fun u => Function.update lat (i, mu) u) o) (some lat)

/-- `OrLandau`, `Or.c:179-241`: the field, the number of iterations returned and the last `*theta`.  `rngOk` tells
whether the generators could be set up.  The return value of `init_cb` is not looked at (line 191); when it did not
succeed the lists that follow are not initialised, which is `none`. -/
noncomputable def OrLandau (NC : ℕ) (L : Latt) (scratch : Arr ℂ) (rngOk : Bool) (MAX_ITERS : ℕ) (ACC OrParam : ℝ)
    (sched : ℕ → ℕ → ℕ → List (ℕ × ℝ)) (lat : Gauge) : Option (Gauge × ℕ × Theta) :=
  (links NC L lat).bind fun newlink =>
  (theta_test_lin NC L scratch lat L.ND).bind fun theta =>
  match init_cb L (volume L) L.ND with
  | .ok Ncolors _ _ =>
    if rngOk = false then some (lat, 123456789, .num theta) else
    open Classical in
    if OrParam < 0 ∨ 1 ≤ OrParam then some (lat, 0, .num theta) else
    (orLoop (links NC L) (fun k => OR_sweep NC L Ncolors OrParam L.ND (sched k)) ACC MAX_ITERS 0 lat newlink
      (.num theta)).bind fun r =>
    (latt_reunitU NC L scratch r.1).map fun lat => (lat, r.2)
  | _ => none

/-- `slice_spatial_links`, `Or.c:245-261`. -/
noncomputable def slice_spatial_links (NC : ℕ) (L : Latt) (t : ℕ) (lat : Gauge) : Option ℝ :=
  fdiv (forN (lcu L) (fun j sum =>
    sum + forN (L.ND - 1) (fun mu s => s + (trace NC (lat (lcu L * t + j, mu))).re) 0) 0)
    ((lcu L * (L.ND - 1) * NC : ℕ) : ℝ)

/-- `OrCoulomb`, `Or.c:264-344`: the field, the number of iterations returned and, for each slice, the iterations and
the last `*theta` (which are printed).  The initial `*theta` is 1 on every slice. -/
noncomputable def OrCoulomb (NC : ℕ) (L : Latt) (rngOk : Bool) (MAX_ITERS : ℕ) (ACC OrParam : ℝ)
    (sched : ℕ → ℕ → ℕ → ℕ → List (ℕ × ℝ)) (lat : Gauge) : Option (Gauge × ℕ × List (ℕ × Theta)) :=
  match init_cb L (lcu L) (L.ND - 1) with
  | .ok Ncolors _ _ =>
    if rngOk = false then some (lat, 123456789, []) else
    open Classical in
    if OrParam < 0 ∨ 1 ≤ OrParam then some (lat, 0, []) else
    forN (L.dims (L.ND - 1)) (fun t o => o.bind fun s =>
      (slice_spatial_links NC L t s.1).bind fun newlink =>
      (orLoop (slice_spatial_links NC L t) (fun k => OR_sweep NC L Ncolors OrParam (L.ND - 1) (sched t k)) ACC
        MAX_ITERS 0 s.1 newlink (.num 1)).map fun r => (r.1, s.2.1 + r.2.1, s.2.2 ++ [r.2]))
      (some (lat, 0, []))
  | _ => none

end GLU.Gfix
