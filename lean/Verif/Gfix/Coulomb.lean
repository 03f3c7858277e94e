import Verif.Gfix.FA
import Verif.Gfix.Driver
import Verif.Draught.Model

/-!
# Coulomb gauge fixing

`Gfix/CFACG.c`, `Gfix/Coulomb.c`, the Coulomb half of `Gfix/line_search.c` and `Gfix/CGalloc.c`, over the real numbers,
in the default configuration: conjugate gradient with a line search (`GLU_GFIX_SD`, `GLU_FR_CG`, `OBC_HACK` and
`exp_exact` not defined).  The gauge transformation of one time slice is a table of matrices indexed by the sites of the
slice.  As in `FA.lean` the entries of `red` are summed over the threads and a division by zero is `none`; the
compensated summation is exact over the real numbers.
-/

namespace GLU.Gfix

open Complex GLU.Mat GLU.Geom GLU.Field GLU.Draught

/-- The matrices `slice_gauge[i]` on the sites of one slice. -/
abbrev SGauge := ℕ → Arr ℂ

/-- The packed sum of `steep_deriv_CG`, `CFACG.c:102-143`, at one site.  `A` and `B` are zeroed before the loop; the
projection overwrites all of both. -/
noncomputable def sliceSum (NC : ℕ) (L : Latt) (lat : Gauge) (gauge : SGauge) (t i : ℕ) : Arr ℂ :=
  forN (L.ND - 1) (fun mu sum =>
    let C := gtransform_local NC (gauge i) (lat (i + lcu L * t, mu)) (gauge (neighbor L i mu))
    let D := gtransform_local NC (gauge (back L i mu)) (lat (back L (i + lcu L * t) mu, mu)) (gauge i)
    let B := Hermitian_proj_short NC (fun _ => 0) C
    let A := Hermitian_proj_short NC (fun _ => 0) D
    mapN (HERMSIZE NC) (fun nu x => x + (A nu - B nu)) sum) (fun _ => 0)

/-- `steep_deriv_CG`, `CFACG.c:91-164`.  The planes have one entry for each site of the slice; the entries that do not
exist are zero here. -/
noncomputable def steep_deriv_CG (NC : ℕ) (L : Latt) (lat : Gauge) (gauge : SGauge) (t : ℕ) : Planes := fun mu i =>
  if i < lcu L then derivPlanes NC (sliceSum NC L lat gauge t i) mu else 0

/-- `sum_DER2`, `CFACG.c:166-203`: `red[LINE_NSTEPS]`.  What one site adds is what it adds in `sum_DER3`. -/
noncomputable def sum_DER2 (NC : ℕ) (L : Latt) (inp : Planes) : ℝ :=
  forN (lcu L) (fun i s => s + derSite NC fun mu => inp mu i) 0

/-- One site of `sum_PR`, `CFACG.c:214-255`: what is added to the two sums.  Three colours have their own branch; two
colours use `trace_ab_herm_short`, unlike in `sum_PR3`. -/
noncomputable def prSite2 (NC : ℕ) (inp old : ℕ → ℂ) : ℝ × ℝ :=
  let t : ℕ → ℂ := fun mu => inp mu - old mu
  if NC = 3 then
    (2 * ((inp 0).re * (inp 0).re + (inp 0).im * (inp 0).im + (inp 0).re * (inp 0).im +
      ((inp 1).re * (inp 1).re + (inp 1).im * (inp 1).im) + ((inp 2).re * (inp 2).re + (inp 2).im * (inp 2).im) +
      ((inp 3).re * (inp 3).re + (inp 3).im * (inp 3).im)),
     2 * ((inp 0).re * (t 0).re + (inp 0).im * (t 0).im) + ((inp 0).re * (t 0).im + (inp 0).im * (t 0).re) +
      2 * ((inp 1).re * (t 1).re + (inp 1).im * (t 1).im) + 2 * ((inp 2).re * (t 2).re + (inp 2).im * (t 2).im) +
      2 * ((inp 3).re * (t 3).re + (inp 3).im * (t 3).im))
  else (2 * (0.5 * trace_ab_herm_short NC inp inp), 0.5 * trace_ab_herm_short NC inp t)

/-- `sum_PR`, `CFACG.c:205-259`: `red[LINE_NSTEPS]` and `red[LINE_NSTEPS+1]`. -/
noncomputable def sum_PR (NC : ℕ) (L : Latt) (inp old : Planes) : ℝ × ℝ :=
  forN (lcu L) (fun i s =>
    let p := prSite2 NC (fun mu => inp mu i) fun mu => old mu i
    (s.1 + p.1, s.2 + p.2)) (0, 0)

/-- `exponentiate_gauge_CG`, `line_search.c:100-115`. -/
noncomputable def exponentiate_gauge_CG (NC : ℕ) (L : Latt) (scratch : Arr ℂ) (gauge : SGauge) (inp : Planes)
    (alpha : ℝ) : Option SGauge :=
  forN (lcu L) (fun i o => o.bind fun gauge =>
    (set_gauge_matrix NC scratch inp alpha i).map fun temp =>
      Function.update gauge i (multab_suNC NC temp (gauge i) (gauge i))) (some gauge)

/-- `PC1` and `PC2`, `line_search.c:29-31`. -/
noncomputable def Calcg (k : ℕ) : ℝ := if k = 0 then 0 else if k = 1 then 0.17 else 0.34

/-- One site of `line_search_CoulombOdd`, `line_search.c:151-176`: the three entries of `loc_v`.  `m1` and `m2` are
`set_gauge_matrix` with the steps `PC1` and `PC2`. -/
noncomputable def lineOdd (NC : ℕ) (L : Latt) (m1 m2 : ℕ → Option (Arr ℂ)) (gauge : SGauge) (lat : Gauge) (t i : ℕ) :
    Option (ℝ × ℝ × ℝ) :=
  (m1 i).bind fun A1 =>
  (m2 i).bind fun A2 =>
  forN (L.ND - 1) (fun mu o => o.bind fun v =>
    let fwd := neighbor L i mu
    let C := gtransform_local NC (gauge i) (lat (i + lcu L * t, mu)) (gauge fwd)
    (m1 fwd).bind fun B1 =>
    (m2 fwd).map fun B2 =>
      (v.1 + (trace NC C).re, v.2.1 + Re_trace_abc_dag_suNC NC A1 C B1, v.2.2 + Re_trace_abc_dag_suNC NC A2 C B2))
    (some (0, 0, 0))

/-- One site of the draughtboard in `line_search_Coulomb`, `line_search.c:213-256`: the three entries of `loc_v`. -/
noncomputable def lineEven (NC : ℕ) (L : Latt) (m1 m2 : ℕ → Option (Arr ℂ)) (gauge : SGauge) (lat : Gauge) (t idx : ℕ) :
    Option (ℝ × ℝ × ℝ) :=
  (m1 idx).bind fun A1 =>
  (m2 idx).bind fun A2 =>
  forN (L.ND - 1) (fun mu o => o.bind fun v =>
    let fwd := neighbor L idx mu
    let bck := back L idx mu
    let C := gtransform_local NC (gauge idx) (lat (idx + lcu L * t, mu)) (gauge fwd)
    let D := gtransform_local NC (gauge bck) (lat (bck + lcu L * t, mu)) (gauge idx)
    (m1 fwd).bind fun F1 =>
    (m1 bck).bind fun B1 =>
    (m2 fwd).bind fun F2 =>
    (m2 bck).map fun B2 =>
      (v.1 + (trace NC C).re + (trace NC D).re,
        v.2.1 + Re_trace_abc_dag_suNC NC A1 C F1 + Re_trace_abc_dag_suNC NC B1 D A1,
        v.2.2 + Re_trace_abc_dag_suNC NC A2 C F2 + Re_trace_abc_dag_suNC NC B2 D A2)) (some (0, 0, 0))

/-- The three sums over a list of sites, starting from the zeroed `red`. -/
noncomputable def lineTotal (site : ℕ → Option (ℝ × ℝ × ℝ)) (l : List ℕ) : Option (ℝ × ℝ × ℝ) :=
  l.foldl (fun o i => o.bind fun v => (site i).map fun w => (v.1 + w.1, v.2.1 + w.2.1, v.2.2 + w.2.2)) (some (0, 0, 0))

/-- `line_search_Coulomb`, `line_search.c:193-271`, and `line_search_CoulombOdd`, lines 140-190.  `db` is the number of
colours and the first square of the draughtboard. -/
noncomputable def line_search_Coulomb (NC : ℕ) (L : Latt) (scratch : Arr ℂ) (db : ℕ × List ℕ) (gauge : SGauge)
    (lat : Gauge) (inp : Planes) (t : ℕ) : Option SGauge :=
  let m1 := set_gauge_matrix NC scratch inp (Calcg 1)
  let m2 := set_gauge_matrix NC scratch inp (Calcg 2)
  (if db.1 ≠ 2 then lineTotal (lineOdd NC L m1 m2 gauge lat t) (List.range (lcu L))
    else lineTotal (lineEven NC L m1 m2 gauge lat t) db.2).bind fun v =>
  exponentiate_gauge_CG NC L scratch gauge inp
    (approx_minimum Calcg fun j => -(if j = 0 then v.1 else if j = 1 then v.2.1 else v.2.2))

/-- `GFNORM_COULOMB`, `Headers/GLU_definitions.h:433`. -/
noncomputable def GFNORM_COULOMB (P : FaParams) : ℝ := 1 / ((P.NC * lcu P.L : ℕ) : ℝ)

/-- What `steep_step_FACG` keeps between steps. -/
structure CgState where
  gauge : SGauge
  sn : Planes
  in_old : Planes
  inold : ℝ
  tr : ℝ

/-- The start of `steep_step_FACG`, `CFACG.c:296-325`.  `P.accel` is `FOURIER_ACCELERATE2`, lines 70-89. -/
noncomputable def cgStart (P : FaParams) (db : ℕ × List ℕ) (lat : Gauge) (t : ℕ) (gauge : SGauge) : Option CgState :=
  let inp := P.accel (steep_deriv_CG P.NC P.L lat gauge t)
  let inold := sum_DER2 P.NC P.L inp
  (line_search_Coulomb P.NC P.L P.scratch db gauge lat inp t).map fun g =>
    { gauge := g, sn := inp, in_old := inp, inold := inold, tr := inold * GFNORM_COULOMB P }

/-- One pass of the loop of `steep_step_FACG`, `CFACG.c:328-376`. -/
noncomputable def cgStep (P : FaParams) (db : ℕ × List ℕ) (lat : Gauge) (t : ℕ) (s : CgState) : Option CgState :=
  let inp := P.accel (steep_deriv_CG P.NC P.L lat s.gauge t)
  let p := sum_PR P.NC P.L inp s.in_old
  let tr := p.1 * GFNORM_COULOMB P
  (fdiv p.2 s.inold).bind fun pr =>
  (fdiv p.1 s.inold).bind fun fr =>
  open Classical in
  let beta := if tr < P.CG_TOL then fr else PRfmax 0 pr
  let sn : Planes := fun idx j => inp idx j + beta * s.sn idx j
  (if P.CG_TOL < tr then line_search_Coulomb P.NC P.L P.scratch db s.gauge lat sn t
    else exponentiate_gauge_CG P.NC P.L P.scratch s.gauge sn P.gf_alpha).map fun g =>
    { gauge := g, sn := sn, in_old := inp, inold := p.1, tr := tr }

/-- The loop of `steep_step_FACG`, `CFACG.c:328-381`: the state and `loc_iters`; `n` is `max_iters - 1`, for the body
is executed once whatever `max_iters`. -/
noncomputable def cgLoop (P : FaParams) (db : ℕ × List ℕ) (lat : Gauge) (t : ℕ) (acc : ℝ) :
    ℕ → CgState → Option (CgState × ℕ)
  | 0, s => (cgStep P db lat t s).map fun s => (s, 1)
  | n + 1, s => (cgStep P db lat t s).bind fun s =>
    open Classical in
    if acc < s.tr then (cgLoop P db lat t acc n s).map fun q => (q.1, q.2 + 1) else some (s, 1)

/-- `steep_step_FACG`, `CFACG.c:285-382`: the matrices, `*tr` and the return value. -/
noncomputable def steep_step_FACG (P : FaParams) (db : ℕ × List ℕ) (lat : Gauge) (t : ℕ) (acc : ℝ) (max_iters : ℕ)
    (gauge : SGauge) : Option (SGauge × ℝ × ℕ) :=
  ((cgStart P db lat t gauge).bind (cgLoop P db lat t acc (max_iters - 1))).map fun q => (q.1.gauge, q.1.tr, q.2)

/-- `PREC_TOL`, `Headers/GLU_definitions.h:362`, in double precision. -/
noncomputable def PREC_TOL (NC : ℕ) : ℝ := NC * 1e-14

/-- `adequate_solution`, `CFACG.c:432-457`: the matrices and the value returned, on one thread.  With more threads each
returns the verdict on its own sites. -/
noncomputable def adequate_solution (NC : ℕ) (L : Latt) (scratch : Arr ℂ) (gauge : SGauge) (iters : ℕ) :
    Option (SGauge × Bool) :=
  forN (lcu L) (fun i o => o.bind fun s =>
    (gram_reunit NC (s.1 i) scratch).map fun g =>
      let sum : ℝ := forN (NC * NC) (fun j sum => sum + (g j).re * (g j).re + (g j).im * (g j).im) 0
      open Classical in
      (Function.update s.1 i g, if iters * PREC_TOL NC < |sum - NC| then false else s.2)) (some (gauge, true))

/-- The test of the solution in `steep_fix`, `CFACG.c:487-493`: the matrices and the verdict. -/
noncomputable def checkSolution (NC : ℕ) (L : Latt) (scratch : Arr ℂ) (acc : ℝ) (gauge : SGauge) (tr : ℝ)
    (loc_iters : ℕ) : Option (SGauge × Bool) :=
  open Classical in
  if tr < acc then adequate_solution NC L scratch gauge (if 0 < loc_iters then loc_iters else 1) else some (gauge, true)

/-- Outcome of `steep_fix`: the matrices, `tr`, `tot_iters` and `control`, the last three of which are also printed;
`running` after the given number of passes without an end; `undef` when a division by zero was met. -/
inductive FixOut
  | done (gauge : SGauge) (tr : ℝ) (iters control : ℕ)
  | running
  | undef

/-- `steep_fix`, `CFACG.c:459-529`, for at most the given number of passes through `top`.  `f` is the method; `rand k i`
is the matrix `Sunitary_gen` makes for site `i` in restart number `k`. -/
noncomputable def steep_fix (NC : ℕ) (L : Latt) (scratch : Arr ℂ) (f : SGauge → Option (SGauge × ℝ × ℕ))
    (rand : ℕ → SGauge) (acc : ℝ) (max_iters : ℕ) : ℕ → ℕ → ℕ → Bool → SGauge → FixOut
  | 0, _, _, _, _ => .running
  | n + 1, control, tot, trans_flag, gauge =>
    match f gauge with
    | none => .undef
    | some (gauge, tr, loc_iters) =>
      match checkSolution NC L scratch acc gauge tr loc_iters with
      | none => .undef
      | some (gauge, ok) =>
        open Classical in
        let trans_flag := trans_flag || !ok
        if max_iters ≤ loc_iters ∧ tr < 1e4 * acc then
          steep_fix NC L scratch f rand acc max_iters n control (tot + loc_iters) trans_flag gauge
        else
          let trans_flag := trans_flag || decide (max_iters ≤ loc_iters ∧ acc < tr)
          if control < 8 ∧ trans_flag = true then
            steep_fix NC L scratch f rand acc max_iters n (control + 1) (tot + loc_iters) false (rand control)
          else .done gauge tr (tot + loc_iters) control

/-- The matrices before a slice is fixed: `CGalloc.c:82-84` and `CFACG.c:596`. -/
noncomputable def idSlice (NC : ℕ) : SGauge := fun _ => identity NC scratch

/-- `steep_fix` called for one slice by `Coulomb_FA`.  `rand t k i` are the random matrices used for slice `t`. -/
noncomputable def fixSlice (P : FaParams) (db : ℕ × List ℕ) (rand : ℕ → ℕ → SGauge) (acc : ℝ) (max_iters passes : ℕ)
    (lat : Gauge) (t : ℕ) : FixOut :=
  steep_fix P.NC P.L P.scratch (steep_step_FACG P db lat t acc max_iters) (rand t) acc max_iters passes 0 0 false
    (idSlice P.NC)

/-- Outcome of `Coulomb_FA`; `outside` is an access outside the lattice. -/
inductive CoulombOut
  | done (lat : Gauge) (iters : ℕ)
  | running
  | undef
  | outside

/-- The loop over the slices `t = 2, 3, ...`, `CFACG.c:593-619`, with `n` of them to go, and the last transformation.
`g` and `g_end` are the matrices of the previous slice and of the first. -/
noncomputable def coulombSlices (NC : ℕ) (L : Latt) (fix : Gauge → ℕ → FixOut) (g_end : SGauge) :
    ℕ → ℕ → SGauge → ℕ → Gauge → CoulombOut
  | 0, t, g, its, lat => .done (gtransform_slice NC L g g_end (t - 1) lat) its
  | n + 1, t, g, its, lat =>
    match fix lat t with
    | .undef => .undef
    | .running => .running
    | .done g_up _ it _ => coulombSlices NC L fix g_end n (t + 1) g_up (its + it)
        (gtransform_slice NC L g g_up (t - 1) lat)

/-- The parallel region of `Coulomb_FA`, `CFACG.c:572-625`, for any way of fixing one slice. -/
noncomputable def coulombRegion (NC : ℕ) (L : Latt) (fix : Gauge → ℕ → FixOut) (lat : Gauge) : CoulombOut :=
  if L.dims (L.ND - 1) < 2 then .outside
  else match fix lat 0 with
    | .undef => .undef
    | .running => .running
    | .done g_end _ it0 _ =>
      match fix lat 1 with
      | .undef => .undef
      | .running => .running
      | .done g _ it1 _ => coulombSlices NC L fix g_end (L.dims (L.ND - 1) - 2) 2 g (it0 + it1)
          (gtransform_slice NC L g_end g 0 lat)

/-- `Coulomb_FA`, `CFACG.c:531-636`.  `alloc` tells whether every allocation of `allocate_temp_cg`, `CGalloc.c:27-94`,
succeeded.  If one fails, or the draughtboard cannot be set up, `free_temp_cg` is called with `G`, which nothing has
initialised: that is `undef`. -/
noncomputable def Coulomb_FA (P : FaParams) (alloc : Bool) (rand : ℕ → ℕ → SGauge) (acc : ℝ) (max_iters passes : ℕ)
    (lat : Gauge) : CoulombOut :=
  match init_cb P.L (lcu P.L) (P.L.ND - 1) with
  | .ok nc _ sq =>
    if alloc = false then .undef
    else coulombRegion P.NC P.L (fixSlice P (nc, sq 0) rand acc max_iters passes) lat
  | _ => .undef

/-- `Coulomb`, `Coulomb.c:33-106`: the field and the return value.  The measurements printed at the end are left out.
-/
noncomputable def Coulomb (P : FaParams) (alloc : Bool) (rand : ℕ → ℕ → SGauge) (acc : ℝ) (max_iters passes : ℕ)
    (lat : Gauge) : CoulombOut :=
  match Coulomb_FA P alloc rand acc max_iters passes lat with
  | .done lat iters =>
    match latt_reunitU P.NC P.L P.scratch lat with
    | some lat => .done lat iters
    | none => .undef
  | r => r

end GLU.Gfix
