import Verif.Gfix.Model

/-!
# Fourier-accelerated Landau gauge fixing

`src/Gfix/FACG.c`, with the step of `src/Gfix/CG.c` and the line search of `src/Gfix/line_search.c`, and the driver
`src/Gfix/Landau.c`.  The default macros are modelled: the step is `1 + alpha A` reunitarised (`exp_exact` not
defined), the derivative is `deriv_lin`, and the step length comes from the line search (neither `GLU_FR_CG` nor
`GLU_GFIX_SD`); `LUXURY_GAUGE` is not defined.  Numbers are real and complex numbers; a division by zero is the outcome
`none`, except in `approx_minimum`, where the code looks at the result.
-/

namespace GLU.Gfix

open Complex GLU.Mat GLU.Geom GLU.Field

/-- The planes `in[mu][i]`: packed matrix number `mu` at site `i`. -/
abbrev Planes := ℕ → ℕ → ℂ

/-- `TRUE_HERM`, `Headers/GLU_definitions.h:229-233`: the number of planes. -/
def TRUE_HERM (NC : ℕ) : ℕ := if NC = 3 then HERMSIZE NC - 1 else HERMSIZE NC

/-- What `set_gauge_matrix`, `CG.c:62-99`, hands to the reunitarisation.  `scratch` is the content of `gx` before the
call: for two and three colours the last column is not written. -/
noncomputable def gaugeStep (NC : ℕ) (scratch : Arr ℂ) (inp : Planes) (alpha : ℝ) (i : ℕ) : Arr ℂ :=
  if NC = 3 then
    let gx1 := alpha * inp 1 i
    arr [1 + I * alpha * (inp 0 i).im, gx1, scratch 2, -conj gx1, 1 - I * alpha * (inp 0 i).re, scratch 5,
      -alpha * conj (inp 2 i), -alpha * conj (inp 3 i), scratch 8]
  else if NC = 2 then
    let gx1 := alpha * inp 1 i
    arr [1 + I * alpha * (inp 0 i).im, gx1, -conj gx1, scratch 3]
  else add_constant NC (rebuild_antihermitian NC scratch fun mu => alpha * inp mu i) 1

/-- `set_gauge_matrix`, `CG.c:47-100`.  For more than eighteen colours the code calls `nape_reunit`, which is not
modelled; that is `none` here. -/
noncomputable def set_gauge_matrix (NC : ℕ) (scratch : Arr ℂ) (inp : Planes) (alpha : ℝ) (i : ℕ) : Option (Arr ℂ) :=
  if 18 < NC then none else gram_reunit NC (gaugeStep NC scratch inp alpha i) scratch

/-- `approx_minimum`, `line_search.c:38-57`, with `nmeas` 3.  The three probes are distinct in every call, so `A`, `B`
and `C` are finite; the quotient is looked at after the division, so a zero denominator is modelled: a positive
numerator gives plus infinity, a negative one minus infinity, and zero over zero is not a number. -/
noncomputable def approx_minimum (alphas functional : ℕ → ℝ) : ℝ :=
  let A := functional 0 / ((alphas 0 - alphas 1) * (alphas 0 - alphas 2))
  let B := functional 1 / ((alphas 1 - alphas 0) * (alphas 1 - alphas 2))
  let C := functional 2 / ((alphas 2 - alphas 0) * (alphas 2 - alphas 1))
  let num := alphas 0 * (B + C) + alphas 1 * (A + C) + alphas 2 * (A + B)
  let den := 2 * (A + B + C)
  if den = 0 then (if 0 < num then alphas 2 else 0.08)
  else
    let Sol := num / den
    if alphas 2 < Sol then alphas 2 else if Sol < alphas 0 then 0.08 else Sol

/-- `egauge_Landau`, `line_search.c:59-97`.  The unrolled branch for four dimensions is the same loop. -/
noncomputable def egauge_Landau (NC : ℕ) (L : Latt) (scratch : Arr ℂ) (inp : Planes) (alpha : ℝ) (lat : Gauge) :
    Option Gauge :=
  forN (volume L) (fun i o => o.bind fun lat =>
    (set_gauge_matrix NC scratch inp alpha i).bind fun A =>
    forN L.ND (fun mu o => o.bind fun lat =>
      (set_gauge_matrix NC scratch inp alpha (neighbor L i mu)).map fun B =>
        Function.update lat (i, mu) (gtransform_local NC A (lat (i, mu)) B)) (some lat)) (some lat)

/-- The entries of `red` that are used, `CG -> red[ n + th * CLINE ]`, summed over the threads: every use of `red`
in `FACG.c` and `line_search.c` adds to one thread's entry and reads the sum over the threads. -/
abbrev Red := ℕ → ℝ

/-- `red[n] += x`. -/
noncomputable def Red.add (red : Red) (n : ℕ) (x : ℝ) : Red := Function.update red n (red n + x)

/-- One site of `line_search_Landau`, `line_search.c:284-317`: the three entries of `loc_v`. -/
noncomputable def lineSite (NC : ℕ) (L : Latt) (scratch : Arr ℂ) (inp : Planes) (lat : Gauge) (i : ℕ) :
    Option (ℝ × ℝ × ℝ) :=
  (set_gauge_matrix NC scratch inp 0.15 i).bind fun A1 =>
  (set_gauge_matrix NC scratch inp 0.30 i).bind fun A2 =>
  forN L.ND (fun mu o => o.bind fun v =>
    (set_gauge_matrix NC scratch inp 0.15 (neighbor L i mu)).bind fun B1 =>
    (set_gauge_matrix NC scratch inp 0.30 (neighbor L i mu)).map fun B2 =>
      (v.1 + (trace NC (lat (i, mu))).re, v.2.1 + Re_trace_abc_dag_suNC NC A1 (lat (i, mu)) B1,
        v.2.2 + Re_trace_abc_dag_suNC NC A2 (lat (i, mu)) B2)) (some (0, 0, 0))

/-- The sums of `line_search_Landau`, `line_search.c:280-325`: `red` after the loop.  The compensation of lines
318-324 is zero over the real numbers. -/
noncomputable def lineSums (NC : ℕ) (L : Latt) (scratch : Arr ℂ) (inp : Planes) (lat : Gauge) (red : Red) :
    Option Red :=
  forN (volume L) (fun i o => o.bind fun red =>
    (lineSite NC L scratch inp lat i).map fun v => ((red.add 0 v.1).add 1 v.2.1).add 2 v.2.2) (some red)

/-- `Lalcg`, `line_search.c:335`. -/
noncomputable def Lalcg (k : ℕ) : ℝ := if k = 0 then 0 else if k = 1 then 0.15 else 0.30

/-- `line_search_Landau`, `line_search.c:273-341`: `red` and the field. -/
noncomputable def line_search_Landau (NC : ℕ) (L : Latt) (scratch : Arr ℂ) (red : Red) (lat : Gauge) (inp : Planes) :
    Option (Red × Gauge) :=
  (lineSums NC L scratch inp lat red).bind fun red =>
  (egauge_Landau NC L scratch inp (approx_minimum Lalcg fun j => -red j) lat).map fun lat => (red, lat)

/-- The planes written by `FA_deriv` at one site, `FACG.c:55-69`. -/
noncomputable def derivPlanes (NC : ℕ) (sum : Arr ℂ) (mu : ℕ) : ℂ :=
  if NC = 3 then
    if mu = 0 then I * (sum 0).re - (sum 3).re
    else if mu = 3 then I * (sum 4).re - (sum 4).im
    else I * (sum mu).re - (sum mu).im
  else if NC = 2 then
    if mu = 0 then I * (sum 0).re else I * (sum mu).re - (sum mu).im
  else I * (sum mu).re - (sum mu).im

/-- `FA_deriv`, `FACG.c:37-73`: `red` and the planes.  Every iteration of the loop over sites writes its own site of
the planes and only reads the field. -/
noncomputable def FA_deriv (NC : ℕ) (L : Latt) (scratch : Arr ℂ) (red : Red) (lat : Gauge) : Red × Planes :=
  (forN (volume L) (fun i red => red.add 5 (fast_deriv_AntiHermitian_proj NC L scratch lat i).2) red,
    fun mu i => derivPlanes NC (fast_deriv_AntiHermitian_proj NC L scratch lat i).1 mu)

/-- One site of `sum_DER3`, `FACG.c:154-175`: what is added to `red[LINE_NSTEPS]`. -/
noncomputable def derSite (NC : ℕ) (inp : ℕ → ℂ) : ℝ :=
  if NC = 3 then
    2 * ((inp 0).re * (inp 0).re + (inp 0).im * (inp 0).im + (inp 0).re * (inp 0).im +
      ((inp 1).re * (inp 1).re + (inp 1).im * (inp 1).im) + ((inp 2).re * (inp 2).re + (inp 2).im * (inp 2).im) +
      ((inp 3).re * (inp 3).re + (inp 3).im * (inp 3).im))
  else if NC = 2 then
    2 * ((inp 0).re * (inp 0).re + (inp 0).im * (inp 0).im + ((inp 1).re * (inp 1).re + (inp 1).im * (inp 1).im))
  else 2 * (0.5 * trace_ab_herm_short NC inp inp)

/-- `sum_DER3`, `FACG.c:148-178`. -/
noncomputable def sum_DER3 (NC : ℕ) (L : Latt) (red : Red) (inp : Planes) : Red :=
  forN (volume L) (fun i red => red.add 3 (derSite NC fun mu => inp mu i)) red

/-- One site of `sum_PR3`, `FACG.c:105-140`: `loc_sum1` and `loc_sum2`. -/
noncomputable def prSite (NC : ℕ) (inp old : ℕ → ℂ) : ℝ × ℝ :=
  let t : ℕ → ℂ := fun mu => inp mu - old mu
  if NC = 3 then
    (2 * ((inp 0).re * (inp 0).re + (inp 0).im * (inp 0).im + (inp 0).re * (inp 0).im) +
      2 * ((inp 1).re * (inp 1).re + (inp 1).im * (inp 1).im) +
      2 * ((inp 2).re * (inp 2).re + (inp 2).im * (inp 2).im) +
      2 * ((inp 3).re * (inp 3).re + (inp 3).im * (inp 3).im),
     2 * ((inp 0).re * (t 0).re + (inp 0).im * (t 0).im) + ((inp 0).re * (t 0).im + (inp 0).im * (t 0).re) +
      2 * ((inp 1).re * (t 1).re + (inp 1).im * (t 1).im) + 2 * ((inp 2).re * (t 2).re + (inp 2).im * (t 2).im) +
      2 * ((inp 3).re * (t 3).re + (inp 3).im * (t 3).im))
  else if NC = 2 then
    (2 * ((inp 0).im * (inp 0).im) + 2 * ((inp 1).re * (inp 1).re + (inp 1).im * (inp 1).im),
     2 * ((inp 0).im * (t 0).im) + 2 * ((inp 1).re * (t 1).re + (inp 1).im * (t 1).im))
  else (trace_ab_herm_short NC inp inp, trace_ab_herm_short NC inp t)

/-- `sum_PR3`, `FACG.c:98-145`. -/
noncomputable def sum_PR3 (NC : ℕ) (L : Latt) (red : Red) (inp old : Planes) : Red :=
  forN (volume L) (fun i red =>
    let p := prSite NC (fun mu => inp mu i) fun mu => old mu i
    (red.add 3 p.1).add 4 p.2) red

/-- `PRfmax`, `CG.c:37-41`. -/
noncomputable def PRfmax (a b : ℝ) : ℝ := if b < a then a else b

/-- What the method keeps between steps: the field, `red`, `sn`, `in_old` and `*tr`. -/
structure FaState where
  lat : Gauge
  red : Red
  sn : Planes
  in_old : Planes
  tr : ℝ
  inold : ℝ

/-- The constants of a run: `accel` is `FOURIER_ACCELERATE3`, `FACG.c:77-95`, as any function of the planes (without
FFTW it leaves them alone); `CG_TOL` is 5E-11, or 1E-6 in single precision; `gf_alpha` comes from the input file. -/
structure FaParams where
  NC : ℕ
  L : Latt
  scratch : Arr ℂ
  accel : Planes → Planes
  CG_TOL : ℝ
  gf_alpha : ℝ

/-- `GFNORM_LANDAU`, `Headers/GLU_definitions.h:427`. -/
noncomputable def GFNORM_LANDAU (P : FaParams) : ℝ := 1 / ((P.NC * volume P.L : ℕ) : ℝ)

/-- `steep_Landau_FA`, `FACG.c:181-199`: `red`, the planes and the field. -/
noncomputable def steep_Landau_FA (P : FaParams) (red : Red) (lat : Gauge) : Option (Red × Planes × Gauge) :=
  let d := FA_deriv P.NC P.L P.scratch red lat
  let inp := P.accel d.2
  (line_search_Landau P.NC P.L P.scratch d.1 lat inp).map fun r => (r.1, inp, r.2)

/-- One pass of the loop of `steep_Landau_FASD`, `FACG.c:211-230`: the field and `*tr`. -/
noncomputable def fasdStep (P : FaParams) (lat : Gauge) : Option (Gauge × ℝ) :=
  (steep_Landau_FA P (fun _ => 0) lat).map fun r => (r.2.2, r.1 5 * GFNORM_LANDAU P)

/-- `steep_Landau_FASD`, `FACG.c:202-235`: the field, `*tr` and the number of steps.  The body is executed once
whatever `max_iters`; `n` is `max_iters - 1`. -/
noncomputable def fasdLoop (P : FaParams) (acc : ℝ) : ℕ → Gauge → Option (Gauge × ℝ × ℕ)
  | 0, lat => (fasdStep P lat).map fun r => (r.1, r.2, 1)
  | n + 1, lat => (fasdStep P lat).bind fun r =>
    open Classical in
    if acc < r.2 then (fasdLoop P acc n r.1).map fun q => (q.1, q.2.1, q.2.2 + 1) else some (r.1, r.2, 1)

/-- `steep_Landau_FASD`, `FACG.c:202-235`. -/
noncomputable def steep_Landau_FASD (P : FaParams) (acc : ℝ) (max_iters : ℕ) (lat : Gauge) :
    Option (Gauge × ℝ × ℕ) := fasdLoop P acc (max_iters - 1) lat

/-- The start of `steep_Landau_FACG`, `FACG.c:246-270`.  `red` is what the previous continuation run left. -/
noncomputable def facgStart (P : FaParams) (red : Red) (lat : Gauge) : Option FaState :=
  (steep_Landau_FA P red lat).map fun r =>
    let red := sum_DER3 P.NC P.L r.1 r.2.1
    { lat := r.2.2, red := red, sn := r.2.1, in_old := r.2.1, tr := r.1 5 * GFNORM_LANDAU P, inold := red 3 }

/-- One pass of the loop of `steep_Landau_FACG`, `FACG.c:272-330`. -/
noncomputable def facgStep (P : FaParams) (s : FaState) : Option FaState :=
  let d := FA_deriv P.NC P.L P.scratch (fun _ => 0) s.lat
  let tr := d.1 5 * GFNORM_LANDAU P
  let inp := P.accel d.2
  let red := sum_PR3 P.NC P.L d.1 inp s.in_old
  (fdiv (red 4) s.inold).bind fun pr =>
  (fdiv (red 3) s.inold).bind fun fr =>
  open Classical in
  let beta := if tr < P.CG_TOL then fr else PRfmax 0 pr
  let sn : Planes := fun idx j => inp idx j + beta * s.sn idx j
  if P.CG_TOL < tr then
    (line_search_Landau P.NC P.L P.scratch red s.lat sn).map fun r =>
      { lat := r.2, red := r.1, sn := sn, in_old := inp, tr := tr, inold := red 3 }
  else
    (egauge_Landau P.NC P.L P.scratch sn P.gf_alpha s.lat).map fun lat =>
      { lat := lat, red := red, sn := sn, in_old := inp, tr := tr, inold := red 3 }

/-- The loop of `steep_Landau_FACG`, `FACG.c:272-336`; `n` is `max_iters - 1`. -/
noncomputable def facgLoop (P : FaParams) (acc : ℝ) : ℕ → FaState → Option (FaState × ℕ)
  | 0, s => (facgStep P s).map fun s => (s, 1)
  | n + 1, s => (facgStep P s).bind fun s =>
    open Classical in
    if acc < s.tr then (facgLoop P acc n s).map fun q => (q.1, q.2 + 1) else some (s, 1)

/-- `steep_Landau_FACG`, `FACG.c:238-337`. -/
noncomputable def steep_Landau_FACG (P : FaParams) (acc : ℝ) (max_iters : ℕ) (red : Red) (lat : Gauge) :
    Option (FaState × ℕ) := (facgStart P red lat).bind (facgLoop P acc (max_iters - 1))

/-- Outcome of `FACG` and `FASD`: the field, the value returned and `*th`; `running` after the given number of
continuation runs without an end; `undef` when a division by zero was met. -/
inductive FaOut
  | done (lat : Gauge) (iters : ℕ) (th : ℝ)
  | running
  | undef

/-- The parallel region of `FACG`, `FACG.c:362-384`, for at most `n` runs. -/
noncomputable def facgRuns (P : FaParams) (acc : ℝ) (max_iters : ℕ) : ℕ → Red → Gauge → FaOut
  | 0, _, _ => .running
  | n + 1, red, lat =>
    match steep_Landau_FACG P acc max_iters red lat with
    | none => .undef
    | some (s, loc_iters) =>
      open Classical in
      if max_iters ≤ loc_iters then
        if s.tr < 1000 * acc then facgRuns P acc max_iters n s.red s.lat else .done s.lat 123456789 s.tr
      else .done s.lat loc_iters s.tr

/-- `FACG`, `FACG.c:341-391`, for at most `runs` continuation runs.  `alloc` tells whether `allocate_temp_lg`
succeeded. -/
noncomputable def FACG (P : FaParams) (alloc : Bool) (acc : ℝ) (max_iters runs : ℕ) (lat : Gauge) : FaOut :=
  match theta_test_lin P.NC P.L P.scratch lat P.L.ND with
  | none => .undef
  | some th =>
    open Classical in
    if th < acc then .done lat 0 th
    else if alloc = false then .done lat 0 th
    else facgRuns P acc max_iters runs (fun _ => 0) lat

/-- The parallel region of `FASD`, `FACG.c:415-439`, on one thread, for at most `n` runs.  With more threads line 434
is also executed by threads that are not ordered with the addition of line 438. -/
noncomputable def fasdRuns (P : FaParams) (acc : ℝ) (max_iters : ℕ) : ℕ → Gauge → FaOut
  | 0, _ => .running
  | n + 1, lat =>
    match steep_Landau_FASD P acc max_iters lat with
    | none => .undef
    | some (lat, tr, loc_iters) =>
      open Classical in
      if max_iters ≤ loc_iters then
        if tr < 1000 * acc then fasdRuns P acc max_iters n lat else .done lat (123456789 + loc_iters) tr
      else .done lat loc_iters tr

/-- `FASD`, `FACG.c:395-446`, on one thread, for at most `runs` continuation runs. -/
noncomputable def FASD (P : FaParams) (alloc : Bool) (acc : ℝ) (max_iters runs : ℕ) (lat : Gauge) : FaOut :=
  match theta_test_lin P.NC P.L P.scratch lat P.L.ND with
  | none => .undef
  | some th =>
    open Classical in
    if th < acc then .done lat 0 th
    else if alloc = false then .done lat 0 th
    else fasdRuns P acc max_iters runs lat

end GLU.Gfix
