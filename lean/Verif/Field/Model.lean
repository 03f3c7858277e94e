import Verif.Sched.Model
import Verif.Mat.UNops

/-!
# Gauge field measurements and gauge transformations

`src/Field/plaqs_links.c`, `src/Field/POLY.c` (the loops themselves),
`src/Gfix/gtrans.c` and the staples of `src/Smear/staples.c` with the matrix
operations of the code.  A gauge field is a function from links `(site, direction)`
to flat arrays.  Sums over threads are taken in site order (real numbers, so the
order does not matter).
-/

namespace GLU.Field

open Complex GLU.Mat GLU.Geom GLU.Sched

/-- A gauge field: `lat[ site ].O[ direction ]`. -/
abbrev Gauge := Loc → Arr ℂ

/-- Uninitialised local matrix; every routine overwrites it. -/
def scratch : Arr ℂ := fun _ => 0

/-- The operations used by `all_staples`, `staples.c:72-78`. -/
noncomputable def ops (NC : ℕ) : MatOps (Arr ℂ) where
  multab b c := multab_suNC NC b c scratch
  multab_dag b c := multab_dag_suNC NC b c scratch
  multabdag b c := multabdag_suNC NC b c scratch
  a_plus_b := Mat.a_plus_b NC

/-- `zero_mat( stap ) ; all_staples( stap , lat , i , mu , dir , SM_APE )` as called
in `hb.c:184-186`, `relax.c:102-104` and `smear.c:117-122`. -/
noncomputable def staple (NC : ℕ) (L : Latt) (lat : Gauge) (i mu dir : ℕ) : Arr ℂ :=
  all_staples L (ops NC) lat i mu dir (zero_mat NC scratch)

/-! ## Plaquettes -/

/-- `complete_plaquette`, `plaqs_links.c:33-201`.  Three colours: the portable
lines 121-146.  Two colours: the portable lines 183-193 do not compile (`tra` and
`trb` are not declared in that branch), so the vector version 153-179 is modelled
(`SSE2_MUL_CONJ( a , b )` is `a * conj( b )`).  More colours: lines 197-199. -/
noncomputable def complete_plaquette (NC : ℕ) (a b c d : Arr ℂ) : ℝ :=
  if NC = 3 then
    let tra1 := a 0 * b 0 + a 1 * b 3 + a 2 * b 6
    let tra2 := a 0 * b 1 + a 1 * b 4 + a 2 * b 7
    let tra3 := a 0 * b 2 + a 1 * b 5 + a 2 * b 8
    let tra := ((tra1 * star (c 0) + tra2 * star (c 1) + tra3 * star (c 2)) * star (d 0)).re
    let tra := tra + ((tra1 * star (c 3) + tra2 * star (c 4) + tra3 * star (c 5)) * star (d 1)).re
    let tra := tra + ((tra1 * star (c 6) + tra2 * star (c 7) + tra3 * star (c 8)) * star (d 2)).re
    let tra1 := a 3 * b 0 + a 4 * b 3 + a 5 * b 6
    let tra2 := a 3 * b 1 + a 4 * b 4 + a 5 * b 7
    let tra3 := a 3 * b 2 + a 4 * b 5 + a 5 * b 8
    let trb := ((tra1 * star (c 0) + tra2 * star (c 1) + tra3 * star (c 2)) * star (d 3)).re
    let trb := trb + ((tra1 * star (c 3) + tra2 * star (c 4) + tra3 * star (c 5)) * star (d 4)).re
    let trb := trb + ((tra1 * star (c 6) + tra2 * star (c 7) + tra3 * star (c 8)) * star (d 5)).re
    let tra1 := a 6 * b 0 + a 7 * b 3 + a 8 * b 6
    let tra2 := a 6 * b 1 + a 7 * b 4 + a 8 * b 7
    let tra3 := a 6 * b 2 + a 7 * b 5 + a 8 * b 8
    let trc := ((tra1 * star (c 0) + tra2 * star (c 1) + tra3 * star (c 2)) * star (d 6)).re
    let trc := trc + ((tra1 * star (c 3) + tra2 * star (c 4) + tra3 * star (c 5)) * star (d 7)).re
    let trc := trc + ((tra1 * star (c 6) + tra2 * star (c 7) + tra3 * star (c 8)) * star (d 8)).re
    tra + trb + trc
  else if NC = 2 then
    let tra1 := a 0 * b 0 + a 1 * b 2
    let tra2 := a 0 * b 1 + a 1 * b 3
    let tra3 := a 2 * b 0 + a 3 * b 2
    let tra4 := a 2 * b 1 + a 3 * b 3
    let tr := (tra1 * star (c 0) + tra2 * star (c 1)) * star (d 0)
    let tr := tr + (tra1 * star (c 2) + tra2 * star (c 3)) * star (d 1)
    let tr := tr + (tra3 * star (c 0) + tra4 * star (c 1)) * star (d 2)
    let tr := tr + (tra3 * star (c 2) + tra4 * star (c 3)) * star (d 3)
    tr.re
  else
    Re_trace_abc_dag_suNC NC a (multab_dag NC b c scratch) d

/-- `face` of the plaquette loops, e.g. `plaqs_links.c:253-256`. -/
noncomputable def face (NC : ℕ) (L : Latt) (lat : Gauge) (i mu nu : ℕ) : ℝ :=
  let t := neighbor L i mu
  let s := neighbor L i nu
  complete_plaquette NC (lat (i, mu)) (lat (t, nu)) (lat (s, mu)) (lat (i, nu))

/-- Division of doubles: a zero divisor (giving NaN or infinity) is the outcome
`none`. -/
noncomputable def fdiv (x y : ℝ) : Option ℝ := if y = 0 then none else some (x / y)

/-- `p` after the loops over `mu < dirs` and `nu < mu` at one site, e.g.
`plaqs_links.c:249-259`. -/
noncomputable def sitePlaq (NC : ℕ) (L : Latt) (lat : Gauge) (dirs i : ℕ) : ℝ :=
  forN dirs (fun mu p => forN mu (fun nu p => p + face NC L lat i mu nu) p) 0

/-- `p` after the temporal loop at one site, `plaqs_links.c:226-233` and
`t_plaq`, `plaqs_links.c:331-340`: direction `mu = ND - 1`. -/
noncomputable def siteTimePlaq (NC : ℕ) (L : Latt) (lat : Gauge) (i : ℕ) : ℝ :=
  forN (L.ND - 1) (fun nu p => p + face NC L lat i (L.ND - 1) nu) 0

/-- `av_plaquette`, `plaqs_links.c:242-264`. -/
noncomputable def av_plaquette (NC : ℕ) (L : Latt) (lat : Gauge) : Option ℝ :=
  fdiv (2 * forN (volume L) (fun i plaq => plaq + sitePlaq NC L lat L.ND i) 0)
    ((NC * L.ND * (L.ND - 1) * volume L : ℕ) : ℝ)

/-- `s_plaq`, `plaqs_links.c:298-320`. -/
noncomputable def s_plaq (NC : ℕ) (L : Latt) (lat : Gauge) : Option ℝ :=
  fdiv (2 * forN (volume L) (fun i plaq => plaq + sitePlaq NC L lat (L.ND - 1) i) 0)
    (((L.ND - 1) * (L.ND - 2) * NC * volume L : ℕ) : ℝ)

/-- `t_plaq`, `plaqs_links.c:323-343`. -/
noncomputable def t_plaq (NC : ℕ) (L : Latt) (lat : Gauge) : Option ℝ :=
  fdiv (2 * forN (volume L) (fun i plaq => plaq + siteTimePlaq NC L lat i) 0)
    (((L.ND - 1) * (L.ND - 2) * NC * volume L : ℕ) : ℝ)

/-- `all_plaquettes`, `plaqs_links.c:204-239`: return value, `sp_plaq`, `t_plaq`. -/
noncomputable def all_plaquettes (NC : ℕ) (L : Latt) (lat : Gauge) : Option (ℝ × ℝ × ℝ) :=
  let r := forN (volume L) (fun i (r : ℝ × ℝ) =>
    (r.1 + sitePlaq NC L lat (L.ND - 1) i, r.2 + siteTimePlaq NC L lat i)) (0, 0)
  (fdiv (2 * r.1) (((L.ND - 1) * (L.ND - 2) * NC * volume L : ℕ) : ℝ)).bind fun sp =>
  (fdiv (2 * r.2) (((L.ND - 1) * (L.ND - 2) * NC * volume L : ℕ) : ℝ)).map fun tp =>
    (1 / 2 * (sp + tp), sp, tp)

/-! ## Link traces -/

/-- `links`, `plaqs_links.c:449-464`. -/
noncomputable def links (NC : ℕ) (L : Latt) (lat : Gauge) : Option ℝ :=
  fdiv (forN (volume L) (fun i link =>
    link + forN L.ND (fun mu p => p + speed_trace_Re NC (lat (i, mu))) 0) 0)
    ((L.ND * NC * volume L : ℕ) : ℝ)

/-- `all_links`, `plaqs_links.c:398-420`: return value, `sp_link`, `t_link`. -/
noncomputable def all_links (NC : ℕ) (L : Latt) (lat : Gauge) : Option (ℝ × ℝ × ℝ) :=
  let r := forN (volume L) (fun i (r : ℝ × ℝ) =>
    (r.1 + forN (L.ND - 1) (fun mu p => p + speed_trace_Re NC (lat (i, mu))) 0,
      r.2 + speed_trace_Re NC (lat (i, L.ND - 1)))) (0, 0)
  (fdiv r.1 (((L.ND - 1) * NC * volume L : ℕ) : ℝ)).bind fun sp =>
  (fdiv r.2 ((NC * volume L : ℕ) : ℝ)).bind fun t =>
  (fdiv (r.1 + r.2) ((L.ND * NC * volume L : ℕ) : ℝ)).map fun a => (a, sp, t)

/-- `s_links`, `plaqs_links.c:466-482`. -/
noncomputable def s_links (NC : ℕ) (L : Latt) (lat : Gauge) : Option ℝ :=
  fdiv (forN (volume L) (fun i link =>
    link + forN (L.ND - 1) (fun mu p => p + speed_trace_Re NC (lat (i, mu))) 0) 0)
    ((volume L * (L.ND - 1) * NC : ℕ) : ℝ)

/-- `t_links`, `plaqs_links.c:484-496`. -/
noncomputable def t_links (NC : ℕ) (L : Latt) (lat : Gauge) : Option ℝ :=
  fdiv (forN (volume L) (fun i link => link + speed_trace_Re NC (lat (i, L.ND - 1))) 0)
    ((volume L * NC : ℕ) : ℝ)

/-- `indivlinks`, `plaqs_links.c:422-446`: return value and `*max`. `GLU_real` is taken to be `double`, so the second
comparison at line 439 never holds. -/
noncomputable def indivlinks (NC : ℕ) (L : Latt) (lat : Gauge) : Option (ℝ × ℝ) :=
  let r := forN (volume L) (fun i (r : ℝ × ℝ) =>
    let s := forN L.ND (fun mu (s : ℝ × ℝ) =>
      let res := speed_trace_Re NC (lat (i, mu))
      (s.1 + res, if s.2 < res then res else s.2)) (0, r.2)
    (r.1 + s.1, s.2)) (0, 0)
  (fdiv r.1 ((L.ND * NC * volume L : ℕ) : ℝ)).map fun a => (a, r.2)

/-! ## Plaquette summed by several threads -/

/-- `CLINE`, `GLU_definitions.h:467-471`. -/
def cline (ND : ℕ) : ℕ := if 2 * ND > 8 then 2 * ND else 8

/-- `av_plaquette_th`, `plaqs_links.c:266-295`: `sched` lists the iterations of the site loop in the order they are
done, each with the thread that does it, and `red` is the shared array. Each thread only writes its own slot, so one
order of the updates stands for all interleavings. -/
noncomputable def av_plaquette_th (NC : ℕ) (L : Latt) (Nthreads : ℕ) (sched : List (ℕ × ℕ)) (lat : Gauge)
    (red : ℕ → ℝ) : ℕ → ℝ :=
  let red := forN Nthreads (fun i red => Function.update red (3 + cline L.ND * i) 0) red
  sched.foldl (fun red it => Function.update red (3 + cline L.ND * it.2)
    (red (3 + cline L.ND * it.2) + sitePlaq NC L lat L.ND it.1)) red

/-- `get_plaq_th`, `adaptive_flow.c:71-82`; the same statements at `wflow.c:121-127` and `KPHB.c:56-66`. -/
noncomputable def get_plaq_th (NC : ℕ) (L : Latt) (Nthreads : ℕ) (sched : List (ℕ × ℕ)) (lat : Gauge)
    (red : ℕ → ℝ) : Option ℝ :=
  let red := av_plaquette_th NC L Nthreads sched lat red
  fdiv (forN Nthreads (fun k p => p + red (3 + cline L.ND * k)) 0)
    ((NC * (L.ND - 1) * (L.ND - 2) * volume L : ℕ) : ℝ)

/-! ## Polyakov loops -/

/-- `small_poly`, `POLY.c:37-52`. -/
noncomputable def small_poly (NC : ℕ) (L : Latt) (lat : Gauge) (site dir length : ℕ) : Arr ℂ :=
  (forN (length - 1) (fun _ (s : Arr ℂ × ℕ) =>
    let next := neighbor L s.2 dir
    (multab_atomic_right NC s.1 (lat (next, dir)), next))
    (equiv NC scratch (lat (site, dir)), site)).1

/-- `subvolume` of `poly`, `POLY.c:62-65`. -/
def polySubvolume (L : Latt) (dir : ℕ) : ℕ :=
  forN L.ND (fun i s => s * (if i ≠ dir then L.dims i else 1)) 1

/-- `poly`, `POLY.c:55-78`.  A direction `dir >= ND` reads `Latt.dims[ ND ]`,
outside the array (the clamp of line 60 sets such a direction to `ND` itself):
the outcome `none`. -/
noncomputable def poly (NC : ℕ) (L : Latt) (lat : Gauge) (dir : ℕ) : Option ℂ :=
  let dir := if dir > L.ND then L.ND else dir
  if L.ND ≤ dir then none else
  let subvolume := polySubvolume L dir
  let sum := forN subvolume (fun i (sum : Option ℂ) => sum.bind fun sum =>
    (get_mom_2piBZ L i dir).map fun x =>
      sum + Mat.trace NC (small_poly NC L lat (gen_site L x) dir (L.dims dir))) (some 0)
  if subvolume = 0 then none else sum.map fun s => s / (subvolume : ℂ)

/-! ## Gauge transformations -/

/-- `inline_gtransform_local` (portable version), `gtrans.c:144-154`: `b` becomes
`a b c^dagger`. -/
noncomputable def gtransform_local (NC : ℕ) (a b c : Arr ℂ) : Arr ℂ :=
  let temp := multab_dag_suNC NC b c scratch
  multab_suNC NC a temp b

/-- `gtransform`, `gtrans.c:168-188`.  Every iteration of the parallel loop writes
only its own links. -/
noncomputable def gtransform (NC : ℕ) (L : Latt) (gauge : ℕ → Arr ℂ) (lat : Gauge) : Gauge :=
  forN (volume L) (fun i lat =>
    forN L.ND (fun mu lat =>
      Function.update lat (i, mu)
        (gtransform_local NC (gauge i) (lat (i, mu)) (gauge (neighbor L i mu)))) lat) lat

/-- `gtransform_slice`, `gtrans.c:214-238`: `gauge` and `gauge_up` are defined on the
sites of one time slice. -/
noncomputable def gtransform_slice (NC : ℕ) (L : Latt) (gauge gauge_up : ℕ → Arr ℂ) (t : ℕ)
    (lat : Gauge) : Gauge :=
  let slice := lcu L * t
  forN (lcu L) (fun i lat =>
    let j := slice + i
    let lat := forN (L.ND - 1) (fun mu lat =>
      Function.update lat (j, mu)
        (gtransform_local NC (gauge i) (lat (j, mu)) (gauge (neighbor L i mu)))) lat
    Function.update lat (j, L.ND - 1)
      (gtransform_local NC (gauge i) (lat (j, L.ND - 1)) (gauge_up i))) lat

end GLU.Field
