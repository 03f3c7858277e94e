import Verif.Field.Topo

/-!
# Quenched U(1) fields

Models of `src/U1/SUNCxU1_config.c`, `src/U1/U1_obs.c` and `src/U1/U1_top.c` and of `gen_p_sq_feyn`
(`src/Geometry/geometry.c`).  Real arithmetic in place of doubles.  The random number generator is represented by the
values it hands out, which may depend on the thread that asks; failed allocations, printing and timing are not modelled.
-/

namespace GLU.U1

open Complex GLU.Mat GLU.Geom GLU.Field

/-- One complex number for every direction and site: `FFTW -> in[mu][i]`, `FFTW -> out[mu][i]`. -/
abbrev Fields := ℕ → ℕ → ℂ

/-! ## Momenta -/

/-- `Latt.twiddles[ mu ]`, `src/Geometry/init.c`: `2 pi / Latt.dims[ mu ]`. -/
noncomputable def twiddle (L : Latt) (mu : ℕ) : ℝ := 2 * Real.pi / (L.dims mu : ℝ)

/-- `kcos` and `*flag` after the loop of `gen_p_sq_feyn`, `geometry.c:195-205`. -/
noncomputable def feynLoop (L : Latt) (i : ℕ) : ℝ × ℕ :=
  forN L.ND (fun mu (s : ℝ × ℕ) =>
    (s.1 + Real.cos ((coord L L.ND i mu : ℝ) * twiddle L mu),
      if s.2 ≠ 0 ∧ mu < L.ND - 1 then (if 0 < coord L L.ND i mu then 0 else 1) else s.2)) (0, 1)

open Classical in
/-- `gen_p_sq_feyn`, `geometry.c:189-211`: return value and `*flag`. -/
noncomputable def gen_p_sq_feyn (L : Latt) (i : ℕ) : ℝ × ℕ :=
  let r := feynLoop L i
  (if r.1 = (L.ND : ℝ) then 1 else 2 * ((L.ND : ℝ) - r.1), r.2)

/-- `FFTW.psq[i]`, `SUNCxU1_config.c:215-225`. -/
noncomputable def psq (L : Latt) (i : ℕ) : ℝ :=
  let r := gen_p_sq_feyn L i
  let f := 1 / Real.sqrt r.1
  if r.2 = 1 then 0 else f

/-- `check` of `compute_zeropoint` after the passes `mu`, ..., 1 of the loop, `SUNCxU1_config.c:48-51`. -/
def zeroLoop (L : Latt) : ℕ → ℕ → ℕ
  | 0, check => check
  | mu + 1, check => zeroLoop L mu (L.dims (mu + 1) * (1 + check))

/-- `compute_zeropoint`, `SUNCxU1_config.c:42-54`. -/
def compute_zeropoint (L : Latt) : ℕ :=
  if L.ND = 4 then (L.dims 0 * (1 + L.dims 1 * (1 + L.dims 2 * (1 + L.dims 3)))) / 2
  else zeroLoop L (L.ND - 2) (L.dims (L.ND - 1)) / 2

/-- `conjugate_site`, `SUNCxU1_config.c:57-75`. -/
def conjugate_site (L : Latt) (i : ℕ) : ℕ :=
  get_site_2piBZ L (fun mu => -mom_pipi L i L.ND mu) L.ND

/-! ## The fields in momentum space -/

/-- The first loop of `periodic_dft`, `SUNCxU1_config.c:82-97`; `rnd mu i` is what `par_polar_box` returns for the element
`in[mu][i]`.  The iterations are shared between threads, each writing elements of its own. -/
noncomputable def randomFields (L : Latt) (psq : ℕ → ℝ) (rnd : Fields) : Fields :=
  fun mu i => (psq i : ℂ) * rnd mu i

/-- `in[mu][j] = v mu` for all directions. -/
def store (L : Latt) (f : Fields) (j : ℕ) (v : ℕ → ℂ) : Fields :=
  fun mu k => if mu < L.ND ∧ k = j then v mu else f mu k

/-- One pass of the second loop of `periodic_dft`, `SUNCxU1_config.c:99-111`.  `none`: an element that does not exist is
read or written. -/
noncomputable def fillStep (L : Latt) (i : ℕ) (f : Fields) : Option Fields :=
  let b := conjugate_site L i
  if i = b then
    if i < volume L then some (store L f i fun mu => ((f mu i).re : ℂ)) else none
  else if b < i then some f
  else if i < volume L ∧ b < volume L then some (store L f b fun mu => star (f mu i)) else none

/-- The second loop of `periodic_dft`, `SUNCxU1_config.c:98-112`. -/
noncomputable def fillLoop (L : Latt) (f : Fields) : ℕ → Option Fields
  | 0 => some f
  | n + 1 => (fillLoop L f n).bind (fillStep L n)

/-- `periodic_dft`, `SUNCxU1_config.c:78-113`. -/
noncomputable def periodic_dft (L : Latt) (psq : ℕ → ℝ) (rnd : Fields) : Option Fields :=
  fillLoop L (randomFields L psq rnd) (compute_zeropoint L + 1)

/-! ## The fields in configuration space -/

/-- `e`, `SUNCxU1_config.c:132`. -/
noncomputable def elementary (alpha : ℝ) : ℝ := Real.sqrt (4 * Real.pi * alpha)

/-- `create_u1` from the transforms on, `SUNCxU1_config.c:144-184`: the fields and the gauge field. -/
noncomputable def u1ify (NC : ℕ) (L : Latt) (alpha charge : ℝ) (f : Fields) (lat : Gauge) : Fields × Gauge :=
  let rv := 1 / Real.sqrt (volume L)
  let out : Fields := fun mu => small_plan L (-1) (f mu)
  forN (volume L * L.ND) (fun i (s : Fields × Gauge) =>
    let idx := i / L.ND
    let mu := i % L.ND
    let a := (s.1 mu idx).re * rv
    let th := a * elementary alpha * charge
    let U1 : ℂ := Real.cos th + I * Real.sin th
    (Function.update s.1 mu (Function.update (s.1 mu) idx (a : ℂ)),
      Function.update s.2 (idx, mu) (mapN (NC * NC) (fun j z => z * U1) (s.2 (idx, mu))))) (out, lat)

/-- `suNC_cross_u1` with FFTW, `SUNCxU1_config.c:195-240`: the U(1) fields `FFTW.out` and the gauge field afterwards. -/
noncomputable def suNC_cross_u1 (NC : ℕ) (L : Latt) (alpha charge : ℝ) (rnd : Fields) (lat : Gauge) :
    Option (Fields × Gauge) :=
  (periodic_dft L (psq L) rnd).map fun f => u1ify NC L alpha charge f lat

/-! ## Observables, U1_obs.c -/

/-- `non_plaquette`, `U1_obs.c:29-57`: return value and `*plaq`. -/
noncomputable def non_plaquette (L : Latt) (O : Fields) : Option (ℝ × ℝ) :=
  let r := forN (volume L) (fun i (r : ℝ × ℝ) =>
    let loc := forN (L.ND - 1) (fun m (s : ℝ × ℝ) =>
      let mu := m + 1
      let s' := neighbor L i mu
      forN mu (fun nu (q : ℝ × ℝ) =>
        let t := neighbor L i nu
        let temp := (O mu i + O nu s' - O mu t - O nu i).re
        (q.1 + Real.cos temp, q.2 + temp * temp)) s) (0, 0)
    (r.1 + loc.1, r.2 + loc.2)) (0, 0)
  (fdiv 2 ((volume L * L.ND * (L.ND - 1) : ℕ) : ℝ)).map fun denom => (r.2 * denom, r.1 * denom)

/-- `U1_rectangle`, `U1_obs.c:60-100`: return value and `*U1REC`. -/
noncomputable def U1_rectangle (L : Latt) (O : Fields) : Option (ℝ × ℝ) :=
  let r := forN (volume L) (fun i (r : ℝ × ℝ) =>
    let loc := forN (L.ND - 1) (fun m (s : ℝ × ℝ) =>
      let mu := m + 1
      let s' := neighbor L i mu
      let t := neighbor L s' mu
      forN mu (fun nu (q : ℝ × ℝ) =>
        let v := neighbor L i nu
        let u := neighbor L v mu
        let cache := (O mu i + O mu s' + O nu t - O mu u - O mu v - O nu i).re
        let t2 := neighbor L s' nu
        let u2 := neighbor L v nu
        let cache2 := (O mu i + O nu s' + O nu t2 - O mu u2 - O nu v - O nu i).re
        (q.1 + Real.cos cache + Real.cos cache2, q.2 + cache * cache + cache2 * cache2)) s) (0, 0)
    (r.1 + loc.1, r.2 + loc.2)) (0, 0)
  (fdiv 1 ((volume L * L.ND * (L.ND - 1) : ℕ) : ℝ)).map fun denom => (r.2 * denom, r.1 * denom)

/-- `normU`, `U1_obs.c:103-116`; adding a complex number to a `double` keeps its real part. -/
noncomputable def normU (L : Latt) (U : Fields) : Option ℝ :=
  let sum := forN (volume L) (fun i (s : ℝ) => forN L.ND (fun mu (s : ℝ) => s + (U mu i).re) s) 0
  (fdiv (sum * sum) (volume L : ℝ)).map Real.sqrt

/-! ## Topology, U1_top.c -/

/-- `noncompact_face`, `U1_top.c:51-64`. -/
noncomputable def noncompact_face (L : Latt) (O : Fields) (i mu nu : ℕ) : ℝ :=
  let a := (O mu i).re
  let b := (O nu (gen_shift L i mu)).re
  let d := (O nu i).re
  let c := (O mu (gen_shift L i nu)).re
  a + b - c - d

/-- The conversion of a real number to an integer: towards zero. -/
noncomputable def truncZ (x : ℝ) : ℤ := if 0 ≤ x then ⌊x⌋ else ⌈x⌉

/-- `mod_2pi`, `U1_top.c:44-48`: the cast binds tighter than the division, and the quotient is converted on return.
Defined when `theta` fits into an `int`. -/
noncomputable def mod_2pi (theta : ℝ) : ℤ := truncZ ((truncZ theta : ℝ) / (2 * Real.pi))

/-- `obtain_S`, `U1_top.c:67-75`. -/
noncomputable def obtain_S (L : Latt) (O : Fields) (i mu nu : ℕ) : ℤ := mod_2pi (noncompact_face L O i mu nu)

/-- `dirac_sheet`, `U1_top.c:78-97`. -/
noncomputable def dirac_sheet (L : Latt) (O : Fields) : ℤ :=
  forN (volume L) (fun i (sheet : ℤ) =>
    sheet + forN L.ND (fun mu (s : ℤ) => forN mu (fun nu (s : ℤ) => s + |obtain_S L O i mu nu|) s) 0) 0

/-- `M[ mu ][ i ]` after `dirac`, `U1_top.c:100-131`, for windings `S site rho sigma`; the array starts out zero. -/
def dirac (L : Latt) (S : ℕ → ℕ → ℕ → ℤ) (mu i : ℕ) : ℤ :=
  forN L.ND (fun nu (M : ℤ) =>
    if nu ≠ mu then
      forN L.ND (fun rho (M : ℤ) => forN rho (fun sigma (M : ℤ) =>
        if sigma = mu ∨ rho = mu ∨ sigma = nu ∨ rho = nu then M
        else
          let factor : ℤ := if nu % 2 = 1 then 1 else -1
          let temp := gen_shift L i nu
          M + factor * (S temp rho sigma - S i rho sigma)) M) M
    else M) 0

/-- `current`, `U1_top.c:28-41`.  The total is taken to fit into an `int`. -/
def current (L : Latt) (M : ℕ → ℕ → ℤ) : ℤ :=
  forN L.ND (fun mu (s : ℤ) => s + forN (volume L) (fun i (s : ℤ) => s + |M mu i|) 0) 0

/-- `non_Qtop`, `U1_top.c:136-150`. -/
noncomputable def non_Qtop (L : Latt) (O : Fields) : ℝ :=
  forN (volume L) (fun i (charge : ℝ) =>
    charge + (noncompact_face L O i 0 1 * noncompact_face L O i 2 3 +
      noncompact_face L O i 0 2 * noncompact_face L O i 3 1 +
      noncompact_face L O i 0 3 * noncompact_face L O i 1 2)) 0 * 0.001583143494411527678811

/-- Every plaquette angle that `dirac` and `dirac_sheet` convert fits into an `int`. -/
def Convertible (L : Latt) (O : Fields) : Prop :=
  ∀ i < volume L, ∀ mu < L.ND, ∀ nu < mu, |noncompact_face L O i mu nu| < 2 ^ 31

open Classical in
/-- `U1_topological`, `U1_top.c:152-181`: `*monopole`, `*d_sheet`, `*qtop`.  `none`: a conversion of a number out of range,
or a direction that does not exist is read by `non_Qtop`. -/
noncomputable def U1_topological (L : Latt) (O : Fields) : Option (ℤ × ℤ × ℝ) :=
  if Convertible L O ∧ 4 ≤ L.ND then
    some (current L (dirac L (obtain_S L O)), dirac_sheet L O, non_Qtop L O)
  else none

end GLU.U1
