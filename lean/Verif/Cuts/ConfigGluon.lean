import Verif.Cuts.Gluon

/-!
# The gluon correlator in configuration space: `src/Cuts/config_gluons.c`

`A` is the field after `Amu_fields` (lines 38-64), that is the logarithm of the links.  Smearing, the printed gauge
fixing accuracy and the output file are left out.  Real numbers stand for the floating-point numbers of the code.
-/

namespace GLU.Cuts

open Complex GLU.Mat GLU.Geom GLU.Field

/-! ### With FFTW -/

/-- The array handed to the second transform, `config_gluons.c:139-157`, executed by one thread: the loop variable
`mu` is shared between the threads, see `raceStep`. -/
noncomputable def momSquare (NC : ℕ) (L : Latt) (B : Gauge) (i : ℕ) : ℂ :=
  forN L.ND (fun mu sum => sum + trace_ab_dag NC (B (i, mu)) (B (i, mu))) 0

/-- `spatial_correlator` of a build with FFTW, `config_gluons.c:97-187`, executed by one thread; `none` is
`GLU_FAILURE`.  The first transform (lines 106-137) is the one of `mom_gauge`. -/
noncomputable def spatial_correlator_fft (NC : ℕ) (L : Latt) (sign : ℝ) (A : Gauge) (gsnorm : ℝ) (spacing : ℕ) :
    Option (ℕ → ℝ) :=
  if spacing > L.dims (L.ND - 1) then none else
  let B := mom_gauge NC L sign id A
  let out := small_plan L (-sign) (momSquare NC L B)
  some fun t => acc (fun i => (out (lcu L * t + i)).re) (lcu L) * gsnorm

/-- The normalisation `spat_norm`, `config_gluons.c:368`. -/
noncomputable def spat_norm (L : Latt) : ℝ := 1 / ((L.ND - 1) * lcu L * volume L)

/-! ### Without FFTW -/

/-- `contract_slices`, `config_gluons.c:192-221`; the unrolled sum for `ND == 4` adds the same directions. -/
noncomputable def contract_slices (NC : ℕ) (L : Latt) (A : Gauge) (x t_ref : ℕ) : ℝ :=
  acc (fun j => acc (fun mu => trace_ab_herm NC (A (x, mu)) (A (j + t_ref, mu))) (L.ND - 1)) (lcu L) / lcu L

/-- The values of the loop `for( nu = 0 ; nu < Latt.dims[mu] ; nu += spacing )`, `config_gluons.c:246`, for a positive
`spacing`. -/
def strided (spacing n : ℕ) : List ℕ := (List.range ((n + spacing - 1) / spacing)).map (spacing * ·)

/-- `recurse_sum`, `config_gluons.c:224-252`: the sum and the counter `norm`.  The first argument is the number of
directions left, `ND - 1 - mu`. -/
noncomputable def recurse_sum (NC : ℕ) (L : Latt) (A : Gauge) (idx1 idx2 spacing : ℕ) :
    ℕ → (ℕ → ℤ) → ℕ → ℝ × ℕ
  | 0, vec, norm => (contract_slices NC L A (idx1 + gen_site L vec) idx2, norm + 1)
  | n + 1, vec, norm =>
    let mu := L.ND - 1 - (n + 1)
    (strided spacing (L.dims mu)).foldl (fun (s : ℝ × ℕ) (nu : ℕ) =>
      let r := recurse_sum NC L A idx1 idx2 spacing n (Function.update vec mu (nu : ℤ)) s.2
      (s.1 + r.1, r.2)) (0, norm)

/-- `spatial_pointsource`, `config_gluons.c:255-303`; the argument `gsnorm` is not used. -/
noncomputable def spatial_pointsource (NC : ℕ) (L : Latt) (A : Gauge) : ℕ → ℝ :=
  let LT := L.dims (L.ND - 1)
  let gs : ℕ → ℝ := fun t =>
    acc (fun tau => acc (fun i => acc (fun j => acc (fun mu =>
      trace_ab_herm NC (A (i + lcu L * tau, mu)) (A (j + lcu L * ((tau + t) % LT), mu))) (L.ND - 1)) (lcu L))
        (lcu L)) LT * 2 / (lcu L * lcu L * LT)
  fun t => if t < LT / 2 + 1 then gs t else gs (LT - t)

/-- `spatial_correlator` of a build without FFTW, `config_gluons.c:306-335`; `none` is the loop of `recurse_sum` that
never ends when `spacing` is zero. -/
noncomputable def spatial_correlator_direct (NC : ℕ) (L : Latt) (A : Gauge) (spacing : ℕ) : Option (ℕ → ℝ) :=
  let LT := L.dims (L.ND - 1)
  if spacing = 1 then some (spatial_pointsource NC L A) else
  if spacing = 0 then none else
  some fun t =>
    let s : ℝ × ℕ := forN LT (fun tau (s : ℝ × ℕ) =>
      let r := recurse_sum NC L A (lcu L * tau) (lcu L * ((tau + t) % LT)) spacing (L.ND - 1) (fun _ => 0) s.2
      (s.1 + r.1, r.2)) (0, 0)
    s.1 * 2 / s.2

/-! ### The shared loop variable -/

/-- Where a thread is in the loop `for( mu = 0 ; mu < ND ; mu++ )` of `config_gluons.c:147-150`. -/
inductive RacePc where
  | start | test | body | incr | done
deriving DecidableEq

/-- A thread working on one site: where it is and the directions it has added to its private `sum`. -/
structure RaceThread where
  pc : RacePc
  used : List ℕ
deriving DecidableEq

/-- Two threads and the shared `mu`. -/
structure RaceState where
  mu : ℕ
  thr : Bool → RaceThread

/-- A step of the thread `id`: every access to the shared `mu` is a step of its own (`mu++` is one step, which leaves
out further interleavings). -/
def raceStep (ND : ℕ) (s : RaceState) (id : Bool) : RaceState :=
  let th := s.thr id
  match th.pc with
  | .start => ⟨0, Function.update s.thr id ⟨.test, th.used⟩⟩
  | .test => ⟨s.mu, Function.update s.thr id ⟨if s.mu < ND then .body else .done, th.used⟩⟩
  | .body => ⟨s.mu, Function.update s.thr id ⟨.incr, th.used ++ [s.mu]⟩⟩
  | .incr => ⟨s.mu + 1, Function.update s.thr id ⟨.test, th.used⟩⟩
  | .done => s

/-- An execution of two threads from the head of the loop: the list says which thread makes each step. -/
def raceRun (ND : ℕ) (sched : List Bool) : RaceState :=
  sched.foldl (raceStep ND) ⟨0, fun _ => ⟨.start, []⟩⟩

end GLU.Cuts
