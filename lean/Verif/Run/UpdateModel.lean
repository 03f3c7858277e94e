import Verif.IO.HdrModel

/-!
# The heat-bath update run

`hb_update`, `src/Update/KPHB.c:123-257`, with `write_configuration`, `src/Wrappers/GLUlib_wrap.c:157-188`:
the sequence of measurements, saved files and lattices, the files that are left by a crash at any point,
and the run that continues from them.

Lattices `L`, random generator states `G` and measured values `M` are arbitrary types.
-/

namespace GLU.Run

/-- What determines a run apart from lattice and generator. `step` is one call of `update_lattice`
(`KPHB.c:102-120`), a function of lattice and generator for a fixed number of threads and static scheduling;
`meas` is `perform_measurements` (`KPHB.c:41-99`); `reunit` is `latt_reunitU`, which `write_lat` calls on the
lattice before writing (`src/IO/writers.c:336`). -/
structure Prog (L G M : Type) where
  step : L → G → L × G
  meas : L → M
  reunit : L → L
  iterations : ℕ
  therm : ℕ
  Nsave : ℕ
  Nmeasure : ℕ

/-- The files `name.i` and `name.i.rand`, by trajectory number. `none`: no such file. `some none`: a file that was
opened but not finished. -/
structure Files (L G : Type) where
  config : ℕ → Option (Option L)
  rand : ℕ → Option (Option G)

/-- What happens outside of the process, in order. -/
inductive Event (L G M : Type) where
  | measured (i : ℕ) (m : M)
  | openConfig (i : ℕ)
  | wroteConfig (i : ℕ) (l : L)
  | openRand (i : ℕ)
  | wroteRand (i : ℕ) (g : G)

variable {L G M : Type}

/-- The files after one event. -/
def Files.after (F : Files L G) : Event L G M → Files L G
  | .measured _ _ => F
  | .openConfig i => { F with config := Function.update F.config i (some none) }
  | .wroteConfig i l => { F with config := Function.update F.config i (some (some l)) }
  | .openRand i => { F with rand := Function.update F.rand i (some none) }
  | .wroteRand i g => { F with rand := Function.update F.rand i (some (some g)) }

/-- The files after a sequence of events. A crash leaves the files after some first part of the events of
the run. -/
def Files.afterAll (F : Files L G) (es : List (Event L G M)) : Files L G := es.foldl Files.after F

/-- The state of the run between two iterations. -/
structure St (L G : Type) where
  lat : L
  rng : G
  files : Files L G

/-- The save of iteration `i`, `KPHB.c:217-229`: `write_configuration` refuses when the file exists
(`GLUlib_wrap.c:177-181`), and then the generator is not saved either. -/
def save (p : Prog L G M) (start i : ℕ) (s : St L G) : List (Event L G M) × L :=
  if i % p.Nsave = 0 ∧ i ≠ start then
    if (s.files.config i).isSome then ([], s.lat)
    else ([.openConfig i, .wroteConfig i (p.reunit s.lat), .openRand i, .wroteRand i s.rng], p.reunit s.lat)
  else ([], s.lat)

/-- The measurement of iteration `i`, `KPHB.c:208-214`. -/
def measure (p : Prog L G M) (i : ℕ) (l : L) : List (Event L G M) :=
  if i % p.Nmeasure = 0 then [.measured i (p.meas l)] else []

/-- One iteration, `KPHB.c:205-238`. -/
def iteration (p : Prog L G M) (start i : ℕ) (s : St L G) : List (Event L G M) × St L G :=
  let ms := measure p i s.lat
  let sv := save p start i s
  let u := p.step sv.2 s.rng
  (ms ++ sv.1, ⟨u.1, u.2, s.files.afterAll (ms ++ sv.1)⟩)

/-- `n` iterations from iteration `i` on. -/
def loop (p : Prog L G M) (start : ℕ) : (n i : ℕ) → St L G → List (Event L G M) × St L G
  | 0, _, s => ([], s)
  | n + 1, i, s =>
    let a := iteration p start i s
    let b := loop p start n (i + 1) a.2
    (a.1 ++ b.1, b.2)

/-- The loop over the trajectory, `KPHB.c:203-239`, from the trajectory number `start` (`Latt.flow`) on. The
remainder by zero is undefined, `none`, as soon as there is an iteration. -/
def trajectory (p : Prog L G M) (start : ℕ) (s : St L G) : Option (List (Event L G M) × St L G) :=
  if start < p.iterations ∧ (p.Nmeasure = 0 ∨ p.Nsave = 0) then none
  else some (loop p start (p.iterations - start) start s)

/-- The thermalisation, `KPHB.c:183-192`. -/
def thermalise (p : Prog L G M) : ℕ → L × G → L × G
  | 0, s => s
  | n + 1, s => thermalise p n (p.step s.1 s.2)

/-- A new run, `continuation == GLU_FALSE`: the trajectory number starts at zero. -/
def newRun (p : Prog L G M) (l : L) (g : G) (F : Files L G) : Option (List (Event L G M) × St L G) :=
  let s := thermalise p p.therm (l, g)
  trajectory p 0 ⟨s.1, s.2, F⟩

/-- What a continuation does. -/
inductive Resumed (R : Type) where
  | runs (r : R)
  /-- The configuration cannot be read. -/
  | refused

/-- A continuation from the files of trajectory number `i`: the configuration must be complete (an incomplete one is
taken to be refused, see C43); the trajectory number is read from its header (C45) or given by the user; the
thermalisation is not repeated (`src/IO/input_reader.c:634-637`). The generator state is restored if there is
a complete file (C48); a missing one gives a new random sequence `g'` (`src/Utils/par_rng.c:230-233`), an
incomplete one either a new sequence or a failure, `torn`. -/
def resume (p : Prog L G M) (F : Files L G) (i : ℕ) (g' : G) (torn : Option G) :
    Resumed (Option (List (Event L G M) × St L G)) :=
  match F.config i with
  | some (some l) =>
    match F.rand i with
    | some (some g) => .runs (trajectory p i ⟨l, g, F⟩)
    | none => .runs (trajectory p i ⟨l, g', F⟩)
    | some none =>
      match torn with
      | some g'' => .runs (trajectory p i ⟨l, g'', F⟩)
      | none => .refused
  | _ => .refused

end GLU.Run
