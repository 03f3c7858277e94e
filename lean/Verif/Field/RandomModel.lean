import Verif.Field.Model
import Verif.Mat.Gram
import Verif.Rng.Gauss

/-!
# Random, unit and reunitarised configurations

`src/Geometry/random_config.c`, with `Sunitary_gen` of `src/Matrix_Ops/gramschmidt.c:226-234` and
`par_generate_NCxNC` of `src/Utils/par_rng.c:157-168`.

Every thread has its own stream of random numbers, here the list of the pairs of uniform numbers it
will draw. A run of a parallel loop is the list of its iterations in the order in which they happen,
each with the thread that performs it. A matrix holding a number that is not finite is `none`. The
allocations are taken to succeed (`random_gtrans` goes on after a failed one), and the generator is
taken to be initialised before.
-/

namespace GLU.Field

open Complex GLU.Mat GLU.Geom GLU.Sched GLU.Rng

/-- `par_polar_box`, `par_rng.c:178-187`, with the pairs left for the next call. -/
noncomputable def box_rest : List (ℝ × ℝ) → Option (Option ℂ × List (ℝ × ℝ))
  | [] => none
  | (x, y) :: more =>
    let u := 2 * x - 1
    let v := 2 * y - 1
    let s := u * u + v * v
    if s < 1 then
      some (if s = 0 then none else some (Real.sqrt (-Real.log s / s) * (u + Complex.I * v)), more)
    else box_rest more

/-- `par_generate_NCxNC`, `par_rng.c:157-168`: `none` when the stream is used up, the inner `none`
when one of the numbers is not finite. -/
noncomputable def par_generate_NCxNC (NC : ℕ) (l : List (ℝ × ℝ)) :
    Option (Option (Arr ℂ) × List (ℝ × ℝ)) :=
  forN (NC * NC) (fun i (st : Option (Option (Arr ℂ) × List (ℝ × ℝ))) =>
    st.bind fun st => (box_rest st.2).map fun r =>
      (st.1.bind fun U => r.1.map fun z => Function.update U i z, r.2)) (some (some scratch, l))

/-- `Sunitary_gen`, `gramschmidt.c:226-234`. A number that is not finite spoils the matrix (in
`gram_reunit` for two and three colours the numbers of the last column are not used; here they
count too). -/
noncomputable def Sunitary_gen (NC : ℕ) (l : List (ℝ × ℝ)) : Option (Option (Arr ℂ) × List (ℝ × ℝ)) :=
  (par_generate_NCxNC NC l).map fun r => (r.1.bind fun U => gram_reunit NC U scratch, r.2)

/-- Memory while random matrices are made: the matrices and the streams of the threads. -/
structure RState (ι : Type) where
  mat : ι → Option (Arr ℂ)
  str : ℕ → List (ℝ × ℝ)

variable {ι : Type} [DecidableEq ι]

/-- `Sunitary_gen( place , thread )`, as in `random_config.c:77`, `:100`, `:116` and `:135`. -/
noncomputable def genStep (NC : ℕ) (st : RState ι) (it : ι × ℕ) : Option (RState ι) :=
  (Sunitary_gen NC (st.str it.2)).map fun r =>
    ⟨Function.update st.mat it.1 r.1, Function.update st.str it.2 r.2⟩

/-- The parallel loops `random_config.c:74-78`, `:98-101`, `:114-117` and `:130-137`, in the order
`sched`. -/
noncomputable def genAll (NC : ℕ) (sched : List (ι × ℕ)) (st : RState ι) : Option (RState ι) :=
  sched.foldlM (genStep NC) st

/-- `random_suNC`, `random_config.c:122-139`: the links and the streams afterwards. -/
noncomputable def random_suNC (NC : ℕ) (sched : List (Loc × ℕ)) (st : RState Loc) : Option (RState Loc) :=
  genAll NC sched st

/-- `random_gtrans`, `random_config.c:59-89`, and `random_transform`, `:106-120`: the field afterwards,
the matrices used and the streams. When a matrix is not finite the field is `none` (in the code only
the links at its site). -/
noncomputable def random_transform (NC : ℕ) (L : Latt) (sched : List (ℕ × ℕ)) (st : RState ℕ) (lat : Gauge) :
    Option (Option Gauge × RState ℕ) :=
  (genAll NC sched st).map fun r =>
    (if ∀ i < volume L, (r.mat i).isSome then
        some (gtransform NC L (fun i => (r.mat i).getD scratch) lat)
      else none, r)

/-- `latt_reunitU`, `random_config.c:41-57` without `OBC_HACK`: every link, `none` when the routine
divides by zero there. `reunit_gauge_slices`, `:141-153`, does the same on two slices. -/
noncomputable def latt_reunitU (NC : ℕ) (L : Latt) (lat : Gauge) : Loc → Option (Arr ℂ) :=
  forN (volume L) (fun i (r : Loc → Option (Arr ℂ)) =>
    forN L.ND (fun mu (r : Loc → Option (Arr ℂ)) =>
      Function.update r (i, mu) ((r (i, mu)).bind fun U => gram_reunit NC U scratch)) r) (fun x => some (lat x))

/-- `trivial`, `random_config.c:155-168`. -/
noncomputable def trivial_links (NC : ℕ) (L : Latt) (lat : Gauge) : Gauge :=
  forN (volume L) (fun i (lat : Gauge) =>
    forN L.ND (fun mu (lat : Gauge) => Function.update lat (i, mu) (identity NC (lat (i, mu)))) lat) lat

end GLU.Field
