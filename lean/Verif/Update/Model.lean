import Verif.Mat.Gram
import Mathlib.Analysis.SpecialFunctions.Trigonometric.Basic
import Mathlib.Analysis.SpecialFunctions.Log.Basic

/-!
# SU(2) subgroup rotations, overrelaxation and heat bath

Model of `Update/SU2_rotate.c` (portable version), `Update/relax.c` and the link
update of `Update/hb.c`.  The number of subgroups updated per link is the default
`NSTOCH = NSU2SUBGROUPS = NC(NC-1)/2` (GLU_definitions.h:339, 725-727); a smaller
configured `NSTOCH` does not compile in relax.c (line 59 uses `thread`, which is
only declared under `SOR`).
-/

namespace GLU.Update

open Complex GLU.Mat

/-- `NSU2SUBGROUPS`, GLU_definitions.h:339. -/
def NSU2SUBGROUPS (NC : ℕ) : ℕ := NC * (NC - 1) / 2

/-- The `for` of SU2_rotate.c:37-43 from `i1` with `n` passes left: whether it
broke out, `i1` and `index`. -/
def scanFor (su2_index : ℕ) : ℕ → ℕ → ℕ → Bool × ℕ × ℕ
  | 0, i1, index => (false, i1, index)
  | n + 1, i1, index =>
    if index = su2_index then (true, i1, index) else scanFor su2_index n (i1 + 1) (index + 1)

/-- The `while` of SU2_rotate.c:35-44 with `n = NC - 1 - del_i` passes left:
`i1` and `del_i` at the end. -/
def scanWhile (NC su2_index : ℕ) : ℕ → ℕ → ℕ → ℕ → ℕ × ℕ
  | 0, del_i, _, i1 => (i1, del_i)
  | n + 1, del_i, index, _ =>
    match scanFor su2_index (NC - (del_i + 1)) 0 index with
    | (true, i1, _) => (i1, del_i + 1)
    | (false, i1, index) => scanWhile NC su2_index n (del_i + 1) index i1

/-- `struct su2_subgroups`. -/
structure Su2Data where
  idx_a : ℕ
  idx_b : ℕ
  idx_c : ℕ
  idx_d : ℕ

/-- `compute_pertinent_indices`, SU2_rotate.c:28-52, the entry `su2_index`.  (The
variable `i1` is set by the loop whenever there is a subgroup at all; its initial
value is taken as 0.) -/
def su2_data (NC su2_index : ℕ) : Su2Data :=
  let r := scanWhile NC su2_index (NC - 1) 0 0 0
  let i1 := r.1
  let i2 := i1 + r.2
  ⟨i1 + NC * i1, i2 + NC * i1, i1 + NC * i2, i2 + NC * i2⟩

/-- The last part of `only_subgroup`, SU2_rotate.c:121-128; the inverse of a zero
norm is the outcome `none`. -/
noncomputable def normalise (temp0 temp1 temp2 temp3 : ℂ) : Option (ℂ × ℂ × ℝ) :=
  let s0 := temp0 + star temp3
  let s1 := temp1 - star temp2
  let nrm := √(s0.re * s0.re + s0.im * s0.im + s1.re * s1.re + s1.im * s1.im)
  if nrm = 0 then none else
  let scale := 1 / nrm
  some (s0 * scale, s1 * scale, scale)

/-- `only_subgroup`, SU2_rotate.c:62-130: `s0`, `s1`, `scale`. -/
noncomputable def only_subgroup (NC : ℕ) (U st : Arr ℂ) (su2_index : ℕ) : Option (ℂ × ℂ × ℝ) :=
  if NC = 3 then
    match su2_index % 3 with
    | 0 => normalise
        (U 0 * star (st 0) + U 1 * star (st 1) + U 2 * star (st 2))
        (U 0 * star (st 3) + U 1 * star (st 4) + U 2 * star (st 5))
        (U 3 * star (st 0) + U 4 * star (st 1) + U 5 * star (st 2))
        (U 3 * star (st 3) + U 4 * star (st 4) + U 5 * star (st 5))
    | 1 => normalise
        (U 3 * star (st 3) + U 4 * star (st 4) + U 5 * star (st 5))
        (U 3 * star (st 6) + U 4 * star (st 7) + U 5 * star (st 8))
        (U 6 * star (st 3) + U 7 * star (st 4) + U 8 * star (st 5))
        (U 6 * star (st 6) + U 7 * star (st 7) + U 8 * star (st 8))
    | _ => normalise
        (U 6 * star (st 6) + U 7 * star (st 7) + U 8 * star (st 8))
        (U 6 * star (st 0) + U 7 * star (st 1) + U 8 * star (st 2))
        (U 0 * star (st 6) + U 1 * star (st 7) + U 2 * star (st 8))
        (U 0 * star (st 0) + U 1 * star (st 1) + U 2 * star (st 2))
  else if NC = 2 then normalise
    (U 0 * star (st 0) + U 1 * star (st 1)) (U 0 * star (st 2) + U 1 * star (st 3))
    (U 2 * star (st 0) + U 3 * star (st 1)) (U 2 * star (st 2) + U 3 * star (st 3))
  else
    let row_a := (su2_data NC su2_index).idx_a / NC
    let col_b := (su2_data NC su2_index).idx_b % NC
    normalise
      (loopSum NC fun i => U (i + NC * row_a) * star (st (i + NC * row_a)))
      (loopSum NC fun i => U (i + NC * row_a) * star (st (i + NC * col_b)))
      (loopSum NC fun i => U (i + NC * col_b) * star (st (i + NC * row_a)))
      (loopSum NC fun i => U (i + NC * col_b) * star (st (i + NC * col_b)))

/-- `shortened_su2_multiply`, SU2_rotate.c:137-154. -/
noncomputable def shortened_su2_multiply (NC : ℕ) (w : Arr ℂ) (a b : ℂ) (su2_index : ℕ) : Arr ℂ :=
  let row_a := NC * ((su2_data NC su2_index).idx_a / NC)
  let row_c := NC * ((su2_data NC su2_index).idx_c / NC)
  forN NC (fun i w =>
    let W1 := w (row_a + i)
    let W2 := w (row_c + i)
    let w := Function.update w (row_a + i) (a * W1 + b * W2)
    Function.update w (row_c + i) (-star b * W1 + star a * W2)) w

/-- `shortened_su2_multiply_dag`, SU2_rotate.c:162-179. -/
noncomputable def shortened_su2_multiply_dag (NC : ℕ) (U : Arr ℂ) (a b : ℂ) (su2_index : ℕ) : Arr ℂ :=
  let col_a := (su2_data NC su2_index).idx_a % NC
  let col_b := (su2_data NC su2_index).idx_b % NC
  forN NC (fun i U =>
    let U1 := U (col_a + i * NC)
    let U2 := U (col_b + i * NC)
    let U := Function.update U (col_a + i * NC) (U1 * star a + U2 * star b)
    Function.update U (col_b + i * NC) (-U1 * b + U2 * a)) U

/-- `su2_rotate`, SU2_rotate.c:182-247. -/
noncomputable def su2_rotate (NC : ℕ) (U : Arr ℂ) (s0 s1 : ℂ) (su2_index : ℕ) : Arr ℂ :=
  if NC = 3 then
    match su2_index % 3 with
    | 0 => arr [s0 * U 0 + s1 * U 3, s0 * U 1 + s1 * U 4, s0 * U 2 + s1 * U 5,
        -star s1 * U 0 + star s0 * U 3, -star s1 * U 1 + star s0 * U 4,
        -star s1 * U 2 + star s0 * U 5, U 6, U 7, U 8]
    | 1 => arr [U 0, U 1, U 2, s0 * U 3 + s1 * U 6, s0 * U 4 + s1 * U 7, s0 * U 5 + s1 * U 8,
        -star s1 * U 3 + star s0 * U 6, -star s1 * U 4 + star s0 * U 7,
        -star s1 * U 5 + star s0 * U 8]
    | _ => arr [star s0 * U 0 - star s1 * U 6, star s0 * U 1 - star s1 * U 7,
        star s0 * U 2 - star s1 * U 8, U 3, U 4, U 5,
        s1 * U 0 + s0 * U 6, s1 * U 1 + s0 * U 7, s1 * U 2 + s0 * U 8]
  else if NC = 2 then
    let u0 := s0 * U 0 + s1 * U 2
    let u1 := s0 * U 1 + s1 * U 3
    arr [u0, u1, -star u1, star u0]
  else shortened_su2_multiply NC U s0 s1 su2_index

/-- `microcanonical`, relax.c:34-44. -/
noncomputable def microcanonical (s0 s1 : ℂ) : ℂ × ℂ :=
  let z := s0.re * s0.re - s0.im * s0.im - s1.re * s1.re - s1.im * s1.im
  ((z : ℂ) - I * ((2 * s0.re * s0.im : ℝ) : ℂ), ((-2 * s0.re : ℝ) : ℂ) * s1)

/-- `overrelax`, relax.c:47-72. -/
noncomputable def overrelax (NC : ℕ) (U staple : Arr ℂ) : Option (Arr ℂ) :=
  forN (NSU2SUBGROUPS NC) (fun i U => U.bind fun U =>
    (only_subgroup NC U staple i).map fun s =>
      let t := microcanonical s.1 s.2.1
      su2_rotate NC U t.1 t.2 i) (some U)

/-! ## Heat bath

The random numbers are a stream `r` of which the code has used the first `n`. -/

/-- `NHBMAX`, hb.c:44. -/
def NHBMAX : ℕ := 42

/-- `KP`, hb.c:51-60: the value of `d` and whether the draw is rejected.  `d` is
`none` when a logarithm of zero makes it infinite; the comparison then rejects.
Four numbers are used; the two logarithms are taken in the order of the text. -/
noncomputable def KP (NORM : ℝ) (r : ℕ → ℝ) (n : ℕ) : Option ℝ × Prop :=
  let x4 := r n
  let x3 := Real.cos (2 * Real.pi * r (n + 1))
  if r (n + 2) = 0 ∨ r (n + 3) = 0 then (none, True)
  else
    let d := -(Real.log (r (n + 2)) + Real.log (r (n + 3)) * x3 * x3) * NORM
    (some d, 1 - 1 / 2 * d < x4 * x4)

open Classical in
/-- `while( KP( &d , NORM , thread ) && iters < NHBMAX ) { iters++ ; }`,
hb.c:91-93, with `fuel = NHBMAX - iters`: the last `d` and the position in the
stream. -/
noncomputable def kpWhile (NORM : ℝ) (r : ℕ → ℝ) : ℕ → ℕ → Option ℝ × ℕ
  | 0, n => ((KP NORM r n).1, n + 4)
  | fuel + 1, n =>
    if (KP NORM r n).2 then kpWhile NORM r fuel (n + 4) else ((KP NORM r n).1, n + 4)

open Classical in
/-- hb.c:84-94: `d` and the position in the stream. -/
noncomputable def drawD (NORM : ℝ) (r : ℕ → ℝ) (n : ℕ) : Option ℝ × ℕ :=
  if (KP NORM r n).2 then kpWhile NORM r (NHBMAX - 1) (n + 4) else ((KP NORM r n).1, n + 4)

/-- hb.c:106-125: the new `s0`, `s1` from `d` and two random numbers. -/
noncomputable def su2From (d r1 r2 : ℝ) (s0 s1 : ℂ) : ℂ × ℂ :=
  let a0 := 1 - d
  let ar2 := |1 - a0 * a0|
  let a3 := √ar2 * (2 * r1 - 1)
  let rho := √|ar2 - a3 * a3|
  let xr2 := 2 * Real.pi * r2
  let a1 := Real.cos xr2 * rho
  let a2 := Real.sin xr2 * rho
  let rS0 := s0.re
  let iS0 := s0.im
  let rS1 := s1.re
  let iS1 := s1.im
  (⟨a0 * rS0 + a3 * iS0 + a2 * rS1 + a1 * iS1, -a0 * iS0 + rS0 * a3 - a2 * iS1 + rS1 * a1⟩,
   ⟨-a0 * rS1 + a3 * iS1 + a2 * rS0 - a1 * iS0, -a0 * iS1 - a3 * rS1 + a2 * iS0 + a1 * rS0⟩)

/-- `generate_SU2`, hb.c:78-128: the new `s0`, `s1` and the position in the
stream; `none` if the last draw of `d` was infinite. -/
noncomputable def generate_SU2 (s0 s1 : ℂ) (NORM : ℝ) (r : ℕ → ℝ) (n : ℕ) :
    Option ((ℂ × ℂ) × ℕ) :=
  let p := drawD NORM r n
  p.1.map fun d => (su2From d (r p.2) (r (p.2 + 1)) s0 s1, p.2 + 2)

/-- `hb`, hb.c:132-152: the link and the position in the stream. -/
noncomputable def hb (NC : ℕ) (U staple : Arr ℂ) (invbeta : ℝ) (r : ℕ → ℝ) (n : ℕ) :
    Option (Arr ℂ × ℕ) :=
  forN (NSU2SUBGROUPS NC) (fun i st => st.bind fun st =>
    (only_subgroup NC st.1 staple i).bind fun s =>
      (generate_SU2 s.1 s.2.1 (invbeta * s.2.2) r st.2).map fun g =>
        (su2_rotate NC st.1 g.1.1 g.1.2 i, g.2)) (some (U, n))

/-- The body of the site loop of `hb_lattice` once the staple is known,
hb.c:188-189. -/
noncomputable def hbLink (NC : ℕ) (U staple : Arr ℂ) (invbeta : ℝ) (r : ℕ → ℝ) (n : ℕ)
    (array : Arr ℂ) : Option (Arr ℂ × ℕ) :=
  (hb NC U staple invbeta r n).bind fun s => (gram_reunit NC s.1 array).map fun V => (V, s.2)

end GLU.Update
