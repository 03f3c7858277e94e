import Verif.Mat.Gram
import Verif.Mat.Invert
import Mathlib.Analysis.SpecialFunctions.Trigonometric.Inverse

/-!
# Exponentiation of traceless Hermitian matrices

Model of `Matrix_Ops/expMat.c` (no LAPACKE, no GSL, double precision).  `none` is a run in
which a division by zero, an `acos` outside its domain or a refused inversion would put NaN or
stale values in the result.  The literal `r3` (`expMat.c:31`) is modelled as the real square
root of three, which it is to double precision.
-/

namespace GLU.Mat

open Complex

/-- `SINTOL`, `GLU_definitions.h:157`. -/
noncomputable def SINTOL : ℝ := 1 / 20

/-- `SINTOLSU2`, `GLU_definitions.h:163`, double precision. -/
noncomputable def SINTOLSU2 : ℝ := 1 / 10 ^ 4

open Classical in
/-- The three coefficients from the determinant `c0` and `c1`, `expMat.c:203-237`; the same
text at `expMat.c:423-461`, where the product with `denom` is a separate statement. -/
noncomputable def effs3 (c0 c1 : ℝ) : Option (ℂ × ℂ × ℂ) :=
  let flag : ℝ := if c0 < 0 then -1 else 1
  let c0 := c0 * flag
  let rc1 := √c1
  let c0_max := 2 * rc1 * c1
  if c0_max = 0 ∨ 1 < |c0 / c0_max| then none else
  let theta := Real.arccos (c0 / c0_max) / 3
  let s := Real.sin theta
  let c := Real.cos theta
  let u := rc1 * c
  let w := √3 * rc1 * s
  let uu := u * u
  let ww := w * w
  if 9 * uu - ww = 0 then none else
  let denom := 1 / (9 * uu - ww)
  let s := Real.sin u
  let c := Real.cos u
  let one : ℂ := c - I * s
  let two : ℂ := star one
  let two := two * two
  let s := Real.sin w
  let c := Real.cos w
  let E0 : ℝ := if |w| < SINTOL then 1 - ww / 6 * (1 - ww / 20 * (1 - ww / 42)) else s / w
  let f0 : ℂ := ((uu - ww : ℝ) : ℂ) * two +
    one * ((8 * uu * c : ℝ) + 2 * I * u * (3 * uu + ww) * E0)
  let f1 : ℂ := ((2 * u : ℝ) : ℂ) * two - one * ((2 * u * c : ℝ) - I * (3 * uu - ww) * E0)
  let f2 : ℂ := two - one * (c + 3 * I * u * E0)
  let f0 : ℂ := denom * (f0.re + I * f0.im * flag)
  let f1 : ℂ := denom * (flag * f1.re + I * f1.im)
  let f2 : ℂ := denom * (f2.re + I * f2.im * flag)
  some (f0, f1, f2)

/-- The determinant `c0`, `expMat.c:195-201` and `expMat.c:410-421`. -/
noncomputable def c0det (REQ0 REQ1 IMQ1 REQ2 IMQ2 REQ4 REQ5 IMQ5 REQ8 : ℝ) : ℝ :=
  let c0 := REQ0 * (REQ4 * REQ8 - REQ5 * REQ5 - IMQ5 * IMQ5)
  let c0 := c0 - REQ1 * (REQ1 * REQ8 - REQ5 * REQ2 - IMQ5 * IMQ2)
  let c0 := c0 + IMQ1 * (-IMQ1 * REQ8 + REQ5 * IMQ2 - IMQ5 * REQ2)
  let c0 := c0 + REQ2 * (-REQ4 * REQ2 + REQ1 * REQ5 - IMQ1 * IMQ5)
  c0 - IMQ2 * (REQ4 * IMQ2 - REQ1 * IMQ5 - IMQ1 * REQ5)

/-- The last part of the `NC == 3` branches, `expMat.c:239-268` and `expMat.c:463-493`:
`U = f0 + f1 Q + f2 QQ`.  `Q1 … Q7` are the entries of `Q` the code multiplies with `f1`. -/
noncomputable def assemble3 (REQ0 REQ1 IMQ1 REQ2 IMQ2 REQ4 REQ5 IMQ5 REQ8 : ℝ)
    (Q1 Q2 Q3 Q5 Q6 Q7 : ℂ) (f0 f1 f2 : ℂ) : Arr ℂ :=
  let temp0 : ℝ := REQ0 * REQ0 + REQ1 * REQ1 + IMQ1 * IMQ1 + REQ2 * REQ2 + IMQ2 * IMQ2
  let temp1 : ℂ := ((-REQ1 * REQ8 + REQ2 * REQ5 + IMQ2 * IMQ5 : ℝ) : ℂ) +
    I * ((REQ5 * IMQ2 - REQ2 * IMQ5 - IMQ1 * REQ8 : ℝ) : ℂ)
  let temp2 : ℂ := ((REQ1 * REQ5 - IMQ1 * IMQ5 - REQ2 * REQ4 : ℝ) : ℂ) +
    I * ((IMQ1 * REQ5 + IMQ5 * REQ1 - IMQ2 * REQ4 : ℝ) : ℂ)
  let temp3 : ℝ := REQ4 * REQ4 + REQ1 * REQ1 + IMQ1 * IMQ1 + REQ5 * REQ5 + IMQ5 * IMQ5
  let temp4 : ℂ := ((REQ1 * REQ2 + IMQ2 * IMQ1 - REQ0 * REQ5 : ℝ) : ℂ) +
    I * ((REQ1 * IMQ2 - REQ2 * IMQ1 - REQ0 * IMQ5 : ℝ) : ℂ)
  let temp5 : ℝ := REQ8 * REQ8 + REQ2 * REQ2 + IMQ2 * IMQ2 + REQ5 * REQ5 + IMQ5 * IMQ5
  arr [f0 + f1 * REQ0 + f2 * temp0, f1 * Q1 + f2 * temp1, f1 * Q2 + f2 * temp2,
    f1 * Q3 + f2 * star temp1, f0 + f1 * REQ4 + f2 * temp3, f1 * Q5 + f2 * temp4,
    f1 * Q6 + f2 * star temp2, f1 * Q7 + f2 * star temp4, f0 + f1 * REQ8 + f2 * temp5]

/-- `exponentiate` for `NC == 3`, `expMat.c:160-268`. -/
noncomputable def exponentiate3 (Q : Arr ℂ) : Option (Arr ℂ) :=
  let REQ0 := (Q 0).re
  let REQ1 := (Q 1).re
  let IMQ1 := (Q 1).im
  let REQ2 := (Q 2).re
  let IMQ2 := (Q 2).im
  let REQ4 := (Q 4).re
  let REQ5 := (Q 5).re
  let IMQ5 := (Q 5).im
  let REQ8 := (Q 8).re
  let c1 := (REQ0 * REQ0 + REQ0 * REQ4 + REQ4 * REQ4 + REQ1 * REQ1 + IMQ1 * IMQ1
    + REQ2 * REQ2 + IMQ2 * IMQ2 + REQ5 * REQ5 + IMQ5 * IMQ5) / 3
  if c1 < DBL_MIN then some (arr [1, 0, 0, 0, 1, 0, 0, 0, 1]) else
  let c0 := c0det REQ0 REQ1 IMQ1 REQ2 IMQ2 REQ4 REQ5 IMQ5 REQ8
  (effs3 c0 c1).map fun f =>
    assemble3 REQ0 REQ1 IMQ1 REQ2 IMQ2 REQ4 REQ5 IMQ5 REQ8 (Q 1) (Q 2) (Q 3) (Q 5) (Q 6) (Q 7)
      f.1 f.2.1 f.2.2

/-- `exponentiate_short` for `NC == 3`, `expMat.c:376-493`. -/
noncomputable def exponentiate_short3 (Q : Arr ℂ) : Option (Arr ℂ) :=
  let REQ0 := (Q 0).re
  let REQ1 := (Q 1).re
  let IMQ1 := (Q 1).im
  let REQ2 := (Q 2).re
  let IMQ2 := (Q 2).im
  let REQ4 := (Q 3).re
  let REQ5 := (Q 4).re
  let IMQ5 := (Q 4).im
  let REQ8 := -(REQ0 + REQ4)
  let c1 := (-REQ0 * REQ8 + REQ4 * REQ4 + REQ1 * REQ1 + IMQ1 * IMQ1
    + REQ2 * REQ2 + IMQ2 * IMQ2 + REQ5 * REQ5 + IMQ5 * IMQ5) / 3
  if c1 < DBL_MIN then some (arr [1, 0, 0, 0, 1, 0, 0, 0, 1]) else
  let c0 := c0det REQ0 REQ1 IMQ1 REQ2 IMQ2 REQ4 REQ5 IMQ5 REQ8
  (effs3 c0 c1).map fun f =>
    assemble3 REQ0 REQ1 IMQ1 REQ2 IMQ2 REQ4 REQ5 IMQ5 REQ8 (Q 1) (Q 2) (star (Q 1)) (Q 4)
      (star (Q 2)) (star (Q 4)) f.1 f.2.1 f.2.2

/-- `f1` of the `NC == 2` branches, `expMat.c:279` and `expMat.c:504`. -/
noncomputable def f1su2 (z : ℝ) : ℝ :=
  if |z| < SINTOLSU2 then 1 - z / 6 * (1 - z / 20 * (1 - z / 42)) else Real.sin z / z

/-- `exponentiate` for `NC == 2`, `expMat.c:270-286`. -/
noncomputable def exponentiate2 (Q : Arr ℂ) : Arr ℂ :=
  let z := √((Q 0).re * (Q 0).re + (Q 1).re * (Q 1).re + (Q 1).im * (Q 1).im)
  let f0 := Real.cos z
  let f1 := f1su2 z
  let f1Q0 : ℂ := I * f1 * (Q 0).re
  let f1Q1 : ℂ := I * f1 * Q 1
  arr [f0 + f1Q0, f1Q1, -star f1Q1, f0 - f1Q0]

/-- `exponentiate_short` for `NC == 2`, `expMat.c:495-511`. -/
noncomputable def exponentiate_short2 (Q : Arr ℂ) : Arr ℂ :=
  let z := √((Q 0).re * (Q 0).re + (Q 1).re * (Q 1).re + (Q 1).im * (Q 1).im)
  let f0 := Real.cos z
  let f1 := f1su2 z
  let f1Q0 : ℂ := I * f1 * Q 0
  let f1Q1 : ℂ := I * f1 * Q 1
  arr [f0 + f1Q0, f1Q1, -star f1Q1, f0 - f1Q0]

/-- The coefficients set by `init_factorial`, `expMat.c:62-67`. -/
noncomputable def pade : ℕ → ℂ
  | 0 => 1
  | 1 => 1 / 2
  | 2 => 3 / 28
  | 3 => 1 / 84
  | _ => 1 / 1680

/-- `horners_pade`, `expMat.c:109-122`. -/
noncomputable def horners_pade (NC : ℕ) (a b : Arr ℂ) : Arr ℂ :=
  let a := mapN (NC * NC) (fun i _ => b i * pade 4) a
  let a := forN 3 (fun t a => multab_atomic_left NC (add_constant NC a (pade (3 - t))) b) a
  forN NC (fun i a => Function.update a (i * (NC + 1)) (a (i * (NC + 1)) + 1)) a

open Classical in
/-- The result of `inverse` read back as complex numbers: `none` when it was refused or is not
made of numbers. -/
noncomputable def readBack (NC : ℕ) (o : Option (Arr CE)) : Option (Arr ℂ) :=
  o.bind fun v => if ∀ x < NC * NC, (v x).isSome then some (fun x => (v x).getD 0) else none

/-- Local arrays of `exponentiate` for many colours, `expMat.c:305-312`; `stop` records the
`break`. -/
structure ExpState where
  EOLD : Arr ℂ
  U : Arr ℂ
  RN : Arr ℂ
  RN_MIN : Arr ℂ
  SN : Arr ℂ
  stop : Bool

open Classical in
/-- One pass of the nesting loop, `expMat.c:317-360`.  The test `n >= MAX_FACTORIAL - 1` is
never true for `n < 10`. -/
noncomputable def expStep (NC : ℕ) (Q : Arr ℂ) (n : ℕ) (o : Option ExpState) : Option ExpState :=
  o.bind fun s =>
  if s.stop then some s else
  let iter := 2 <<< (n - 1)
  let fact : ℂ := I / (iter : ℂ)
  let SN := mapN (NC * NC) (fun j _ => Q j * fact) s.SN
  let RN := horners_pade NC s.RN SN
  let SN := mapN (NC * NC) (fun _ x => x * (-1)) SN
  let RN_MIN := horners_pade NC s.RN_MIN SN
  (readBack NC (inverse NC RN_MIN)).bind fun SN =>
  let RN := multab_atomic_right NC RN SN
  let U := matrix_power NC s.U RN iter
  let sum := loopSum (NC * NC) (fun j => ‖s.EOLD j - U j‖) / (NC * NC)
  let EOLD := mapN (NC * NC) (fun j _ => U j) s.EOLD
  some { EOLD := EOLD, U := U, RN := RN, RN_MIN := RN_MIN, SN := SN,
         stop := decide (sum < PREC_TOL NC) }

/-- `exponentiate` for `NC > 3` without LAPACKE and GSL, `expMat.c:305-363`; `g` is the
uninitialised memory of the local arrays. -/
noncomputable def exponentiateN (NC : ℕ) (Q g : Arr ℂ) : Option (Arr ℂ) :=
  (forFrom 3 10 (expStep NC Q)
    (some { EOLD := zero_mat NC g, U := g, RN := g, RN_MIN := g, SN := g, stop := false })).bind
  fun s => gram_reunit NC s.U g

/-- `exponentiate`, `expMat.c:155-367`. -/
noncomputable def exponentiate (NC : ℕ) (Q g : Arr ℂ) : Option (Arr ℂ) :=
  if NC = 3 then exponentiate3 Q else if NC = 2 then some (exponentiate2 Q)
  else exponentiateN NC Q g

/-- `exponentiate_short`, `expMat.c:371-519`. -/
noncomputable def exponentiate_short (NC : ℕ) (Q g : Arr ℂ) : Option (Arr ℂ) :=
  if NC = 3 then exponentiate_short3 Q else if NC = 2 then some (exponentiate_short2 Q)
  else exponentiate NC (rebuild_hermitian NC g Q) g

end GLU.Mat
