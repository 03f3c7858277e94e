import Verif.Mat.Eigen

/-!
# The exact logarithm (`Matrix_Ops/exactQ.c`, `Matrix_Ops/effs.c`)

Numbers are exact; `none` is a division by zero.  Two and three colours.
-/

namespace GLU.Mat

open Complex

/-- `STOL`, `GLU_definitions.h:162`, double precision. -/
noncomputable def STOL : ℝ := 1 / 10 ^ 13

/-- The function `sin(w)/w` with its expansion, `effs.c:86` and `exactQ.c:272`. -/
noncomputable def logE0 (w : ℝ) : ℝ :=
  let ww := w * w
  if |w| < STOL then 1 - ww / 6 * (1 - ww / 20 * (1 - ww / 42)) else Real.sin w / w

/-- `f_hermitian_log_suNC` for `NC == 3`, `effs.c:67-95`, from the real parts of `z[0]` and `z[1]`. -/
noncomputable def f_hermitian_log3 (z0 z1 : ℝ) : Option (ℂ × ℂ × ℂ) :=
  let u := 0.5 * z0
  let w := z1 + u
  let cw := Real.cos w
  let one1 : ℂ := Real.cos u - I * Real.sin u
  let two1 := star one1 * star one1
  let uu := u * u
  let ww := w * w
  if 9 * uu - ww = 0 then none else
  let denom : ℂ := (1 / (9 * uu - ww) : ℝ)
  let E0 := logE0 w
  let f0 := ((uu - ww : ℝ) : ℂ) * two1 + one1 * ((8 * uu * cw : ℝ) + I * 2 * u * ((3 * uu + ww : ℝ) : ℂ) * E0)
  let f1 := ((2 * u : ℝ) : ℂ) * two1 - one1 * ((2 * u * cw : ℝ) - I * ((3 * uu - ww : ℝ) : ℂ) * E0)
  let f2 := two1 - one1 * (cw + 3 * I * u * E0)
  some (f0 * denom, f1 * denom, f2 * denom)

/-- The entries written by `exact_log_slow`, `exactQ.c:184-192`. -/
noncomputable def logMatrix (Q U : Arr ℂ) (f2 trce : ℂ) (imf : ℝ) : Arr ℂ :=
  let con := star f2
  let q0 := trce * (con * U 0 - f2 * star (U 0)) - imf
  let q1 := trce * (con * U 1 - f2 * star (U 3))
  let q2 := trce * (con * U 2 - f2 * star (U 6))
  let q4 := trce * (con * U 4 - f2 * star (U 4)) - imf
  let q5 := trce * (con * U 5 - f2 * star (U 7))
  fun i =>
    if i = 0 then q0 else if i = 1 then q1 else if i = 2 then q2 else if i = 3 then star q1 else if i = 4 then q4 else
    if i = 5 then q5 else if i = 6 then star q2 else if i = 7 then star q5 else if i = 8 then -(q0 + q4) else Q i

/-- `exact_log_slow` for `NC == 3`, `exactQ.c:161-192`.  `Q` is the matrix found at the place of the result. -/
noncomputable def exact_log_slow3 (Q U : Arr ℂ) : Option (Arr ℂ) :=
  let z := Eigenvalues_su3 U
  let z0 := arg z.1
  let z1 := arg z.2.1
  let z2 := -(z0 - z1)
  if z0 = z1 ∧ z1 = z2 then some Q else
  (f_hermitian_log3 z0 z1).bind fun f =>
  let d := f.2.1.im * f.2.2.re - f.2.1.re * f.2.2.im
  if d = 0 then none else
  let mod := 1 / d
  let imf := (f.1.im * f.2.2.re - f.1.re * f.2.2.im) * mod
  let trce : ℂ := -I * mod / 2
  some (logMatrix Q U f.2.2 trce imf)

/-- The coefficients and the angle for `NC == 2`, `exactQ.c:195-199` and `293-297`.  `none`: the square root of a
negative number. -/
noncomputable def log2 (U : Arr ℂ) : Option (ℝ × ℝ) :=
  let reU0 := (U 0).re
  if 1 - reU0 * reU0 < 0 then none else
  let z : ℂ := reU0 + I * (√(1 - reU0 * reU0) : ℝ)
  let herm_z := arg z
  let f0 := z.re
  let f1 := if |herm_z| < SINTOLSU2 then 1 - herm_z / 6 * (1 - herm_z / 20 * (1 - herm_z / 42)) else z.im / herm_z
  some (f0, f1)

/-- `exact_log_slow` for `NC == 2`, `exactQ.c:193-208`. -/
noncomputable def exact_log_slow2 (Q U : Arr ℂ) : Option (Arr ℂ) :=
  (log2 U).bind fun f =>
  if f.2 = 0 then none else
  let oneOf1 : ℂ := -I / f.2
  let q0 := (U 0 - f.1) * oneOf1
  let q1 := U 1 * oneOf1
  some fun i => if i = 0 then q0 else if i = 1 then q1 else if i = 2 then star q1 else if i = 3 then -q0 else Q i

/-- `exact_log_slow_short` for `NC == 3`, `exactQ.c:246-291`: the coefficients are computed in place and there is no test
for the identity. -/
noncomputable def exact_log_slow_short3 (Q U : Arr ℂ) : Option (Arr ℂ) :=
  let z := Eigenvalues_su3 U
  let z0 := arg z.1
  let z1 := arg z.2.1
  let u := 0.5 * z0
  let w := z1 + u
  let cw := Real.cos w
  let one1 : ℂ := Real.cos u - I * Real.sin u
  let two1 := star one1 * star one1
  let uu := u * u
  let ww := w * w
  if 9 * uu - ww = 0 then none else
  let denom : ℂ := (1 / (9 * uu - ww) : ℝ)
  let E0 := logE0 w
  let f0 := ((uu - ww : ℝ) : ℂ) * two1 + one1 * ((8 * uu * cw : ℝ) + I * 2 * u * ((3 * uu + ww : ℝ) : ℂ) * E0)
  let f1 := ((2 * u : ℝ) : ℂ) * two1 - one1 * ((2 * u * cw : ℝ) - I * ((3 * uu - ww : ℝ) : ℂ) * E0)
  let f2 := two1 - one1 * (cw + 3 * I * u * E0)
  let f0 := f0 * denom
  let f1 := f1 * denom
  let f2 := f2 * denom
  let con := star f2
  if (f1 * con).im = 0 then none else
  let mod := 1 / (f1 * con).im
  let imf := (f0 * con).im * mod
  let trce : ℂ := -I * mod / 2
  some fun i =>
    if i = 0 then trce * (con * U 0 - f2 * star (U 0)) - imf
    else if i = 1 then trce * (con * U 1 - f2 * star (U 3))
    else if i = 2 then trce * (con * U 2 - f2 * star (U 6))
    else if i = 3 then trce * (con * U 4 - f2 * star (U 4)) - imf
    else if i = 4 then trce * (con * U 5 - f2 * star (U 7)) else Q i

/-- `exact_log_slow_short` for `NC == 2`, `exactQ.c:292-303`. -/
noncomputable def exact_log_slow_short2 (Q U : Arr ℂ) : Option (Arr ℂ) :=
  (log2 U).bind fun f =>
  if f.2 = 0 then none else
  let oneOf1 : ℂ := -I / f.2
  some fun i => if i = 0 then (U 0 - f.1) * oneOf1 else if i = 1 then U 1 * oneOf1 else Q i

end GLU.Mat
