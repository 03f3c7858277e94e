import Verif.Mat.Exp
import Mathlib.Analysis.SpecialFunctions.Complex.Arg
import Mathlib.Analysis.SpecialFunctions.Pow.Real

/-!
# Eigenvalues

Model of `Matrix_Ops/evalues.c` for two and three colours, in double precision taken as real numbers.  The literal `rr3`
(`evalues.c:36`) is modelled as `i` times the real square root of three, which it is to double precision.
-/

namespace GLU.Mat

open Complex

/-- `rr3`, `evalues.c:36`. -/
noncomputable def rr3 : ℂ := I * (√3 : ℝ)

/-- `cubert`, `evalues.c:40-48`: one of the cube roots. -/
noncomputable def cubert (z : ℂ) : ℂ :=
  let real := ‖z‖
  let angle := arg z / 3
  ((real ^ (1 / 3 : ℝ) : ℝ) : ℂ) * (Real.cos angle + I * Real.sin angle)

/-- `squarert`, `evalues.c:135-143`.  `temp` is declared `double`, so that only the real part of the root is kept. -/
noncomputable def squarert (z R : ℂ) : ℝ :=
  let real := ‖z‖
  let angle := arg z * 0.5
  let temp : ℝ := (((√real : ℝ) : ℂ) * (Real.cos angle + I * Real.sin angle)).re
  if (star R * (temp : ℂ)).re < 0 then -temp else temp

/-- `Eigenvalues_su3_stab`, `evalues.c:184-202`. -/
noncomputable def Eigenvalues_su3_stab (U : Arr ℂ) : ℂ × ℂ × ℂ :=
  let a : ℂ := 1 - trace 3 U / 3
  let b : ℂ := -star a
  let p := b + a * (2 - a)
  let q := (a * (1 - b - a * 2 * (1 - a / 3)) + b) * 1.5
  let res : ℂ := squarert (q * q + p * p * p) p
  let u1 := cubert (res - q)
  let u2 := if u1.re ≠ 0 then -p / u1 else 0
  let plus := u1 + u2
  let minus := rr3 * (u1 - u2)
  let z1 := 1 + 0.5 * (minus - plus) - a
  (1 + plus - a, z1, z1 - minus)

/-- `Eigenvalues_suNC` for `NC == 3` away from the identity, `evalues.c:324-338`. -/
noncomputable def Eigenvalues_su3_far (U : Arr ℂ) : ℂ × ℂ × ℂ :=
  let a : ℂ := -(U 0 + U 4 + U 8) / 3
  let conjA := star a
  let Q := a * a + conjA
  let R := a * (Q + conjA * 0.5) - 0.5
  let temp := R * R - Q * Q * Q
  let res : ℂ := squarert temp R
  let res := cubert (R + res)
  let A := -res
  let B := if A ≠ 0 then Q / A else 0
  let plus := A + B
  let minus := rr3 * (A - B)
  let z1 := (minus - plus) * 0.5 - a
  (plus - a, z1, z1 - minus)

/-- `Eigenvalues_suNC` for `NC == 3`, `evalues.c:315-338`. -/
noncomputable def Eigenvalues_su3 (U : Arr ℂ) : ℂ × ℂ × ℂ :=
  if 1 - ((U 0).re + (U 4).re + (U 8).re) / 3 < 1e-12 then Eigenvalues_su3_stab U else Eigenvalues_su3_far U

/-- `Eigenvalues_suNC` for `NC == 2`, `evalues.c:340-342`.  `none`: the square root of a negative number. -/
noncomputable def Eigenvalues_su2 (U : Arr ℂ) : Option (ℂ × ℂ) :=
  let reU0 := (U 0).re
  if 1 - reU0 * reU0 < 0 then none else
  let z0 : ℂ := reU0 + I * (√(1 - reU0 * reU0) : ℝ)
  some (z0, star z0)

/-- `csqrt` of the C library: the root with a real part that is not negative. -/
noncomputable def csqrt (z : ℂ) : ℂ :=
  ((√‖z‖ : ℝ) : ℂ) * (Real.cos (arg z / 2) + I * Real.sin (arg z / 2))

/-- `Eigenvalues` for `NC == 3`, `evalues.c:211-230`, from the determinant, the trace of the inverse and the trace.
`none`: a division by zero. -/
noncomputable def Eigenvalues3 (det trinv tr : ℂ) : Option (ℂ × ℂ × ℂ) :=
  let a := -tr / 3
  let b := det * trinv
  let c := -det
  let Q := a * a - b / 3
  let R := a * a * a - 0.5 * a * b + 0.5 * c
  let res := cubert (R + csqrt (R * R - Q * Q * Q))
  let A := -res
  if A = 0 then none else
  let B := Q / A
  let plus := A + B
  let minus := rr3 * (A - B)
  some (plus - a, -0.5 * plus - a + 0.5 * minus, -0.5 * plus - a - 0.5 * minus)

/-- `Eigenvalues` for `NC == 3`, `evalues.c:206-230`.  The result of `inverse` is not checked: for a singular matrix the
trace of an array that was never written is taken, which is `none` here. -/
noncomputable def Eigenvalues_general3 (U : Arr ℂ) : Option (ℂ × ℂ × ℂ) :=
  (readBack 3 (inverse 3 U)).bind fun inv => Eigenvalues3 (det 3 U) (trace 3 inv) (trace 3 U)

/-- `Eigenvalues` for `NC == 2`, `evalues.c:231-235`.  `none`: a division by zero. -/
noncomputable def Eigenvalues2 (U : Arr ℂ) : Option (ℂ × ℂ) :=
  let a := trace 2 U
  let b := det 2 U
  let z0 := 0.5 * (a + csqrt (a * a - 4 * b))
  if z0 = 0 then none else some (z0, b / z0)

/-- `Eigenvalues_hermitian` for `NC == 3`, `evalues.c:252-270`.  `none`: a division by zero. -/
noncomputable def Eigenvalues_hermitian3 (U : Arr ℂ) : Option (ℝ × ℝ × ℝ) :=
  let trAA := trace_prod_herm 3 U
  let b : ℝ := -0.5 * trAA
  let res := det 3 U
  let c := -res
  let Q : ℝ := -b / 3
  let R := c / 2
  let temp : ℂ := c * c / 4 + ((b * b * b / 27 : ℝ) : ℂ)
  let temp := R + csqrt temp
  let R := cubert temp
  let A := -R
  if A = 0 then none else
  let B := (Q : ℂ) / A
  let plus := A + B
  let minus := A - B
  let z0 := plus.re
  let z1 := ((-plus + rr3 * minus) * 0.5).re
  some (z0, z1, -z0 - z1)

/-- `Eigenvalues_hermitian` for `NC == 2`, `evalues.c:272-273`; the root is converted to `double`. -/
noncomputable def Eigenvalues_hermitian2 (U : Arr ℂ) : ℝ × ℝ :=
  let z0 := (csqrt (((U 0).re * (U 0).re + (U 1).re * (U 1).re + (U 1).im * (U 1).im : ℝ) : ℂ)).re
  (z0, -z0)

end GLU.Mat
