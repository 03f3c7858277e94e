import Verif.Mat.UNops
import Mathlib.Analysis.SpecialFunctions.Pow.Real
import Mathlib.Analysis.SpecialFunctions.Complex.Arg
import Mathlib.Analysis.SpecialFunctions.Trigonometric.Inverse

/-!
# Numerical derivatives, cubic interpolation and the scale setting

`src/Utils/GLU_splines.c`, and `evaluate_scale` and `scaleset` of `src/Smear/wflowfuncs.c`. Doubles are
idealised as reals.
-/

namespace GLU.Utils

open GLU.Mat (forFrom)

/-- A double that may be unusable: not a number, infinite, or never written. -/
abbrev Num := Option ℝ

/-- `n / d`; a zero divisor gives no usable number. -/
noncomputable def quot (n d : ℝ) : Num := if d = 0 then none else some (n / d)

/-- `der[0]` of `h2_derivative`, `GLU_splines.c:49-52`. -/
noncomputable def h2_first (x y : ℕ → ℝ) : Num :=
  let a0 := x 2 - x 0
  let b0 := x 1 - x 0
  let num0 := b0 * b0 * y 2 - a0 * a0 * y 1 + y 0 * (a0 * a0 - b0 * b0)
  quot num0 (a0 * b0 * (b0 - a0))

/-- `der[i]` of `h2_derivative` in the middle, `GLU_splines.c:57-60`. -/
noncomputable def h2_middle (x y : ℕ → ℝ) (i : ℕ) : Num :=
  let a := x (i + 1) - x i
  let b := x i - x (i - 1)
  let num := b * b * y (i + 1) - a * a * y (i - 1) + y i * (a * a - b * b)
  quot num (a * b * (b + a))

/-- The last `der[i]` of `h2_derivative`, `GLU_splines.c:64-67`. -/
noncomputable def h2_last (x y : ℕ → ℝ) (i : ℕ) : Num :=
  let a1 := x i - x (i - 2)
  let b1 := x i - x (i - 1)
  let num1 := b1 * b1 * y (i - 2) - a1 * a1 * y (i - 1) + y i * (a1 * a1 - b1 * b1)
  quot num1 (a1 * b1 * (a1 - b1))

/-- `h2_derivative`, `GLU_splines.c:41-69`. After the loop `i` is `N-1`. -/
noncomputable def h2_derivative (der : ℕ → Num) (x y : ℕ → ℝ) (N : ℕ) : ℕ → Num :=
  let der := Function.update der 0 (h2_first x y)
  let der := forFrom 1 (N - 1) (fun i der => Function.update der i (h2_middle x y i)) der
  Function.update der (N - 1) (h2_last x y (N - 1))

/-- `num / den + ( s₁/a + s₂/b + s₃/c ) * y`, with the signs as written. -/
noncomputable def rule3 (num den a b c s₁ s₂ s₃ y : ℝ) : Num := do
  let q ← quot num den
  let ra ← quot s₁ a
  let rb ← quot s₂ b
  let rc ← quot s₃ c
  return q + (ra + rb + rc) * y

/-- `der[0]` of `h3_derivative`, `GLU_splines.c:80-87`. -/
noncomputable def h3_first (x y : ℕ → ℝ) : Num :=
  let a := x 1 - x 0
  let b := x 2 - x 0
  let c := x 3 - x 0
  let ab := a * b
  let ac := a * c
  let bc := b * c
  let num := bc * bc * (c - b) * y 1 - ac * ac * (-a + c) * y 2 + ab * ab * (-a + b) * y 3
  rule3 num (-ab * (-ac + bc) * (b - c) * (-a + c)) a b c (-1) (-1) (-1) (y 0)

/-- `der[i]` of `h3_derivative` in the middle, `GLU_splines.c:92-99`. -/
noncomputable def h3_middle (x y : ℕ → ℝ) (i : ℕ) : Num :=
  let a := x i - x (i - 1)
  let b := x (i + 1) - x i
  let c := x (i + 2) - x i
  let ab := a * b
  let ac := a * c
  let bc := b * c
  let num := bc * bc * (c - b) * y (i - 1) - ac * ac * (a + c) * y (i + 1) + ab * ab * (a + b) * y (i + 2)
  rule3 num (a * b * c * (a + b) * (b - c) * (a + c)) a b c 1 (-1) (-1) (y i)

/-- `der[N-2]` of `h3_derivative`, `GLU_splines.c:103-110`. -/
noncomputable def h3_last_but_one (x y : ℕ → ℝ) (N : ℕ) : Num :=
  let a := x (N - 2) - x (N - 4)
  let b := x (N - 2) - x (N - 3)
  let c := x (N - 1) - x (N - 2)
  let ab := a * b
  let ac := a * c
  let bc := b * c
  let num := bc * bc * (b + c) * y (N - 4) - ac * ac * (a + c) * y (N - 3) + ab * ab * (a - b) * y (N - 1)
  rule3 num (ab * c * (a - b) * (b + c) * (a + c)) a b c 1 1 (-1) (y (N - 2))

/-- `der[N-1]` of `h3_derivative`, `GLU_splines.c:114-121`. -/
noncomputable def h3_last (x y : ℕ → ℝ) (N : ℕ) : Num :=
  let a := x (N - 1) - x (N - 4)
  let b := x (N - 1) - x (N - 3)
  let c := x (N - 1) - x (N - 2)
  let ab := a * b
  let ac := a * c
  let bc := b * c
  let num := bc * bc * (b - c) * y (N - 4) - ac * ac * (a - c) * y (N - 3) + ab * ab * (a - b) * y (N - 2)
  rule3 num (-ab * c * (a - b) * (b - c) * (a - c)) a b c 1 1 1 (y (N - 1))

/-- `h3_derivative`, `GLU_splines.c:72-124`. -/
noncomputable def h3_derivative (der : ℕ → Num) (x y : ℕ → ℝ) (N : ℕ) : ℕ → Num :=
  let der := Function.update der 0 (h3_first x y)
  let der := forFrom 1 (N - 2) (fun i der => Function.update der i (h3_middle x y i)) der
  let der := Function.update der (N - 2) (h3_last_but_one x y N)
  Function.update der (N - 1) (h3_last x y N)

/-- `num / den + ( s₁/a + s₂/b + s₃/c + s₄/d ) * y`, with the signs as written. -/
noncomputable def rule4 (num den a b c d s₁ s₂ s₃ s₄ y : ℝ) : Num := do
  let q ← quot num den
  let ra ← quot s₁ a
  let rb ← quot s₂ b
  let rc ← quot s₃ c
  let rd ← quot s₄ d
  return q + (ra + rb + rc + rd) * y

/-- `der[0]` of `spline_derivative`, `GLU_splines.c:149-158`. -/
noncomputable def h4_first (x y : ℕ → ℝ) : Num :=
  let a := x 1 - x 0
  let b := x 2 - x 0
  let c := x 3 - x 0
  let d := x 4 - x 0
  let A := (b * c * d) * (b * c * d) * (-b + c) * (c - d) * (-b + d) * y 1
  let B := -(a * c * d) * (a * c * d) * (-a + c) * (c - d) * (-a + d) * y 2
  let C := -(a * b * d) * (a * b * d) * (-a + b) * (-a + d) * (-b + d) * y 3
  let D := (a * b * c) * (a * b * c) * (-a + b) * (-a + c) * (-b + c) * y 4
  rule4 (A + B + C + D)
    (-a * -b * c * d * (-a + b) * (-a + c) * (-b + c) * (c - d) * (-a + d) * (-b + d))
    a b c d (-1) (-1) (-1) (-1) (y 0)

/-- `der[1]` of `spline_derivative`, `GLU_splines.c:162-171`. -/
noncomputable def h4_second (x y : ℕ → ℝ) : Num :=
  let a := x 1 - x 0
  let b := x 2 - x 1
  let c := x 3 - x 1
  let d := x 4 - x 1
  let A := (b * c * d) * (b * c * d) * (-b + c) * (c - d) * (-b + d) * y 0
  let B := -(a * c * d) * (a * c * d) * (a + c) * (c - d) * (a + d) * y 2
  let C := -(a * b * d) * (a * b * d) * (a + b) * (a + d) * (-b + d) * y 3
  let D := (a * b * c) * (a * b * c) * (a + b) * (a + c) * (-b + c) * y 4
  rule4 (A + B + C + D)
    (a * -b * c * d * (a + b) * (a + c) * (-b + c) * (c - d) * (a + d) * (-b + d))
    a b c d 1 (-1) (-1) (-1) (y 1)

/-- `der[i]` of `spline_derivative` in the middle, `GLU_splines.c:176-185`. -/
noncomputable def h4_middle (x y : ℕ → ℝ) (i : ℕ) : Num :=
  let a := x i - x (i - 2)
  let b := x i - x (i - 1)
  let c := x (i + 1) - x i
  let d := x (i + 2) - x i
  let A := (b * c * d) * (b * c * d) * (b + c) * (c - d) * (b + d) * y (i - 2)
  let B := -(a * c * d) * (a * c * d) * (a + c) * (c - d) * (a + d) * y (i - 1)
  let C := -(a * b * d) * (a * b * d) * (a - b) * (a + d) * (b + d) * y (i + 1)
  let D := (a * b * c) * (a * b * c) * (a - b) * (a + c) * (b + c) * y (i + 2)
  rule4 (A + B + C + D)
    (a * b * c * d * (a - b) * (a + c) * (b + c) * (c - d) * (a + d) * (b + d))
    a b c d 1 1 (-1) (-1) (y i)

/-- The last `der[i]` but one of `spline_derivative`, `GLU_splines.c:189-198`. -/
noncomputable def h4_last_but_one (x y : ℕ → ℝ) (i : ℕ) : Num :=
  let a := x i - x (i - 3)
  let b := x i - x (i - 2)
  let c := x i - x (i - 1)
  let d := x (i + 1) - x i
  let A := (b * c * d) * (b * c * d) * (b - c) * (-c - d) * (b + d) * y (i - 3)
  let B := -(a * c * d) * (a * c * d) * (a - c) * (-c - d) * (a + d) * y (i - 2)
  let C := -(a * b * d) * (a * b * d) * (a - b) * (a + d) * (b + d) * y (i - 1)
  let D := (a * b * c) * (a * b * c) * (a - b) * (a - c) * (b - c) * y (i + 1)
  rule4 (A + B + C + D)
    (a * b * -c * d * (a - b) * (a - c) * (b - c) * (-c - d) * (a + d) * (b + d))
    a b c d 1 1 1 (-1) (y i)

/-- `der[N-1]` of `spline_derivative`, `GLU_splines.c:202-211`. -/
noncomputable def h4_last (x y : ℕ → ℝ) (N : ℕ) : Num :=
  let a := x (N - 1) - x (N - 5)
  let b := x (N - 1) - x (N - 4)
  let c := x (N - 1) - x (N - 3)
  let d := x (N - 1) - x (N - 2)
  let A := (b * c * d) * (b * c * d) * (b - c) * (-c + d) * (b - d) * y (N - 5)
  let B := -(a * c * d) * (a * c * d) * (a - c) * (-c + d) * (a - d) * y (N - 4)
  let C := -(a * b * d) * (a * b * d) * (a - b) * (a - d) * (b - d) * y (N - 3)
  let D := (a * b * c) * (a * b * c) * (a - b) * (a - c) * (b - c) * y (N - 2)
  rule4 (A + B + C + D)
    (a * b * -c * -d * (a - b) * (a - c) * (b - c) * (-c + d) * (a - d) * (b - d))
    a b c d 1 1 1 1 (y (N - 1))

/-- `spline_derivative`, `GLU_splines.c:127-214`: the contents of `der` afterwards. After the loop `i` is
`N-2`. -/
noncomputable def spline_derivative (der : ℕ → Num) (x y : ℕ → ℝ) (N : ℕ) : ℕ → Num :=
  if N < 5 then
    if N = 3 then h2_derivative der x y N
    else if N = 4 then h3_derivative der x y N
    else der
  else
    let der := Function.update der 0 (h4_first x y)
    let der := Function.update der 1 (h4_second x y)
    let der := forFrom 2 (N - 2) (fun i der => Function.update der i (h4_middle x y i)) der
    let der := Function.update der (N - 2) (h4_last_but_one x y (N - 2))
    Function.update der (N - 1) (h4_last x y N)

/-- `find_idx`, `GLU_splines.c:28-38`, for `low < high`. -/
noncomputable def find_idx (target : ℝ) (X : ℕ → ℝ) (high low : ℕ) : ℕ :=
  if high - low < 2 then high
  else if X ((high + low) / 2) < target then find_idx target X high ((high + low) / 2)
  else find_idx target X ((high + low) / 2) low
termination_by high - low
decreasing_by all_goals omega

/-- The coefficients `( a , b , c , d )` of the cubic on the interval that ends at `ref`, and its length
`diff`; `GLU_splines.c:226-235` and again `254-261`, `380-389`. -/
structure Piece where
  a : ℝ
  b : ℝ
  c : ℝ
  d : ℝ
  diff : ℝ

/-- See `Piece`. Unusable when one of the two derivatives is. -/
noncomputable def piece (x y : ℕ → ℝ) (der : ℕ → Num) (ref : ℕ) : Option Piece := do
  let d0 ← der (ref - 1)
  let d1 ← der ref
  let diff := x ref - x (ref - 1)
  let yp := d0 * diff
  let yp_p := d1 * diff
  let a := 2 * (y (ref - 1) - y ref) + yp + yp_p
  let b := 0.5 * (-3 * a + (yp_p - yp))
  return ⟨a, b, yp, y (ref - 1), diff⟩

/-- `cubic_eval`, `GLU_splines.c:217-242`. The index found may be `datalength` itself, one past the end: then
the reads are undefined, `none`. -/
noncomputable def cubic_eval (x y : ℕ → ℝ) (der : ℕ → Num) (mu : ℝ) (datalength : ℕ) : Num := do
  let ref := find_idx mu x datalength 0
  if datalength ≤ ref then none
  let p ← piece x y der ref
  let t ← quot (mu - x (ref - 1)) p.diff
  return p.d + t * (p.c + t * (p.b + t * p.a))

/-- A complex double that may be unusable. -/
abbrev CNum := Option ℂ

/-- `n / d` for complex numbers. -/
noncomputable def cquot (n d : ℂ) : CNum := if d = 0 then none else some (n / d)

/-- `csqrt` of a real number: the principal root. -/
noncomputable def csqrt (v : ℝ) : ℂ := if 0 ≤ v then (Real.sqrt v : ℂ) else (Real.sqrt (-v) : ℂ) * Complex.I

/-- `sgn`, `GLU_splines.c:25`. -/
noncomputable def sgn (a : ℝ) : ℝ := if a < 0 then -1 else 1

/-- `cubert`, `GLU_splines.c:295-304`. `cbrt` of the modulus is the power `1/3`. -/
noncomputable def cubert (z : ℂ) : ℂ :=
  ((‖z‖ ^ (1 / 3 : ℝ) : ℝ) : ℂ) * (Real.cos (Complex.arg z / 3) + Complex.I * Real.sin (Complex.arg z / 3))

/-- `quad_solve`, `GLU_splines.c:307-322`: the two roots stored; the third entry of `Z` stays zero. The return
value is not used by the callers. -/
noncomputable def quad_solve (ca cb cc : ℝ) : CNum × CNum × CNum :=
  let q : ℂ := -0.5 * (cb + sgn cb * csqrt (cb * cb - 4 * ca * cc))
  (cquot q ca, cquot cc q, some 0)

/-- `PREC_TOL` for double precision, `src/Headers/GLU_definitions.h:360-363`, as a parameter of the number of
colours. `fabs( ca ) < NC*(1.0E-14)`. -/
noncomputable def PREC_TOL (NC : ℕ) : ℝ := NC * 1e-14

/-- `cubic_solve`, `GLU_splines.c:325-368`: the entries of `Z`, initially zero. `TWOPI` is `2π`. -/
noncomputable def cubic_solve (NC : ℕ) (ca cb cc cd eval : ℝ) : CNum × CNum × CNum :=
  if |ca| < PREC_TOL NC then quad_solve cb cc (cd - eval)
  else if |cd - eval| < PREC_TOL NC then quad_solve ca cb cc
  else
    let a := cb / ca
    let b := cc / ca
    let c := (cd - eval) / ca
    let Q := (a * a - 3 * b) / 9
    let R := (a * (2 * a * a - 9 * b) + 27 * c) / 54
    if R * R < Q * Q * Q then
      let theta := Real.arccos (R / Real.sqrt (Q * Q * Q))
      (some ((-2 * Real.sqrt Q * Real.cos (theta / 3) - a / 3 : ℝ) : ℂ),
        some ((-2 * Real.sqrt Q * Real.cos ((theta + 2 * Real.pi) / 3) - a / 3 : ℝ) : ℂ),
        some ((-2 * Real.sqrt Q * Real.cos ((theta - 2 * Real.pi) / 3) - a / 3 : ℝ) : ℂ))
    else
      let res := cubert (R + csqrt (R * R - Q * Q * Q))
      let A := -res
      let B := if A ≠ 0 then Q / A else 0
      (some ((A + B) - a / 3),
        some (-0.5 * (A + B) - a / 3 - Complex.I * Real.sqrt 3 * 0.5 * (A - B)),
        some (-0.5 * (A + B) - a / 3 + Complex.I * Real.sqrt 3 * 0.5 * (A - B)))

/-- The test of one root in `solve_spline`, `GLU_splines.c:398-401`: the real part is shifted into the
interval; an unusable number compares false. -/
noncomputable def accept (lo hi diff : ℝ) (z : CNum) : Option ℝ :=
  match z with
  | none => none
  | some z =>
    let sol := z.re * diff + lo
    if sol < hi ∧ sol > lo then some sol else none

/-- `solve_spline`, `GLU_splines.c:371-404`. The error value -1 is `some none`; the outer `none` means an unusable
derivative was used. -/
noncomputable def solve_spline (NC : ℕ) (x y : ℕ → ℝ) (der : ℕ → Num) (mu : ℝ) (change_up : ℕ) :
    Option (Option ℝ) :=
  if change_up = 0 then some none
  else do
    let p ← piece x y der change_up
    let Z := cubic_solve NC p.a p.b p.c p.d mu
    let try' := accept (x (change_up - 1)) (x change_up) p.diff
    return (try' Z.1).or ((try' Z.2.1).or (try' Z.2.2))

/-- The search of `evaluate_scale`, `wflowfuncs.c:302-308`: the last upward crossing. -/
noncomputable def change_up (meas : ℕ → ℝ) (scale : ℝ) (Nmeas : ℕ) : ℕ :=
  forN Nmeas (fun i c => if i > 0 ∧ meas i > scale ∧ meas (i - 1) < scale then i else c) 0

/-- `evaluate_scale`, `wflowfuncs.c:293-324`: the scale and the derivatives left in `der`. The derivatives are
computed once per measurement, every time the same. -/
noncomputable def evaluate_scale (NC : ℕ) (der : ℕ → Num) (x meas : ℕ → ℝ) (Nmeas : ℕ) (scale : ℝ) :
    Option (Option ℝ) × (ℕ → Num) :=
  let der := if Nmeas = 0 then der else spline_derivative der x meas Nmeas
  (solve_spline NC x meas der scale (change_up meas scale Nmeas), der)

/-- The first scale of `scaleset`, `wflowfuncs.c:436-467`: the `count + 1` measurements, first to last, of which
`evaluate_scale` is told `count`. `der` is freshly allocated. -/
noncomputable def scaleset_t0 (NC : ℕ) (time GT : ℕ → ℝ) (count : ℕ) (T_0 : ℝ) : Option (Option ℝ) :=
  if count > 0 then (evaluate_scale NC (fun _ => none) time GT count T_0).1 else some none

end GLU.Utils
