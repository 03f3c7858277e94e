import Verif.Mat.LU

/-!
# Matrix inversion

Model of `Matrix_Ops/invert.c`, the default build (no LAPACKE, no
`CLASSICAL_ADJOINT_INV`, no `FULL_PIVOT`), and of the `CLASSICAL_ADJOINT_INV` variant.

Numbers are `Option ℂ`: `none` stands for a NaN or an infinity produced by a division by
zero.  It is absorbing, and every comparison with it is false, as in C.
-/

namespace GLU.Mat

open Complex

/-- A complex number or "not a number". -/
abbrev CE := Option ℂ

/-- `x - y`. -/
noncomputable def CE.sub (x y : CE) : CE :=
  match x, y with
  | some x, some y => some (x - y)
  | _, _ => none

/-- `x * y`, in real and imaginary parts as `invert.c:47-48`. -/
noncomputable def CE.mul (x y : CE) : CE :=
  match x, y with
  | some x, some y => some (creal x * creal y - cimag x * cimag y
      + I * (creal x * cimag y + cimag x * creal y))
  | _, _ => none

/-- `x / y`: a division by zero is not a number. -/
noncomputable def CE.div (x y : CE) : CE :=
  match x, y with
  | some x, some y => if y = 0 then none else some (x / y)
  | _, _ => none

/-- Squared modulus, `invert.c:122-123`, `145-146`. -/
noncomputable def CE.modsq (x : CE) : Option ℝ := x.map Mat.modsq

/-- `x > y`, false when one side is not a number. -/
def gtE (x y : Option ℝ) : Prop :=
  match x, y with
  | some x, some y => x > y
  | _, _ => False

open Classical in
/-- `eliminate_column`, `invert.c:38-59`, on the pair `(a, inverse)`. -/
noncomputable def eliminate_column (NC i j : ℕ) (s : Arr CE × Arr CE) : Arr CE × Arr CE :=
  let fac1 := CE.div (s.1 (i + j * NC)) (s.1 (i * (NC + 1)))
  let a := forFrom (i + 1) NC (fun k a => Function.update a (k + j * NC)
    (CE.sub (a (k + j * NC)) (CE.mul fac1 (a (i * NC + k))))) s.1
  let inverse := forN NC (fun k inverse => Function.update inverse (k + j * NC)
    (CE.sub (inverse (k + j * NC)) (CE.mul fac1 (inverse (i * NC + k))))) s.2
  (a, inverse)

/-- `swap_rows`, `invert.c:79-96`, on one of its two arrays. -/
noncomputable def swapRow1 (NC row_idx piv : ℕ) (a : Arr CE) : Arr CE :=
  forN NC (fun l a =>
    let tmp := a (l + row_idx * NC)
    let a := Function.update a (l + row_idx * NC) (a (l + piv * NC))
    Function.update a (l + piv * NC) tmp) a

/-- `swap_rows`, `invert.c:79-96`.  The two arrays are independent, so the common loop is
split in two. -/
noncomputable def swap_rows (NC row_idx piv : ℕ) (s : Arr CE × Arr CE) : Arr CE × Arr CE :=
  (swapRow1 NC row_idx piv s.1, swapRow1 NC row_idx piv s.2)

open Classical in
/-- Pivot search, `invert.c:122-150`: `(col_piv, col_best)`. -/
noncomputable def colPivot (NC i : ℕ) (a : Arr CE) : ℕ × Option ℝ :=
  forFrom (i + 1) NC (fun j (p : ℕ × Option ℝ) =>
    if gtE (CE.modsq (a (i + j * NC))) p.2 then (j, CE.modsq (a (i + j * NC))) else p)
    (i * (NC + 1), CE.modsq (a (i * (NC + 1))))

open Classical in
/-- One pass of the first loop, `invert.c:118-170`. -/
noncomputable def gjDown (NC i : ℕ) (s : Arr CE × Arr CE) : Arr CE × Arr CE :=
  let pivot := CE.modsq (s.1 (i * (NC + 1)))
  let row_best := pivot
  let p := colPivot NC i s.1
  let s := if gtE p.2 row_best ∧ gtE p.2 pivot then swap_rows NC p.1 i s else s
  forN (NC - 1 - i) (fun t s => eliminate_column NC i (NC - 1 - t) s) s

/-- The second loop, `invert.c:174-178`. -/
noncomputable def gjUp (NC : ℕ) (s : Arr CE × Arr CE) : Arr CE × Arr CE :=
  forN (NC - 1) (fun t s => forN (NC - 1 - t) (fun j s => eliminate_column NC (NC - 1 - t) j s) s) s

open Classical in
/-- The last loop, `invert.c:182-199`; `none` is the return of `GLU_FAILURE`. -/
noncomputable def gjScale (NC : ℕ) (s : Arr CE × Arr CE) : Option (Arr CE) :=
  forN NC (fun j o => o.bind fun ainv =>
    if s.1 (j * (NC + 1)) = some 0 then none else
    let am1 := CE.div (some 1) (s.1 (j * (NC + 1)))
    some (forN NC (fun i ainv => Function.update ainv (i + j * NC)
      (CE.mul (ainv (i + j * NC)) am1)) ainv)) (some s.2)

/-- `gauss_jordan`, `invert.c:98-210`: `none` is `GLU_FAILURE`, otherwise the stored
result. -/
noncomputable def gauss_jordan (NC : ℕ) (M : Arr ℂ) : Option (Arr CE) :=
  let a : Arr CE := fun x => some (M x)
  let ainv : Arr CE := forN NC (fun i v => Function.update v (i * (NC + 1)) (some 1))
    (fun _ => some 0)
  let s := forN (NC - 1) (fun i s => gjDown NC i s) (a, ainv)
  let s := gjUp NC s
  gjScale NC s

/-- `inverse`, `invert.c:215-255` without LAPACKE and without `CLASSICAL_ADJOINT_INV`. -/
noncomputable def inverse (NC : ℕ) (M : Arr ℂ) : Option (Arr CE) :=
  if NC = 2 then
    let INV_detM := CE.div (some 1) (some (det 2 M))
    some fun x => match x with
      | 0 => CE.mul (some (M 3)) INV_detM
      | 1 => CE.mul (some (-M 1)) INV_detM
      | 2 => CE.mul (some (-M 2)) INV_detM
      | 3 => CE.mul (some (M 0)) INV_detM
      | _ => none
  else gauss_jordan NC M

open Classical in
/-- `inverse` compiled with `CLASSICAL_ADJOINT_INV`, `invert.c:226-240`. -/
noncomputable def inverse_adjoint (NC : ℕ) (M adjunct array temp : Arr ℂ) : Option (Arr ℂ) :=
  let r := cofactor_transpose NC adjunct M array temp
  if ‖r.2‖ < NC * PREC_TOL NC then none else
  let deter := 1 / r.2
  some fun i => r.1 i * deter

open Classical in
/-- `newton_approx_inverse`, `invert.c:258-276`: the flag records the `break`. -/
noncomputable def newton_approx_inverse (NC : ℕ) (Z Zinv BX : Arr ℂ) : Arr ℂ :=
  (forN 4 (fun _ (s : Arr ℂ × Bool) =>
    if s.2 then s else
    let BX := multab NC Z s.1 BX
    if |(trace NC BX).re - NC| < PREC_TOL NC then (s.1, true) else
    let BX := multab_atomic_left NC BX s.1
    (mapN (NC * NC) (fun j x => 2 * x - BX j) s.1, false)) (Zinv, false)).1

end GLU.Mat
