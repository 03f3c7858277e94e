import Verif.Mat.Invert

/-!
# The vectorised inversion

Model of `Matrix_Ops/invert_SSE.c` (no LAPACKE, no `CLASSICAL_ADJOINT_INV`), which replaces
`invert.c` whenever `immintrin.h` is found and the library is built in double precision.  The
macros are the complex operations (`C112_macros`).  A register is `Option ℂ`, `none` when its
lanes are not numbers: the only divisions are by a real number in both lanes, so that the lanes
are numbers together.
-/

namespace GLU.Mat.Sse

open Complex

/-- `absfac`, `invert_SSE.c:37-42`: the squared modulus, in both lanes. -/
noncomputable def absfac (a : CE) : Option ℝ := CE.modsq a

/-- `_mm_div_pd( SSE2_CONJ( a ) , best )`, `invert_SSE.c:134`. -/
noncomputable def conjDiv (a : CE) (best : Option ℝ) : CE :=
  match a, best with
  | some z, some r => if r = 0 then none else some (conj z / r)
  | _, _ => none

/-- `SSE2_inverse`, `invert_SSE.c:44-48`. -/
noncomputable def SSE2_inverse (a : CE) : CE := conjDiv a (absfac a)

/-- `eliminate_column`, `invert_SSE.c:51-74`, on the pair `(a, inverse)`. -/
noncomputable def eliminate_column (NC : ℕ) (fac : CE) (i j : ℕ) (s : Arr CE × Arr CE) :
    Arr CE × Arr CE :=
  let fac1 := CE.mul (s.1 (i + j * NC)) fac
  let a := forFrom (i + 1) NC (fun k a => Function.update a (k + j * NC)
    (CE.sub (a (k + j * NC)) (CE.mul fac1 (a (i * NC + k))))) s.1
  let inverse := forN NC (fun k inverse => Function.update inverse (k + j * NC)
    (CE.sub (inverse (k + j * NC)) (CE.mul fac1 (inverse (i * NC + k))))) s.2
  (a, inverse)

open Classical in
/-- Pivot search, `invert_SSE.c:117-126`: `(piv, best)`.  The first candidate is read from the
matrix, the others from `pB`, the inverse under construction.  `_mm_ucomilt_sd( best ,
attempt )` is false when one side is not a number. -/
noncomputable def pivotSearch (NC i : ℕ) (s : Arr CE × Arr CE) : ℕ × Option ℝ :=
  forFrom (i + 1) NC (fun j (p : ℕ × Option ℝ) =>
    let attempt := absfac (s.2 (i + j * NC))
    if gtE attempt p.2 then (j, attempt) else p) (i, absfac (s.1 (i * (NC + 1))))

/-- One pass of the first loop, `invert_SSE.c:115-138`. -/
noncomputable def gjDown (NC i : ℕ) (s : Arr CE × Arr CE) : Arr CE × Arr CE :=
  let p := pivotSearch NC i s
  let s := if p.1 ≠ i then Mat.swap_rows NC p.1 i s else s  -- `invert_SSE.c:77-95`
  let fac := conjDiv (s.1 (i * (NC + 1))) p.2
  forN (NC - 1 - i) (fun t s => eliminate_column NC fac i (NC - 1 - t) s) s

/-- The second loop, `invert_SSE.c:142-147`. -/
noncomputable def gjUp (NC : ℕ) (s : Arr CE × Arr CE) : Arr CE × Arr CE :=
  forN (NC - 1) (fun t s =>
    let i := NC - 1 - t
    let fac := SSE2_inverse (s.1 (i * (NC + 1)))
    forN i (fun j s => eliminate_column NC fac i j s) s) s

/-- The last loop, `invert_SSE.c:150-157`; the pointers are written as offsets. -/
noncomputable def gjScale (NC : ℕ) (s : Arr CE × Arr CE) : Arr CE :=
  forN NC (fun j inv =>
    let m1 := SSE2_inverse (s.1 (j * (NC + 1)))
    forN NC (fun i inv => Function.update inv (i + j * NC) (CE.mul (inv (i + j * NC)) m1)) inv) s.2

/-- `gauss_jordan`, `invert_SSE.c:97-160`; it always returns `GLU_SUCCESS`. -/
noncomputable def gauss_jordan (NC : ℕ) (M : Arr ℂ) : Arr CE :=
  let a : Arr CE := fun x => some (M x)
  let M_1 : Arr CE := fun x => if x % (NC + 1) = 0 then some 1 else some 0
  gjScale NC (gjUp NC (forN (NC - 1) (fun i s => gjDown NC i s) (a, M_1)))

/-- `inverse`, `invert_SSE.c:164-204` for three and more colours: the status and the result.
For two colours the code is that of `invert.c`, see `Mat.inverse`. -/
noncomputable def inverse (NC : ℕ) (M : Arr ℂ) : Option (Arr CE) :=
  if NC = 2 then Mat.inverse 2 M else some (gauss_jordan NC M)

end GLU.Mat.Sse
