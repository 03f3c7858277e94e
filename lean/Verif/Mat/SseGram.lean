import Verif.Mat.Sse
import Verif.Mat.Gram

/-!
# The vectorised determinant and reunitarisation

Model of `Matrix_Ops/LU_SSE.c` and `Matrix_Ops/gramschmidt_SSE.c` on pairs of real lanes, as in
`Sse.lean`.  Both lanes of `best`, `sum1` and `norm` are kept.  A division by a vanishing norm
is the separate outcome `none`, as in `Gram.lean`.
-/

namespace GLU.Mat.Sse

open Complex

/-! ## Determinant -/

/-- The squared modulus in both lanes, `LU_SSE.c:53-56` and `60-63`. -/
noncomputable def sqBoth (z1 : V2 ℝ) : V2 ℝ :=
  let z2 := mm_shuffle1 z1 z1
  mm_add (mm_mul z1 z1) (mm_mul z2 z2)

/-- `_mm_div_pd`, used where the divisor has been tested. -/
noncomputable def mm_div (a b : V2 ℝ) : V2 ℝ := ⟨a.lo / b.lo, a.hi / b.hi⟩

open Classical in
/-- Pivot search, `LU_SSE.c:53-68`: `(piv, best)`; the comparison is that of the low lanes. -/
noncomputable def findPivot (N i : ℕ) (a : Arr (V2 ℝ)) : ℕ × V2 ℝ :=
  forFrom (i + 1) N (fun j (p : ℕ × V2 ℝ) =>
    let attempt := sqBoth (a (i + j * N))
    if p.2.lo < attempt.lo then (j, attempt) else p) (i, sqBoth (a (i * (N + 1))))

/-- The row swap, `LU_SSE.c:71-74`: whole rows. -/
noncomputable def swapRows (N i piv : ℕ) (a : Arr (V2 ℝ)) : Arr (V2 ℝ) :=
  forN N (fun l a =>
    let z1 := a (i * N + l)
    let a := Function.update a (i * N + l) (a (piv * N + l))
    Function.update a (piv * N + l) z1) a

/-- Elimination below row `i`, `LU_SSE.c:82-95`. -/
noncomputable def eliminate (s : ISA) (N i : ℕ) (best : V2 ℝ) (a : Arr (V2 ℝ)) : Arr (V2 ℝ) :=
  let dt := mm_div (SSE2_CONJ (a (i * (N + 1)))) best
  forN (N - 1 - i) (fun t a =>
    let j := N - 1 - t
    let fac1 := SSE2_MUL s (a (i + j * N)) dt
    forN (N - i - 1) (fun l a => Function.update a (i + j * N + 1 + l)
      (mm_sub (a (i + j * N + 1 + l)) (SSE2_MUL s fac1 (a (i * (N + 1) + 1 + l))))) a) a

/-- State of the elimination: matrix, accumulated determinant, row swaps. -/
structure LUState where
  a : Arr (V2 ℝ)
  determinant : V2 ℝ
  perms : ℕ

open Classical in
/-- One pass of the outer loop, `LU_SSE.c:51-97`; `none` is the early return of zero. -/
noncomputable def luStep (s : ISA) (N i : ℕ) (t : LUState) : Option LUState :=
  let p := findPivot N i t.a
  let t := if p.1 ≠ i then { t with a := swapRows N i p.1 t.a, perms := t.perms + 1 } else t
  if p.2.lo ≤ 0 then none else
  let a := eliminate s N i p.2 t.a
  some { t with a := a, determinant := SSE2_MUL s t.determinant (a (i * (N + 1))) }

/-- `LU_det_overwrite`, `LU_SSE.c:42-101`.  `N >= 1` is needed as in `LU.c`. -/
noncomputable def LU_det_overwrite (s : ISA) (N : ℕ) (U : Arr ℂ) : ℂ :=
  match forN (N - 1) (fun i o => o.bind (luStep s N i)) (some ⟨ldA U, ⟨1, 0⟩, 0⟩) with
  | none => 0
  | some t =>
    let d := st (SSE2_MUL s t.determinant (t.a (N * N - 1)))
    if t.perms % 2 = 1 then -d else d

/-- `LU_det`, `LU_SSE.c:33-39`: the same on a copy. -/
noncomputable def LU_det (s : ISA) (N : ℕ) (U : Arr ℂ) : ℂ := LU_det_overwrite s N U

/-! ## Reunitarisation -/

open Classical in
/-- `_mm_div_pd( one , _mm_sqrt_pd( sum ) )`, `gramschmidt_SSE.c:52,80,107,147`. -/
noncomputable def invSqrt (v : V2 ℝ) : Option (V2 ℝ) :=
  if v.lo = 0 ∨ v.hi = 0 then none else some ⟨1 / Real.sqrt v.lo, 1 / Real.sqrt v.hi⟩

/-- The squared norm of three numbers, `gramschmidt_SSE.c:46-51` and `73-79`. -/
noncomputable def norm3 (x y z : V2 ℝ) : V2 ℝ :=
  let sum1 := mm_add (mm_add (mm_mul x x) (mm_mul y y)) (mm_mul z z)
  mm_add sum1 (mm_shuffle1 sum1 sum1)

/-- `gram_reunit` for `NC == 3`, `gramschmidt_SSE.c:40-98`. -/
noncomputable def gram_reunit3 (s : ISA) (u : Arr (V2 ℝ)) : Option (Arr (V2 ℝ)) :=
  (invSqrt (norm3 (u 0) (u 3) (u 6))).bind fun sum1 =>
  let u0 := mm_mul (u 0) sum1
  let u3 := mm_mul (u 3) sum1
  let u6 := mm_mul (u 6) sum1
  let sum1 := mm_add (mm_add (SSE2_MUL_CONJ s (u 1) u0) (SSE2_MUL_CONJ s (u 4) u3))
    (SSE2_MUL_CONJ s (u 7) u6)
  let u1 := mm_sub (u 1) (SSE2_MUL s sum1 u0)
  let u4 := mm_sub (u 4) (SSE2_MUL s sum1 u3)
  let u7 := mm_sub (u 7) (SSE2_MUL s sum1 u6)
  (invSqrt (norm3 u1 u4 u7)).map fun sum1 =>
  let u1 := mm_mul u1 sum1
  let u4 := mm_mul u4 sum1
  let u7 := mm_mul u7 sum1
  let u2 := SSE2_CONJ (mm_sub (SSE2_MUL s u3 u7) (SSE2_MUL s u4 u6))
  let u5 := SSE2_CONJ (mm_sub (SSE2_MUL s u1 u6) (SSE2_MUL s u0 u7))
  let u8 := SSE2_CONJ (mm_sub (SSE2_MUL s u0 u4) (SSE2_MUL s u1 u3))
  arr [u0, u1, u2, u3, u4, u5, u6, u7, u8]

/-- `gram_reunit` for `NC == 2`, `gramschmidt_SSE.c:100-111`. -/
noncomputable def gram_reunit2 (u : Arr (V2 ℝ)) : Option (Arr (V2 ℝ)) :=
  let sum := mm_add (mm_mul (u 0) (u 0)) (mm_mul (u 2) (u 2))
  let sum := mm_add sum (mm_shuffle1 sum sum)
  (invSqrt sum).map fun sum =>
  let u0 := mm_mul (u 0) sum
  let u2 := mm_mul (u 2) sum
  arr [u0, SSE_FLIP (SSE2_CONJ u2), u2, SSE2_CONJ u0]

/-- Projection of row `k` off row `i`, `gramschmidt_SSE.c:124-134`. -/
noncomputable def projectRow (s : ISA) (NC k i : ℕ) (U : Arr (V2 ℝ)) : Arr (V2 ℝ) :=
  let proj := forN NC (fun j (proj : V2 ℝ) =>
    mm_add proj (SSE2_MUL_CONJ s (U (k * NC + j)) (U (i * NC + j)))) mm_setzero
  forN NC (fun j U => Function.update U (k * NC + j)
    (mm_sub (U (k * NC + j)) (SSE2_MUL s proj (U (i * NC + j))))) U

/-- Normalisation of row `k`, `gramschmidt_SSE.c:137-150`. -/
noncomputable def normRow (NC k : ℕ) (U : Arr (V2 ℝ)) : Option (Arr (V2 ℝ)) :=
  let norm := forN NC (fun j (norm : V2 ℝ) => mm_add norm (sqBoth (U (k * NC + j)))) mm_setzero
  (invSqrt norm).map fun norm =>
  forN NC (fun j U => Function.update U (k * NC + j) (mm_mul (U (k * NC + j)) norm)) U

/-- The last row from the minors, `gramschmidt_SSE.c:153-168`; after the inner loops
`i == NC-1`. -/
noncomputable def completeBottom (s : ISA) (NC : ℕ) (U array : Arr ℂ) : Arr ℂ :=
  forN NC (fun k U =>
    let array := (forN (NC - 1) (fun i (t : ℕ × Arr ℂ) => forN NC (fun j (t : ℕ × Arr ℂ) =>
      if j = k then t else (t.1 + 1, Function.update t.2 t.1 (U (j + i * NC)))) t) (0, array)).2
    let mulfact : ℂ := if NC % 2 = 0 then (if k % 2 = 0 then -1 else 1)
      else (if k % 2 = 0 then 1 else -1)
    Function.update U (k + (NC - 1) * NC)
      (conj (mulfact * LU_det_overwrite s (NC - 1) array))) U

/-- `gram_reunit`, generic branch, `gramschmidt_SSE.c:116-168`; `array` stands for the contents
of the uninitialised scratch array. -/
noncomputable def gram_reunitN (s : ISA) (NC : ℕ) (U array : Arr ℂ) : Option (Arr ℂ) :=
  (forN (NC - 1) (fun k (o : Option (Arr (V2 ℝ))) => o.bind fun U =>
    normRow NC k (forN k (fun i U => projectRow s NC k i U) U)) (some (ldA U))).map fun U =>
      completeBottom s NC (stA U) array

/-- `gram_reunit`, `gramschmidt_SSE.c:36-171`. -/
noncomputable def gram_reunit (s : ISA) (NC : ℕ) (U array : Arr ℂ) : Option (Arr ℂ) :=
  if NC = 3 then (gram_reunit3 s (ldA U)).map stA
  else if NC = 2 then (gram_reunit2 (ldA U)).map stA
  else gram_reunitN s NC U array

end GLU.Mat.Sse
