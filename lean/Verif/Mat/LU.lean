import Verif.Mat.UNops

/-!
# Determinants by elimination, cofactors and completion of the last row

Models of `Matrix_Ops/LU.c`, of the generic branches of `cofactor_transpose` and `det`
in `Matrix_Ops/U_Nops.c`, and of `complete_top` in `IO/readers.c`.
-/

namespace GLU.Mat

open Complex

/-- State of the elimination: matrix, accumulated determinant, row swaps. -/
structure LUState where
  U : Arr ℂ
  determinant : ℂ
  perms : ℕ

/-- Squared modulus as the code computes it, `LU.c:51-52`, `56-57`. -/
def modsq (z : ℂ) : ℝ := z.re * z.re + z.im * z.im

/-- Pivot search, `LU.c:51-62`: `(piv, best)`. -/
noncomputable def findPivot (N i : ℕ) (U : Arr ℂ) : ℕ × ℝ :=
  forFrom (i + 1) N (fun j s =>
    if modsq (U (i + j * N)) > s.2 then (j, modsq (U (i + j * N))) else s)
    (i, modsq (U (i * (N + 1))))

/-- Row swap from column `i` on, `LU.c:71-75`. -/
noncomputable def swapRows (N i piv : ℕ) (U : Arr ℂ) : Arr ℂ :=
  forFrom i N (fun l U =>
    let dt := U (l + i * N)
    let U := Function.update U (l + i * N) (U (l + piv * N))
    Function.update U (l + piv * N) dt) U

/-- Elimination below row `i`, `LU.c:79-90` (`j` runs downwards from `N-1`). -/
noncomputable def eliminate (N i : ℕ) (U : Arr ℂ) : Arr ℂ :=
  let dt := 1 / U (i * (N + 1))
  forN (N - 1 - i) (fun t U =>
    let j := N - 1 - t
    let fac1 := U (i + j * N) * dt
    forFrom (i + 1) N (fun l U => Function.update U (l + j * N)
      (U (l + j * N) - (creal fac1 * creal (U (i * N + l)) - cimag fac1 * cimag (U (i * N + l))
        + I * (creal fac1 * cimag (U (i * N + l)) + cimag fac1 * creal (U (i * N + l)))))) U) U

/-- One pass of the outer loop, `LU.c:49-92`; `none` is the early return of zero. -/
noncomputable def luStep (N i : ℕ) (s : LUState) : Option LUState :=
  let p := findPivot N i s.U
  if p.2 = 0 then none else
  let s := if p.1 ≠ i then { s with U := swapRows N i p.1 s.U, perms := s.perms + 1 } else s
  let U := eliminate N i s.U
  some { s with U := U, determinant := s.determinant * U (i * (N + 1)) }

/-- `LU_det_overwrite`, `LU.c:42-95`.  The overwritten matrix is not returned, no caller
uses it.  `N >= 1` is needed: for `N = 0` the bound `N-1` wraps around. -/
noncomputable def LU_det_overwrite (N : ℕ) (U : Arr ℂ) : ℂ :=
  match forN (N - 1) (fun i o => o.bind (luStep N i)) (some ⟨U, 1, 0⟩) with
  | none => 0
  | some s =>
    let determinant := s.determinant * s.U (N * N - 1)
    if s.perms % 2 = 1 then -determinant else determinant

/-- `LU_det`, `LU.c:33-39`: the same on a copy.  (In double precision; in single precision
the `memcpy` copies between different element types.) -/
noncomputable def LU_det (N : ℕ) (U : Arr ℂ) : ℂ := LU_det_overwrite N U

/-- Packing of the entries selected by `keep` into consecutive positions,
`U_Nops.c:188-195`, `readers.c:60-66`, `gramschmidt.c:205-211`. -/
noncomputable def packKept (n : ℕ) (keep : ℕ → Bool) (b array : Arr ℂ) : Arr ℂ :=
  (forN n (fun j (s : ℕ × Arr ℂ) =>
    if keep j then (s.1 + 1, Function.update s.2 s.1 (b j)) else s) (0, array)).2

/-- Generic branch of `cofactor_transpose`, `U_Nops.c:183-207`: the stored matrix and the
returned determinant. -/
noncomputable def cofactor_transposeN (NC : ℕ) (a b array temp : Arr ℂ) : Arr ℂ × ℂ :=
  let temp := forN (NC * NC) (fun i temp =>
    let array := packKept (NC * NC) (fun j => j % NC ≠ i % NC && j / NC ≠ i / NC) b array
    let mulfact : ℂ := if (i / NC + i % NC) % 2 = 1 then -1 else 1
    Function.update temp i (mulfact * LU_det (NC - 1) array)) temp
  let det := forN NC (fun i det => det + b i * temp i) 0
  (transpose NC a temp, det)

/-- `cofactor_transpose`, `U_Nops.c:160-209`. -/
noncomputable def cofactor_transpose (NC : ℕ) (a b array temp : Arr ℂ) : Arr ℂ × ℂ :=
  if NC = 3 then
    let a := cofactor_transpose3 b
    (a, b 0 * a 0 + b 1 * a 3 + b 2 * a 6)
  else if NC = 2 then
    let a := cofactor_transpose2 b
    (a, b 0 * a 0 + b 1 * a 2)
  else cofactor_transposeN NC a b array temp

/-- `det`, `U_Nops.c:234-247`. -/
noncomputable def det (NC : ℕ) (U : Arr ℂ) : ℂ :=
  if NC = 3 then det3 U else if NC = 2 then det2 U else LU_det NC U

/-- Completion of the bottom row from the minors of the rows above,
`readers.c:56-74` and `gramschmidt.c:203-220` (generic `NC`). -/
noncomputable def completeBottom (NC : ℕ) (O array : Arr ℂ) : Arr ℂ :=
  forN NC (fun t O =>
    let i := NC * NC - NC + t
    let array := packKept (NC * NC - NC) (fun j => j % NC ≠ i % NC) O array
    let mulfact : ℂ := if NC % 2 = 0 then (if i % 2 = 0 then -1 else 1)
      else (if i % 2 = 0 then 1 else -1)
    Function.update O i (conj (mulfact * LU_det_overwrite (NC - 1) array))) O

/-- `complete_top`, `readers.c:42-77`: `uout` holds the first `NC-1` rows. -/
noncomputable def complete_top (NC : ℕ) (O uout array : Arr ℂ) : Arr ℂ :=
  let O := forN (NC * NC - NC) (fun i O => Function.update O i (uout i)) O
  if NC = 3 then
    let O := Function.update O 6 (conj (O 1 * O 5 - O 2 * O 4))
    let O := Function.update O 7 (conj (O 2 * O 3 - O 0 * O 5))
    Function.update O 8 (conj (O 0 * O 4 - O 1 * O 3))
  else if NC = 2 then
    let O := Function.update O 2 (-conj (O 1))
    Function.update O 3 (conj (O 0))
  else completeBottom NC O array

end GLU.Mat
