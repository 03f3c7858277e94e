import Verif.Mat.SseGram
import Verif.Update.Model

/-!
# The vectorised SU(2) subgroup operations

Model of `Update/SU2_rotate_SSE.c`, transcribed statement by statement; see `Verif.Mat.Sse`
for the conventions.
-/

namespace GLU.Update.Sse

open Complex GLU.Mat GLU.Mat.Sse

/-- The last part of `only_subgroup`, `SU2_rotate_SSE.c:204-214`: `s0`, `s1`, `scale`.  The inverse
of a zero norm is the outcome `none`. -/
noncomputable def normalise (s : ISA) (sm0 sm1 : V2 ℝ) : Option (ℂ × ℂ × ℝ) :=
  let z := SSE2_FMA s sm0 sm0 (mm_mul sm1 sm1)
  let z := mm_add z (mm_shuffle1 z z)
  (invSqrt z).map fun z => (Mat.Sse.st (mm_mul sm0 z), Mat.Sse.st (mm_mul sm1 z), z.lo)

/-- `only_subgroup`, `SU2_rotate_SSE.c:74-217`; `stp` is the staple. -/
noncomputable def only_subgroup (s : ISA) (NC : ℕ) (U staple : Arr ℂ) (su2_index : ℕ) :
    Option (ℂ × ℂ × ℝ) :=
  let u := ldA U
  let stp := ldA staple
  if NC = 3 then
    match su2_index % 3 with
    | 0 =>
      let sm0 := mm_add (mm_add (SSE2_MUL_CONJ s (u 0) (stp 0)) (mm_add (SSE2_MUL_CONJ s (u 1)
        (stp 1)) (SSE2_MUL_CONJ s (u 2) (stp 2)))) (mm_add (SSE2_MULCONJ s (u 3) (stp 3)) (mm_add
        (SSE2_MULCONJ s (u 4) (stp 4)) (SSE2_MULCONJ s (u 5) (stp 5))))
      let sm1 := mm_sub (mm_add (SSE2_MUL_CONJ s (u 0) (stp 3)) (mm_add (SSE2_MUL_CONJ s (u 1)
        (stp 4)) (SSE2_MUL_CONJ s (u 2) (stp 5)))) (mm_add (SSE2_MULCONJ s (u 3) (stp 0)) (mm_add
        (SSE2_MULCONJ s (u 4) (stp 1)) (SSE2_MULCONJ s (u 5) (stp 2))))
      normalise s sm0 sm1
    | 1 =>
      let sm0 := mm_add (mm_add (SSE2_MUL_CONJ s (u 3) (stp 3)) (mm_add (SSE2_MUL_CONJ s (u 4)
        (stp 4)) (SSE2_MUL_CONJ s (u 5) (stp 5)))) (mm_add (SSE2_MULCONJ s (u 6) (stp 6)) (mm_add
        (SSE2_MULCONJ s (u 7) (stp 7)) (SSE2_MULCONJ s (u 8) (stp 8))))
      let sm1 := mm_sub (mm_add (SSE2_MUL_CONJ s (u 3) (stp 6)) (mm_add (SSE2_MUL_CONJ s (u 4)
        (stp 7)) (SSE2_MUL_CONJ s (u 5) (stp 8)))) (mm_add (SSE2_MULCONJ s (u 6) (stp 3)) (mm_add
        (SSE2_MULCONJ s (u 7) (stp 4)) (SSE2_MULCONJ s (u 8) (stp 5))))
      normalise s sm0 sm1
    | _ =>
      let sm0 := mm_add (mm_add (SSE2_MULCONJ s (u 0) (stp 0)) (mm_add (SSE2_MULCONJ s (u 1)
        (stp 1)) (SSE2_MULCONJ s (u 2) (stp 2)))) (mm_add (SSE2_MUL_CONJ s (u 6) (stp 6)) (mm_add
        (SSE2_MUL_CONJ s (u 7) (stp 7)) (SSE2_MUL_CONJ s (u 8) (stp 8))))
      let sm1 := mm_sub (mm_add (SSE2_MUL_CONJ s (u 6) (stp 0)) (mm_add (SSE2_MUL_CONJ s (u 7)
        (stp 1)) (SSE2_MUL_CONJ s (u 8) (stp 2)))) (mm_add (SSE2_MULCONJ s (u 0) (stp 6)) (mm_add
        (SSE2_MULCONJ s (u 1) (stp 7)) (SSE2_MULCONJ s (u 2) (stp 8))))
      normalise s sm0 sm1
  else if NC = 2 then
    let sm0 := mm_add (mm_add (SSE2_MUL_CONJ s (u 0) (stp 0)) (SSE2_MUL_CONJ s (u 1) (stp 1)))
      (mm_add (SSE2_MULCONJ s (u 2) (stp 2)) (SSE2_MULCONJ s (u 3) (stp 3)))
    let sm1 := mm_sub (mm_add (SSE2_MUL_CONJ s (u 0) (stp 2)) (SSE2_MUL_CONJ s (u 1) (stp 3)))
      (mm_add (SSE2_MULCONJ s (u 2) (stp 0)) (SSE2_MULCONJ s (u 3) (stp 1)))
    normalise s sm0 sm1
  else
    let row_a := (su2_data NC su2_index).idx_a / NC
    let col_b := (su2_data NC su2_index).idx_b % NC
    let sm := forN NC (fun i (sm : V2 ℝ × V2 ℝ) =>
      (mm_add sm.1 (mm_add (SSE2_MUL_CONJ s (u (NC * row_a + i)) (stp (NC * row_a + i)))
        (SSE2_MULCONJ s (u (NC * col_b + i)) (stp (NC * col_b + i)))),
       mm_add sm.2 (mm_sub (SSE2_MUL_CONJ s (u (NC * row_a + i)) (stp (NC * col_b + i)))
        (SSE2_MULCONJ s (u (NC * col_b + i)) (stp (NC * row_a + i)))))) (mm_setzero, mm_setzero)
    normalise s sm.1 sm.2

/-- `shortened_su2_multiply`, `SU2_rotate_SSE.c:224-248`. -/
noncomputable def shortened_su2_multiply (s : ISA) (NC : ℕ) (w : Arr ℂ) (a b : ℂ) (su2_index : ℕ) :
    Arr ℂ :=
  let A := ld a
  let B := ld b
  let row_a := NC * ((su2_data NC su2_index).idx_a / NC)
  let row_c := NC * ((su2_data NC su2_index).idx_c / NC)
  stA (forN NC (fun i (w : Arr (V2 ℝ)) =>
    let tmp := w (row_a + i)
    let w := Function.update w (row_a + i)
      (mm_add (SSE2_MUL s A (w (row_a + i))) (SSE2_MUL s B (w (row_c + i))))
    Function.update w (row_c + i)
      (mm_sub (SSE2_MULCONJ s A (w (row_c + i))) (SSE2_MULCONJ s B tmp))) (ldA w))

/-- `shortened_su2_multiply_dag`, `SU2_rotate_SSE.c:256-283`. -/
noncomputable def shortened_su2_multiply_dag (s : ISA) (NC : ℕ) (U : Arr ℂ) (a b : ℂ)
    (su2_index : ℕ) : Arr ℂ :=
  let A : V2 ℝ := ⟨a.re, -a.im⟩
  let B : V2 ℝ := ⟨b.re, -b.im⟩
  let col_a := (su2_data NC su2_index).idx_a % NC
  let col_b := (su2_data NC su2_index).idx_b % NC
  stA (forN NC (fun i (U : Arr (V2 ℝ)) =>
    let tmp := U (col_a + i * NC)
    let U := Function.update U (col_a + i * NC)
      (mm_add (SSE2_MUL s tmp A) (SSE2_MUL s (U (col_b + i * NC)) B))
    Function.update U (col_b + i * NC)
      (mm_sub (SSE2_MUL_CONJ s (U (col_b + i * NC)) A) (SSE2_MUL_CONJ s tmp B))) (ldA U))

/-- `su2_rotate`, `SU2_rotate_SSE.c:286-392`. -/
noncomputable def su2_rotate (s : ISA) (NC : ℕ) (U : Arr ℂ) (s0 s1 : ℂ) (su2_index : ℕ) : Arr ℂ :=
  let u := ldA U
  let sm0 := ld s0
  let sm1 := ld s1
  if NC = 3 then
    match su2_index % 3 with
    | 0 =>
      let a := u 0
      let b := u 3
      let tmp0 := mm_add (SSE2_MUL s sm0 a) (SSE2_MUL s sm1 b)
      let tmp1 := mm_sub (SSE2_MULCONJ s sm0 b) (SSE2_MULCONJ s sm1 a)
      let u := Function.update u 0 (tmp0)
      let u := Function.update u 3 (tmp1)
      let a := u 1
      let b := u 4
      let tmp0 := mm_add (SSE2_MUL s sm0 a) (SSE2_MUL s sm1 b)
      let tmp1 := mm_sub (SSE2_MULCONJ s sm0 b) (SSE2_MULCONJ s sm1 a)
      let u := Function.update u 1 (tmp0)
      let u := Function.update u 4 (tmp1)
      let a := u 2
      let b := u 5
      let tmp0 := mm_add (SSE2_MUL s sm0 a) (SSE2_MUL s sm1 b)
      let tmp1 := mm_sub (SSE2_MULCONJ s sm0 b) (SSE2_MULCONJ s sm1 a)
      let u := Function.update u 2 (tmp0)
      let u := Function.update u 5 (tmp1)
      stA u
    | 1 =>
      let a := u 3
      let b := u 6
      let tmp0 := mm_add (SSE2_MUL s sm0 a) (SSE2_MUL s sm1 b)
      let tmp1 := mm_sub (SSE2_MULCONJ s sm0 b) (SSE2_MULCONJ s sm1 a)
      let u := Function.update u 3 (tmp0)
      let u := Function.update u 6 (tmp1)
      let a := u 4
      let b := u 7
      let tmp0 := mm_add (SSE2_MUL s sm0 a) (SSE2_MUL s sm1 b)
      let tmp1 := mm_sub (SSE2_MULCONJ s sm0 b) (SSE2_MULCONJ s sm1 a)
      let u := Function.update u 4 (tmp0)
      let u := Function.update u 7 (tmp1)
      let a := u 5
      let b := u 8
      let tmp0 := mm_add (SSE2_MUL s sm0 a) (SSE2_MUL s sm1 b)
      let tmp1 := mm_sub (SSE2_MULCONJ s sm0 b) (SSE2_MULCONJ s sm1 a)
      let u := Function.update u 5 (tmp0)
      let u := Function.update u 8 (tmp1)
      stA u
    | _ =>
      let a := u 0
      let b := u 6
      let tmp0 := mm_sub (SSE2_MULCONJ s sm0 a) (SSE2_MULCONJ s sm1 b)
      let tmp1 := mm_add (SSE2_MUL s sm0 b) (SSE2_MUL s sm1 a)
      let u := Function.update u 0 (tmp0)
      let u := Function.update u 6 (tmp1)
      let a := u 1
      let b := u 7
      let tmp0 := mm_sub (SSE2_MULCONJ s sm0 a) (SSE2_MULCONJ s sm1 b)
      let tmp1 := mm_add (SSE2_MUL s sm0 b) (SSE2_MUL s sm1 a)
      let u := Function.update u 1 (tmp0)
      let u := Function.update u 7 (tmp1)
      let a := u 2
      let b := u 8
      let tmp0 := mm_sub (SSE2_MULCONJ s sm0 a) (SSE2_MULCONJ s sm1 b)
      let tmp1 := mm_add (SSE2_MUL s sm0 b) (SSE2_MUL s sm1 a)
      let u := Function.update u 2 (tmp0)
      let u := Function.update u 8 (tmp1)
      stA u
  else if NC = 2 then
    let u := Function.update u 0 (mm_add (SSE2_MUL s sm0 (u 0)) (SSE2_MUL s sm1 (u 2)))
    let u := Function.update u 1 (mm_add (SSE2_MUL s sm0 (u 1)) (SSE2_MUL s sm1 (u 3)))
    let u := Function.update u 2 (SSE_FLIP (SSE2_CONJ (u 1)))
    let u := Function.update u 3 (SSE2_CONJ (u 0))
    stA u
  else shortened_su2_multiply s NC U s0 s1 su2_index

/-- `overrelax`, `relax.c:47-72`, linked with the vectorised subgroup operations. -/
noncomputable def overrelax (s : ISA) (NC : ℕ) (U staple : Arr ℂ) : Option (Arr ℂ) :=
  forN (NSU2SUBGROUPS NC) (fun i U => U.bind fun U =>
    (only_subgroup s NC U staple i).map fun x =>
      let t := microcanonical x.1 x.2.1
      su2_rotate s NC U t.1 t.2 i) (some U)

end GLU.Update.Sse
