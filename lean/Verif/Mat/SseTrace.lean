import Verif.Mat.SseGram

/-!
# The vectorised traces of products of three matrices

Model of `Matrix_Ops/trace_abc_SSE.c`, transcribed statement by statement; see `Verif.Mat.Sse`
for the conventions.
-/

namespace GLU.Mat.Sse

/-- `Re_trace_abc_dag_suNC` for `NC == 3`, `trace_abc_SSE.c:43-115`: the lanes stored in `csum`. -/
noncomputable def Re_trace_abc_dag_suNC3 (s : ISA) (a b c : Arr (V2 ℝ)) : V2 ℝ :=
  let E := SSE2_MUL s (a 0) (b 0)
  let F := SSE2_MUL s (a 1) (b 3)
  let G := SSE2_MUL s (a 2) (b 6)
  let H := SSE2_MUL s (a 0) (b 1)
  let J := SSE2_MUL s (a 1) (b 4)
  let K := SSE2_MUL s (a 2) (b 7)
  let E := mm_add E F
  let H := mm_add H J
  let a0 := mm_add E G
  let a1 := mm_add H K
  let E := SSE2_MUL s (a 0) (b 2)
  let F := SSE2_MUL s (a 1) (b 5)
  let G := SSE2_MUL s (a 2) (b 8)
  let H := SSE2_MUL s (a 3) (b 0)
  let J := SSE2_MUL s (a 4) (b 3)
  let K := SSE2_MUL s (a 5) (b 6)
  let E := mm_add E F
  let H := mm_add H J
  let a2 := mm_add E G
  let a3 := mm_add H K
  let E := SSE2_MUL s (a 3) (b 1)
  let F := SSE2_MUL s (a 4) (b 4)
  let G := SSE2_MUL s (a 5) (b 7)
  let H := SSE2_MUL s (a 3) (b 2)
  let J := SSE2_MUL s (a 4) (b 5)
  let K := SSE2_MUL s (a 5) (b 8)
  let E := mm_add E F
  let H := mm_add H J
  let a4 := mm_add E G
  let a5 := mm_add H K
  let F := SSE2_MUL s a1 a3
  let H := SSE2_MUL s a0 a4
  let G := SSE2_MUL s a2 a4
  let K := SSE2_MUL s a1 a5
  let E := SSE2_MUL s a2 a3
  let J := SSE2_MUL s a0 a5
  let H := mm_sub H F
  let K := mm_sub K G
  let E := mm_sub E J
  let a8 := SSE2_CONJ H
  let a6 := SSE2_CONJ K
  let a7 := SSE2_CONJ E
  let E := mm_mul a2 (c 2)
  let F := mm_mul a1 (c 1)
  let G := mm_mul a0 (c 0)
  let E := mm_add E F
  let E := mm_add E G
  let sum := mm_setzero
  let sum := mm_add sum E
  let H := mm_mul a3 (c 3)
  let J := mm_mul a4 (c 4)
  let K := mm_mul a5 (c 5)
  let H := mm_add H J
  let H := mm_add H K
  let sum := mm_add sum H
  let E := mm_mul a6 (c 6)
  let F := mm_mul a7 (c 7)
  let G := mm_mul a8 (c 8)
  let E := mm_add E F
  let E := mm_add E G
  let sum := mm_add sum E
  sum

/-- `Re_trace_abc_dag_suNC` for `NC == 2`, `trace_abc_SSE.c:119-126`. -/
noncomputable def Re_trace_abc_dag_suNC2 (s : ISA) (a b c : Arr (V2 ℝ)) : V2 ℝ :=
  let a0 := mm_sub (SSE2_MUL s (a 0) (b 0)) (SSE2_MUL_CONJ s (a 1) (b 1))
  let a1 := mm_add (SSE2_MUL s (a 0) (b 1)) (SSE2_MUL_CONJ s (a 1) (b 0))
  let sum := mm_add (mm_mul a0 (c 0)) (mm_mul a1 (c 1))
  mm_add sum sum

/-- The loop over `k` of `trace_abc_SSE.c:131-138,224-231,317-325`: `A` stands at row `j`. -/
noncomputable def insum (s : ISA) (NC : ℕ) (a b : Arr (V2 ℝ)) (i j : ℕ) : V2 ℝ :=
  forN NC (fun k insum => mm_add insum (SSE2_MUL s (a (j * NC + k)) (b (k * NC + i)))) mm_setzero

/-- `Re_trace_abc_dag_suNC` for other `NC`, `trace_abc_SSE.c:128-145`. -/
noncomputable def Re_trace_abc_dag_suNCN (s : ISA) (NC : ℕ) (a b c : Arr (V2 ℝ)) : V2 ℝ :=
  forN NC (fun i sum => forN NC (fun j sum =>
    mm_add sum (mm_mul (insum s NC a b i j) (c (i + j * NC)))) sum) mm_setzero

/-- `Re_trace_abc_dag_suNC`, `trace_abc_SSE.c:33-148`. -/
noncomputable def Re_trace_abc_dag_suNC (s : ISA) (NC : ℕ) (a b c : Arr ℂ) : ℝ :=
  let csum := st (if NC = 3 then Re_trace_abc_dag_suNC3 s (ldA a) (ldA b) (ldA c)
    else if NC = 2 then Re_trace_abc_dag_suNC2 s (ldA a) (ldA b) (ldA c)
    else Re_trace_abc_dag_suNCN s NC (ldA a) (ldA b) (ldA c))
  csum.re + csum.im

/-- `trace_abc` for `NC == 3`, `trace_abc_SSE.c:163-202`. -/
noncomputable def trace_abc3 (s : ISA) (a b c : Arr (V2 ℝ)) : V2 ℝ :=
  let a0 := mm_add (SSE2_MUL s (a 0) (b 0)) (mm_add (SSE2_MUL s (a 1) (b 3)) (SSE2_MUL s (a 2)
    (b 6)))
  let a1 := mm_add (SSE2_MUL s (a 0) (b 1)) (mm_add (SSE2_MUL s (a 1) (b 4)) (SSE2_MUL s (a 2)
    (b 7)))
  let a2 := mm_add (SSE2_MUL s (a 0) (b 2)) (mm_add (SSE2_MUL s (a 1) (b 5)) (SSE2_MUL s (a 2)
    (b 8)))
  let a3 := mm_add (SSE2_MUL s (a 3) (b 0)) (mm_add (SSE2_MUL s (a 4) (b 3)) (SSE2_MUL s (a 5)
    (b 6)))
  let a4 := mm_add (SSE2_MUL s (a 3) (b 1)) (mm_add (SSE2_MUL s (a 4) (b 4)) (SSE2_MUL s (a 5)
    (b 7)))
  let a5 := mm_add (SSE2_MUL s (a 3) (b 2)) (mm_add (SSE2_MUL s (a 4) (b 5)) (SSE2_MUL s (a 5)
    (b 8)))
  let a6 := mm_add (SSE2_MUL s (a 6) (b 0)) (mm_add (SSE2_MUL s (a 7) (b 3)) (SSE2_MUL s (a 8)
    (b 6)))
  let a7 := mm_add (SSE2_MUL s (a 6) (b 1)) (mm_add (SSE2_MUL s (a 7) (b 4)) (SSE2_MUL s (a 8)
    (b 7)))
  let a8 := mm_add (SSE2_MUL s (a 6) (b 2)) (mm_add (SSE2_MUL s (a 7) (b 5)) (SSE2_MUL s (a 8)
    (b 8)))
  let sum := mm_setzero
  let sum := mm_add sum (SSE2_MUL s a0 (c 0))
  let sum := mm_add sum (SSE2_MUL s a1 (c 3))
  let sum := mm_add sum (SSE2_MUL s a2 (c 6))
  let sum := mm_add sum (SSE2_MUL s a3 (c 1))
  let sum := mm_add sum (SSE2_MUL s a4 (c 4))
  let sum := mm_add sum (SSE2_MUL s a5 (c 7))
  let sum := mm_add sum (SSE2_MUL s a6 (c 2))
  let sum := mm_add sum (SSE2_MUL s a7 (c 5))
  let sum := mm_add sum (SSE2_MUL s a8 (c 8))
  sum

/-- `trace_abc` for `NC == 2`, `trace_abc_SSE.c:205-219`. -/
noncomputable def trace_abc2 (s : ISA) (a b c : Arr (V2 ℝ)) : V2 ℝ :=
  let a0 := mm_add (SSE2_MUL s (a 0) (b 0)) (SSE2_MUL s (a 1) (b 2))
  let a1 := mm_add (SSE2_MUL s (a 2) (b 0)) (SSE2_MUL s (a 3) (b 2))
  let a2 := mm_add (SSE2_MUL s (a 0) (b 1)) (SSE2_MUL s (a 1) (b 3))
  let a3 := mm_add (SSE2_MUL s (a 2) (b 1)) (SSE2_MUL s (a 3) (b 3))
  let sum := mm_setzero
  let sum := mm_add sum (SSE2_MUL s a0 (c 0))
  let sum := mm_add sum (SSE2_MUL s a1 (c 1))
  let sum := mm_add sum (SSE2_MUL s a2 (c 2))
  let sum := mm_add sum (SSE2_MUL s a3 (c 3))
  sum

/-- `trace_abc` for other `NC`, `trace_abc_SSE.c:221-236`; the pointer `C`, moved after each `j`
and not set back, is carried along as the second component. -/
noncomputable def trace_abcN (s : ISA) (NC : ℕ) (a b c : Arr (V2 ℝ)) : V2 ℝ :=
  (forN NC (fun i t => forN NC (fun j (t : V2 ℝ × ℕ) =>
    (mm_add t.1 (SSE2_MUL s (insum s NC a b i j) (c t.2)), t.2 + 1)) t) (mm_setzero, 0)).1

/-- `trace_abc`, `trace_abc_SSE.c:151-241`. -/
noncomputable def trace_abc (s : ISA) (NC : ℕ) (a b c : Arr ℂ) : ℂ :=
  st (if NC = 3 then trace_abc3 s (ldA a) (ldA b) (ldA c)
    else if NC = 2 then trace_abc2 s (ldA a) (ldA b) (ldA c)
    else trace_abcN s NC (ldA a) (ldA b) (ldA c))

/-- `trace_abc_dag` for `NC == 3`, `trace_abc_SSE.c:256-295`. -/
noncomputable def trace_abc_dag3 (s : ISA) (a b c : Arr (V2 ℝ)) : V2 ℝ :=
  let a0 := mm_add (SSE2_MUL s (a 0) (b 0)) (mm_add (SSE2_MUL s (a 1) (b 3)) (SSE2_MUL s (a 2)
    (b 6)))
  let a1 := mm_add (SSE2_MUL s (a 0) (b 1)) (mm_add (SSE2_MUL s (a 1) (b 4)) (SSE2_MUL s (a 2)
    (b 7)))
  let a2 := mm_add (SSE2_MUL s (a 0) (b 2)) (mm_add (SSE2_MUL s (a 1) (b 5)) (SSE2_MUL s (a 2)
    (b 8)))
  let a3 := mm_add (SSE2_MUL s (a 3) (b 0)) (mm_add (SSE2_MUL s (a 4) (b 3)) (SSE2_MUL s (a 5)
    (b 6)))
  let a4 := mm_add (SSE2_MUL s (a 3) (b 1)) (mm_add (SSE2_MUL s (a 4) (b 4)) (SSE2_MUL s (a 5)
    (b 7)))
  let a5 := mm_add (SSE2_MUL s (a 3) (b 2)) (mm_add (SSE2_MUL s (a 4) (b 5)) (SSE2_MUL s (a 5)
    (b 8)))
  let a6 := mm_add (SSE2_MUL s (a 6) (b 0)) (mm_add (SSE2_MUL s (a 7) (b 3)) (SSE2_MUL s (a 8)
    (b 6)))
  let a7 := mm_add (SSE2_MUL s (a 6) (b 1)) (mm_add (SSE2_MUL s (a 7) (b 4)) (SSE2_MUL s (a 8)
    (b 7)))
  let a8 := mm_add (SSE2_MUL s (a 6) (b 2)) (mm_add (SSE2_MUL s (a 7) (b 5)) (SSE2_MUL s (a 8)
    (b 8)))
  let sum := mm_setzero
  let sum := mm_add sum (SSE2_MUL_CONJ s a0 (c 0))
  let sum := mm_add sum (SSE2_MUL_CONJ s a1 (c 1))
  let sum := mm_add sum (SSE2_MUL_CONJ s a2 (c 2))
  let sum := mm_add sum (SSE2_MUL_CONJ s a3 (c 3))
  let sum := mm_add sum (SSE2_MUL_CONJ s a4 (c 4))
  let sum := mm_add sum (SSE2_MUL_CONJ s a5 (c 5))
  let sum := mm_add sum (SSE2_MUL_CONJ s a6 (c 6))
  let sum := mm_add sum (SSE2_MUL_CONJ s a7 (c 7))
  let sum := mm_add sum (SSE2_MUL_CONJ s a8 (c 8))
  sum

/-- `trace_abc_dag` for `NC == 2`, `trace_abc_SSE.c:298-312`. -/
noncomputable def trace_abc_dag2 (s : ISA) (a b c : Arr (V2 ℝ)) : V2 ℝ :=
  let a0 := mm_add (SSE2_MUL s (a 0) (b 0)) (SSE2_MUL s (a 1) (b 2))
  let a1 := mm_add (SSE2_MUL s (a 0) (b 1)) (SSE2_MUL s (a 1) (b 3))
  let a2 := mm_add (SSE2_MUL s (a 2) (b 0)) (SSE2_MUL s (a 3) (b 2))
  let a3 := mm_add (SSE2_MUL s (a 2) (b 1)) (SSE2_MUL s (a 3) (b 3))
  let sum := mm_setzero
  let sum := mm_add sum (SSE2_MUL_CONJ s a0 (c 0))
  let sum := mm_add sum (SSE2_MUL_CONJ s a1 (c 1))
  let sum := mm_add sum (SSE2_MUL_CONJ s a2 (c 2))
  let sum := mm_add sum (SSE2_MUL_CONJ s a3 (c 3))
  sum

/-- `trace_abc_dag` for other `NC`, `trace_abc_SSE.c:314-331`. -/
noncomputable def trace_abc_dagN (s : ISA) (NC : ℕ) (a b c : Arr (V2 ℝ)) : V2 ℝ :=
  forN NC (fun i sum => forN NC (fun j sum =>
    mm_add sum (SSE2_MUL_CONJ s (insum s NC a b i j) (c (i + j * NC)))) sum) mm_setzero

/-- `trace_abc_dag`, `trace_abc_SSE.c:244-336`. -/
noncomputable def trace_abc_dag (s : ISA) (NC : ℕ) (a b c : Arr ℂ) : ℂ :=
  st (if NC = 3 then trace_abc_dag3 s (ldA a) (ldA b) (ldA c)
    else if NC = 2 then trace_abc_dag2 s (ldA a) (ldA b) (ldA c)
    else trace_abc_dagN s NC (ldA a) (ldA b) (ldA c))

/-- `trace_abc_dag_Re`, `trace_abc_SSE.c:339-349`. -/
noncomputable def trace_abc_dag_Re (s : ISA) (NC : ℕ) (a b c : Arr ℂ) : ℝ :=
  (trace_abc_dag s NC a b c).re

end GLU.Mat.Sse
