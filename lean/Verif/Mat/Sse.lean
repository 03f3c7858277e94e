import Verif.Mat.UNops

/-!
# The vectorised matrix products

Model of `Headers/SSE2_OPS.h` and of the `*_SSE.c` versions of the matrix products in
`Matrix_Ops/MMUL`.  They replace the portable versions whenever `immintrin.h` is found and the
library is built in double precision.  A `__m128d` is a pair of lanes, a complex number is one
`__m128d` with the real part in the low lane.  The unrolled bodies are transcribed statement
by statement.  Lanes are real numbers: rounding, and with it the difference between a fused
and a separate multiply-add, is not modelled.
-/

namespace GLU.Mat.Sse

open Complex

/-- A `__m128d`: low and high lane. -/
@[ext] structure V2 (K : Type*) where
  lo : K
  hi : K

/-- The instruction sets `SSE2_OPS.h` tells apart: plain SSE2, `__SSE3__`, and `__SSE3__`
with `__FMA__`. -/
inductive ISA
  | sse2
  | sse3
  | fma
  deriving DecidableEq

section Intrinsics

variable {K : Type*} [Add K] [Sub K] [Mul K] [Neg K] [Zero K]

/-- `_mm_add_pd`. -/
def mm_add (a b : V2 K) : V2 K := ⟨a.lo + b.lo, a.hi + b.hi⟩
/-- `_mm_sub_pd`. -/
def mm_sub (a b : V2 K) : V2 K := ⟨a.lo - b.lo, a.hi - b.hi⟩
/-- `_mm_mul_pd`. -/
def mm_mul (a b : V2 K) : V2 K := ⟨a.lo * b.lo, a.hi * b.hi⟩
/-- `_mm_setzero_pd`. -/
def mm_setzero : V2 K := ⟨0, 0⟩
/-- `_mm_addsub_pd`: subtract the low lanes, add the high lanes. -/
def mm_addsub (a b : V2 K) : V2 K := ⟨a.lo - b.lo, a.hi + b.hi⟩
/-- `_mm_fmadd_pd`. -/
def mm_fmadd (a b c : V2 K) : V2 K := ⟨a.lo * b.lo + c.lo, a.hi * b.hi + c.hi⟩
/-- `_mm_fmaddsub_pd`. -/
def mm_fmaddsub (a b c : V2 K) : V2 K := ⟨a.lo * b.lo - c.lo, a.hi * b.hi + c.hi⟩
/-- `_mm_hsub_pd`. -/
def mm_hsub (a b : V2 K) : V2 K := ⟨a.lo - a.hi, b.lo - b.hi⟩

/-- `_mm_movedup_pd`. -/
def mm_movedup (a : V2 K) : V2 K := ⟨a.lo, a.lo⟩
/-- `_mm_unpacklo_pd`. -/
def mm_unpacklo (a b : V2 K) : V2 K := ⟨a.lo, b.lo⟩
/-- `_mm_unpackhi_pd`. -/
def mm_unpackhi (a b : V2 K) : V2 K := ⟨a.hi, b.hi⟩
/-- `_mm_shuffle_pd( a , b , 1 )`. -/
def mm_shuffle1 (a b : V2 K) : V2 K := ⟨a.hi, b.lo⟩
/-- `_mm_move_sd( a , b )`: the low lane from `b`, the high lane from `a`. -/
def mm_move_sd (a b : V2 K) : V2 K := ⟨b.lo, a.hi⟩

/-- `SSE_FLIP`, `SSE2_OPS.h:27-31`: the negation, written as `-a` or as an exclusive or with
the sign bits. -/
def SSE_FLIP (a : V2 K) : V2 K := ⟨-a.lo, -a.hi⟩

/-- `SSE2_FMA`, `SSE2_OPS.h:34-38`. -/
def SSE2_FMA (s : ISA) (a b c : V2 K) : V2 K :=
  match s with
  | .fma => mm_fmadd a b c
  | _ => mm_add (mm_mul a b) c

/-- `SSE2_MULCONJ`, `SSE2_OPS.h:41-55`. -/
def SSE2_MULCONJ (s : ISA) (a b : V2 K) : V2 K :=
  match s with
  | .fma => mm_fmadd (mm_movedup a) b
      (mm_mul (mm_unpackhi a (SSE_FLIP a)) (mm_shuffle1 b b))
  | .sse3 => mm_add (mm_mul (mm_movedup a) b)
      (mm_mul (mm_unpackhi a (SSE_FLIP a)) (mm_shuffle1 b b))
  | .sse2 => mm_add (mm_mul (mm_unpacklo a a) b)
      (mm_mul (mm_unpackhi a (SSE_FLIP a)) (mm_shuffle1 b b))

/-- `SSE2_MUL`, `SSE2_OPS.h:58-72`. -/
def SSE2_MUL (s : ISA) (a b : V2 K) : V2 K :=
  match s with
  | .fma => mm_fmaddsub (mm_movedup a) b (mm_mul (mm_unpackhi a a) (mm_shuffle1 b b))
  | .sse3 => mm_addsub (mm_mul (mm_movedup a) b) (mm_mul (mm_unpackhi a a) (mm_shuffle1 b b))
  | .sse2 => mm_add (mm_mul (mm_unpacklo a a) b)
      (mm_mul (mm_unpackhi (SSE_FLIP a) a) (mm_shuffle1 b b))

/-- `SSE2_MUL_CONJ`, `SSE2_OPS.h:75-89`. -/
def SSE2_MUL_CONJ (s : ISA) (a b : V2 K) : V2 K :=
  match s with
  | .fma => mm_fmaddsub (mm_unpackhi a a) (mm_shuffle1 b b)
      (mm_mul (mm_movedup a) (SSE_FLIP b))
  | .sse3 => mm_addsub (mm_mul (mm_unpackhi a a) (mm_shuffle1 b b))
      (mm_mul (mm_movedup a) (SSE_FLIP b))
  | .sse2 => mm_add (mm_mul (mm_unpacklo a (SSE_FLIP a)) b)
      (mm_mul (mm_unpackhi a a) (mm_shuffle1 b b))

/-- `SSE2_MUL_CONJCONJ`, `SSE2_OPS.h:92-99`. -/
def SSE2_MUL_CONJCONJ (s : ISA) (a b : V2 K) : V2 K :=
  match s with
  | .sse2 => mm_add (mm_mul (mm_unpacklo a (SSE_FLIP a)) b)
      (mm_mul (mm_unpackhi (SSE_FLIP a) (SSE_FLIP a)) (mm_shuffle1 b b))
  | _ => mm_hsub (mm_mul a b) (mm_mul a (mm_shuffle1 (SSE_FLIP b) b))

/-- `SSE2_iMUL`, `SSE2_OPS.h:102`. -/
def SSE2_iMUL (a : V2 K) : V2 K := mm_shuffle1 (SSE_FLIP a) a

/-- `SSE2_miMUL`, `SSE2_OPS.h:105`. -/
def SSE2_miMUL (a : V2 K) : V2 K := mm_shuffle1 a (SSE_FLIP a)

/-- `SSE2_CONJ`, `SSE2_OPS.h:108`. -/
def SSE2_CONJ (a : V2 K) : V2 K := mm_move_sd (SSE_FLIP a) a

end Intrinsics

noncomputable instance : Zero (V2 ℝ) := ⟨mm_setzero⟩

/-- A `double complex` read through a `__m128d*`: the real part is the low lane. -/
def ld (z : ℂ) : V2 ℝ := ⟨z.re, z.im⟩

/-- A `__m128d` read as a `double complex`. -/
def st (v : V2 ℝ) : ℂ := ⟨v.lo, v.hi⟩

/-- A `GLU_complex` array read through a `__m128d*`. -/
def ldA (a : Arr ℂ) : Arr (V2 ℝ) := fun n => ld (a n)

/-- An array of `__m128d` read as `GLU_complex`. -/
def stA (a : Arr (V2 ℝ)) : Arr ℂ := fun n => st (a n)

/-- `multab` for `NC == 3`, `MMUL_SSE.c:194-220`. -/
noncomputable def multab3 (s : ISA) (b c : Arr (V2 ℝ)) : Arr (V2 ℝ) :=
  arr [
    mm_add (SSE2_MUL s (b 0) (c 0)) (mm_add (SSE2_MUL s (b 1) (c 3)) (SSE2_MUL s (b 2) (c 6))),
    mm_add (SSE2_MUL s (b 0) (c 1)) (mm_add (SSE2_MUL s (b 1) (c 4)) (SSE2_MUL s (b 2) (c 7))),
    mm_add (SSE2_MUL s (b 0) (c 2)) (mm_add (SSE2_MUL s (b 1) (c 5)) (SSE2_MUL s (b 2) (c 8))),
    mm_add (SSE2_MUL s (b 3) (c 0)) (mm_add (SSE2_MUL s (b 4) (c 3)) (SSE2_MUL s (b 5) (c 6))),
    mm_add (SSE2_MUL s (b 3) (c 1)) (mm_add (SSE2_MUL s (b 4) (c 4)) (SSE2_MUL s (b 5) (c 7))),
    mm_add (SSE2_MUL s (b 3) (c 2)) (mm_add (SSE2_MUL s (b 4) (c 5)) (SSE2_MUL s (b 5) (c 8))),
    mm_add (SSE2_MUL s (b 6) (c 0)) (mm_add (SSE2_MUL s (b 7) (c 3)) (SSE2_MUL s (b 8) (c 6))),
    mm_add (SSE2_MUL s (b 6) (c 1)) (mm_add (SSE2_MUL s (b 7) (c 4)) (SSE2_MUL s (b 8) (c 7))),
    mm_add (SSE2_MUL s (b 6) (c 2)) (mm_add (SSE2_MUL s (b 7) (c 5)) (SSE2_MUL s (b 8) (c 8)))]

/-- `multab` for `NC == 2`, `MMUL_SSE.c:222-229`. -/
noncomputable def multab2 (s : ISA) (b c : Arr (V2 ℝ)) : Arr (V2 ℝ) :=
  arr [
    mm_add (SSE2_MUL s (b 0) (c 0)) (SSE2_MUL s (b 1) (c 2)),
    mm_add (SSE2_MUL s (b 0) (c 1)) (SSE2_MUL s (b 1) (c 3)),
    mm_add (SSE2_MUL s (b 2) (c 0)) (SSE2_MUL s (b 3) (c 2)),
    mm_add (SSE2_MUL s (b 2) (c 1)) (SSE2_MUL s (b 3) (c 3))]

/-- `multabdag` for `NC == 3`, `MMULdag_SSE.c:42-78`. -/
noncomputable def multabdag3 (s : ISA) (b c : Arr (V2 ℝ)) : Arr (V2 ℝ) :=
  arr [
    mm_add (SSE2_MULCONJ s (b 0) (c 0)) (mm_add (SSE2_MULCONJ s (b 3) (c 3))
      (SSE2_MULCONJ s (b 6) (c 6))),
    mm_add (SSE2_MULCONJ s (b 0) (c 1)) (mm_add (SSE2_MULCONJ s (b 3) (c 4))
      (SSE2_MULCONJ s (b 6) (c 7))),
    mm_add (SSE2_MULCONJ s (b 0) (c 2)) (mm_add (SSE2_MULCONJ s (b 3) (c 5))
      (SSE2_MULCONJ s (b 6) (c 8))),
    mm_add (SSE2_MULCONJ s (b 1) (c 0)) (mm_add (SSE2_MULCONJ s (b 4) (c 3))
      (SSE2_MULCONJ s (b 7) (c 6))),
    mm_add (SSE2_MULCONJ s (b 1) (c 1)) (mm_add (SSE2_MULCONJ s (b 4) (c 4))
      (SSE2_MULCONJ s (b 7) (c 7))),
    mm_add (SSE2_MULCONJ s (b 1) (c 2)) (mm_add (SSE2_MULCONJ s (b 4) (c 5))
      (SSE2_MULCONJ s (b 7) (c 8))),
    mm_add (SSE2_MULCONJ s (b 2) (c 0)) (mm_add (SSE2_MULCONJ s (b 5) (c 3))
      (SSE2_MULCONJ s (b 8) (c 6))),
    mm_add (SSE2_MULCONJ s (b 2) (c 1)) (mm_add (SSE2_MULCONJ s (b 5) (c 4))
      (SSE2_MULCONJ s (b 8) (c 7))),
    mm_add (SSE2_MULCONJ s (b 2) (c 2)) (mm_add (SSE2_MULCONJ s (b 5) (c 5))
      (SSE2_MULCONJ s (b 8) (c 8)))]

/-- `multabdag` for `NC == 2`, `MMULdag_SSE.c:80-91`. -/
noncomputable def multabdag2 (s : ISA) (b c : Arr (V2 ℝ)) : Arr (V2 ℝ) :=
  arr [
    mm_add (SSE2_MULCONJ s (b 0) (c 0)) (SSE2_MULCONJ s (b 2) (c 2)),
    mm_add (SSE2_MULCONJ s (b 0) (c 1)) (SSE2_MULCONJ s (b 2) (c 3)),
    mm_add (SSE2_MULCONJ s (b 1) (c 0)) (SSE2_MULCONJ s (b 3) (c 2)),
    mm_add (SSE2_MULCONJ s (b 1) (c 1)) (SSE2_MULCONJ s (b 3) (c 3))]

/-- `multab_dag` for `NC == 3`, `MMUL_dag_SSE.c:41-81`. -/
noncomputable def multab_dag3 (s : ISA) (b c : Arr (V2 ℝ)) : Arr (V2 ℝ) :=
  arr [
    mm_add (SSE2_MUL_CONJ s (b 0) (c 0)) (mm_add (SSE2_MUL_CONJ s (b 1) (c 1))
      (SSE2_MUL_CONJ s (b 2) (c 2))),
    mm_add (SSE2_MUL_CONJ s (b 0) (c 3)) (mm_add (SSE2_MUL_CONJ s (b 1) (c 4))
      (SSE2_MUL_CONJ s (b 2) (c 5))),
    mm_add (SSE2_MUL_CONJ s (b 0) (c 6)) (mm_add (SSE2_MUL_CONJ s (b 1) (c 7))
      (SSE2_MUL_CONJ s (b 2) (c 8))),
    mm_add (SSE2_MUL_CONJ s (b 3) (c 0)) (mm_add (SSE2_MUL_CONJ s (b 4) (c 1))
      (SSE2_MUL_CONJ s (b 5) (c 2))),
    mm_add (SSE2_MUL_CONJ s (b 3) (c 3)) (mm_add (SSE2_MUL_CONJ s (b 4) (c 4))
      (SSE2_MUL_CONJ s (b 5) (c 5))),
    mm_add (SSE2_MUL_CONJ s (b 3) (c 6)) (mm_add (SSE2_MUL_CONJ s (b 4) (c 7))
      (SSE2_MUL_CONJ s (b 5) (c 8))),
    mm_add (SSE2_MUL_CONJ s (b 6) (c 0)) (mm_add (SSE2_MUL_CONJ s (b 7) (c 1))
      (SSE2_MUL_CONJ s (b 8) (c 2))),
    mm_add (SSE2_MUL_CONJ s (b 6) (c 3)) (mm_add (SSE2_MUL_CONJ s (b 7) (c 4))
      (SSE2_MUL_CONJ s (b 8) (c 5))),
    mm_add (SSE2_MUL_CONJ s (b 6) (c 6)) (mm_add (SSE2_MUL_CONJ s (b 7) (c 7))
      (SSE2_MUL_CONJ s (b 8) (c 8)))]

/-- `multab_dag` for `NC == 2`, `MMUL_dag_SSE.c:83-90`. -/
noncomputable def multab_dag2 (s : ISA) (b c : Arr (V2 ℝ)) : Arr (V2 ℝ) :=
  arr [
    mm_add (SSE2_MUL_CONJ s (b 0) (c 0)) (SSE2_MUL_CONJ s (b 1) (c 1)),
    mm_add (SSE2_MUL_CONJ s (b 0) (c 2)) (SSE2_MUL_CONJ s (b 1) (c 3)),
    mm_add (SSE2_MUL_CONJ s (b 2) (c 0)) (SSE2_MUL_CONJ s (b 3) (c 1)),
    mm_add (SSE2_MUL_CONJ s (b 2) (c 2)) (SSE2_MUL_CONJ s (b 3) (c 3))]

/-- `multab_dagdag` for `NC == 3`, `MMULdagdag_SSE.c:42-78`. -/
noncomputable def multab_dagdag3 (s : ISA) (b c : Arr (V2 ℝ)) : Arr (V2 ℝ) :=
  arr [
    mm_add (SSE2_MUL_CONJCONJ s (b 0) (c 0)) (mm_add (SSE2_MUL_CONJCONJ s (b 3) (c 1))
      (SSE2_MUL_CONJCONJ s (b 6) (c 2))),
    mm_add (SSE2_MUL_CONJCONJ s (b 0) (c 3)) (mm_add (SSE2_MUL_CONJCONJ s (b 3) (c 4))
      (SSE2_MUL_CONJCONJ s (b 6) (c 5))),
    mm_add (SSE2_MUL_CONJCONJ s (b 0) (c 6)) (mm_add (SSE2_MUL_CONJCONJ s (b 3) (c 7))
      (SSE2_MUL_CONJCONJ s (b 6) (c 8))),
    mm_add (SSE2_MUL_CONJCONJ s (b 1) (c 0)) (mm_add (SSE2_MUL_CONJCONJ s (b 4) (c 1))
      (SSE2_MUL_CONJCONJ s (b 7) (c 2))),
    mm_add (SSE2_MUL_CONJCONJ s (b 1) (c 3)) (mm_add (SSE2_MUL_CONJCONJ s (b 4) (c 4))
      (SSE2_MUL_CONJCONJ s (b 7) (c 5))),
    mm_add (SSE2_MUL_CONJCONJ s (b 1) (c 6)) (mm_add (SSE2_MUL_CONJCONJ s (b 4) (c 7))
      (SSE2_MUL_CONJCONJ s (b 7) (c 8))),
    mm_add (SSE2_MUL_CONJCONJ s (b 2) (c 0)) (mm_add (SSE2_MUL_CONJCONJ s (b 5) (c 1))
      (SSE2_MUL_CONJCONJ s (b 8) (c 2))),
    mm_add (SSE2_MUL_CONJCONJ s (b 2) (c 3)) (mm_add (SSE2_MUL_CONJCONJ s (b 5) (c 4))
      (SSE2_MUL_CONJCONJ s (b 8) (c 5))),
    mm_add (SSE2_MUL_CONJCONJ s (b 2) (c 6)) (mm_add (SSE2_MUL_CONJCONJ s (b 5) (c 7))
      (SSE2_MUL_CONJCONJ s (b 8) (c 8)))]

/-- `multab_dagdag` for `NC == 2`, `MMULdagdag_SSE.c:80-91`. -/
noncomputable def multab_dagdag2 (s : ISA) (b c : Arr (V2 ℝ)) : Arr (V2 ℝ) :=
  arr [
    mm_add (SSE2_MUL_CONJCONJ s (b 0) (c 0)) (SSE2_MUL_CONJCONJ s (b 2) (c 1)),
    mm_add (SSE2_MUL_CONJCONJ s (b 0) (c 2)) (SSE2_MUL_CONJCONJ s (b 2) (c 3)),
    mm_add (SSE2_MUL_CONJCONJ s (b 1) (c 0)) (SSE2_MUL_CONJCONJ s (b 3) (c 1)),
    mm_add (SSE2_MUL_CONJCONJ s (b 1) (c 2)) (SSE2_MUL_CONJCONJ s (b 3) (c 3))]

/-- `multab_atomic_left` for `NC == 3`, `MMUL_SSE.c:39-70`. -/
noncomputable def multab_atomic_left3 (s : ISA) (a b : Arr (V2 ℝ)) : Arr (V2 ℝ) :=
  let C0 := mm_add (SSE2_MUL s (b 0) (a 0)) (mm_add (SSE2_MUL s (b 1) (a 3)) (SSE2_MUL s (b 2)
    (a 6)))
  let C1 := mm_add (SSE2_MUL s (b 3) (a 0)) (mm_add (SSE2_MUL s (b 4) (a 3)) (SSE2_MUL s (b 5)
    (a 6)))
  let C2 := mm_add (SSE2_MUL s (b 6) (a 0)) (mm_add (SSE2_MUL s (b 7) (a 3)) (SSE2_MUL s (b 8)
    (a 6)))
  let a := Function.update a 0 (C0)
  let a := Function.update a 3 (C1)
  let a := Function.update a 6 (C2)
  let C0 := mm_add (SSE2_MUL s (b 0) (a 1)) (mm_add (SSE2_MUL s (b 1) (a 4)) (SSE2_MUL s (b 2)
    (a 7)))
  let C1 := mm_add (SSE2_MUL s (b 3) (a 1)) (mm_add (SSE2_MUL s (b 4) (a 4)) (SSE2_MUL s (b 5)
    (a 7)))
  let C2 := mm_add (SSE2_MUL s (b 6) (a 1)) (mm_add (SSE2_MUL s (b 7) (a 4)) (SSE2_MUL s (b 8)
    (a 7)))
  let a := Function.update a 1 (C0)
  let a := Function.update a 4 (C1)
  let a := Function.update a 7 (C2)
  let C0 := mm_add (SSE2_MUL s (b 0) (a 2)) (mm_add (SSE2_MUL s (b 1) (a 5)) (SSE2_MUL s (b 2)
    (a 8)))
  let C1 := mm_add (SSE2_MUL s (b 3) (a 2)) (mm_add (SSE2_MUL s (b 4) (a 5)) (SSE2_MUL s (b 5)
    (a 8)))
  let C2 := mm_add (SSE2_MUL s (b 6) (a 2)) (mm_add (SSE2_MUL s (b 7) (a 5)) (SSE2_MUL s (b 8)
    (a 8)))
  let a := Function.update a 2 (C0)
  let a := Function.update a 5 (C1)
  let a := Function.update a 8 (C2)
  a

/-- `multab_atomic_left` for `NC == 2`, `MMUL_SSE.c:72-81`. -/
noncomputable def multab_atomic_left2 (s : ISA) (a b : Arr (V2 ℝ)) : Arr (V2 ℝ) :=
  let C0 := mm_add (SSE2_MUL s (b 0) (a 0)) (SSE2_MUL s (b 1) (a 2))
  let C1 := mm_add (SSE2_MUL s (b 2) (a 0)) (SSE2_MUL s (b 3) (a 2))
  let a := Function.update a 0 (C0)
  let a := Function.update a 2 (C1)
  let C0 := mm_add (SSE2_MUL s (b 0) (a 1)) (SSE2_MUL s (b 1) (a 3))
  let C1 := mm_add (SSE2_MUL s (b 2) (a 1)) (SSE2_MUL s (b 3) (a 3))
  let a := Function.update a 1 (C0)
  let a := Function.update a 3 (C1)
  a

/-- `multab_atomic_right` for `NC == 3`, `MMUL_SSE.c:116-147`. -/
noncomputable def multab_atomic_right3 (s : ISA) (a b : Arr (V2 ℝ)) : Arr (V2 ℝ) :=
  let C0 := mm_add (SSE2_MUL s (b 0) (a 0)) (mm_add (SSE2_MUL s (b 3) (a 1)) (SSE2_MUL s (b 6)
    (a 2)))
  let C1 := mm_add (SSE2_MUL s (b 1) (a 0)) (mm_add (SSE2_MUL s (b 4) (a 1)) (SSE2_MUL s (b 7)
    (a 2)))
  let C2 := mm_add (SSE2_MUL s (b 2) (a 0)) (mm_add (SSE2_MUL s (b 5) (a 1)) (SSE2_MUL s (b 8)
    (a 2)))
  let a := Function.update a 0 (C0)
  let a := Function.update a 1 (C1)
  let a := Function.update a 2 (C2)
  let C0 := mm_add (SSE2_MUL s (b 0) (a 3)) (mm_add (SSE2_MUL s (b 3) (a 4)) (SSE2_MUL s (b 6)
    (a 5)))
  let C1 := mm_add (SSE2_MUL s (b 1) (a 3)) (mm_add (SSE2_MUL s (b 4) (a 4)) (SSE2_MUL s (b 7)
    (a 5)))
  let C2 := mm_add (SSE2_MUL s (b 2) (a 3)) (mm_add (SSE2_MUL s (b 5) (a 4)) (SSE2_MUL s (b 8)
    (a 5)))
  let a := Function.update a 3 (C0)
  let a := Function.update a 4 (C1)
  let a := Function.update a 5 (C2)
  let C0 := mm_add (SSE2_MUL s (b 0) (a 6)) (mm_add (SSE2_MUL s (b 3) (a 7)) (SSE2_MUL s (b 6)
    (a 8)))
  let C1 := mm_add (SSE2_MUL s (b 1) (a 6)) (mm_add (SSE2_MUL s (b 4) (a 7)) (SSE2_MUL s (b 7)
    (a 8)))
  let C2 := mm_add (SSE2_MUL s (b 2) (a 6)) (mm_add (SSE2_MUL s (b 5) (a 7)) (SSE2_MUL s (b 8)
    (a 8)))
  let a := Function.update a 6 (C0)
  let a := Function.update a 7 (C1)
  let a := Function.update a 8 (C2)
  a

/-- `multab_atomic_right` for `NC == 2`, `MMUL_SSE.c:149-158`. -/
noncomputable def multab_atomic_right2 (s : ISA) (a b : Arr (V2 ℝ)) : Arr (V2 ℝ) :=
  let C0 := mm_add (SSE2_MUL s (b 0) (a 0)) (SSE2_MUL s (b 2) (a 1))
  let C1 := mm_add (SSE2_MUL s (b 1) (a 0)) (SSE2_MUL s (b 3) (a 1))
  let a := Function.update a 0 (C0)
  let a := Function.update a 1 (C1)
  let C0 := mm_add (SSE2_MUL s (b 0) (a 2)) (SSE2_MUL s (b 2) (a 3))
  let C1 := mm_add (SSE2_MUL s (b 1) (a 2)) (SSE2_MUL s (b 3) (a 3))
  let a := Function.update a 2 (C0)
  let a := Function.update a 3 (C1)
  a

/-- `multab_suNC` for `NC == 3`, `MMUL_SUNC_SSE.c:42-76`. -/
noncomputable def multab_suNC3 (s : ISA) (b c : Arr (V2 ℝ)) : Arr (V2 ℝ) :=
  let a0 := mm_add (SSE2_MUL s (b 0) (c 0)) (mm_add (SSE2_MUL s (b 1) (c 3)) (SSE2_MUL s (b 2)
    (c 6)))
  let a1 := mm_add (SSE2_MUL s (b 0) (c 1)) (mm_add (SSE2_MUL s (b 1) (c 4)) (SSE2_MUL s (b 2)
    (c 7)))
  let a2 := mm_add (SSE2_MUL s (b 0) (c 2)) (mm_add (SSE2_MUL s (b 1) (c 5)) (SSE2_MUL s (b 2)
    (c 8)))
  let a3 := mm_add (SSE2_MUL s (b 3) (c 0)) (mm_add (SSE2_MUL s (b 4) (c 3)) (SSE2_MUL s (b 5)
    (c 6)))
  let a4 := mm_add (SSE2_MUL s (b 3) (c 1)) (mm_add (SSE2_MUL s (b 4) (c 4)) (SSE2_MUL s (b 5)
    (c 7)))
  let a5 := mm_add (SSE2_MUL s (b 3) (c 2)) (mm_add (SSE2_MUL s (b 4) (c 5)) (SSE2_MUL s (b 5)
    (c 8)))
  let a6 := SSE2_CONJ (mm_sub (SSE2_MUL s a1 a5) (SSE2_MUL s a2 a4))
  let a7 := SSE2_CONJ (mm_sub (SSE2_MUL s a2 a3) (SSE2_MUL s a0 a5))
  let a8 := SSE2_CONJ (mm_sub (SSE2_MUL s a0 a4) (SSE2_MUL s a1 a3))
  arr [a0, a1, a2, a3, a4, a5, a6, a7, a8]

/-- `multab_suNC` for `NC == 2`, `MMUL_SUNC_SSE.c:78-85`. -/
noncomputable def multab_suNC2 (s : ISA) (b c : Arr (V2 ℝ)) : Arr (V2 ℝ) :=
  let a0 := mm_add (SSE2_MUL s (b 0) (c 0)) (SSE2_MUL s (b 1) (c 2))
  let a1 := mm_add (SSE2_MUL s (b 0) (c 1)) (SSE2_MUL s (b 1) (c 3))
  let a2 := SSE_FLIP (SSE2_CONJ a1)
  let a3 := SSE2_CONJ a0
  arr [a0, a1, a2, a3]

/-- `multabdag_suNC` for `NC == 3`, `MMULdag_SUNC_SSE.c:42-77`. -/
noncomputable def multabdag_suNC3 (s : ISA) (b c : Arr (V2 ℝ)) : Arr (V2 ℝ) :=
  let a0 := mm_add (SSE2_MULCONJ s (b 0) (c 0)) (mm_add (SSE2_MULCONJ s (b 3) (c 3))
    (SSE2_MULCONJ s (b 6) (c 6)))
  let a1 := mm_add (SSE2_MULCONJ s (b 0) (c 1)) (mm_add (SSE2_MULCONJ s (b 3) (c 4))
    (SSE2_MULCONJ s (b 6) (c 7)))
  let a2 := mm_add (SSE2_MULCONJ s (b 0) (c 2)) (mm_add (SSE2_MULCONJ s (b 3) (c 5))
    (SSE2_MULCONJ s (b 6) (c 8)))
  let a3 := mm_add (SSE2_MULCONJ s (b 1) (c 0)) (mm_add (SSE2_MULCONJ s (b 4) (c 3))
    (SSE2_MULCONJ s (b 7) (c 6)))
  let a4 := mm_add (SSE2_MULCONJ s (b 1) (c 1)) (mm_add (SSE2_MULCONJ s (b 4) (c 4))
    (SSE2_MULCONJ s (b 7) (c 7)))
  let a5 := mm_add (SSE2_MULCONJ s (b 1) (c 2)) (mm_add (SSE2_MULCONJ s (b 4) (c 5))
    (SSE2_MULCONJ s (b 7) (c 8)))
  let a6 := SSE2_CONJ (mm_sub (SSE2_MUL s a1 a5) (SSE2_MUL s a2 a4))
  let a7 := SSE2_CONJ (mm_sub (SSE2_MUL s a2 a3) (SSE2_MUL s a0 a5))
  let a8 := SSE2_CONJ (mm_sub (SSE2_MUL s a0 a4) (SSE2_MUL s a1 a3))
  arr [a0, a1, a2, a3, a4, a5, a6, a7, a8]

/-- `multabdag_suNC` for `NC == 2`, `MMULdag_SUNC_SSE.c:79-92`. -/
noncomputable def multabdag_suNC2 (s : ISA) (b c : Arr (V2 ℝ)) : Arr (V2 ℝ) :=
  let a0 := mm_add (SSE2_MUL_CONJ s (b 0) (c 0)) (SSE2_MUL_CONJ s (b 1) (c 1))
  let a1 := mm_add (SSE2_MUL_CONJ s (b 0) (c 2)) (SSE2_MUL_CONJ s (b 1) (c 3))
  let a0 := mm_add (SSE2_MULCONJ s (b 0) (c 0)) (SSE2_MULCONJ s (b 2) (c 2))
  let a1 := mm_add (SSE2_MULCONJ s (b 0) (c 1)) (SSE2_MULCONJ s (b 2) (c 3))
  let a2 := SSE_FLIP (SSE2_CONJ a1)
  let a3 := SSE2_CONJ a0
  arr [a0, a1, a2, a3]

/-- `multab_dag_suNC` for `NC == 3`, `MMUL_dag_SUNC_SSE.c:41-77`. -/
noncomputable def multab_dag_suNC3 (s : ISA) (b c : Arr (V2 ℝ)) : Arr (V2 ℝ) :=
  let a0 := mm_add (SSE2_MUL_CONJ s (b 0) (c 0)) (mm_add (SSE2_MUL_CONJ s (b 1) (c 1))
    (SSE2_MUL_CONJ s (b 2) (c 2)))
  let a1 := mm_add (SSE2_MUL_CONJ s (b 0) (c 3)) (mm_add (SSE2_MUL_CONJ s (b 1) (c 4))
    (SSE2_MUL_CONJ s (b 2) (c 5)))
  let a2 := mm_add (SSE2_MUL_CONJ s (b 0) (c 6)) (mm_add (SSE2_MUL_CONJ s (b 1) (c 7))
    (SSE2_MUL_CONJ s (b 2) (c 8)))
  let a3 := mm_add (SSE2_MUL_CONJ s (b 3) (c 0)) (mm_add (SSE2_MUL_CONJ s (b 4) (c 1))
    (SSE2_MUL_CONJ s (b 5) (c 2)))
  let a4 := mm_add (SSE2_MUL_CONJ s (b 3) (c 3)) (mm_add (SSE2_MUL_CONJ s (b 4) (c 4))
    (SSE2_MUL_CONJ s (b 5) (c 5)))
  let a5 := mm_add (SSE2_MUL_CONJ s (b 3) (c 6)) (mm_add (SSE2_MUL_CONJ s (b 4) (c 7))
    (SSE2_MUL_CONJ s (b 5) (c 8)))
  let a6 := SSE2_CONJ (mm_sub (SSE2_MUL s a1 a5) (SSE2_MUL s a2 a4))
  let a7 := SSE2_CONJ (mm_sub (SSE2_MUL s a2 a3) (SSE2_MUL s a0 a5))
  let a8 := SSE2_CONJ (mm_sub (SSE2_MUL s a0 a4) (SSE2_MUL s a1 a3))
  arr [a0, a1, a2, a3, a4, a5, a6, a7, a8]

/-- `multab_dag_suNC` for `NC == 2`, `MMUL_dag_SUNC_SSE.c:79-88`. -/
noncomputable def multab_dag_suNC2 (s : ISA) (b c : Arr (V2 ℝ)) : Arr (V2 ℝ) :=
  let a0 := mm_add (SSE2_MUL_CONJ s (b 0) (c 0)) (SSE2_MUL_CONJ s (b 1) (c 1))
  let a1 := mm_add (SSE2_MUL_CONJ s (b 0) (c 2)) (SSE2_MUL_CONJ s (b 1) (c 3))
  let a2 := SSE_FLIP (SSE2_CONJ a1)
  let a3 := SSE2_CONJ a0
  arr [a0, a1, a2, a3]

/-- `multab_dagdag_suNC` for `NC == 3`, `MMULdagdag_SUNC_SSE.c:43-78`. -/
noncomputable def multab_dagdag_suNC3 (s : ISA) (b c : Arr (V2 ℝ)) : Arr (V2 ℝ) :=
  let a0 := mm_add (SSE2_MUL_CONJCONJ s (b 0) (c 0)) (mm_add (SSE2_MUL_CONJCONJ s (b 3) (c 1))
    (SSE2_MUL_CONJCONJ s (b 6) (c 2)))
  let a1 := mm_add (SSE2_MUL_CONJCONJ s (b 0) (c 3)) (mm_add (SSE2_MUL_CONJCONJ s (b 3) (c 4))
    (SSE2_MUL_CONJCONJ s (b 6) (c 5)))
  let a2 := mm_add (SSE2_MUL_CONJCONJ s (b 0) (c 6)) (mm_add (SSE2_MUL_CONJCONJ s (b 3) (c 7))
    (SSE2_MUL_CONJCONJ s (b 6) (c 8)))
  let a3 := mm_add (SSE2_MUL_CONJCONJ s (b 1) (c 0)) (mm_add (SSE2_MUL_CONJCONJ s (b 4) (c 1))
    (SSE2_MUL_CONJCONJ s (b 7) (c 2)))
  let a4 := mm_add (SSE2_MUL_CONJCONJ s (b 1) (c 3)) (mm_add (SSE2_MUL_CONJCONJ s (b 4) (c 4))
    (SSE2_MUL_CONJCONJ s (b 7) (c 5)))
  let a5 := mm_add (SSE2_MUL_CONJCONJ s (b 1) (c 6)) (mm_add (SSE2_MUL_CONJCONJ s (b 4) (c 7))
    (SSE2_MUL_CONJCONJ s (b 7) (c 8)))
  let a6 := SSE2_CONJ (mm_sub (SSE2_MUL s a1 a5) (SSE2_MUL s a2 a4))
  let a7 := SSE2_CONJ (mm_sub (SSE2_MUL s a2 a3) (SSE2_MUL s a0 a5))
  let a8 := SSE2_CONJ (mm_sub (SSE2_MUL s a0 a4) (SSE2_MUL s a1 a3))
  arr [a0, a1, a2, a3, a4, a5, a6, a7, a8]

/-- `multab_dagdag_suNC` for `NC == 2`, `MMULdagdag_SUNC_SSE.c:80-89`. -/
noncomputable def multab_dagdag_suNC2 (s : ISA) (b c : Arr (V2 ℝ)) : Arr (V2 ℝ) :=
  let a0 := mm_add (SSE2_MUL_CONJCONJ s (b 0) (c 0)) (SSE2_MUL_CONJCONJ s (b 2) (c 1))
  let a1 := mm_add (SSE2_MUL_CONJCONJ s (b 0) (c 2)) (SSE2_MUL_CONJCONJ s (b 2) (c 3))
  let a2 := SSE_FLIP (SSE2_CONJ a1)
  let a3 := SSE2_CONJ a0
  arr [a0, a1, a2, a3]

/-- The unrolling factors the build accepts, `configure.ac:533-541`: `NBLOCK` divides the
number of unrolled statements.  Without the option it is one, `GLU_definitions.h:32-34`. -/
def Unrolls (NC NB : ℕ) : Prop := if NC % 2 = 1 then NB ∣ NC - 1 else NB ∣ NC

/-- The unrolled statement `*A = _mm_add_pd( *A , op( *C ) ) ; A++ ; C++ ;` of
`MMUL_SSE.c:252-254`; the state is the two pointers and the memory behind `A`. -/
noncomputable def accStep (op : V2 ℝ → V2 ℝ) (C : Arr (V2 ℝ)) (t : ℕ × ℕ × Arr (V2 ℝ)) :
    ℕ × ℕ × Arr (V2 ℝ) :=
  (t.1 + 1, t.2.1 + 1, Function.update t.2.2 t.1 (mm_add (t.2.2 t.1) (op (C t.2.1))))

/-- One row of the innermost loops, `MMUL_SSE.c:243-256`, `MMULdag_SSE.c:103-116`,
`MMUL_dag_SSE.c:114-127`, `MMULdagdag_SSE.c:104-117`: blocks of `NBLOCK` statements, after a
single one when `NC` is odd. -/
noncomputable def accRow (NC NBLOCK : ℕ) (op : V2 ℝ → V2 ℝ) (C : Arr (V2 ℝ))
    (t : ℕ × ℕ × Arr (V2 ℝ)) : ℕ × ℕ × Arr (V2 ℝ) :=
  if NC % 2 = 1 then
    forN ((NC - 1) / NBLOCK) (fun _ t => forN NBLOCK (fun _ t => accStep op C t) t)
      (accStep op C t)
  else forN (NC / NBLOCK) (fun _ t => forN NBLOCK (fun _ t => accStep op C t) t) t

/-- The initialisation to zero, `MMUL_SSE.c:234-236`, `MMULdag_SSE.c:94-96`,
`MMULdagdag_SSE.c:95-97`. -/
noncomputable def zeroA (NC : ℕ) (a : Arr (V2 ℝ)) : Arr (V2 ℝ) :=
  forN (NC * NC) (fun i a => Function.update a i mm_setzero) a

/-- The triple loop `MMUL_SSE.c:238-258`, `MMUL_dag_SSE.c:108-129`, `MMULdagdag_SSE.c:99-119`:
the multiplier runs through `B` once, `C` is rewound for each row of the result.  The state is
the offset of `B` and the result. -/
noncomputable def accumulate (NC NBLOCK : ℕ) (op : V2 ℝ → V2 ℝ → V2 ℝ) (B C : Arr (V2 ℝ))
    (a : Arr (V2 ℝ)) : Arr (V2 ℝ) :=
  (forN NC (fun i (w : ℕ × Arr (V2 ℝ)) =>
    let r := forN NC (fun _ (t : ℕ × ℕ × Arr (V2 ℝ)) =>
      let mul := B t.1
      let u := accRow NC NBLOCK (op mul) C (i * NC, t.2.1, t.2.2)
      (t.1 + 1, u.2.1, u.2.2)) (w.1, 0, w.2)
    (r.1, r.2.2)) (0, a)).2

/-- `multab` for other `NC`, `MMUL_SSE.c:231-258`. -/
noncomputable def multabN (s : ISA) (NC NBLOCK : ℕ) (b c a : Arr (V2 ℝ)) : Arr (V2 ℝ) :=
  accumulate NC NBLOCK (SSE2_MUL s) b c (zeroA NC a)

/-- `multabdag` for other `NC`, `MMULdag_SSE.c:93-118`: the result is swept once for each row
of `b` and `c`.  The state of the outer loop is the offset of `B` and the result, that of the
inner loop has the offset of `A` besides. -/
noncomputable def multabdagN (s : ISA) (NC NBLOCK : ℕ) (b c a : Arr (V2 ℝ)) : Arr (V2 ℝ) :=
  (forN NC (fun m (w : ℕ × Arr (V2 ℝ)) =>
    let r := forN NC (fun _ (t : ℕ × ℕ × Arr (V2 ℝ)) =>
      let mul := b t.1
      let u := accRow NC NBLOCK (SSE2_MULCONJ s mul) c (t.2.1, NC * m, t.2.2)
      (t.1 + 1, u.1, u.2.2)) (w.1, 0, w.2)
    (r.1, r.2.2)) (0, zeroA NC a)).2

/-- The transposed copy `CT`, `MMUL_dag_SSE.c:95-101`, into the uninitialised `ct`. -/
noncomputable def transposed (NC : ℕ) (c ct : Arr (V2 ℝ)) : Arr (V2 ℝ) :=
  forN NC (fun i ct =>
    let ct := Function.update ct (i * (NC + 1)) (c (i * (NC + 1)))
    forFrom (i + 1) NC (fun j ct =>
      let ct := Function.update ct (j + i * NC) (c (i + j * NC))
      Function.update ct (i + j * NC) (c (j + i * NC))) ct) ct

/-- `multab_dag` for other `NC`, `MMUL_dag_SSE.c:92-129`.  The zeroing of `a` is done row by
row in the loop that fills `CT`; the two do not interfere. -/
noncomputable def multab_dagN (s : ISA) (NC NBLOCK : ℕ) (b c a ct : Arr (V2 ℝ)) : Arr (V2 ℝ) :=
  accumulate NC NBLOCK (SSE2_MUL_CONJ s) b (transposed NC c ct) (zeroA NC a)

/-- The final transposition in place, `MMULdagdag_SSE.c:122-129`. -/
noncomputable def transposeInPlace (NC : ℕ) (a : Arr (V2 ℝ)) : Arr (V2 ℝ) :=
  forN NC (fun j a => forFrom (j + 1) NC (fun i a =>
    let temp := a (j + i * NC)
    let a := Function.update a (j + i * NC) (a (i + j * NC))
    Function.update a (i + j * NC) temp) a) a

/-- `multab_dagdag` for other `NC`, `MMULdagdag_SSE.c:93-129`. -/
noncomputable def multab_dagdagN (s : ISA) (NC NBLOCK : ℕ) (b c a : Arr (V2 ℝ)) :
    Arr (V2 ℝ) :=
  transposeInPlace NC
    (accumulate NC NBLOCK (fun mul x => SSE2_MUL_CONJCONJ s x mul) c b (zeroA NC a))

/-- `multab_atomic_left` for other `NC`, `MMUL_SSE.c:83-101`: one column of `a` at a time
through the temporary `C`; the pointer `B` is written as the offset `m + j*NC`. -/
noncomputable def multab_atomic_leftN (s : ISA) (NC : ℕ) (a b : Arr (V2 ℝ)) : Arr (V2 ℝ) :=
  forN NC (fun i a =>
    let C : ℕ → V2 ℝ := fun j => forN NC (fun m sum =>
      mm_add sum (SSE2_MUL s (b (m + j * NC)) (a (i + m * NC)))) mm_setzero
    forN NC (fun m a => Function.update a (i + m * NC) (C m)) a) a

/-- `multab_atomic_right` for other `NC`, `MMUL_SSE.c:160-177`. -/
noncomputable def multab_atomic_rightN (s : ISA) (NC : ℕ) (a b : Arr (V2 ℝ)) : Arr (V2 ℝ) :=
  forN NC (fun i a =>
    let C : ℕ → V2 ℝ := fun j => forN NC (fun m sum =>
      mm_add sum (SSE2_MUL s (a (m + i * NC)) (b (j + m * NC)))) mm_setzero
    forN NC (fun j a => Function.update a (j + i * NC) (C j)) a) a

/-- `multab`, `MMUL_SSE.c:185-261`, on `GLU_complex` arrays; `NB` is the macro `NBLOCK`. -/
noncomputable def multab (s : ISA) (NC NB : ℕ) (b c a : Arr ℂ) : Arr ℂ :=
  stA (if NC = 3 then multab3 s (ldA b) (ldA c) else if NC = 2 then multab2 s (ldA b) (ldA c)
    else multabN s NC NB (ldA b) (ldA c) (ldA a))

/-- `multabdag`, `MMULdag_SSE.c:32-121`. -/
noncomputable def multabdag (s : ISA) (NC NB : ℕ) (b c a : Arr ℂ) : Arr ℂ :=
  stA (if NC = 3 then multabdag3 s (ldA b) (ldA c)
    else if NC = 2 then multabdag2 s (ldA b) (ldA c)
    else multabdagN s NC NB (ldA b) (ldA c) (ldA a))

/-- `multab_dag`, `MMUL_dag_SSE.c:32-132`; `ct` is the uninitialised local array. -/
noncomputable def multab_dag (s : ISA) (NC NB : ℕ) (ct : Arr (V2 ℝ)) (b c a : Arr ℂ) : Arr ℂ :=
  stA (if NC = 3 then multab_dag3 s (ldA b) (ldA c)
    else if NC = 2 then multab_dag2 s (ldA b) (ldA c)
    else multab_dagN s NC NB (ldA b) (ldA c) (ldA a) ct)

/-- `multab_dagdag`, `MMULdagdag_SSE.c:32-132`. -/
noncomputable def multab_dagdag (s : ISA) (NC NB : ℕ) (b c a : Arr ℂ) : Arr ℂ :=
  stA (if NC = 3 then multab_dagdag3 s (ldA b) (ldA c)
    else if NC = 2 then multab_dagdag2 s (ldA b) (ldA c)
    else multab_dagdagN s NC NB (ldA b) (ldA c) (ldA a))

/-- `multab_atomic_left`, `MMUL_SSE.c:32-104`. -/
noncomputable def multab_atomic_left (s : ISA) (NC : ℕ) (a b : Arr ℂ) : Arr ℂ :=
  stA (if NC = 3 then multab_atomic_left3 s (ldA a) (ldA b)
    else if NC = 2 then multab_atomic_left2 s (ldA a) (ldA b)
    else multab_atomic_leftN s NC (ldA a) (ldA b))

/-- `multab_atomic_right`, `MMUL_SSE.c:109-180`. -/
noncomputable def multab_atomic_right (s : ISA) (NC : ℕ) (a b : Arr ℂ) : Arr ℂ :=
  stA (if NC = 3 then multab_atomic_right3 s (ldA a) (ldA b)
    else if NC = 2 then multab_atomic_right2 s (ldA a) (ldA b)
    else multab_atomic_rightN s NC (ldA a) (ldA b))

/-- `multab_suNC`, `MMUL_SUNC_SSE.c:31-90`; for other `NC` the header `MMUL_SUNC.h:41-43` maps
the name to `multab` and this file is skipped. -/
noncomputable def multab_suNC (s : ISA) (NC NB : ℕ) (b c a : Arr ℂ) : Arr ℂ :=
  if NC = 3 then stA (multab_suNC3 s (ldA b) (ldA c))
  else if NC = 2 then stA (multab_suNC2 s (ldA b) (ldA c))
  else multab s NC NB b c a

/-- `multabdag_suNC`, `MMULdag_SUNC_SSE.c:32-97`.  For two colours lines 79-82 store two
values that lines 84-88 overwrite. -/
noncomputable def multabdag_suNC (s : ISA) (NC NB : ℕ) (b c a : Arr ℂ) : Arr ℂ :=
  if NC = 3 then stA (multabdag_suNC3 s (ldA b) (ldA c))
  else if NC = 2 then stA (multabdag_suNC2 s (ldA b) (ldA c))
  else multabdag s NC NB b c a

/-- `multab_dag_suNC`, `MMUL_dag_SUNC_SSE.c:32-93`. -/
noncomputable def multab_dag_suNC (s : ISA) (NC NB : ℕ) (ct : Arr (V2 ℝ)) (b c a : Arr ℂ) :
    Arr ℂ :=
  if NC = 3 then stA (multab_dag_suNC3 s (ldA b) (ldA c))
  else if NC = 2 then stA (multab_dag_suNC2 s (ldA b) (ldA c))
  else multab_dag s NC NB ct b c a

/-- `multab_dagdag_suNC`, `MMULdagdag_SUNC_SSE.c:33-94`. -/
noncomputable def multab_dagdag_suNC (s : ISA) (NC NB : ℕ) (b c a : Arr ℂ) : Arr ℂ :=
  if NC = 3 then stA (multab_dagdag_suNC3 s (ldA b) (ldA c))
  else if NC = 2 then stA (multab_dagdag_suNC2 s (ldA b) (ldA c))
  else multab_dagdag s NC NB b c a

end GLU.Mat.Sse
