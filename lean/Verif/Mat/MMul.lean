import Verif.Base.Loop

/-!
# Matrix products

`src/Matrix_Ops/MMUL/*.c`, the portable (non-SSE) versions.  The unrolled bodies
are transcribed statement by statement.  Destination and operands are distinct
arrays; the in-place products are modelled as sequences of stores.
-/

namespace GLU.Mat

open Complex

/-- `creal`, promoted back to a complex value. -/
noncomputable def creal (z : ℂ) : ℂ := (z.re : ℂ)
/-- `cimag`, promoted back to a complex value. -/
noncomputable def cimag (z : ℂ) : ℂ := (z.im : ℂ)
/-- `conj`. -/
noncomputable def conj (z : ℂ) : ℂ := star z

/-- `multab` for `NC == 3`, `MMUL.c:35-43`. -/
noncomputable def multab3 (b c : Arr ℂ) : Arr ℂ :=
  arr [
    b 0 * c 0 + b 1 * c 3 + b 2 * c 6,
    b 0 * c 1 + b 1 * c 4 + b 2 * c 7,
    b 0 * c 2 + b 1 * c 5 + b 2 * c 8,
    b 3 * c 0 + b 4 * c 3 + b 5 * c 6,
    b 3 * c 1 + b 4 * c 4 + b 5 * c 7,
    b 3 * c 2 + b 4 * c 5 + b 5 * c 8,
    b 6 * c 0 + b 7 * c 3 + b 8 * c 6,
    b 6 * c 1 + b 7 * c 4 + b 8 * c 7,
    b 6 * c 2 + b 7 * c 5 + b 8 * c 8]

/-- `multab` for `NC == 2`, `MMUL.c:45-48`. -/
noncomputable def multab2 (b c : Arr ℂ) : Arr ℂ :=
  arr [
    b 0 * c 0 + b 1 * c 2,
    b 0 * c 1 + b 1 * c 3,
    b 2 * c 0 + b 3 * c 2,
    b 2 * c 1 + b 3 * c 3]

/-- `multabdag` for `NC == 3`, `MMULdag.c:35-43`. -/
noncomputable def multabdag3 (b c : Arr ℂ) : Arr ℂ :=
  arr [
    conj (b 0) * c 0 + conj (b 3) * c 3 + conj (b 6) * c 6,
    conj (b 0) * c 1 + conj (b 3) * c 4 + conj (b 6) * c 7,
    conj (b 0) * c 2 + conj (b 3) * c 5 + conj (b 6) * c 8,
    conj (b 1) * c 0 + conj (b 4) * c 3 + conj (b 7) * c 6,
    conj (b 1) * c 1 + conj (b 4) * c 4 + conj (b 7) * c 7,
    conj (b 1) * c 2 + conj (b 4) * c 5 + conj (b 7) * c 8,
    conj (b 2) * c 0 + conj (b 5) * c 3 + conj (b 8) * c 6,
    conj (b 2) * c 1 + conj (b 5) * c 4 + conj (b 8) * c 7,
    conj (b 2) * c 2 + conj (b 5) * c 5 + conj (b 8) * c 8]

/-- `multabdag` for `NC == 2`, `MMULdag.c:45-48`. -/
noncomputable def multabdag2 (b c : Arr ℂ) : Arr ℂ :=
  arr [
    conj (b 0) * c 0 + conj (b 2) * c 2,
    conj (b 0) * c 1 + conj (b 2) * c 3,
    conj (b 1) * c 0 + conj (b 3) * c 2,
    conj (b 1) * c 1 + conj (b 3) * c 3]

/-- `multab_dag` for `NC == 3`, `MMUL_dag.c:35-43`. -/
noncomputable def multab_dag3 (b c : Arr ℂ) : Arr ℂ :=
  arr [
    b 0 * conj (c 0) + b 1 * conj (c 1) + b 2 * conj (c 2),
    b 0 * conj (c 3) + b 1 * conj (c 4) + b 2 * conj (c 5),
    b 0 * conj (c 6) + b 1 * conj (c 7) + b 2 * conj (c 8),
    b 3 * conj (c 0) + b 4 * conj (c 1) + b 5 * conj (c 2),
    b 3 * conj (c 3) + b 4 * conj (c 4) + b 5 * conj (c 5),
    b 3 * conj (c 6) + b 4 * conj (c 7) + b 5 * conj (c 8),
    b 6 * conj (c 0) + b 7 * conj (c 1) + b 8 * conj (c 2),
    b 6 * conj (c 3) + b 7 * conj (c 4) + b 8 * conj (c 5),
    b 6 * conj (c 6) + b 7 * conj (c 7) + b 8 * conj (c 8)]

/-- `multab_dag` for `NC == 2`, `MMUL_dag.c:45-48`. -/
noncomputable def multab_dag2 (b c : Arr ℂ) : Arr ℂ :=
  arr [
    b 0 * conj (c 0) + b 1 * conj (c 1),
    b 0 * conj (c 2) + b 1 * conj (c 3),
    b 2 * conj (c 0) + b 3 * conj (c 1),
    b 2 * conj (c 2) + b 3 * conj (c 3)]

/-- `multab_dagdag` for `NC == 3`, `MMULdagdag.c:35-43`. -/
noncomputable def multab_dagdag3 (b c : Arr ℂ) : Arr ℂ :=
  arr [
    conj (b 0) * conj (c 0) + conj (b 3) * conj (c 1) + conj (b 6) * conj (c 2),
    conj (b 0) * conj (c 3) + conj (b 3) * conj (c 4) + conj (b 6) * conj (c 5),
    conj (b 0) * conj (c 6) + conj (b 3) * conj (c 7) + conj (b 6) * conj (c 8),
    conj (b 1) * conj (c 0) + conj (b 4) * conj (c 1) + conj (b 7) * conj (c 2),
    conj (b 1) * conj (c 3) + conj (b 4) * conj (c 4) + conj (b 7) * conj (c 5),
    conj (b 1) * conj (c 6) + conj (b 4) * conj (c 7) + conj (b 7) * conj (c 8),
    conj (b 2) * conj (c 0) + conj (b 5) * conj (c 1) + conj (b 8) * conj (c 2),
    conj (b 2) * conj (c 3) + conj (b 5) * conj (c 4) + conj (b 8) * conj (c 5),
    conj (b 2) * conj (c 6) + conj (b 5) * conj (c 7) + conj (b 8) * conj (c 8)]

/-- `multab_dagdag` for `NC == 2`, `MMULdagdag.c:45-48`. -/
noncomputable def multab_dagdag2 (b c : Arr ℂ) : Arr ℂ :=
  arr [
    conj (b 0) * conj (c 0) + conj (b 2) * conj (c 1),
    conj (b 0) * conj (c 2) + conj (b 2) * conj (c 3),
    conj (b 1) * conj (c 0) + conj (b 3) * conj (c 1),
    conj (b 1) * conj (c 2) + conj (b 3) * conj (c 3)]

/-- `multab` for other `NC`, `MMUL.c:51-64`. -/
noncomputable def multabN (NC : ℕ) (b c a : Arr ℂ) : Arr ℂ :=
  fillNN NC (fun i j => loopSum NC fun m =>
    let REB := creal (b (m + NC * i)); let IMB := cimag (b (m + NC * i))
    let REC := creal (c (j + m * NC)); let IMC := cimag (c (j + m * NC))
    REB * REC - IMB * IMC + I * (REB * IMC + IMB * REC)) a

/-- `multabdag` for other `NC`, `MMULdag.c:50-63`. -/
noncomputable def multabdagN (NC : ℕ) (b c a : Arr ℂ) : Arr ℂ :=
  fillNN NC (fun i j => loopSum NC fun m =>
    let REB := creal (b (i + NC * m)); let IMB := cimag (b (i + NC * m))
    let REC := creal (c (j + NC * m)); let IMC := cimag (c (j + NC * m))
    REB * REC + IMB * IMC + I * (REB * IMC - IMB * REC)) a

/-- `multab_dag` for other `NC` (odd), `MMUL_dag.c:76-89`. -/
noncomputable def multab_dagNodd (NC : ℕ) (b c a : Arr ℂ) : Arr ℂ :=
  fillNN NC (fun i j => loopSum NC fun m =>
    let REB := creal (b (m + NC * i)); let IMB := cimag (b (m + NC * i))
    let REC := creal (c (m + NC * j)); let IMC := cimag (c (m + NC * j))
    REB * REC + IMB * IMC + I * (REC * IMB - REB * IMC)) a

/-- `multab_dag` for other even `NC`, `MMUL_dag.c:51-74`: two columns per pass.
The pointers `pB`, `pC` are written as offsets `NC*i` and `NC*j`. -/
noncomputable def multab_dagNeven (NC : ℕ) (b c a : Arr ℂ) : Arr ℂ :=
  forN NC (fun i a =>
    forN (NC / 2) (fun h a =>
      let j := 2 * h
      let sum := loopSum NC fun m =>
        let REB := creal (b (NC * i + m)); let IMB := cimag (b (NC * i + m))
        let REC := creal (c (NC * j + m)); let IMC := cimag (c (NC * j + m))
        REB * REC + IMB * IMC + I * (REC * IMB - REB * IMC)
      let sum2 := loopSum NC fun m =>
        let REB := creal (b (NC * i + m)); let IMB := cimag (b (NC * i + m))
        let REC := creal (c (NC * j + (m + NC))); let IMC := cimag (c (NC * j + (m + NC)))
        REB * REC + IMB * IMC + I * (REC * IMB - REB * IMC)
      let a := Function.update a (j + NC * i) sum
      Function.update a (j + 1 + NC * i) sum2) a) a

/-- `multab_dagdag` for other `NC`, `MMULdagdag.c:50-69`.  The sums of the real and
imaginary parts run separately. -/
noncomputable def multab_dagdagN (NC : ℕ) (b c a : Arr ℂ) : Arr ℂ :=
  fillNN NC (fun i j =>
    let sumr := loopSum NC fun m =>
      let REB := creal (b (NC * m + i)); let IMB := cimag (b (NC * m + i))
      let REC := creal (c (NC * j + m)); let IMC := cimag (c (NC * j + m))
      REB * REC - IMB * IMC
    let sumi := loopSum NC fun m =>
      let REB := creal (b (NC * m + i)); let IMB := cimag (b (NC * m + i))
      let REC := creal (c (NC * j + m)); let IMC := cimag (c (NC * j + m))
      REB * IMC + IMB * REC
    sumr + I * sumi) a

/-- `multab_atomic_left` for `NC == 3`, `MMUL.c:77-88`. -/
noncomputable def multab_atomic_left3 (a b : Arr ℂ) : Arr ℂ :=
  let C0 : ℂ := b 0 * a 0 + b 1 * a 3 + b 2 * a 6
  let C1 : ℂ := b 3 * a 0 + b 4 * a 3 + b 5 * a 6
  let C2 : ℂ := b 6 * a 0 + b 7 * a 3 + b 8 * a 6
  let a := Function.update a 0 C0
  let a := Function.update a 3 C1
  let a := Function.update a 6 C2
  let C0 : ℂ := b 0 * a 1 + b 1 * a 4 + b 2 * a 7
  let C1 : ℂ := b 3 * a 1 + b 4 * a 4 + b 5 * a 7
  let C2 : ℂ := b 6 * a 1 + b 7 * a 4 + b 8 * a 7
  let a := Function.update a 1 C0
  let a := Function.update a 4 C1
  let a := Function.update a 7 C2
  let C0 : ℂ := b 0 * a 2 + b 1 * a 5 + b 2 * a 8
  let C1 : ℂ := b 3 * a 2 + b 4 * a 5 + b 5 * a 8
  let C2 : ℂ := b 6 * a 2 + b 7 * a 5 + b 8 * a 8
  let a := Function.update a 2 C0
  let a := Function.update a 5 C1
  let a := Function.update a 8 C2
  a

/-- `multab_atomic_left` for `NC == 2`, `MMUL.c:90-95`. -/
noncomputable def multab_atomic_left2 (a b : Arr ℂ) : Arr ℂ :=
  let C0 : ℂ := b 0 * a 0 + b 1 * a 2
  let C1 : ℂ := b 2 * a 0 + b 3 * a 2
  let a := Function.update a 0 C0
  let a := Function.update a 2 C1
  let C0 : ℂ := b 0 * a 1 + b 1 * a 3
  let C1 : ℂ := b 2 * a 1 + b 3 * a 3
  let a := Function.update a 1 C0
  let a := Function.update a 3 C1
  a

/-- `multab_atomic_right` for `NC == 3`, `MMUL.c:126-137`. -/
noncomputable def multab_atomic_right3 (a b : Arr ℂ) : Arr ℂ :=
  let R0 : ℂ := a 0 * b 0 + a 1 * b 3 + a 2 * b 6
  let R1 : ℂ := a 0 * b 1 + a 1 * b 4 + a 2 * b 7
  let R2 : ℂ := a 0 * b 2 + a 1 * b 5 + a 2 * b 8
  let a := Function.update a 0 R0
  let a := Function.update a 1 R1
  let a := Function.update a 2 R2
  let R0 : ℂ := a 3 * b 0 + a 4 * b 3 + a 5 * b 6
  let R1 : ℂ := a 3 * b 1 + a 4 * b 4 + a 5 * b 7
  let R2 : ℂ := a 3 * b 2 + a 4 * b 5 + a 5 * b 8
  let a := Function.update a 3 R0
  let a := Function.update a 4 R1
  let a := Function.update a 5 R2
  let R0 : ℂ := a 6 * b 0 + a 7 * b 3 + a 8 * b 6
  let R1 : ℂ := a 6 * b 1 + a 7 * b 4 + a 8 * b 7
  let R2 : ℂ := a 6 * b 2 + a 7 * b 5 + a 8 * b 8
  let a := Function.update a 6 R0
  let a := Function.update a 7 R1
  let a := Function.update a 8 R2
  a

/-- `multab_atomic_right` for `NC == 2`, `MMUL.c:139-144`. -/
noncomputable def multab_atomic_right2 (a b : Arr ℂ) : Arr ℂ :=
  let R0 : ℂ := a 0 * b 0 + a 1 * b 2
  let R1 : ℂ := a 0 * b 1 + a 1 * b 3
  let a := Function.update a 0 R0
  let a := Function.update a 1 R1
  let R0 : ℂ := a 2 * b 0 + a 3 * b 2
  let R1 : ℂ := a 2 * b 1 + a 3 * b 3
  let a := Function.update a 2 R0
  let a := Function.update a 3 R1
  a

/-- `multab_atomic_left` for other `NC`, `MMUL.c:98-113`: one column of `a` at a time
through the temporary `R`. -/
noncomputable def multab_atomic_leftN (NC : ℕ) (a b : Arr ℂ) : Arr ℂ :=
  forN NC (fun i a =>
    let R : ℕ → ℂ := fun j => loopSum NC fun m => b (m + j * NC) * a (i + m * NC)
    forN NC (fun m a => Function.update a (i + m * NC) (R m)) a) a

/-- `multab_atomic_right` for other `NC`, `MMUL.c:147-160`: one row of `a` at a time
through the temporary `R`. -/
noncomputable def multab_atomic_rightN (NC : ℕ) (a b : Arr ℂ) : Arr ℂ :=
  forN NC (fun i a =>
    let R : ℕ → ℂ := fun j => loopSum NC fun m => a (m + i * NC) * b (j + m * NC)
    forN NC (fun j a => Function.update a (j + i * NC) (R j)) a) a

/-- `multab`, `MMUL.c:29-67`: the preprocessor selects the body from `NC`. -/
noncomputable def multab (NC : ℕ) (b c a : Arr ℂ) : Arr ℂ :=
  if NC = 3 then multab3 b c else if NC = 2 then multab2 b c else multabN NC b c a

/-- `multabdag`, `MMULdag.c:29-66`: the preprocessor selects the body from `NC`. -/
noncomputable def multabdag (NC : ℕ) (b c a : Arr ℂ) : Arr ℂ :=
  if NC = 3 then multabdag3 b c else if NC = 2 then multabdag2 b c else multabdagN NC b c a

/-- `multab_dagdag`, `MMULdagdag.c:29-72`: the preprocessor selects the body from `NC`. -/
noncomputable def multab_dagdag (NC : ℕ) (b c a : Arr ℂ) : Arr ℂ :=
  if NC = 3 then multab_dagdag3 b c else if NC = 2 then multab_dagdag2 b c else multab_dagdagN NC b c a

/-- `multab_dag`, `MMUL_dag.c:29-93`. -/
noncomputable def multab_dag (NC : ℕ) (b c a : Arr ℂ) : Arr ℂ :=
  if NC = 3 then multab_dag3 b c else if NC = 2 then multab_dag2 b c
  else if NC % 2 = 0 then multab_dagNeven NC b c a else multab_dagNodd NC b c a

/-- `multab_atomic_left`, `MMUL.c:72-116`. -/
noncomputable def multab_atomic_left (NC : ℕ) (a b : Arr ℂ) : Arr ℂ :=
  if NC = 3 then multab_atomic_left3 a b else if NC = 2 then multab_atomic_left2 a b else multab_atomic_leftN NC a b

/-- `multab_atomic_right`, `MMUL.c:121-163`. -/
noncomputable def multab_atomic_right (NC : ℕ) (a b : Arr ℂ) : Arr ℂ :=
  if NC = 3 then multab_atomic_right3 a b else if NC = 2 then multab_atomic_right2 a b else multab_atomic_rightN NC a b

/-- `multab_suNC` for `NC == 3`, `MMUL_SUNC.c:35-69`. -/
noncomputable def multab_suNC3 (b c : Arr ℂ) : Arr ℂ :=
  let a0 : ℂ := creal (b 0) * creal (c 0) - cimag (b 0) * cimag (c 0) + I * (creal (b 0) * cimag (c 0) + creal (c 0) * cimag (b 0)) + creal (b 1) * creal (c 3) - cimag (b 1) * cimag (c 3) + I * (creal (b 1) * cimag (c 3) + creal (c 3) * cimag (b 1)) + creal (b 2) * creal (c 6) - cimag (b 2) * cimag (c 6) + I * (creal (b 2) * cimag (c 6) + creal (c 6) * cimag (b 2))
  let a1 : ℂ := creal (b 0) * creal (c 1) - cimag (b 0) * cimag (c 1) + I * (creal (b 0) * cimag (c 1) + creal (c 1) * cimag (b 0)) + creal (b 1) * creal (c 4) - cimag (b 1) * cimag (c 4) + I * (creal (b 1) * cimag (c 4) + creal (c 4) * cimag (b 1)) + creal (b 2) * creal (c 7) - cimag (b 2) * cimag (c 7) + I * (creal (b 2) * cimag (c 7) + creal (c 7) * cimag (b 2))
  let a2 : ℂ := creal (b 0) * creal (c 2) - cimag (b 0) * cimag (c 2) + I * (creal (b 0) * cimag (c 2) + creal (c 2) * cimag (b 0)) + creal (b 1) * creal (c 5) - cimag (b 1) * cimag (c 5) + I * (creal (b 1) * cimag (c 5) + creal (c 5) * cimag (b 1)) + creal (b 2) * creal (c 8) - cimag (b 2) * cimag (c 8) + I * (creal (b 2) * cimag (c 8) + creal (c 8) * cimag (b 2))
  let a3 : ℂ := creal (b 3) * creal (c 0) - cimag (b 3) * cimag (c 0) + I * (creal (b 3) * cimag (c 0) + creal (c 0) * cimag (b 3)) + creal (b 4) * creal (c 3) - cimag (b 4) * cimag (c 3) + I * (creal (b 4) * cimag (c 3) + creal (c 3) * cimag (b 4)) + creal (b 5) * creal (c 6) - cimag (b 5) * cimag (c 6) + I * (creal (b 5) * cimag (c 6) + creal (c 6) * cimag (b 5))
  let a4 : ℂ := creal (b 3) * creal (c 1) - cimag (b 3) * cimag (c 1) + I * (creal (b 3) * cimag (c 1) + creal (c 1) * cimag (b 3)) + creal (b 4) * creal (c 4) - cimag (b 4) * cimag (c 4) + I * (creal (b 4) * cimag (c 4) + creal (c 4) * cimag (b 4)) + creal (b 5) * creal (c 7) - cimag (b 5) * cimag (c 7) + I * (creal (b 5) * cimag (c 7) + creal (c 7) * cimag (b 5))
  let a5 : ℂ := creal (b 3) * creal (c 2) - cimag (b 3) * cimag (c 2) + I * (creal (b 3) * cimag (c 2) + creal (c 2) * cimag (b 3)) + creal (b 4) * creal (c 5) - cimag (b 4) * cimag (c 5) + I * (creal (b 4) * cimag (c 5) + creal (c 5) * cimag (b 4)) + creal (b 5) * creal (c 8) - cimag (b 5) * cimag (c 8) + I * (creal (b 5) * cimag (c 8) + creal (c 8) * cimag (b 5))
  let a6 : ℂ := creal a1 * creal a5 - cimag a1 * cimag a5 - I * (creal a1 * cimag a5 + creal a5 * cimag a1) - creal a2 * creal a4 + cimag a2 * cimag a4 + I * (creal a2 * cimag a4 + creal a4 * cimag a2)
  let a7 : ℂ := creal a2 * creal a3 - cimag a2 * cimag a3 - I * (creal a2 * cimag a3 + creal a3 * cimag a2) - creal a0 * creal a5 + cimag a0 * cimag a5 + I * (creal a0 * cimag a5 + creal a5 * cimag a0)
  let a8 : ℂ := creal a0 * creal a4 - cimag a0 * cimag a4 - I * (creal a0 * cimag a4 + creal a4 * cimag a0) - creal a1 * creal a3 + cimag a1 * cimag a3 + I * (creal a1 * cimag a3 + creal a3 * cimag a1)
  arr [a0, a1, a2, a3, a4, a5, a6, a7, a8]

/-- `multab_suNC` for `NC == 2`, `MMUL_SUNC.c:71-84`. -/
noncomputable def multab_suNC2 (b c : Arr ℂ) : Arr ℂ :=
  let a0 : ℂ := creal (b 0) * creal (c 0) - cimag (b 0) * cimag (c 0) + creal (b 1) * creal (c 2) - cimag (b 1) * cimag (c 2) + I * (creal (b 0) * cimag (c 0) + creal (c 0) * cimag (b 0) + creal (b 1) * cimag (c 2) + creal (c 2) * cimag (b 1))
  let a1 : ℂ := creal (b 0) * creal (c 1) - cimag (b 0) * cimag (c 1) + creal (b 1) * creal (c 3) - cimag (b 1) * cimag (c 3) + I * (creal (b 0) * cimag (c 1) + creal (c 1) * cimag (b 0) + creal (b 1) * cimag (c 3) + creal (c 3) * cimag (b 1))
  let a2 : ℂ := -conj a1
  let a3 : ℂ := conj a0
  arr [a0, a1, a2, a3]

/-- `multab_suNC`, `MMUL_SUNC.c`.
For other `NC` line 87 calls `multab_suNC` itself; the header maps the name to
`multab`, see `DESIGN.md`. -/
noncomputable def multab_suNC (NC : ℕ) (b c a : Arr ℂ) : Arr ℂ :=
  if NC = 3 then multab_suNC3 b c else if NC = 2 then multab_suNC2 b c else multab NC b c a

/-- `multabdag_suNC` for `NC == 3`, `MMULdag_SUNC.c:35-78`. -/
noncomputable def multabdag_suNC3 (b c : Arr ℂ) : Arr ℂ :=
  let a0 : ℂ := creal (b 0) * creal (c 0) + cimag (b 0) * cimag (c 0) - I * (cimag (b 0) * creal (c 0) - creal (b 0) * cimag (c 0)) + creal (b 3) * creal (c 3) + cimag (b 3) * cimag (c 3) - I * (cimag (b 3) * creal (c 3) - creal (b 3) * cimag (c 3)) + creal (b 6) * creal (c 6) + cimag (b 6) * cimag (c 6) - I * (cimag (b 6) * creal (c 6) - creal (b 6) * cimag (c 6))
  let a1 : ℂ := creal (b 0) * creal (c 1) + cimag (b 0) * cimag (c 1) - I * (cimag (b 0) * creal (c 1) - creal (b 0) * cimag (c 1)) + creal (b 3) * creal (c 4) + cimag (b 3) * cimag (c 4) - I * (cimag (b 3) * creal (c 4) - creal (b 3) * cimag (c 4)) + creal (b 6) * creal (c 7) + cimag (b 6) * cimag (c 7) - I * (cimag (b 6) * creal (c 7) - creal (b 6) * cimag (c 7))
  let a2 : ℂ := creal (b 0) * creal (c 2) + cimag (b 0) * cimag (c 2) - I * (cimag (b 0) * creal (c 2) - creal (b 0) * cimag (c 2)) + creal (b 3) * creal (c 5) + cimag (b 3) * cimag (c 5) - I * (cimag (b 3) * creal (c 5) - creal (b 3) * cimag (c 5)) + creal (b 6) * creal (c 8) + cimag (b 6) * cimag (c 8) - I * (cimag (b 6) * creal (c 8) - creal (b 6) * cimag (c 8))
  let a3 : ℂ := creal (b 1) * creal (c 0) + cimag (b 1) * cimag (c 0) - I * (cimag (b 1) * creal (c 0) - creal (b 1) * cimag (c 0)) + creal (b 4) * creal (c 3) + cimag (b 4) * cimag (c 3) - I * (cimag (b 4) * creal (c 3) - creal (b 4) * cimag (c 3)) + creal (b 7) * creal (c 6) + cimag (b 7) * cimag (c 6) - I * (cimag (b 7) * creal (c 6) - creal (b 7) * cimag (c 6))
  let a4 : ℂ := creal (b 1) * creal (c 1) + cimag (b 1) * cimag (c 1) - I * (cimag (b 1) * creal (c 1) - creal (b 1) * cimag (c 1)) + creal (b 4) * creal (c 4) + cimag (b 4) * cimag (c 4) - I * (cimag (b 4) * creal (c 4) - creal (b 4) * cimag (c 4)) + creal (b 7) * creal (c 7) + cimag (b 7) * cimag (c 7) - I * (cimag (b 7) * creal (c 7) - creal (b 7) * cimag (c 7))
  let a5 : ℂ := creal (b 1) * creal (c 2) + cimag (b 1) * cimag (c 2) - I * (cimag (b 1) * creal (c 2) - creal (b 1) * cimag (c 2)) + creal (b 4) * creal (c 5) + cimag (b 4) * cimag (c 5) - I * (cimag (b 4) * creal (c 5) - creal (b 4) * cimag (c 5)) + creal (b 7) * creal (c 8) + cimag (b 7) * cimag (c 8) - I * (cimag (b 7) * creal (c 8) - creal (b 7) * cimag (c 8))
  let a6 : ℂ := creal a1 * creal a5 - cimag a1 * cimag a5 - I * (creal a1 * cimag a5 + creal a5 * cimag a1) - creal a2 * creal a4 + cimag a2 * cimag a4 + I * (creal a2 * cimag a4 + creal a4 * cimag a2)
  let a7 : ℂ := creal a2 * creal a3 - cimag a2 * cimag a3 - I * (creal a2 * cimag a3 + creal a3 * cimag a2) - creal a0 * creal a5 + cimag a0 * cimag a5 + I * (creal a0 * cimag a5 + creal a5 * cimag a0)
  let a8 : ℂ := creal a0 * creal a4 - cimag a0 * cimag a4 - I * (creal a0 * cimag a4 + creal a4 * cimag a0) - creal a1 * creal a3 + cimag a1 * cimag a3 + I * (creal a1 * cimag a3 + creal a3 * cimag a1)
  arr [a0, a1, a2, a3, a4, a5, a6, a7, a8]

/-- `multabdag_suNC` for `NC == 2`, `MMULdag_SUNC.c:81-93`. -/
noncomputable def multabdag_suNC2 (b c : Arr ℂ) : Arr ℂ :=
  let a0 : ℂ := creal (b 0) * creal (c 0) + cimag (b 0) * cimag (c 0) - I * (cimag (b 0) * creal (c 0) - cimag (c 0) * creal (b 0)) + creal (b 2) * creal (c 2) + cimag (b 2) * cimag (c 2) - I * (cimag (b 2) * creal (c 2) - cimag (c 2) * creal (b 2))
  let a1 : ℂ := creal (b 0) * creal (c 1) + cimag (b 0) * cimag (c 1) - I * (cimag (b 0) * creal (c 1) - cimag (c 1) * creal (b 0)) + creal (b 2) * creal (c 3) + cimag (b 2) * cimag (c 3) - I * (cimag (b 2) * creal (c 3) - cimag (c 3) * creal (b 2))
  let a2 : ℂ := -conj a1
  let a3 : ℂ := conj a0
  arr [a0, a1, a2, a3]

/-- `multabdag_suNC`, `MMULdag_SUNC.c`. -/
noncomputable def multabdag_suNC (NC : ℕ) (b c a : Arr ℂ) : Arr ℂ :=
  if NC = 3 then multabdag_suNC3 b c else if NC = 2 then multabdag_suNC2 b c else multabdag NC b c a

/-- `multab_dag_suNC` for `NC == 3`, `MMUL_dag_SUNC.c:35-77`. -/
noncomputable def multab_dag_suNC3 (b c : Arr ℂ) : Arr ℂ :=
  let a0 : ℂ := creal (b 0) * creal (c 0) + cimag (b 0) * cimag (c 0) - I * (creal (b 0) * cimag (c 0) - creal (c 0) * cimag (b 0)) + creal (b 1) * creal (c 1) + cimag (b 1) * cimag (c 1) - I * (creal (b 1) * cimag (c 1) - creal (c 1) * cimag (b 1)) + creal (b 2) * creal (c 2) + cimag (b 2) * cimag (c 2) - I * (creal (b 2) * cimag (c 2) - creal (c 2) * cimag (b 2))
  let a1 : ℂ := creal (b 0) * creal (c 3) + cimag (b 0) * cimag (c 3) - I * (creal (b 0) * cimag (c 3) - creal (c 3) * cimag (b 0)) + creal (b 1) * creal (c 4) + cimag (b 1) * cimag (c 4) - I * (creal (b 1) * cimag (c 4) - creal (c 4) * cimag (b 1)) + creal (b 2) * creal (c 5) + cimag (b 2) * cimag (c 5) - I * (creal (b 2) * cimag (c 5) - creal (c 5) * cimag (b 2))
  let a2 : ℂ := creal (b 0) * creal (c 6) + cimag (b 0) * cimag (c 6) - I * (creal (b 0) * cimag (c 6) - creal (c 6) * cimag (b 0)) + creal (b 1) * creal (c 7) + cimag (b 1) * cimag (c 7) - I * (creal (b 1) * cimag (c 7) - creal (c 7) * cimag (b 1)) + creal (b 2) * creal (c 8) + cimag (b 2) * cimag (c 8) - I * (creal (b 2) * cimag (c 8) - creal (c 8) * cimag (b 2))
  let a3 : ℂ := creal (b 3) * creal (c 0) + cimag (b 3) * cimag (c 0) - I * (creal (b 3) * cimag (c 0) - creal (c 0) * cimag (b 3)) + creal (b 4) * creal (c 1) + cimag (b 4) * cimag (c 1) - I * (creal (b 4) * cimag (c 1) - creal (c 1) * cimag (b 4)) + creal (b 5) * creal (c 2) + cimag (b 5) * cimag (c 2) - I * (creal (b 5) * cimag (c 2) - creal (c 2) * cimag (b 5))
  let a4 : ℂ := creal (b 3) * creal (c 3) + cimag (b 3) * cimag (c 3) - I * (creal (b 3) * cimag (c 3) - creal (c 3) * cimag (b 3)) + creal (b 4) * creal (c 4) + cimag (b 4) * cimag (c 4) - I * (creal (b 4) * cimag (c 4) - creal (c 4) * cimag (b 4)) + creal (b 5) * creal (c 5) + cimag (b 5) * cimag (c 5) - I * (creal (b 5) * cimag (c 5) - creal (c 5) * cimag (b 5))
  let a5 : ℂ := creal (b 3) * creal (c 6) + cimag (b 3) * cimag (c 6) - I * (creal (b 3) * cimag (c 6) - creal (c 6) * cimag (b 3)) + creal (b 4) * creal (c 7) + cimag (b 4) * cimag (c 7) - I * (creal (b 4) * cimag (c 7) - creal (c 7) * cimag (b 4)) + creal (b 5) * creal (c 8) + cimag (b 5) * cimag (c 8) - I * (creal (b 5) * cimag (c 8) - creal (c 8) * cimag (b 5))
  let a6 : ℂ := creal a1 * creal a5 - cimag a1 * cimag a5 - I * (creal a1 * cimag a5 + creal a5 * cimag a1) - creal a2 * creal a4 + cimag a2 * cimag a4 + I * (creal a2 * cimag a4 + creal a4 * cimag a2)
  let a7 : ℂ := creal a2 * creal a3 - cimag a2 * cimag a3 - I * (creal a2 * cimag a3 + creal a3 * cimag a2) - creal a0 * creal a5 + cimag a0 * cimag a5 + I * (creal a0 * cimag a5 + creal a5 * cimag a0)
  let a8 : ℂ := creal a0 * creal a4 - cimag a0 * cimag a4 - I * (creal a0 * cimag a4 + creal a4 * cimag a0) - creal a1 * creal a3 + cimag a1 * cimag a3 + I * (creal a1 * cimag a3 + creal a3 * cimag a1)
  arr [a0, a1, a2, a3, a4, a5, a6, a7, a8]

/-- `multab_dag_suNC` for `NC == 2`, `MMUL_dag_SUNC.c:79-91`. -/
noncomputable def multab_dag_suNC2 (b c : Arr ℂ) : Arr ℂ :=
  let a0 : ℂ := creal (b 0) * creal (c 0) + cimag (b 0) * cimag (c 0) - I * (creal (b 0) * cimag (c 0) - creal (c 0) * cimag (b 0)) + creal (b 1) * creal (c 1) + cimag (b 1) * cimag (c 1) - I * (creal (b 1) * cimag (c 1) - creal (c 1) * cimag (b 1))
  let a1 : ℂ := creal (b 0) * creal (c 2) + cimag (b 0) * cimag (c 2) - I * (creal (b 0) * cimag (c 2) - creal (c 2) * cimag (b 0)) + creal (b 1) * creal (c 3) + cimag (b 1) * cimag (c 3) - I * (creal (b 1) * cimag (c 3) - creal (c 3) * cimag (b 1))
  let a2 : ℂ := -conj a1
  let a3 : ℂ := conj a0
  arr [a0, a1, a2, a3]

/-- `multab_dag_suNC`, `MMUL_dag_SUNC.c`. -/
noncomputable def multab_dag_suNC (NC : ℕ) (b c a : Arr ℂ) : Arr ℂ :=
  if NC = 3 then multab_dag_suNC3 b c else if NC = 2 then multab_dag_suNC2 b c else multab_dag NC b c a

/-- `multab_dagdag_suNC` for `NC == 3`, `MMULdagdag_SUNC.c:35-78`. -/
noncomputable def multab_dagdag_suNC3 (b c : Arr ℂ) : Arr ℂ :=
  let a0 : ℂ := creal (b 0) * creal (c 0) - cimag (b 0) * cimag (c 0) - I * (creal (b 0) * cimag (c 0) + creal (c 0) * cimag (b 0)) + creal (b 3) * creal (c 1) - cimag (b 3) * cimag (c 1) - I * (creal (b 3) * cimag (c 1) + creal (c 1) * cimag (b 3)) + creal (b 6) * creal (c 2) - cimag (b 6) * cimag (c 2) - I * (creal (b 6) * cimag (c 2) + creal (c 2) * cimag (b 6))
  let a1 : ℂ := creal (b 0) * creal (c 3) - cimag (b 0) * cimag (c 3) - I * (creal (b 0) * cimag (c 3) + creal (c 3) * cimag (b 0)) + creal (b 3) * creal (c 4) - cimag (b 3) * cimag (c 4) - I * (creal (b 3) * cimag (c 4) + creal (c 4) * cimag (b 3)) + creal (b 6) * creal (c 5) - cimag (b 6) * cimag (c 5) - I * (creal (b 6) * cimag (c 5) + creal (c 5) * cimag (b 6))
  let a2 : ℂ := creal (b 0) * creal (c 6) - cimag (b 0) * cimag (c 6) - I * (creal (b 0) * cimag (c 6) + creal (c 6) * cimag (b 0)) + creal (b 3) * creal (c 7) - cimag (b 3) * cimag (c 7) - I * (creal (b 3) * cimag (c 7) + creal (c 7) * cimag (b 3)) + creal (b 6) * creal (c 8) - cimag (b 6) * cimag (c 8) - I * (creal (b 6) * cimag (c 8) + creal (c 8) * cimag (b 6))
  let a3 : ℂ := creal (b 1) * creal (c 0) - cimag (b 1) * cimag (c 0) - I * (creal (b 1) * cimag (c 0) + creal (c 0) * cimag (b 1)) + creal (b 4) * creal (c 1) - cimag (b 4) * cimag (c 1) - I * (creal (b 4) * cimag (c 1) + creal (c 1) * cimag (b 4)) + creal (b 7) * creal (c 2) - cimag (b 7) * cimag (c 2) - I * (creal (b 7) * cimag (c 2) + creal (c 2) * cimag (b 7))
  let a4 : ℂ := creal (b 1) * creal (c 3) - cimag (b 1) * cimag (c 3) - I * (creal (b 1) * cimag (c 3) + creal (c 3) * cimag (b 1)) + creal (b 4) * creal (c 4) - cimag (b 4) * cimag (c 4) - I * (creal (b 4) * cimag (c 4) + creal (c 4) * cimag (b 4)) + creal (b 7) * creal (c 5) - cimag (b 7) * cimag (c 5) - I * (creal (b 7) * cimag (c 5) + creal (c 5) * cimag (b 7))
  let a5 : ℂ := creal (b 1) * creal (c 6) - cimag (b 1) * cimag (c 6) - I * (creal (b 1) * cimag (c 6) + creal (c 6) * cimag (b 1)) + creal (b 4) * creal (c 7) - cimag (b 4) * cimag (c 7) - I * (creal (b 4) * cimag (c 7) + creal (c 7) * cimag (b 4)) + creal (b 7) * creal (c 8) - cimag (b 7) * cimag (c 8) - I * (creal (b 7) * cimag (c 8) + creal (c 8) * cimag (b 7))
  let a6 : ℂ := creal a1 * creal a5 - cimag a1 * cimag a5 - I * (creal a1 * cimag a5 + creal a5 * cimag a1) - creal a2 * creal a4 + cimag a2 * cimag a4 + I * (creal a2 * cimag a4 + creal a4 * cimag a2)
  let a7 : ℂ := creal a2 * creal a3 - cimag a2 * cimag a3 - I * (creal a2 * cimag a3 + creal a3 * cimag a2) - creal a0 * creal a5 + cimag a0 * cimag a5 + I * (creal a0 * cimag a5 + creal a5 * cimag a0)
  let a8 : ℂ := creal a0 * creal a4 - cimag a0 * cimag a4 - I * (creal a0 * cimag a4 + creal a4 * cimag a0) - creal a1 * creal a3 + cimag a1 * cimag a3 + I * (creal a1 * cimag a3 + creal a3 * cimag a1)
  arr [a0, a1, a2, a3, a4, a5, a6, a7, a8]

/-- `multab_dagdag_suNC` for `NC == 2`, `MMULdagdag_SUNC.c:81-92`. -/
noncomputable def multab_dagdag_suNC2 (b c : Arr ℂ) : Arr ℂ :=
  let a0 : ℂ := creal (b 0) * creal (c 0) - cimag (b 0) * cimag (c 0) - I * (creal (b 0) * cimag (c 0) + creal (c 0) * cimag (b 0)) + creal (b 2) * creal (c 1) - cimag (b 2) * cimag (c 1) - I * (creal (b 2) * cimag (c 1) + creal (c 1) * cimag (b 2))
  let a1 : ℂ := creal (b 0) * creal (c 2) - cimag (b 0) * cimag (c 2) - I * (creal (b 0) * cimag (c 2) + creal (c 2) * cimag (b 0)) + creal (b 2) * creal (c 3) - cimag (b 2) * cimag (c 3) - I * (creal (b 2) * cimag (c 3) + creal (c 3) * cimag (b 2))
  let a2 : ℂ := -conj a1
  let a3 : ℂ := conj a0
  arr [a0, a1, a2, a3]

/-- `multab_dagdag_suNC`, `MMULdagdag_SUNC.c`. -/
noncomputable def multab_dagdag_suNC (NC : ℕ) (b c a : Arr ℂ) : Arr ℂ :=
  if NC = 3 then multab_dagdag_suNC3 b c else if NC = 2 then multab_dagdag_suNC2 b c else multab_dagdag NC b c a

end GLU.Mat
