import Verif.Mat.MMul
import Mathlib.Analysis.SpecialFunctions.Complex.Arg
import Mathlib.Analysis.Real.Sqrt

/-!
# Matrix utilities and traces

`src/Matrix_Ops/U_Nops.c` and `src/Matrix_Ops/trace_abc.c`, portable versions.
The unrolled bodies are transcribed statement by statement.  Doubles are real
numbers; the casts between `GLU_real` and `double` are identities.
-/

set_option linter.unusedVariables false

namespace GLU.Mat

open Complex

/-- `for( i = 0 ; i < n ; i++ ) { a[i] = f( i , a[i] ) ; }`. -/
def mapN {R : Type*} (n : ℕ) (f : ℕ → R → R) (a : Arr R) : Arr R :=
  forN n (fun i a => Function.update a i (f i (a i))) a

/-- `for( i = lo ; i < hi ; i++ )`. -/
def forFrom {σ : Type*} (lo hi : ℕ) (body : ℕ → σ → σ) (s : σ) : σ :=
  forN (hi - lo) (fun k => body (lo + k)) s

/-- A complex array seen through a `GLU_real` pointer: real and imaginary parts
alternate. -/
def asReals (U : Arr ℂ) : Arr ℝ := fun n => if n % 2 = 0 then (U (n / 2)).re else (U (n / 2)).im

/-- `add_constant`, `U_Nops.c:28-46`. -/
noncomputable def add_constant (NC : ℕ) (a : Arr ℂ) (c : ℂ) : Arr ℂ :=
  let add (k : ℕ) (a : Arr ℂ) : Arr ℂ := Function.update a k (a k + c)
  if NC = 3 then add 8 (add 4 (add 0 a))
  else if NC = 2 then add 3 (add 0 a)
  else forN NC (fun i a => Function.update a (i * (NC + 1)) (a (i * (NC + 1)) + c)) a

/-- `a_plus_b` for `NC == 3`, `U_Nops.c:54-56`. -/
noncomputable def a_plus_b3 (a b : Arr ℂ) : Arr ℂ :=
  arr [a 0 + b 0, a 1 + b 1, a 2 + b 2, a 3 + b 3, a 4 + b 4, a 5 + b 5, a 6 + b 6, a 7 + b 7, a 8 + b 8]

/-- `a_plus_b` for `NC == 2`, `U_Nops.c:58-59`. -/
noncomputable def a_plus_b2 (a b : Arr ℂ) : Arr ℂ :=
  arr [a 0 + b 0, a 1 + b 1, a 2 + b 2, a 3 + b 3]

/-- `a_plus_b`, `U_Nops.c:49-67`: the preprocessor selects the body from `NC`. -/
noncomputable def a_plus_b (NC : ℕ) (a b : Arr ℂ) : Arr ℂ :=
  if NC = 3 then a_plus_b3 a b else if NC = 2 then a_plus_b2 a b else
  mapN (NC * NC) (fun i x => x + b i) a

/-- `a_plus_CSxb` for `NC == 3`, `U_Nops.c:76-78`. -/
noncomputable def a_plus_CSxb3 (a b : Arr ℂ) (S : ℂ) : Arr ℂ :=
  arr [a 0 + S * b 0, a 1 + S * b 1, a 2 + S * b 2, a 3 + S * b 3, a 4 + S * b 4, a 5 + S * b 5, a 6 + S * b 6, a 7 + S * b 7, a 8 + S * b 8]

/-- `a_plus_CSxb` for `NC == 2`, `U_Nops.c:80-81`. -/
noncomputable def a_plus_CSxb2 (a b : Arr ℂ) (S : ℂ) : Arr ℂ :=
  arr [a 0 + S * b 0, a 1 + S * b 1, a 2 + S * b 2, a 3 + S * b 3]

/-- `a_plus_CSxb`, `U_Nops.c:70-89`: the preprocessor selects the body from `NC`. -/
noncomputable def a_plus_CSxb (NC : ℕ) (a b : Arr ℂ) (S : ℂ) : Arr ℂ :=
  if NC = 3 then a_plus_CSxb3 a b S else if NC = 2 then a_plus_CSxb2 a b S else
  mapN (NC * NC) (fun i x => x + S * b i) a

/-- `a_plus_Sxb`, `U_Nops.c:92-111`: the same statements with a real factor, promoted
to complex by the language. -/
noncomputable def a_plus_Sxb (NC : ℕ) (a b : Arr ℂ) (S : ℝ) : Arr ℂ :=
  a_plus_CSxb NC a b (S : ℂ)

/-- `b_min_c` for `NC == 3`, `U_Nops.c:145-147`. -/
noncomputable def b_min_c3 (a b c : Arr ℂ) : Arr ℂ :=
  arr [b 0 - c 0, b 1 - c 1, b 2 - c 2, b 3 - c 3, b 4 - c 4, b 5 - c 5, b 6 - c 6, b 7 - c 7, b 8 - c 8]

/-- `b_min_c` for `NC == 2`, `U_Nops.c:149-150`. -/
noncomputable def b_min_c2 (a b c : Arr ℂ) : Arr ℂ :=
  arr [b 0 - c 0, b 1 - c 1, b 2 - c 2, b 3 - c 3]

/-- `b_min_c`, `U_Nops.c:139-158`: the preprocessor selects the body from `NC`. -/
noncomputable def b_min_c (NC : ℕ) (a b c : Arr ℂ) : Arr ℂ :=
  if NC = 3 then b_min_c3 a b c else if NC = 2 then b_min_c2 a b c else
  mapN (NC * NC) (fun i _ => b i - c i) a

/-- `dagger` for `NC == 3`, `U_Nops.c:217-219`. -/
noncomputable def dagger3 (b a : Arr ℂ) : Arr ℂ :=
  arr [conj (a 0), conj (a 3), conj (a 6), conj (a 1), conj (a 4), conj (a 7), conj (a 2), conj (a 5), conj (a 8)]

/-- `dagger` for `NC == 2`, `U_Nops.c:221-222`. -/
noncomputable def dagger2 (b a : Arr ℂ) : Arr ℂ :=
  arr [conj (a 0), conj (a 2), conj (a 1), conj (a 3)]

/-- `dagger`, `U_Nops.c:212-232`: the preprocessor selects the body from `NC`. -/
noncomputable def dagger (NC : ℕ) (b a : Arr ℂ) : Arr ℂ :=
  if NC = 3 then dagger3 b a else if NC = 2 then dagger2 b a else
  fillNN NC (fun i j => conj (a (i + j * NC))) b

/-- `diag` for `NC == 3`, `U_Nops.c:255-257`. -/
noncomputable def diag3 (M : Arr ℂ) (c : ℂ) : Arr ℂ :=
  arr [c, 0, 0, 0, c, 0, 0, 0, c]

/-- `diag` for `NC == 2`, `U_Nops.c:259-260`. -/
noncomputable def diag2 (M : Arr ℂ) (c : ℂ) : Arr ℂ :=
  arr [c, 0, 0, c]

/-- `diag`, `U_Nops.c:250-270`: the preprocessor selects the body from `NC`. -/
noncomputable def diag (NC : ℕ) (M : Arr ℂ) (c : ℂ) : Arr ℂ :=
  if NC = 3 then diag3 M c else if NC = 2 then diag2 M c else
  fillNN NC (fun i j => if i ≠ j then 0 else c) M

/-- `diag_vect` for `NC == 3`, `U_Nops.c:278-280`. -/
noncomputable def diag_vect3 (M c : Arr ℂ) : Arr ℂ :=
  arr [c 0, 0, 0, 0, c 1, 0, 0, 0, c 2]

/-- `diag_vect` for `NC == 2`, `U_Nops.c:282-283`. -/
noncomputable def diag_vect2 (M c : Arr ℂ) : Arr ℂ :=
  arr [c 0, 0, 0, c 1]

/-- `diag_vect`, `U_Nops.c:273-294`: the preprocessor selects the body from `NC`. -/
noncomputable def diag_vect (NC : ℕ) (M c : Arr ℂ) : Arr ℂ :=
  if NC = 3 then diag_vect3 M c else if NC = 2 then diag_vect2 M c else
  forN NC (fun i M =>
    let M := forFrom (i + 1) NC (fun j M =>
      Function.update (Function.update M (i + j * NC) 0) (j + i * NC) 0) M
    Function.update M (i * (NC + 1)) (c i)) M

/-- `equiv` for `NC == 3`, `U_Nops.c:302-304`. -/
noncomputable def equiv3 (a b : Arr ℂ) : Arr ℂ :=
  arr [b 0, b 1, b 2, b 3, b 4, b 5, b 6, b 7, b 8]

/-- `equiv` for `NC == 2`, `U_Nops.c:306-307`. -/
noncomputable def equiv2 (a b : Arr ℂ) : Arr ℂ :=
  arr [b 0, b 1, b 2, b 3]

/-- `equiv`, `U_Nops.c:297-315`: the preprocessor selects the body from `NC`. -/
noncomputable def equiv (NC : ℕ) (a b : Arr ℂ) : Arr ℂ :=
  if NC = 3 then equiv3 a b else if NC = 2 then equiv2 a b else
  mapN (NC * NC) (fun i _ => b i) a

/-- `identity` for `NC == 3`, `U_Nops.c:322-324`. -/
noncomputable def identity3 (ident : Arr ℂ) : Arr ℂ :=
  arr [1, 0, 0, 0, 1, 0, 0, 0, 1]

/-- `identity` for `NC == 2`, `U_Nops.c:326-327`. -/
noncomputable def identity2 (ident : Arr ℂ) : Arr ℂ :=
  arr [1, 0, 0, 1]

/-- `identity`, `U_Nops.c:318-337`: the preprocessor selects the body from `NC`. -/
noncomputable def identity (NC : ℕ) (ident : Arr ℂ) : Arr ℂ :=
  if NC = 3 then identity3 ident else if NC = 2 then identity2 ident else
  fillNN NC (fun i j => if i ≠ j then 0 else 1) ident

/-- `M_times_c` for `NC == 3`, `U_Nops.c:440-442`. -/
noncomputable def M_times_c3 (M : Arr ℂ) (c : ℂ) : Arr ℂ :=
  arr [M 0 * c, M 1 * c, M 2 * c, M 3 * c, M 4 * c, M 5 * c, M 6 * c, M 7 * c, M 8 * c]

/-- `M_times_c` for `NC == 2`, `U_Nops.c:444-445`. -/
noncomputable def M_times_c2 (M : Arr ℂ) (c : ℂ) : Arr ℂ :=
  arr [M 0 * c, M 1 * c, M 2 * c, M 3 * c]

/-- `M_times_c`, `U_Nops.c:435-453`: the preprocessor selects the body from `NC`. -/
noncomputable def M_times_c (NC : ℕ) (M : Arr ℂ) (c : ℂ) : Arr ℂ :=
  if NC = 3 then M_times_c3 M c else if NC = 2 then M_times_c2 M c else
  mapN (NC * NC) (fun _ x => x * c) M

/-- `outerproduct` for `NC == 3`, `U_Nops.c:517-519`. -/
noncomputable def outerproduct3 (Q a b : Arr ℂ) : Arr ℂ :=
  arr [a 0 * conj (b 0), a 0 * conj (b 1), a 0 * conj (b 2), a 1 * conj (b 0), a 1 * conj (b 1), a 1 * conj (b 2), a 2 * conj (b 0), a 2 * conj (b 1), a 2 * conj (b 2)]

/-- `outerproduct` for `NC == 2`, `U_Nops.c:521-522`. -/
noncomputable def outerproduct2 (Q a b : Arr ℂ) : Arr ℂ :=
  arr [a 0 * conj (b 0), a 0 * conj (b 1), a 1 * conj (b 0), a 1 * conj (b 1)]

/-- `outerproduct`, `U_Nops.c:511-532`: the preprocessor selects the body from `NC`. -/
noncomputable def outerproduct (NC : ℕ) (Q a b : Arr ℂ) : Arr ℂ :=
  if NC = 3 then outerproduct3 Q a b else if NC = 2 then outerproduct2 Q a b else
  fillNN NC (fun i j => a i * conj (b j)) Q

/-- `transpose` for `NC == 3`, `U_Nops.c:1008-1010`. -/
noncomputable def transpose3 (a b : Arr ℂ) : Arr ℂ :=
  arr [b 0, b 3, b 6, b 1, b 4, b 7, b 2, b 5, b 8]

/-- `transpose` for `NC == 2`, `U_Nops.c:1012-1013`. -/
noncomputable def transpose2 (a b : Arr ℂ) : Arr ℂ :=
  arr [b 0, b 2, b 1, b 3]

/-- `transpose`, `U_Nops.c:1003-1023`: the preprocessor selects the body from `NC`. -/
noncomputable def transpose (NC : ℕ) (a b : Arr ℂ) : Arr ℂ :=
  if NC = 3 then transpose3 a b else if NC = 2 then transpose2 a b else
  fillNN NC (fun i j => b (i + j * NC)) a

/-- `zero_mat` for `NC == 3`, `U_Nops.c:1081-1083`. -/
noncomputable def zero_mat3 (a : Arr ℂ) : Arr ℂ :=
  arr [0, 0, 0, 0, 0, 0, 0, 0, 0]

/-- `zero_mat` for `NC == 2`, `U_Nops.c:1085-1086`. -/
noncomputable def zero_mat2 (a : Arr ℂ) : Arr ℂ :=
  arr [0, 0, 0, 0]

/-- `zero_mat`, `U_Nops.c:1076-1095`: the preprocessor selects the body from `NC`. -/
noncomputable def zero_mat (NC : ℕ) (a : Arr ℂ) : Arr ℂ :=
  if NC = 3 then zero_mat3 a else if NC = 2 then zero_mat2 a else
  mapN (NC * NC) (fun _ _ => 0) a

/-- `mat_mult_vec` for `NC == 3`, `U_Nops.c:416-418`. -/
noncomputable def mat_mult_vec3 (vect S v : Arr ℂ) : Arr ℂ :=
  arr [S 0 * v 0 + S 1 * v 1 + S 2 * v 2, S 3 * v 0 + S 4 * v 1 + S 6 * v 2, S 6 * v 0 + S 7 * v 1 + S 8 * v 2]

/-- `mat_mult_vec` for `NC == 2`, `U_Nops.c:420-421`. -/
noncomputable def mat_mult_vec2 (vect S v : Arr ℂ) : Arr ℂ :=
  arr [S 0 * v 0 + S 1 * v 1, S 2 * v 0 + S 3 * v 1]

/-- `mat_mult_vec`, `U_Nops.c:410-432`: the preprocessor selects the body from `NC`. -/
noncomputable def mat_mult_vec (NC : ℕ) (vect S v : Arr ℂ) : Arr ℂ :=
  if NC = 3 then mat_mult_vec3 vect S v else if NC = 2 then mat_mult_vec2 vect S v else
  forN NC (fun i vect =>
    let vect := Function.update vect i 0
    forN NC (fun j vect => Function.update vect i (vect i + S (j + i * NC) * v j)) vect) vect

/-- `cofactor_transpose` for `NC == 3`, `U_Nops.c:166-174`. -/
noncomputable def cofactor_transpose3 (b : Arr ℂ) : Arr ℂ :=
  arr [
    b 4 * b 8 - b 5 * b 7,
    -(b 1 * b 8 - b 2 * b 7),
    b 1 * b 5 - b 2 * b 4,
    -(b 3 * b 8 - b 5 * b 6),
    b 0 * b 8 - b 2 * b 6,
    -(b 0 * b 5 - b 2 * b 3),
    b 3 * b 7 - b 4 * b 6,
    -(b 0 * b 7 - b 1 * b 6),
    b 0 * b 4 - b 1 * b 3]

/-- `cofactor_transpose` for `NC == 2`, `U_Nops.c:177-180`. -/
noncomputable def cofactor_transpose2 (b : Arr ℂ) : Arr ℂ :=
  arr [
    b 3,
    -b 1,
    -b 2,
    b 0]

/-- `det` and `speed_det` for `NC == 3`, `U_Nops.c:239-241`, `719-721`. -/
noncomputable def det3 (U : Arr ℂ) : ℂ :=
  U 0 * (U 4 * U 8 - U 5 * U 7) - U 1 * (U 3 * U 8 - U 5 * U 6) + U 2 * (U 3 * U 7 - U 4 * U 6)

/-- `det` and `speed_det` for `NC == 2`, `U_Nops.c:243`, `723`. -/
noncomputable def det2 (U : Arr ℂ) : ℂ :=
  U 0 * U 3 - U 1 * U 2

/-- `pack_hermitian`, `U_Nops.c:535-548`. -/
noncomputable def pack_hermitian (NC : ℕ) (a b : Arr ℂ) : Arr ℂ :=
  (forN (NC - 1) (fun i s => forFrom i NC (fun j (s : ℕ × Arr ℂ) =>
    (s.1 + 1, Function.update s.2 s.1 (b (j + i * NC)))) s) (0, a)).2

/-- `rebuild_antihermitian` for `NC == 3`, `U_Nops.c:616-624`. -/
noncomputable def rebuild_antihermitian3 (b : Arr ℂ) : Arr ℂ :=
  let a0 : ℂ := b 0
  let a1 : ℂ := b 1
  let a2 : ℂ := b 2
  let a3 : ℂ := -conj a1
  let a4 : ℂ := b 3
  let a5 : ℂ := b 4
  let a6 : ℂ := -conj a2
  let a7 : ℂ := -conj a5
  let a8 : ℂ := -a0-a4
  arr [a0, a1, a2, a3, a4, a5, a6, a7, a8]

/-- `rebuild_antihermitian` for `NC == 2`, `U_Nops.c:626-629`. -/
noncomputable def rebuild_antihermitian2 (b : Arr ℂ) : Arr ℂ :=
  let a0 : ℂ := b 0
  let a1 : ℂ := b 1
  let a2 : ℂ := -conj a1
  let a3 : ℂ := -a0
  arr [a0, a1, a2, a3]

/-- `rebuild_antihermitian`, `U_Nops.c:611-649`. -/
noncomputable def rebuild_antihermitian (NC : ℕ) (a b : Arr ℂ) : Arr ℂ :=
  if NC = 3 then rebuild_antihermitian3 b else if NC = 2 then rebuild_antihermitian2 b else
  let s := forN (NC - 1) (fun i s => forFrom i NC (fun j (s : ℕ × Arr ℂ) =>
    (s.1 + 1, Function.update (Function.update s.2 (j + NC * i) (b s.1))
      (i + NC * j) (-conj (b s.1)))) s) (0, a)
  let res := loopSum (NC - 1) fun k => s.2 (k * (NC + 1))
  Function.update s.2 (NC * NC - 1) (-res)

/-- `rebuild_hermitian` for `NC == 3`, `U_Nops.c:657-665`. -/
noncomputable def rebuild_hermitian3 (b : Arr ℂ) : Arr ℂ :=
  let a0 : ℂ := b 0
  let a1 : ℂ := b 1
  let a2 : ℂ := b 2
  let a3 : ℂ := conj a1
  let a4 : ℂ := b 3
  let a5 : ℂ := b 4
  let a6 : ℂ := conj a2
  let a7 : ℂ := conj a5
  let a8 : ℂ := -a0-a4
  arr [a0, a1, a2, a3, a4, a5, a6, a7, a8]

/-- `rebuild_hermitian` for `NC == 2`, `U_Nops.c:667-670`. -/
noncomputable def rebuild_hermitian2 (b : Arr ℂ) : Arr ℂ :=
  let a0 : ℂ := b 0
  let a1 : ℂ := b 1
  let a2 : ℂ := conj a1
  let a3 : ℂ := -a0
  arr [a0, a1, a2, a3]

/-- `rebuild_hermitian`, `U_Nops.c:652-690`. -/
noncomputable def rebuild_hermitian (NC : ℕ) (a b : Arr ℂ) : Arr ℂ :=
  if NC = 3 then rebuild_hermitian3 b else if NC = 2 then rebuild_hermitian2 b else
  let s := forN (NC - 1) (fun i s => forFrom i NC (fun j (s : ℕ × Arr ℂ) =>
    (s.1 + 1, Function.update (Function.update s.2 (j + NC * i) (b s.1))
      (i + NC * j) (conj (b s.1)))) s) (0, a)
  let res := loopSum (NC - 1) fun k => s.2 (k * (NC + 1))
  Function.update s.2 (NC * NC - 1) (-res)

/-- `shorten` for `NC == 3`, `U_Nops.c:699-703`. -/
noncomputable def shorten3 (b : Arr ℂ) : Arr ℝ :=
  arr [(b 1).re, (b 1).im, (b 2).re, (b 2).im, (b 3).re, (b 3).im, arg (b 0), arg (b 6)]

/-- `shorten` for `NC == 2`, `U_Nops.c:705-707`. -/
noncomputable def shorten2 (b : Arr ℂ) : Arr ℝ :=
  arr [arg (b 0), (b 1).re, (b 1).im]

/-- `DBL_MIN`, the smallest normal double. -/
noncomputable def DBL_MIN  : ℝ :=
  (2 : ℝ) ^ (-1022 : ℤ)

/-- `rebuild` for `NC == 3`, `U_Nops.c:565-595`, double precision. -/
noncomputable def rebuild3 (b : Arr ℝ) : Arr ℂ :=
  let tmp : ℝ := b 0 * b 0 + b 1 * b 1 + b 2 * b 2 + b 3 * b 3
  if |tmp| < DBL_MIN then identity3 (arr [])
  else
    let NORM : ℂ := ((1 / tmp : ℝ) : ℂ)
    let reg1 : ℝ := 1 - (b 0 * b 0 + b 1 * b 1) - (b 2 * b 2 + b 3 * b 3)
    let A1 : ℂ := if reg1 < 0 then 0 else √reg1 * (Real.cos (b 6) + I * Real.sin (b 6))
    let reg2 : ℝ := 1 - (A1.re * A1.re + A1.im * A1.im) - (b 4 * b 4 + b 5 * b 5)
    let c : ℂ := if reg2 < 0 then 0 else √reg2 * (Real.cos (b 7) + I * Real.sin (b 7))
    let a0 := A1
    let a1 : ℂ := b 0 + I * b 1
    let a2 : ℂ := b 2 + I * b 3
    let star_a0 := conj a0
    let ca1 := c * a1
    let ca2 := c * a2
    let a3 : ℂ := b 4 + I * b 5
    let a4 := (-conj ca2 - a3 * star_a0 * a1) * NORM
    let a5 := (conj ca1 - star_a0 * a2 * a3) * NORM
    let a6 := c
    let a7 := (conj (a3 * a2) - star_a0 * ca1) * NORM
    let a8 := (-conj (a3 * a1) - star_a0 * ca2) * NORM
    arr [a0, a1, a2, a3, a4, a5, a6, a7, a8]

/-- `rebuild` for `NC == 2`, `U_Nops.c:597-601`. -/
noncomputable def rebuild2 (b : Arr ℝ) : Arr ℂ :=
  let R : ℂ := (√(1 - (b 1 * b 1 + b 2 * b 2)) : ℝ)
  let a0 : ℂ := R * (Real.cos (b 0) + I * Real.sin (b 0))
  let a1 : ℂ := b 1 + I * b 2
  let a2 := -conj a1
  let a3 := conj a0
  arr [a0, a1, a2, a3]

/-- The list built by `matrix_power`, `U_Nops.c:475-487`: `true` marks a squaring.  The
head of the list is the last entry pushed. -/
def powerList (nn : ℕ) (head : List Bool) : List Bool :=
  if h : 2 < nn then
    if nn % 2 = 0 then powerList (nn / 2) (true :: head)
    else powerList (nn - 1) (false :: head)
  else head
termination_by nn

/-- `matrix_power`, `U_Nops.c:462-508`, for non-negative `n`. -/
noncomputable def matrix_power (NC : ℕ) (a b : Arr ℂ) (n : ℕ) : Arr ℂ :=
  if n = 0 then identity NC a
  else if n = 1 then equiv NC a b
  else if n = 2 then multab NC b b a
  else (powerList n []).foldl (fun a sq =>
      equiv NC a (if sq then multab NC a a a else multab NC a b a)) (multab NC b b a)

/-- `PREC_TOL`, `GLU_definitions.h:362`, double precision. -/
noncomputable def PREC_TOL (NC : ℕ) : ℝ :=
  NC * (1 / 10 ^ 14)

/-- `is_unitary`, `U_Nops.c:339-407`.  The exits through `goto end` become the `some`
result of the loop state; line 393 sets the flag to true.  The NaN test compares a
complex number with itself and is false on real numbers. -/
noncomputable def is_unitary (NC : ℕ) (U temp : Arr ℂ) : Bool :=
  open Classical in
  let temp := multab_dag NC U U temp
  let e1 : Option Bool := forN (NC * NC) (fun i e => e <|>
    (let check : ℝ := if i % (NC + 1) = 0 then ‖temp i‖ - 1 else ‖temp i‖
     if |check| > PREC_TOL NC then some false else none)) none
  let e2 : ℝ × Option Bool := forN NC (fun j s =>
    if s.2.isSome then s else
      let vv := forN NC (fun i vv => vv + (U (NC * i) * conj (U (NC * i + j))).re) s.1
      (vv, if |vv - 1| / NC > PREC_TOL NC then some false else none)) (0, e1)
  let e3 : ℝ × Option Bool := forN NC (fun j s =>
    if s.2.isSome then s else
      let vv := forN NC (fun i vv => vv + (U i * conj (U (i + NC * j))).re) s.1
      (vv, if |vv - 1| / NC > PREC_TOL NC then some true else none)) (0, e2.2)
  e3.2.getD true

/-- `trace`, `U_Nops.c:777-795`, and `speed_trace`, `U_Nops.c:731-751` (the same
statements).  The pointer `pU` is the offset `s.1`. -/
noncomputable def trace (NC : ℕ) (U : Arr ℂ) : ℂ :=
  if NC = 3 then U 0 + U 4 + U 8 else if NC = 2 then U 0 + U 3 else
  let s := forN NC (fun _ (s : ℕ × ℝ × ℝ) =>
    (s.1 + 1 + 1 + 2 * NC, s.2.1 + asReals U s.1, s.2.2 + asReals U (s.1 + 1))) (0, 0, 0)
  s.2.1 + I * s.2.2

/-- `speed_trace_Re`, `U_Nops.c:754-774`. -/
noncomputable def speed_trace_Re (NC : ℕ) (U : Arr ℂ) : ℝ :=
  if NC = 3 then (U 0).re + (U 4).re + (U 8).re else if NC = 2 then (U 0).re + (U 3).re else
  (forN NC (fun _ (s : ℕ × ℝ) => (s.1 + 2 * (NC + 1), s.2 + asReals U s.1)) (0, 0)).2

/-- `trace_ab`, `U_Nops.c:798-824`. -/
noncomputable def trace_ab (NC : ℕ) (a b : Arr ℂ) : ℂ :=
  if NC = 3 then
    a 0 * b 0 + a 1 * b 3 + a 2 * b 6 + a 3 * b 1 + a 4 * b 4 + a 5 * b 7 + a 6 * b 2 + a 7
    * b 5 + a 8 * b 8
  else if NC = 2 then
    a 0 * b 0 + a 2 * b 1 + a 1 * b 2 + a 3 * b 3
  else
    let s := forN NC (fun i s => forN NC (fun j (s : ℝ × ℝ) =>
      (s.1 + ((a (j + NC * i)).re * (b (i + NC * j)).re - (a (j + NC * i)).im * (b (i + NC * j)).im),
       s.2 + ((a (j + NC * i)).re * (b (i + NC * j)).im + (a (j + NC * i)).im * (b (i + NC * j)).re)))
      s) (0, 0)
    s.1 + I * s.2

/-- `trace_ab_dag`, `U_Nops.c:827-858`. -/
noncomputable def trace_ab_dag (NC : ℕ) (a b : Arr ℂ) : ℂ :=
  if NC = 3 then
    a 0 * conj (b 0) + a 1 * conj (b 1) + a 2 * conj (b 2) + a 3 * conj (b 3) + a 4 * conj
    (b 4) + a 5 * conj (b 5) + a 6 * conj (b 6) + a 7 * conj (b 7) + a 8 * conj (b 8)
  else if NC = 2 then
    a 0 * conj (b 0) + a 1 * conj (b 1) + a 2 * conj (b 2) + a 3 * conj (b 3)
  else
    let step (i : ℕ) (s : ℝ × ℝ) : ℝ × ℝ :=
      (s.1 + ((a i).re * (b i).re + (a i).im * (b i).im),
       s.2 + ((a i).re * (b i).im - (b i).re * (a i).im))
    let s := if NC % 2 = 0 then
        forN (NC * NC / 2) (fun h s => step (2 * h + 1) (step (2 * h) s)) (0, 0)
      else forN (NC * NC) step (0, 0)
    s.1 - I * s.2

/-- `trace_ab_dag_Re`, `U_Nops.c:861-897`. -/
noncomputable def trace_ab_dag_Re (NC : ℕ) (a b : Arr ℂ) : ℝ :=
  if NC = 3 then
    ((a 0).re * (b 0).re + (a 0).im * (b 0).im) + ((a 1).re * (b 1).re + (a 1).im * (b
    1).im) + ((a 2).re * (b 2).re + (a 2).im * (b 2).im) + ((a 3).re * (b 3).re + (a 3).im *
    (b 3).im) + ((a 4).re * (b 4).re + (a 4).im * (b 4).im) + ((a 5).re * (b 5).re + (a
    5).im * (b 5).im) + ((a 6).re * (b 6).re + (a 6).im * (b 6).im) + ((a 7).re * (b 7).re +
    (a 7).im * (b 7).im) + ((a 8).re * (b 8).re + (a 8).im * (b 8).im)
  else if NC = 2 then
    ((a 0).re * (b 0).re + (a 0).im * (b 0).im) + ((a 1).re * (b 1).re + (a 1).im * (b
    1).im) + ((a 2).re * (b 2).re + (a 2).im * (b 2).im) + ((a 3).re * (b 3).re + (a 3).im *
    (b 3).im)
  else
    let step (i : ℕ) (s : ℝ) : ℝ := s + ((a i).re * (b i).re + (a i).im * (b i).im)
    if NC % 2 = 0 then
      forN (NC * NC / 2) (fun h s => step (2 * h + 1) (step (2 * h) s)) 0
    else forN (NC * NC) step 0

/-- `trace_ab_herm`, `U_Nops.c:900-929`. -/
noncomputable def trace_ab_herm (NC : ℕ) (a b : Arr ℂ) : ℝ :=
  if NC = 3 then
    (a 0).re * (b 0).re + (a 4).re * (b 4).re + (a 8).re * (b 8).re + 2 * ((a 1).re * (b
    1).re + (a 1).im * (b 1).im + (a 2).re * (b 2).re + (a 2).im * (b 2).im + (a 5).re * (b
    5).re + (a 5).im * (b 5).im)
  else if NC = 2 then
    2 * ((a 0).re * (b 0).re + (a 1).re * (b 1).re + (a 1).im * (b 1).im)
  else
    forN NC (fun i sum =>
      let sum := sum + (a (i + NC * i)).re * (b (i + NC * i)).re
      forFrom (i + 1) NC (fun j sum =>
        sum + 2 * ((a (j + NC * i)).re * (b (j + NC * i)).re +
          (a (j + NC * i)).im * (b (j + NC * i)).im)) sum) 0

/-- `trace_ab_herm_short`, `U_Nops.c:932-964`.  The loop state is
`(idx, sum, suma, sumb)`. -/
noncomputable def trace_ab_herm_short (NC : ℕ) (a b : Arr ℂ) : ℝ :=
  if NC = 3 then
    ((a 0).re * (b 3).re + (a 3).re * (b 0).re) + 2 * ((a 0).re * (b 0).re + (a 3).re * (b
    3).re + (a 1).re * (b 1).re + (a 1).im * (b 1).im + (a 2).re * (b 2).re + (a 2).im * (b
    2).im + (a 4).re * (b 4).re + (a 4).im * (b 4).im)
  else if NC = 2 then
    2 * ((a 0).re * (b 0).re + (a 1).re * (b 1).re + (a 1).im * (b 1).im)
  else
    let s : ℕ × ℝ × ℝ × ℝ := forN (NC - 1) (fun i s =>
      let s : ℕ × ℝ × ℝ × ℝ := (s.1 + 1, s.2.1 + (a s.1).re * (b s.1).re,
        s.2.2.1 + (a s.1).re, s.2.2.2 + (b s.1).re)
      forFrom (i + 1) NC (fun _ s =>
        (s.1 + 1, s.2.1 + 2 * ((a s.1).re * (b s.1).re + (a s.1).im * (b s.1).im),
          s.2.2.1, s.2.2.2)) s) (0, 0, 0, 0)
    s.2.1 + s.2.2.1 * s.2.2.2

/-- `trace_prod_herm`, `U_Nops.c:967-1000`.  The pointer `pA` is the offset `s.1`. -/
noncomputable def trace_prod_herm (NC : ℕ) (a : Arr ℂ) : ℝ :=
  if NC = 3 then
    (a 0).re * (a 0).re + (a 4).re * (a 4).re + (a 8).re * (a 8).re + 2 * ((a 1).re * (a
    1).re + (a 1).im * (a 1).im + (a 2).re * (a 2).re + (a 2).im * (a 2).im + (a 5).re * (a
    5).re + (a 5).im * (a 5).im)
  else if NC = 2 then
    2 * ((a 0).re * (a 0).re + (a 1).re * (a 1).re + (a 1).im * (a 1).im)
  else
    (forN NC (fun i s =>
      let s : ℕ × ℝ := (s.1 + 1, s.2 + (a s.1).re * (a s.1).re)
      let s := forFrom (i + 1) NC (fun _ (s : ℕ × ℝ) =>
        (s.1 + 1, s.2 + 2 * ((a s.1).re * (a s.1).re + (a s.1).im * (a s.1).im))) s
      (s.1 + (i + 1), s.2)) ((0 : ℕ), (0 : ℝ))).2

/-! ## `trace_abc.c` -/

/-- The product `(ab)_{ji}` accumulated by the three generic loops of `trace_abc.c`,
lines 138-149, 188-199, 238-249.  `pA = a + j*NC`, `pB = b + k*NC`. -/
noncomputable def insum (NC : ℕ) (a b : Arr ℂ) (i j : ℕ) : ℝ × ℝ :=
  forN NC (fun k s =>
    (s.1 + ((a (j * NC + k)).re * (b (k * NC + i)).re - (a (j * NC + k)).im * (b (k * NC + i)).im),
     s.2 + ((a (j * NC + k)).re * (b (k * NC + i)).im + (a (j * NC + k)).im * (b (k * NC + i)).re)))
    (0, 0)

/-- `trace_abc`, `trace_abc.c:111-158`. -/
noncomputable def trace_abc (NC : ℕ) (a b c : Arr ℂ) : ℂ :=
  if NC = 3 then
    (a 0 * b 0 + a 1 * b 3 + a 2 * b 6) * c 0 + (a 3 * b 0 + a 4 * b 3 + a 5 * b 6) * c 1 +
    (a 6 * b 0 + a 7 * b 3 + a 8 * b 6) * c 2 + (a 0 * b 1 + a 1 * b 4 + a 2 * b 7) * c 3 +
    (a 3 * b 1 + a 4 * b 4 + a 5 * b 7) * c 4 + (a 6 * b 1 + a 7 * b 4 + a 8 * b 7) * c 5 +
    (a 0 * b 2 + a 1 * b 5 + a 2 * b 8) * c 6 + (a 3 * b 2 + a 4 * b 5 + a 5 * b 8) * c 7 +
    (a 6 * b 2 + a 7 * b 5 + a 8 * b 8) * c 8
  else if NC = 2 then
    (a 0 * b 0 + a 1 * b 2) * c 0 + (a 2 * b 0 + a 3 * b 2) * c 1 + (a 0 * b 1 + a 1 * b 3)
    * c 2 + (a 2 * b 1 + a 3 * b 3) * c 3
  else
    let s := forN NC (fun i s => forN NC (fun j (s : ℝ × ℝ) =>
      let t := insum NC a b i j
      (s.1 + (t.1 * (c (j + i * NC)).re - t.2 * (c (j + i * NC)).im),
       s.2 + (t.1 * (c (j + i * NC)).im + t.2 * (c (j + i * NC)).re))) s) (0, 0)
    s.1 + I * s.2

/-- `trace_abc_dag`, `trace_abc.c:161-208`. -/
noncomputable def trace_abc_dag (NC : ℕ) (a b c : Arr ℂ) : ℂ :=
  if NC = 3 then
    (a 0 * b 0 + a 1 * b 3 + a 2 * b 6) * conj (c 0) + (a 3 * b 0 + a 4 * b 3 + a 5 * b 6) *
    conj (c 3) + (a 6 * b 0 + a 7 * b 3 + a 8 * b 6) * conj (c 6) + (a 0 * b 1 + a 1 * b 4 +
    a 2 * b 7) * conj (c 1) + (a 3 * b 1 + a 4 * b 4 + a 5 * b 7) * conj (c 4) + (a 6 * b 1
    + a 7 * b 4 + a 8 * b 7) * conj (c 7) + (a 0 * b 2 + a 1 * b 5 + a 2 * b 8) * conj (c 2)
    + (a 3 * b 2 + a 4 * b 5 + a 5 * b 8) * conj (c 5) + (a 6 * b 2 + a 7 * b 5 + a 8 * b 8)
    * conj (c 8)
  else if NC = 2 then
    (a 0 * b 0 + a 1 * b 2) * conj (c 0) + (a 0 * b 1 + a 1 * b 3) * conj (c 1) + (a 2 * b 0
    + a 3 * b 2) * conj (c 2) + (a 2 * b 1 + a 3 * b 3) * conj (c 3)
  else
    let s := forN NC (fun i s => forN NC (fun j (s : ℝ × ℝ) =>
      let t := insum NC a b i j
      (s.1 + (t.1 * (c (i + j * NC)).re + t.2 * (c (i + j * NC)).im),
       s.2 + (-t.1 * (c (i + j * NC)).im + t.2 * (c (i + j * NC)).re))) s) (0, 0)
    s.1 + I * s.2

/-- `trace_abc_dag_Re`, `trace_abc.c:211-257`. -/
noncomputable def trace_abc_dag_Re (NC : ℕ) (a b c : Arr ℂ) : ℝ :=
  if NC = 3 then
    ((a 0 * b 0 + a 1 * b 3 + a 2 * b 6) * conj (c 0) + (a 0 * b 1 + a 1 * b 4 + a 2 * b 7)
    * conj (c 1) + (a 0 * b 2 + a 1 * b 5 + a 2 * b 8) * conj (c 2) + (a 3 * b 0 + a 4 * b 3
    + a 5 * b 6) * conj (c 3) + (a 3 * b 1 + a 4 * b 4 + a 5 * b 7) * conj (c 4) + (a 3 * b
    2 + a 4 * b 5 + a 5 * b 8) * conj (c 5) + (a 6 * b 0 + a 7 * b 3 + a 8 * b 6) * conj (c
    6) + (a 6 * b 1 + a 7 * b 4 + a 8 * b 7) * conj (c 7) + (a 6 * b 2 + a 7 * b 5 + a 8 * b
    8) * conj (c 8)).re
  else if NC = 2 then
    ((a 0 * b 0 + a 1 * b 2) * conj (c 0) + (a 0 * b 1 + a 1 * b 3) * conj (c 1) + (a 2 * b
    0 + a 3 * b 2) * conj (c 2) + (a 2 * b 1 + a 3 * b 3) * conj (c 3)).re
  else
    forN NC (fun i s => forN NC (fun j (s : ℝ) =>
      let t := insum NC a b i j
      s + (t.1 * (c (i + j * NC)).re + t.2 * (c (i + j * NC)).im)) s) 0

/-- `Re_trace_abc_dag_suNC` for `NC == 3`, `trace_abc.c:34-94`. -/
noncomputable def Re_trace_abc_dag_suNC3 (a b c : Arr ℂ) : ℝ :=
  let Ra0 : ℝ := (a 0).re * (b 0).re - (a 0).im * (b 0).im + (a 1).re * (b 3).re - (a 1).im * (b 3).im + (a 2).re * (b 6).re - (a 2).im * (b 6).im
  let Ia0 : ℝ := (a 0).re * (b 0).im + (a 0).im * (b 0).re + (a 1).re * (b 3).im + (a 1).im * (b 3).re + (a 2).re * (b 6).im + (a 2).im * (b 6).re
  let Ra1 : ℝ := (a 0).re * (b 1).re - (a 0).im * (b 1).im + (a 1).re * (b 4).re - (a 1).im * (b 4).im + (a 2).re * (b 7).re - (a 2).im * (b 7).im
  let Ia1 : ℝ := (a 0).re * (b 1).im + (a 0).im * (b 1).re + (a 1).re * (b 4).im + (a 1).im * (b 4).re + (a 2).re * (b 7).im + (a 2).im * (b 7).re
  let Ra2 : ℝ := (a 0).re * (b 2).re - (a 0).im * (b 2).im + (a 1).re * (b 5).re - (a 1).im * (b 5).im + (a 2).re * (b 8).re - (a 2).im * (b 8).im
  let Ia2 : ℝ := (a 0).re * (b 2).im + (a 0).im * (b 2).re + (a 1).re * (b 5).im + (a 1).im * (b 5).re + (a 2).re * (b 8).im + (a 2).im * (b 8).re
  let Ra3 : ℝ := (a 3).re * (b 0).re - (a 3).im * (b 0).im + (a 4).re * (b 3).re - (a 4).im * (b 3).im + (a 5).re * (b 6).re - (a 5).im * (b 6).im
  let Ia3 : ℝ := (a 3).re * (b 0).im + (a 3).im * (b 0).re + (a 4).re * (b 3).im + (a 4).im * (b 3).re + (a 5).re * (b 6).im + (a 5).im * (b 6).re
  let Ra4 : ℝ := (a 3).re * (b 1).re - (a 3).im * (b 1).im + (a 4).re * (b 4).re - (a 4).im * (b 4).im + (a 5).re * (b 7).re - (a 5).im * (b 7).im
  let Ia4 : ℝ := (a 3).re * (b 1).im + (a 3).im * (b 1).re + (a 4).re * (b 4).im + (a 4).im * (b 4).re + (a 5).re * (b 7).im + (a 5).im * (b 7).re
  let Ra5 : ℝ := (a 3).re * (b 2).re - (a 3).im * (b 2).im + (a 4).re * (b 5).re - (a 4).im * (b 5).im + (a 5).re * (b 8).re - (a 5).im * (b 8).im
  let Ia5 : ℝ := (a 3).re * (b 2).im + (a 3).im * (b 2).re + (a 4).re * (b 5).im + (a 4).im * (b 5).re + (a 5).re * (b 8).im + (a 5).im * (b 8).re
  let Ra6 : ℝ := (Ra1 * Ra5 - Ia1 * Ia5 - Ra2 * Ra4 + Ia2 * Ia4)
  let Ia6 : ℝ := -(Ra1 * Ia5 + Ia1 * Ra5 - Ra2 * Ia4 - Ia2 * Ra4)
  let Ra7 : ℝ := (Ra2 * Ra3 - Ia2 * Ia3 - Ra0 * Ra5 + Ia0 * Ia5)
  let Ia7 : ℝ := -(Ra2 * Ia3 + Ia2 * Ra3 - Ra0 * Ia5 - Ia0 * Ra5)
  let Ra8 : ℝ := (Ra0 * Ra4 - Ia0 * Ia4 - Ra1 * Ra3 + Ia1 * Ia3)
  let Ia8 : ℝ := -(Ra0 * Ia4 + Ia0 * Ra4 - Ra1 * Ia3 - Ia1 * Ra3)
  let sum : ℝ := Ra0 * (c 0).re + Ia0 * (c 0).im
  let sum : ℝ := Ra1 * (c 1).re + Ia1 * (c 1).im + sum
  let sum : ℝ := Ra2 * (c 2).re + Ia2 * (c 2).im + sum
  let sum : ℝ := Ra3 * (c 3).re + Ia3 * (c 3).im + sum
  let sum : ℝ := Ra4 * (c 4).re + Ia4 * (c 4).im + sum
  let sum : ℝ := Ra5 * (c 5).re + Ia5 * (c 5).im + sum
  let sum : ℝ := Ra6 * (c 6).re + Ia6 * (c 6).im + sum
  let sum : ℝ := Ra7 * (c 7).re + Ia7 * (c 7).im + sum
  let sum : ℝ := Ra8 * (c 8).re + Ia8 * (c 8).im + sum
  sum

/-- `Re_trace_abc_dag_suNC`, `trace_abc.c:27-108`. -/
noncomputable def Re_trace_abc_dag_suNC (NC : ℕ) (a b c : Arr ℂ) : ℝ :=
  if NC = 3 then Re_trace_abc_dag_suNC3 a b c
  else if NC = 2 then
    let a0 := a 0 * b 0 + a 1 * b 2
    let a1 := a 0 * b 1 + a 1 * b 3
    let sum := a0.re * (c 0).re + a0.im * (c 0).im
    let sum := sum + (a1.re * (c 1).re + a1.im * (c 1).im)
    let sum := sum - (a1.re * (c 2).re - a1.im * (c 2).im)
    let sum := sum + (a0.re * (c 3).re - a0.im * (c 3).im)
    sum
  else trace_abc_dag_Re NC a b c

end GLU.Mat
