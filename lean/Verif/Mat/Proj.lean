import Verif.Mat.UNops

/-!
# Projections onto the Lie algebra, `Matrix_Ops/exactQ.c`
-/

namespace GLU.Mat

open Complex

/-- `AntiHermitian_proj` for `NC == 3`, `exactQ.c:88-99`. -/
noncomputable def AntiHermitian_proj3 (U : Arr ℂ) : Arr ℂ :=
  let q1 : ℂ := 0.5 * (U 1 - conj (U 3))
  let q2 : ℂ := 0.5 * (U 2 - conj (U 6))
  let q5 : ℂ := 0.5 * (U 5 - conj (U 7))
  arr [I * (U 0).im, q1, q2, -conj q1, I * (U 4).im, q5, -conj q2, -conj q5, I * (U 8).im]

/-- `AntiHermitian_proj` for `NC == 2`, `exactQ.c:101-106`. -/
noncomputable def AntiHermitian_proj2 (U : Arr ℂ) : Arr ℂ :=
  arr [I * (U 0).im, U 1, -conj (U 1), I * (U 3).im]

/-- `AntiHermitian_proj`, `exactQ.c:83-116`: the preprocessor selects the body from `NC`. -/
noncomputable def AntiHermitian_proj (NC : ℕ) (Q U : Arr ℂ) : Arr ℂ :=
  if NC = 3 then AntiHermitian_proj3 U else if NC = 2 then AntiHermitian_proj2 U else
  fillNN NC (fun i j => (U (j + NC * i) - conj (U (i + NC * j))) * 0.5) Q

/-- `AntiHermitian_proj_short` for `NC == 3`, `exactQ.c:124-131`. -/
noncomputable def AntiHermitian_proj_short3 (U : Arr ℂ) : Arr ℂ :=
  arr [I * ((2 * (U 0).im - (U 4).im - (U 8).im : ℝ) : ℂ) / 3, 0.5 * (U 1 - conj (U 3)), 0.5 * (U 2 - conj (U 6)),
    I * ((2 * (U 4).im - (U 0).im - (U 8).im : ℝ) : ℂ) / 3, 0.5 * (U 5 - conj (U 7))]

/-- `AntiHermitian_proj_short` for `NC == 2`, `exactQ.c:133-135`. -/
noncomputable def AntiHermitian_proj_short2 (U : Arr ℂ) : Arr ℂ := arr [I * (U 0).im, U 1]

/-- `AntiHermitian_proj_short`, `exactQ.c:119-152`. At line 146 the real number `tr` is subtracted from the imaginary
diagonal. -/
noncomputable def AntiHermitian_proj_short (NC : ℕ) (Q U : Arr ℂ) : Arr ℂ :=
  if NC = 3 then AntiHermitian_proj_short3 U else if NC = 2 then AntiHermitian_proj_short2 U else
  let tr : ℂ := (loopSum NC fun i => ((U (i * (NC + 1))).im : ℂ)) / NC
  (forN (NC - 1) (fun i s => forFrom i NC (fun j (s : ℕ × Arr ℂ) =>
    (s.1 + 1, Function.update s.2 s.1 (if i ≠ j then (U (j + NC * i) - conj (U (i + NC * j))) * 0.5
      else I * (U (j + NC * i)).im - tr))) s) (0, Q)).2

/-- `Hermitian_proj` for `NC == 3`, `exactQ.c:362-373`. -/
noncomputable def Hermitian_proj3 (U : Arr ℂ) : Arr ℂ :=
  let q0 : ℂ := ((2 * (U 0).im - (U 4).im - (U 8).im : ℝ) : ℂ) / 3
  let q1 : ℂ := -I * (U 1 - conj (U 3)) / 2
  let q2 : ℂ := -I * (U 2 - conj (U 6)) / 2
  let q4 : ℂ := ((2 * (U 4).im - (U 0).im - (U 8).im : ℝ) : ℂ) / 3
  let q5 : ℂ := -I * (U 5 - conj (U 7)) / 2
  arr [q0, q1, q2, conj q1, q4, q5, conj q2, conj q5, ((-q0.re - q4.re : ℝ) : ℂ)]

/-- `Hermitian_proj` for `NC == 2`, `exactQ.c:375-378`. -/
noncomputable def Hermitian_proj2 (U : Arr ℂ) : Arr ℂ :=
  let q0 : ℂ := ((U 0).im : ℂ)
  let q1 : ℂ := -I * U 1
  arr [q0, q1, conj q1, -q0]

/-- First loop of `Hermitian_proj` for other `NC`, `exactQ.c:380-389`: the array and `tr`. -/
noncomputable def Hermitian_projN1 (NC : ℕ) (Q U : Arr ℂ) : Arr ℂ × ℝ :=
  forN NC (fun i (s : Arr ℂ × ℝ) =>
    let Q := Function.update s.1 (i * (NC + 1)) ((U (i * (NC + 1))).im : ℂ)
    let tr := s.2 + (Q (i * (NC + 1))).re
    let Q := forFrom (i + 1) NC (fun j Q =>
      let Q := Function.update Q (j + i * NC) (-I * (U (j + i * NC) - conj (U (i + j * NC))) / 2)
      Function.update Q (i + j * NC) (conj (Q (j + i * NC)))) Q
    (Q, tr)) (Q, 0)

/-- `Hermitian_proj`, `exactQ.c:357-396`. -/
noncomputable def Hermitian_proj (NC : ℕ) (Q U : Arr ℂ) : Arr ℂ :=
  if NC = 3 then Hermitian_proj3 U else if NC = 2 then Hermitian_proj2 U else
  let s := Hermitian_projN1 NC Q U
  let tr := s.2 / NC
  forN NC (fun i Q => Function.update Q (i * (NC + 1)) (Q (i * (NC + 1)) - (tr : ℂ))) s.1

/-- `Hermitian_proj_short` for `NC == 3`, `exactQ.c:404-406` and `423-427` (the portable branch). -/
noncomputable def Hermitian_proj_short3 (U : Arr ℂ) : Arr ℂ :=
  arr [((2 * (U 0).im - (U 4).im - (U 8).im : ℝ) : ℂ) / 3, I * 0.5 * (conj (U 3) - U 1), I * 0.5 * (conj (U 6) - U 2),
    ((2 * (U 4).im - (U 0).im - (U 8).im : ℝ) : ℂ) / 3, I * 0.5 * (conj (U 7) - U 5)]

/-- `Hermitian_proj_short` for `NC == 2`, `exactQ.c:430-431`. -/
noncomputable def Hermitian_proj_short2 (U : Arr ℂ) : Arr ℂ := arr [((U 0).im : ℂ), -I * U 1]

/-- `Hermitian_proj_short`, `exactQ.c:399-452`. -/
noncomputable def Hermitian_proj_short (NC : ℕ) (Q U : Arr ℂ) : Arr ℂ :=
  if NC = 3 then Hermitian_proj_short3 U else if NC = 2 then Hermitian_proj_short2 U else
  let tr : ℝ := (loopSum NC fun i => (U (i * (NC + 1))).im) / NC
  (forN (NC - 1) (fun i (s : ℕ × Arr ℂ) =>
    let s := (s.1 + 1, Function.update s.2 s.1 (((U (i * (NC + 1))).im - tr : ℝ) : ℂ))
    forFrom (i + 1) NC (fun j (s : ℕ × Arr ℂ) =>
      (s.1 + 1, Function.update s.2 s.1 (-I * (U (j + NC * i) - conj (U (i + NC * j))) / 2))) s) (0, Q)).2

/-- `trf_AntiHermitian_proj` for `NC == 3`, `exactQ.c:459-470`. -/
noncomputable def trf_AntiHermitian_proj3 (U : Arr ℂ) : Arr ℂ :=
  let q0 : ℂ := I * ((2 * (U 0).im - (U 4).im - (U 8).im : ℝ) : ℂ) / 3
  let q1 : ℂ := 0.5 * (U 1 - conj (U 3))
  let q2 : ℂ := 0.5 * (U 2 - conj (U 6))
  let q4 : ℂ := I * ((2 * (U 4).im - (U 0).im - (U 8).im : ℝ) : ℂ) / 3
  let q5 : ℂ := 0.5 * (U 5 - conj (U 7))
  arr [q0, q1, q2, -conj q1, q4, q5, -conj q2, -conj q5, -q0 - q4]

/-- `trf_AntiHermitian_proj`, `exactQ.c:454-491`; the branch for two colours, lines 472-477, is that of
`AntiHermitian_proj`. -/
noncomputable def trf_AntiHermitian_proj (NC : ℕ) (Q U : Arr ℂ) : Arr ℂ :=
  if NC = 3 then trf_AntiHermitian_proj3 U else if NC = 2 then AntiHermitian_proj2 U else
  let Q := fillNN NC (fun i j => (U (j + NC * i) - conj (U (i + NC * j))) * 0.5) Q
  let tr := trace NC Q / NC
  forN NC (fun i Q => Function.update Q (i * (NC + 1)) (Q (i * (NC + 1)) - tr)) Q

end GLU.Mat
