import Verif.Mat.GenProps
import Verif.Mat.UNopsProps

/-!
# Structure constants for more than three colours

Model of the parts of `Matrix_Ops/lie_mats.c` for more than three colours, with the generators of `init_generators`.
-/

namespace GLU.Mat

open Complex Matrix

/-- `compute_f_and_d`, lie_mats.c:48-62; storing a complex number in a `GLU_real` keeps the real part. -/
noncomputable def compute_f_and_d (NC : ℕ) (lambdaA lambdaB lambdaC : Arr ℂ) : ℝ × ℝ :=
  let tr1 := trace_abc NC lambdaA lambdaB lambdaC
  let tr2 := trace_abc NC lambdaB lambdaA lambdaC
  ((-2 * I * (tr1 - tr2)).re, (2 * (tr1 + tr2)).re)

/-- The loops of `actually_compute_fs_and_ds`, lie_mats.c:218-236, for the table with the values `v a b c`; the first pass,
lines 206-214, only counts what the second stores. -/
noncomputable def tableN (NC : ℕ) (v : ℕ → ℕ → ℕ → ℝ) : List Struc :=
  forN (NC * NC - 1) (fun a t => forN (NC * NC - 1) (fun b t => forN (NC * NC - 1) (fun c t =>
    if PREC_TOL NC < |v a b c| then t ++ [⟨v a b c, a, b, c⟩] else t) t) t) []

/-- `f` for more than three colours, lie_mats.c:228-232. -/
noncomputable def fTableN (NC : ℕ) : List Struc := tableN NC fun a b c =>
  (compute_f_and_d NC (init_generators NC a) (init_generators NC b) (init_generators NC c)).1

/-- `d` for more than three colours, lie_mats.c:223-227. -/
noncomputable def dTableN (NC : ℕ) : List Struc := tableN NC fun a b c =>
  (compute_f_and_d NC (init_generators NC a) (init_generators NC b) (init_generators NC c)).2

/-- `lie_data` for more than three colours, lie_mats.c:261-267. -/
noncomputable def lie_dataN (NC : ℕ) (A : Arr ℂ) : Arr ℂ := fun i =>
  if i < NC * NC - 1 then 2 * trace_ab NC A (init_generators NC i) else 0

/-- `ifabc_ABC` for more than three colours, lie_mats.c:350-366. -/
noncomputable def ifabc_ABCN (NC : ℕ) (A B C : Arr ℂ) : ℂ :=
  fLoop (fTableN NC) (lie_dataN NC A) (lie_dataN NC B) (lie_dataN NC C) 0

/-- `dabc_ABC` for more than three colours, lie_mats.c:312-328. -/
noncomputable def dabc_ABCN (NC : ℕ) (A B C : Arr ℂ) : ℂ :=
  dLoop (dTableN NC) (lie_dataN NC A) (lie_dataN NC B) (lie_dataN NC C) 0

/-- `ifabc_dabc_ABC` for more than three colours, lie_mats.c:369-390. -/
noncomputable def ifabc_dabc_ABCN (NC : ℕ) (A B C : Arr ℂ) : ℂ :=
  fLoop (fTableN NC) (lie_dataN NC A) (lie_dataN NC B) (lie_dataN NC C)
    (dLoop (dTableN NC) (lie_dataN NC A) (lie_dataN NC B) (lie_dataN NC C) 0)

end GLU.Mat
