import Verif.Update.Model
import Verif.Mat.Gram
import Verif.Mat.MMul
import Verif.Mat.UNops
import Verif.Utils.SplineModel

/-!
# Trace-maximising projection and the APE link

Model of the portable part of `Matrix_Ops/givens.c` (with `GIVE_PRECOND`, which the file defines, and without `OBC_HACK`)
and of `project_APE` in `Smear/projectors.c` (without `N_APE`).  Arithmetic is that of `ℂ`.  A division by zero is the
outcome `none`, except in a comparison.
-/

namespace GLU.Smear

open Complex GLU.Mat GLU.Update

/-- `rotation1`, `rotation2`, `rotation3` (givens.c:225-362) for three colours, the two by two case of `givens_reunit`
(givens.c:475-491) and `rotation` (givens.c:368-396) for more: the numbers `s0`, `s1`.  The four entries of the block are
read as in the text; the last lines are those of `normalise`, which are the same in SU2_rotate.c:121-128. -/
noncomputable def givensBlock (NC k : ℕ) (U : Arr ℂ) : Option (ℂ × ℂ × ℝ) :=
  if NC = 3 then
    match k with
    | 0 => normalise (U 0) (U 1) (U 3) (U 4)
    | 1 => normalise (U 4) (U 5) (U 7) (U 8)
    | _ => normalise (U 8) (U 6) (U 2) (U 0)
  else if NC = 2 then normalise (U 0) (U 1) (U 2) (U 3)
  else normalise (U (su2_data NC k).idx_a) (U (su2_data NC k).idx_b) (U (su2_data NC k).idx_c) (U (su2_data NC k).idx_d)

/-- The update of `w` in the same functions (`w -> rot . w`). -/
noncomputable def givensRows (NC k : ℕ) (s0 s1 : ℂ) (w : Arr ℂ) : Arr ℂ :=
  if NC = 3 then
    match k with
    | 0 => arr [s0 * w 0 + s1 * w 3, s0 * w 1 + s1 * w 4, s0 * w 2 + s1 * w 5,
        -star s1 * w 0 + star s0 * w 3, -star s1 * w 1 + star s0 * w 4, -star s1 * w 2 + star s0 * w 5, w 6, w 7, w 8]
    | 1 => arr [w 0, w 1, w 2, s0 * w 3 + s1 * w 6, s0 * w 4 + s1 * w 7, s0 * w 5 + s1 * w 8,
        -star s1 * w 3 + star s0 * w 6, -star s1 * w 4 + star s0 * w 7, -star s1 * w 5 + star s0 * w 8]
    | _ => arr [star s0 * w 0 - star s1 * w 6, star s0 * w 1 - star s1 * w 7, star s0 * w 2 - star s1 * w 8,
        w 3, w 4, w 5, s1 * w 0 + s0 * w 6, s1 * w 1 + s0 * w 7, s1 * w 2 + s0 * w 8]
  else if NC = 2 then multab_suNC NC (arr [s0, s1, -star s1, star s0]) w (fun _ => 0)
  else shortened_su2_multiply NC w s0 s1 k

/-- The update of `U` in the same functions (`U -> U . rot^dagger`). -/
noncomputable def givensCols (NC k : ℕ) (s0 s1 : ℂ) (U : Arr ℂ) : Arr ℂ :=
  if NC = 3 then
    match k with
    | 0 => arr [U 0 * star s0 + U 1 * star s1, -U 0 * s1 + U 1 * s0, U 2,
        U 3 * star s0 + U 4 * star s1, -U 3 * s1 + U 4 * s0, U 5,
        U 6 * star s0 + U 7 * star s1, -U 6 * s1 + U 7 * s0, U 8]
    | 1 => arr [U 0, U 1 * star s0 + U 2 * star s1, -U 1 * s1 + U 2 * s0,
        U 3, U 4 * star s0 + U 5 * star s1, -U 4 * s1 + U 5 * s0,
        U 6, U 7 * star s0 + U 8 * star s1, -U 7 * s1 + U 8 * s0]
    | _ => arr [U 0 * s0 - U 2 * s1, U 1, U 0 * star s1 + U 2 * star s0,
        U 3 * s0 - U 5 * s1, U 4, U 3 * star s1 + U 5 * star s0,
        U 6 * s0 - U 8 * s1, U 7, U 6 * star s1 + U 8 * star s0]
  else if NC = 2 then multab_dag NC U (arr [s0, s1, -star s1, star s0]) (fun _ => 0)
  else shortened_su2_multiply_dag NC U s0 s1 k

/-- One rotation of the pair `(U, w)`; `rotation1`, `rotation2`, `rotation3`, `rotation`. -/
noncomputable def givensRotation (NC k : ℕ) (s : Arr ℂ × Arr ℂ) : Option (Arr ℂ × Arr ℂ) :=
  (givensBlock NC k s.1).map fun r => (givensCols NC k r.1 r.2.1 s.1, givensRows NC k r.1 r.2.1 s.2)

/-- The rotations of one iteration: givens.c:467-469 for three colours (there are three subgroups), 475-491 for two (one
subgroup), 498-501 for more. -/
noncomputable def givensSweep (NC : ℕ) (s : Arr ℂ × Arr ℂ) : Option (Arr ℂ × Arr ℂ) :=
  forN (NSU2SUBGROUPS NC) (fun k o => o.bind (givensRotation NC k)) (some s)

/-- The loop givens.c:463-509 with `n` iterations left.  The test divides by `trace_new`; a quotient by zero is an infinity or
not a number, for which the comparison is false, so that this case is written out.  With two colours the loop is left before
the test (givens.c:493). -/
noncomputable def givensLoop (NC : ℕ) : ℕ → ℝ → Arr ℂ × Arr ℂ → Option (Arr ℂ × Arr ℂ)
  | 0, _, s => some s
  | n + 1, trace_old, s =>
    (givensSweep NC s).bind fun s =>
      if NC = 2 then some s else
      let trace_new := speed_trace_Re NC s.1
      if trace_new ≠ 0 ∧ |trace_new - trace_old| / trace_new < Utils.PREC_TOL NC then some s
      else givensLoop NC n trace_new s

/-- `givens_reunit`, givens.c:429-513.  (`array` is the uninitialised temporary of `gram_reunit`.) -/
noncomputable def givens_reunit (NC : ℕ) (U array : Arr ℂ) : Option (Arr ℂ) :=
  (gram_reunit NC U array).bind fun w =>
    let V := multab_dag NC U w U
    (givensLoop NC 75 (speed_trace_Re NC V) (V, w)).map Prod.snd

/-- The sum formed by `project_APE`, projectors.c:58-78: every entry. -/
noncomputable def apeSum (al smear_alpha : ℝ) (link staple : Arr ℂ) : Arr ℂ :=
  fun n => al * link n + smear_alpha * staple n

/-- `project_APE`, projectors.c:50-85. -/
noncomputable def project_APE (NC : ℕ) (staple link : Arr ℂ) (smear_alpha al : ℝ) (array : Arr ℂ) : Option (Arr ℂ) :=
  givens_reunit NC (apeSum al smear_alpha link staple) array

end GLU.Smear
