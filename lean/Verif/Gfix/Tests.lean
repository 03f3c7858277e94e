import Verif.Gfix.Model
import Verif.Mat.Proj
import Verif.Mat.UNops

/-!
# The numbers printed about a gauge fixed field

`src/Gfix/gftests.c`: `const_time` and the maximum that `theta_test_lin` and `theta_test_log` hand back.  They
are printed by `gf_check`, `src/Wrappers/OBS_wrap.c:91-123`, and after a gauge fixing.
-/

namespace GLU.Gfix

open Complex GLU.Mat GLU.Geom GLU.Field

/-! ## Temporal constance -/

/-- The comparison of two sums, `gftests.c:75-119`.  For two colours the difference of the diagonal is that of a number with
itself (lines 98 and 102). -/
noncomputable def slice_difference (NC : ℕ) (scratch sum1 sum2 : Arr ℂ) : ℝ :=
  if NC = 3 then
    let re0 := (sum1 0).re - (sum2 0).re
    let re4 := (sum1 4).re - (sum2 4).re
    0 + |re0| + ‖sum1 1 - sum2 1‖ + ‖sum1 2 - sum2 2‖ + |re4| + ‖sum1 5 - sum2 5‖
  else if NC = 2 then
    let re0 := (sum1 0).re - (sum1 0).re
    0 + |re0| + ‖sum1 1 - sum2 1‖
  else
    let dif := b_min_c NC scratch sum1 sum2
    forN (NC * NC) (fun i av => av + ‖dif i‖) 0

/-- The sum over the slice that starts at the site `first`, `gftests.c:39-53` and `62-73`; `P` is the potential of the temporal
link at a site, `Hermitian_proj` or `exact_log_slow` of it. -/
noncomputable def slice_sum (NC : ℕ) (L : Latt) (scratch : Arr ℂ) (P : ℕ → Arr ℂ) (first : ℕ) : Arr ℂ :=
  forN (lcu L) (fun i s => a_plus_b NC s (P (first + i))) (zero_mat NC scratch)

/-- `const_time`, `gftests.c:34-129`, for one of the two potentials.  With a single time slice the code multiplies the empty sum by
`1.0/0`, which is not a number: `none`. -/
noncomputable def const_time (NC : ℕ) (L : Latt) (scratch : Arr ℂ) (P : ℕ → Arr ℂ) : Option ℝ :=
  let sum1 := slice_sum NC L scratch P 0
  let average := forFrom 1 (L.dims (L.ND - 1)) (fun t (average : ℝ) =>
    average + slice_difference NC scratch sum1 (slice_sum NC L scratch P (lcu L * t))) 0
  (fdiv 1 ((NC * NC * (L.dims (L.ND - 1) - 1) : ℕ) : ℝ)).map fun check => average * check

/-- The number `const_lin`, `gftests.c:44` and `68`: the potential is the Hermitian projection of the link. -/
noncomputable def const_lin (NC : ℕ) (L : Latt) (scratch : Arr ℂ) (lat : Gauge) : Option ℝ :=
  const_time NC L scratch fun i => Hermitian_proj NC scratch (lat (i, L.ND - 1))

/-! ## The largest local violation -/

/-- The threads in the loop of `theta_test_lin`, `gftests.c:225-245`, or `theta_test_log`, `gftests.c:264-288`, as far as `max`
is concerned.  `todo th` are the values `res` of the iterations thread `th` has not begun, in its order; `pass th` is the value of
an iteration that has passed the test `res > *max` and not yet stored.  Reading and writing `*max` are taken to be atomic (the
read of line 236 is not protected by the lock, which makes the program one with a data race in the sense of the C standard). -/
structure MaxState where
  max : ℝ
  todo : ℕ → List ℝ
  pass : ℕ → Option ℝ

/-- One step of a thread, `gftests.c:236-241` and `278-283`: the test outside the lock, or the assignment inside it. -/
inductive MaxStep : MaxState → MaxState → Prop
  | skip {s : MaxState} {th : ℕ} {res : ℝ} {l : List ℝ} (hp : s.pass th = none) (ht : s.todo th = res :: l)
      (h : ¬ res > s.max) : MaxStep s { s with todo := Function.update s.todo th l }
  | test {s : MaxState} {th : ℕ} {res : ℝ} {l : List ℝ} (hp : s.pass th = none) (ht : s.todo th = res :: l)
      (h : res > s.max) :
      MaxStep s { s with todo := Function.update s.todo th l, pass := Function.update s.pass th (some res) }
  | store {s : MaxState} {th : ℕ} {res : ℝ} (hp : s.pass th = some res) :
      MaxStep s { s with max := res, pass := Function.update s.pass th none }

/-- The start, `gftests.c:221` and `260`: `work th` are the values of the iterations given to thread `th`. -/
def MaxState.start (work : ℕ → List ℝ) : MaxState := ⟨0, work, fun _ => none⟩

/-- The states a run of the loop can reach. -/
inductive MaxReach (work : ℕ → List ℝ) : MaxState → Prop
  | start : MaxReach work (.start work)
  | step {s s' : MaxState} : MaxReach work s → MaxStep s s' → MaxReach work s'

/-- The end of the loop: nothing left to do. -/
def MaxState.done (s : MaxState) : Prop := ∀ th, s.todo th = [] ∧ s.pass th = none

end GLU.Gfix
