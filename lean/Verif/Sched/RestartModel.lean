import Mathlib.Data.Real.Basic
import Mathlib.Data.Fintype.Basic
import Mathlib.Tactic.Common

/-!
# The decision to start again, as each thread takes it

`steep_fix` (`Gfix/CFACG.c:459-529`) is called by every thread of a team. The method (`f`), the test of the solution
and the random transformation contain work-sharing loops, which all threads of the team have to come to in the same
order. By C125 all threads get the same `tr` and the same number of iterations from the method. The test of the
solution gives every thread its own verdict. The model follows one thread through the function and lists the shared
constructs it comes to; what the arithmetic does is left open: any `tr`, any number of iterations, any verdict on any
site in any pass.
-/

namespace GLU.Sched.Restart

/-- One pass through `top`, `CFACG.c:482-493`: `tr` (`none` for not a number and for infinity), the iterations, and
the sites `adequate_solution` finds wrong (`CFACG.c:452`). -/
structure Pass where
  tr : Option ℝ
  iters : ℕ
  bad : ℕ → Bool

/-- The shared constructs of `steep_fix` in the order a thread comes to them: the method (`CFACG.c:484`), the loop over
sites of the test (`CFACG.c:441`), the loop over sites of the random transformation (`CFACG.c:514`); and that it leaves,
with `tot_iters` and `control` (`CFACG.c:526-528`). -/
inductive Event
  | method
  | test
  | random
  | leaves (tot_iters control : ℕ)
  deriving DecidableEq

/-- `adequate_solution`, `CFACG.c:432-457`, the value returned to a thread that is given the sites `own` by `omp for`:
`failure` is a variable of the thread and is changed only by its own sites. -/
def adequate_solution (V : ℕ) (own bad : ℕ → Bool) : Bool :=
  (List.range V).foldl (fun failure i => if own i && bad i then false else failure) true

/-- `steep_fix`, `CFACG.c:459-529`, as one thread goes through it, for at most the given number of passes through `top`;
`W p` is pass number `p`. -/
noncomputable def steep_fix (V : ℕ) (own : ℕ → Bool) (W : ℕ → Pass) (acc : ℝ) (max_iters : ℕ) :
    ℕ → ℕ → ℕ → ℕ → Bool → List Event
  | 0, _, _, _, _ => []
  | n + 1, p, control, tot, trans_flag =>
    open Classical in
    let conv : Bool := match (W p).tr with
      | some x => decide (x < acc)
      | none => false
    let trans_flag := trans_flag || (conv && !adequate_solution V own (W p).bad)
    let near : Bool := match (W p).tr with
      | some x => decide (x < 1e4 * acc)
      | none => false
    let far : Bool := match (W p).tr with
      | some x => decide (acc < x)
      | none => true
    .method :: ((if conv then [.test] else []) ++
      if max_iters ≤ (W p).iters ∧ near = true then
        steep_fix V own W acc max_iters n (p + 1) control (tot + (W p).iters) trans_flag
      else
        let trans_flag := trans_flag || (decide (max_iters ≤ (W p).iters) && far)
        if control < 8 ∧ trans_flag = true then
          .random :: steep_fix V own W acc max_iters n (p + 1) (control + 1) (tot + (W p).iters) false
        else [.leaves (tot + (W p).iters) control])

end GLU.Sched.Restart
