import Verif.Mat.Nape

/-!
# The logarithm for more than three colours

`denman_rootY`, `precompute_taylor_factors` and `brute_force_log` of `src/Matrix_Ops/taylor_logs.c`. The function
`exact_log_slow`, `exactQ.c:235`, calls `brute_force_log( Q , U , NC )` for more than three colours and does not look
at its result.

Arithmetic is that of `ℂ`. Numbers that are not finite and variables that were never written are `none`.
-/

namespace GLU.Mat

open Complex
open scoped ComplexConjugate

/-- The array given to `inverse`, `invert.c:215-255`, after the call: a singular matrix (`invert.c:180-185`) leaves it
as it was, `old`. `none` is an array that was not written yet, or one with numbers that are not finite. -/
noncomputable def inverseInto (NC : ℕ) (old : Option (Arr ℂ)) (M : Arr ℂ) : Option (Arr ℂ) :=
  match inverse NC M with
  | none => old
  | some v => if ∀ n < NC * NC, (v n).isSome then some fun n => (v n).getD 0 else none

/-- `Y`, `M` and `INVM` of `denman_rootY`. -/
structure RootState where
  Y : Arr ℂ
  M : Arr ℂ
  INVM : Option (Arr ℂ)

/-- One pass of the loop of `denman_rootY`, `taylor_logs.c:63-79`. The array `INVM` stays from one pass to the next, and
the result of `inverse` is not looked at. -/
noncomputable def rootY_step (NC : ℕ) (s : RootState) : Option RootState :=
  (inverseInto NC s.INVM s.M).map fun INVM =>
    let INVM := addOne NC INVM
    let M := addOne NC s.M
    let Y := multab_atomic_right NC s.Y INVM
    let Y : Arr ℂ := fun i => Y i * (1 / 2)
    let M : Arr ℂ := fun i => 1 / 4 * (M i + INVM i)
    ⟨Y, M, some INVM⟩

/-- The loop `taylor_logs.c:61-95` with `left` passes allowed, `iters = 25 - left`; `tol` is above the limit on
entry. The result is the return value (`true` for `GLU_SUCCESS`) and `Y`; pass number `iters == 24` returns a failure
whatever its `tol`. -/
noncomputable def rootY_loop (NC : ℕ) : (left : ℕ) → RootState → Option (Bool × Arr ℂ)
  | 0, s => some (true, s.Y)
  | left + 1, s =>
    (rootY_step NC s).bind fun s =>
      if left = 0 then some (false, s.Y)
      else if diagTol NC s.M > PREC_TOL NC then rootY_loop NC left s
      else some (true, s.Y)

/-- `denman_rootY`, `taylor_logs.c:49-98`. -/
noncomputable def denman_rootY (NC : ℕ) (Y : Arr ℂ) : Option (Bool × Arr ℂ) :=
  rootY_loop NC 25 ⟨Y, Y, none⟩

/-- `NMAX`, `taylor_logs.c:35`. -/
def NMAX : ℕ := 25

/-- `fact[ n ]` as set by `precompute_taylor_factors`, `taylor_logs.c:156-170`; `none` is a read outside the `NMAX`
numbers allocated. The entry `n = 0`, where the unsigned `2*n-1` wraps, is never read. -/
noncomputable def fact (n : ℕ) : Option ℝ :=
  if n < NMAX then some (1 / (2 * (n : ℝ) - 1)) else none

/-- The roots, `taylor_logs.c:343-362`. -/
noncomputable def rootsLoop (NC : ℕ) : ℕ → Arr ℂ → Option (Bool × Arr ℂ)
  | 0, y => some (true, y)
  | n + 1, y => (denman_rootY NC y).bind fun r => if r.1 then rootsLoop NC n r.2 else some r

/-- `err` of `taylor_logs.c:392-403` for `fact[ n + 1 ] = f`. -/
noncomputable def termErr (NC : ℕ) (SCALING : ℝ) (y yy : Arr ℂ) (n : ℕ) (f : ℝ) : ℝ :=
  let pert := matrix_power NC (fun _ => 0) yy (n + 1)
  let pert : Arr ℂ := fun j => pert j * f
  let pert := multab_atomic_left NC pert y
  forN (NC * NC) (fun j err => err + ‖pert j‖) 0 * SCALING

/-- The loop `taylor_logs.c:390-412` with `left` passes until `n > NMAX`: `none` is a read outside `fact`, `some none`
the return of `GLU_FAILURE`, `some n` the end of the loop. -/
noncomputable def orderLoop (NC : ℕ) (SCALING : ℝ) (y yy : Arr ℂ) : (left n : ℕ) → Option (Option ℕ)
  | 0, n => some (some n)
  | left + 1, n =>
    (fact (n + 1)).bind fun f =>
      let err := termErr NC SCALING y yy n f
      if n ≥ NMAX then some none
      else if err < 1 / 1000 * PREC_TOL NC then some (some n)
      else orderLoop NC SCALING y yy left (n + 1)

/-- `Q[ j*(NC+1) ] += c` for all `j`, `taylor_logs.c:425-427` and `:432-434`. -/
noncomputable def addDiag (NC : ℕ) (c : ℂ) (Q : Arr ℂ) : Arr ℂ :=
  forN NC (fun j Q => Function.update Q (j * (NC + 1)) (Q (j * (NC + 1)) + c)) Q

/-- The loop `taylor_logs.c:423-430`, from `i` down to 2. -/
noncomputable def horner (NC : ℕ) (yy : Arr ℂ) : (i : ℕ) → Arr ℂ → Option (Arr ℂ)
  | 0, Q => some Q
  | 1, Q => some Q
  | i + 2, Q => (fact (i + 2)).bind fun f => horner NC yy (i + 1) (multab_atomic_left NC (addDiag NC f Q) yy)

/-- The loops `taylor_logs.c:453-458`. -/
noncomputable def makeHermitian (NC : ℕ) (Q : Arr ℂ) : Arr ℂ :=
  forN (NC - 1) (fun i Q => forFrom (i + 1) NC (fun j Q =>
    let Q := Function.update Q (j + i * NC) (1 / 2 * (Q (j + i * NC) + conj (Q (i + j * NC))))
    Function.update Q (i + j * NC) (conj (Q (j + i * NC)))) Q) Q

/-- What a call of `brute_force_log` may do. -/
inductive LogRun where
  /-- memory outside an array or never written is read, or numbers are not finite -/
  | undefined
  /-- `GLU_FAILURE`, nothing but `inverse` has written to `Q` -/
  | failure
  /-- `GLU_SUCCESS` -/
  | success (Q : Arr ℂ)

/-- The end of `brute_force_log`, `taylor_logs.c:439-459`. -/
noncomputable def logFinish (NC : ℕ) (SCALING : ℝ) (Q : Arr ℂ) : Arr ℂ :=
  let tr := trace NC Q / NC
  let f : ℂ := -I * SCALING
  let Q : Arr ℂ := fun i => (if i % (NC + 1) = 0 then Q i - tr else Q i) * f
  makeHermitian NC Q

/-- `taylor_logs.c:366-459`, after the roots have been taken. -/
noncomputable def logSeries (NC : ℕ) (SCALING : ℝ) (Q y : Arr ℂ) : LogRun :=
  let yy : Arr ℂ := fun i => if i % (NC + 1) = 0 then y i - 1 else y i
  let y : Arr ℂ := fun i => if i % (NC + 1) = 0 then y i + 1 else y i
  match inverseInto NC (some Q) y with
  | none => .undefined
  | some Q =>
    let y := multab NC yy Q y
    let yy := multab NC y y yy
    let y : Arr ℂ := fun i => y i * 2
    match orderLoop NC SCALING y yy (NMAX + 1 - 4) 4 with
    | none => .undefined
    | some none => .failure
    | some (some n) =>
      match (fact (n + 1)).bind fun f => horner NC yy n fun j => yy j * f with
      | none => .undefined
      | some Q =>
        let Q := addDiag NC 1 Q
        let Q := multab_atomic_left NC Q y
        .success (logFinish NC SCALING Q)

/-- The number of roots, `taylor_logs.c:329-345`. -/
def rootCount (NC NROOTS : ℕ) : ℕ := if NC < 10 then NROOTS else 10

/-- `brute_force_log`, `taylor_logs.c:321-460`, `CHECK_ROOTS` not defined. `Q` is the array of the caller. -/
noncomputable def brute_force_log (NC : ℕ) (Q U : Arr ℂ) (NROOTS : ℕ) : LogRun :=
  let SCALING : ℝ := 2 ^ rootCount NC NROOTS
  match rootsLoop NC (rootCount NC NROOTS) U with
  | none => .undefined
  | some (false, _) => .failure
  | some (true, y) => logSeries NC SCALING Q y

end GLU.Mat
