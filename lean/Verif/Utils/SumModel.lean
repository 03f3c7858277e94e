import Verif.Base.Loop
import Mathlib.Data.Real.Basic
import Mathlib.Data.Nat.Log

/-!
# Sums and averages

`src/Utils/GLU_sums.c`. Doubles are idealised as reals, so the claims are about which elements are
combined and how, not about rounding.
-/

namespace GLU.Utils

/-- `a[ i ]` for an array of known length; outside it is undefined behaviour, `none`. -/
def cell (a : List ℝ) (i : ℕ) : Option ℝ := a[i]?

/-- `hi - lo` in `size_t`. -/
def sizeSub (hi lo : ℕ) : ℕ := (hi + 2 ^ 64 - lo) % 2 ^ 64

/-- `dandc_sum`, `GLU_sums.c:30-38`. `stack` is the number of nested calls there is room for; running
out of it, like reading outside of the array, is undefined behaviour, `none`. The sum `hi+lo` is not
reduced to 64 bits. -/
def dandc_sum (a : List ℝ) : (stack lo hi : ℕ) → Option ℝ
  | 0, _, _ => none
  | stack + 1, lo, hi =>
    if sizeSub hi lo < 2 then cell a lo
    else do
      let l ← dandc_sum a stack lo ((hi + lo) / 2)
      let r ← dandc_sum a stack ((hi + lo) / 2) hi
      return l + r

/-- `par_danc_sum`, `GLU_sums.c:88-108`, with `Nth` threads. The reduction adds the parts of the threads,
in an order that does not matter for reals. -/
def par_danc_sum (a : List ℝ) (stack Nth : ℕ) : Option ℝ :=
  let N := a.length
  let split := (N + Nth - 1) / Nth
  forN Nth (fun i sum => do
    let s ← sum
    let part ← dandc_sum a stack (i * split) (if (i + 1) * split > N then N else (i + 1) * split)
    return s + part) (some 0)

/-- `kahan_summation`, `GLU_sums.c:41-55`: the pair is `( sum , c )`. -/
noncomputable def kahan_summation (a : List ℝ) : ℝ :=
  (a.foldl (fun (s : ℝ × ℝ) v =>
    let y := v - s.2
    let t := s.1 + y
    (t, (t - s.1) - y)) (0, 0)).1

/-- The loop of `knuth_average`, `GLU_sums.c:64-66`, from index `i` on. The divisor is never zero. -/
noncomputable def averageFrom : ℕ → List ℝ → ℝ → ℝ
  | _, [], ave => ave
  | i, v :: l, ave => averageFrom (i + 1) l (ave + (v - ave) / (1 + i))

/-- `knuth_average`, `GLU_sums.c:58-68`. -/
noncomputable def knuth_average (a : List ℝ) : ℝ := averageFrom 0 a 0

/-- The loop of `knuth_average_err`, `GLU_sums.c:79-83`: the pair is `( ave , err )`. -/
noncomputable def errFrom : ℕ → List ℝ → ℝ × ℝ → ℝ × ℝ
  | _, [], s => s
  | i, v :: l, s =>
    let delta := v - s.1
    let ave := s.1 + delta / (i + 1)
    errFrom (i + 1) l (ave, s.2 + delta * (v - ave))

/-- `knuth_average_err`, `GLU_sums.c:71-86`: the average and the variance. The last division is by the
`size_t` number `N - 1`; zero over zero is `none`. -/
noncomputable def knuth_average_err (a : List ℝ) : ℝ × Option ℝ :=
  let s := errFrom 0 a (0, 0)
  (s.1, if sizeSub a.length 1 = 0 then none else some (s.2 / (sizeSub a.length 1 : ℕ)))

end GLU.Utils
