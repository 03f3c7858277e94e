import Verif.Rng.StreamProps
import Mathlib.Analysis.SpecialFunctions.Log.Basic
import Mathlib.Analysis.Complex.Norm
import Mathlib.Analysis.SpecialFunctions.Trigonometric.Basic

/-!
# Gaussian random numbers

`par_polar` and `par_polar_box`, `src/Utils/par_rng.c:170-187`. C72.
-/

namespace GLU.Rng

open GLU.IO

/-- `par_polar`, `par_rng.c:170-175`, for the two uniform numbers drawn. The logarithm of zero (minus
infinity in C, the product then infinite or not a number) is `none`. -/
noncomputable def par_polar (u v : ℝ) : Option ℝ :=
  if u = 0 then none else some (Real.sqrt (-2 * Real.log u) * Real.cos (2 * Real.pi * v))

/-- `par_polar_box`, `par_rng.c:178-187`, on the pairs of uniform numbers drawn one after another:
the result, or `none` when the pairs are used up; the inner `none` is not a number, from
`log( 0 ) / 0`. -/
noncomputable def par_polar_box : List (ℝ × ℝ) → Option (Option ℂ)
  | [] => none
  | (x, y) :: more =>
    let u := 2 * x - 1
    let v := 2 * y - 1
    let s := u * u + v * v
    if s < 1 then
      some (if s = 0 then none else some (Real.sqrt (-Real.log s / s) * (u + Complex.I * v)))
    else par_polar_box more

/-- The pair is used by the box method. -/
def Accepted (p : ℝ × ℝ) : Prop := (2 * p.1 - 1) ^ 2 + (2 * p.2 - 1) ^ 2 < 1

/-- **C72.** The box method uses the first pair of uniform numbers inside the unit circle; unless that is the
centre, the number returned is finite and its modulus is the square root of `-log` of the squared
radius. -/
theorem C72_box_partial (l more : List (ℝ × ℝ)) (p : ℝ × ℝ) (hl : ∀ q ∈ l, ¬ Accepted q)
    (hp : Accepted p) (hc : p ≠ (1 / 2, 1 / 2)) :
    ∃ z : ℂ, par_polar_box (l ++ p :: more) = some (some z) ∧
      ‖z‖ ^ 2 = -Real.log ((2 * p.1 - 1) ^ 2 + (2 * p.2 - 1) ^ 2) := by
  induction l with
  | nil =>
    obtain ⟨x, y⟩ := p
    simp only [Accepted] at hp
    set s := (2 * x - 1) ^ 2 + (2 * y - 1) ^ 2 with hs
    have hs' : (2 * x - 1) * (2 * x - 1) + (2 * y - 1) * (2 * y - 1) = s := by rw [hs]; ring
    have h0 : s ≠ 0 := by
      intro h0
      have h1 : (2 * x - 1) ^ 2 = 0 := by nlinarith [sq_nonneg (2 * x - 1), sq_nonneg (2 * y - 1)]
      have h2 : (2 * y - 1) ^ 2 = 0 := by nlinarith [sq_nonneg (2 * x - 1), sq_nonneg (2 * y - 1)]
      have h1 := pow_eq_zero_iff (two_ne_zero) |>.1 h1
      have h2 := pow_eq_zero_iff (two_ne_zero) |>.1 h2
      exact hc (Prod.ext (by simp only; linarith) (by simp only; linarith))
    have hpos : 0 < s := lt_of_le_of_ne (by positivity) (Ne.symm h0)
    have hlog : Real.log s < 0 := Real.log_neg hpos hp
    simp only [List.nil_append, par_polar_box, hs', if_pos hp, if_neg h0]
    refine ⟨_, rfl, ?_⟩
    rw [norm_mul, mul_pow, Complex.norm_real, Real.norm_eq_abs, sq_abs, Real.sq_sqrt
      (div_nonneg (by linarith) hpos.le)]
    have hn : ‖(((2 * x - 1 : ℝ) : ℂ) + Complex.I * ((2 * y - 1 : ℝ) : ℂ))‖ ^ 2 = s := by
      rw [← Complex.normSq_eq_norm_sq, mul_comm Complex.I, Complex.normSq_add_mul_I]
    rw [hn]
    field_simp
  | cons q l ih =>
    obtain ⟨x, y⟩ := q
    have hq : ¬ ((2 * x - 1) * (2 * x - 1) + (2 * y - 1) * (2 * y - 1) < 1) := by
      have := hl (x, y) (by simp)
      simp only [Accepted] at this
      intro h
      exact this (by nlinarith)
    obtain ⟨z, hz, hz'⟩ := ih fun q hq => hl q (by simp [hq])
    refine ⟨z, ?_, hz'⟩
    rw [List.cons_append, par_polar_box]
    simp only [if_neg hq]
    exact hz

/-- **C72 fails.** When both uniform numbers are one half the result is not a number; and the simple
method is not a number when the first uniform number is zero. Both values are produced by the
32-bit generators. -/
theorem C72_fails (more : List (ℝ × ℝ)) (v : ℝ) :
    (par_polar_box ((((dbl32 0x80000000#32 : ℚ) : ℝ), ((dbl32 0x80000000#32 : ℚ) : ℝ)) :: more) = some none) ∧
    par_polar ((dbl32 0#32 : ℚ) : ℝ) v = none := by
  have h1 : dbl32 0x80000000#32 = 1 / 2 := by
    rw [dbl32, show toDouble (0x80000000#32).toNat = 2 ^ 31 by decide]
    norm_num
  have h2 : dbl32 0#32 = 0 := by
    rw [dbl32, show toDouble (0#32).toNat = 0 by decide]
    norm_num
  constructor
  · rw [h1, par_polar_box]
    norm_num
  · rw [h2, par_polar]
    norm_num

/-- The generators do produce these values: two states of the default generator whose next numbers
are zero and one half. -/
theorem C72_reachable : ∃ s s' : Thread W32, s.table.length = 4096 ∧ s'.table.length = 4096 ∧
    (par_MWC_4096 s).map (·.1) = some 0#32 ∧ (par_MWC_4096 s').map (·.1) = some 0x80000000#32 := by
  refine ⟨⟨0#32 :: List.replicate 4095 0, 0, 0xfffffffe#32⟩,
    ⟨0#32 :: List.replicate 4095 0, 0, 0x7ffffffe#32⟩, ?_, ?_, ?_, ?_⟩
  · rw [List.length_cons, List.length_replicate]
  · rw [List.length_cons, List.length_replicate]
  · simp only [par_MWC_4096, show ((4095#32 + 1#32) &&& 4095#32).toNat = 0 by decide,
      List.getElem?_cons_zero, Option.bind_eq_bind, Option.bind_some, Option.pure_def, Option.map_some]
    decide
  · simp only [par_MWC_4096, show ((4095#32 + 1#32) &&& 4095#32).toNat = 0 by decide,
      List.getElem?_cons_zero, Option.bind_eq_bind, Option.bind_some, Option.pure_def, Option.map_some]
    decide

end GLU.Rng
