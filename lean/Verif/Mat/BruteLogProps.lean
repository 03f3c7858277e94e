import Verif.Mat.BruteLogLemmas
import Verif.Mat.PackProps

/-!
# The logarithm for more than three colours (C120)
-/

namespace GLU.Mat

open Complex Matrix Finset
open scoped ComplexOrder ComplexConjugate

/-- C120: the root of a unitary matrix without the eigenvalue `-1` is computed from finite numbers, and if success is
reported the result `Y` has positive definite real part, its square is the matrix times `Y† Y`, and `Y† Y` is the
unit matrix up to the tolerance in every entry. -/
theorem C120_root_partial {NC : ℕ} (hN : 0 < NC) {U : Arr ℂ} (hU : (toM NC U)ᴴ * toM NC U = 1)
    (hd : (1 + toM NC U).det ≠ 0) :
    ∃ b Y, denman_rootY NC U = some (b, Y) ∧ (b = true →
      toM NC Y * toM NC Y = toM NC U * ((toM NC Y)ᴴ * toM NC Y) ∧
      (∀ i j, ‖((toM NC Y)ᴴ * toM NC Y - 1) i j‖ ≤ PREC_TOL NC) ∧
      (toM NC Y + (toM NC Y)ᴴ).PosDef) := by
  obtain ⟨t, e1, e2, e3, -⟩ := rootY_first hN hU none
  have hi := InvY.first hU hd
  rw [← e2, ← e3] at hi
  unfold denman_rootY
  rw [rootY_loop, e1, Option.bind_some, if_neg (by norm_num)]
  by_cases ht : diagTol NC t.M > PREC_TOL NC
  · rw [if_pos ht]
    obtain ⟨b, Y, h1, h2⟩ := rootY_loop_inv hN 23 hi
    refine ⟨b, Y, h1, fun hb => ?_⟩
    obtain ⟨M, h3, h4⟩ := h2 hb
    refine ⟨by rw [h3.gram]; exact h3.root, fun i j => ?_, h3.posY⟩
    rw [h3.gram]
    have := h4 i j
    have := prec_pos hN
    linarith
  · rw [if_neg ht]
    refine ⟨true, t.Y, rfl, fun _ => ⟨by rw [hi.gram]; exact hi.root, fun i j => ?_, hi.posY⟩⟩
    rw [hi.gram]
    refine tol_below hi.posM (by rw [e3]; exact first_below hU) ?_ i j
    rw [not_lt, diagTol_eq] at ht
    rw [Fintype.card_fin]
    have := neg_abs_le (∑ i : Fin NC, ‖toM NC t.M i i‖ ^ 2 - NC)
    linarith

/-- C120: the root of a unitary matrix is found unless an eigenvalue is within about `2^-17` of `-1`. -/
theorem C120_root_converges {NC : ℕ} (hN : 0 < NC) {U : Arr ℂ} (hU : (toM NC U)ᴴ * toM NC U = 1)
    (hd : (1 + toM NC U).det ≠ 0)
    (h : (Matrix.trace ((1 + toM NC U)ᴴ * (1 + toM NC U))⁻¹).re ≤ 4 ^ 17) :
    ∃ Y, denman_rootY NC U = some (true, Y) := by
  obtain ⟨t, e1, e2, e3, -⟩ := rootY_first hN hU none
  have hi := InvY.first hU hd
  rw [← e2, ← e3] at hi
  unfold denman_rootY
  rw [rootY_loop, e1, Option.bind_some, if_neg (by norm_num)]
  by_cases ht : diagTol NC t.M > PREC_TOL NC
  · rw [if_pos ht]
    have hg : (1 + toM NC U)ᴴ * (1 + toM NC U) = toM NC U + 2 + (toM NC U)ᴴ := by
      rw [conjTranspose_add, conjTranspose_one, add_mul, one_mul, mul_add, hU, mul_one, ← one_add_one_eq_two]
      abel
    have hinv : (toM NC t.M)⁻¹ = (4 : ℂ) • ((1 + toM NC U)ᴴ * (1 + toM NC U))⁻¹ := by
      apply Matrix.inv_eq_left_inv
      rw [e3, hg, smul_mul_smul_comm, Matrix.nonsing_inv_mul]
      · norm_num
      · rw [← hg, det_mul, det_conjTranspose]
        exact isUnit_iff_ne_zero.2 (mul_ne_zero (star_ne_zero.2 hd) hd)
    have htr : (Matrix.trace (toM NC t.M)).re ≤ NC := by
      have h1 := (Complex.nonneg_iff.1 (first_below hU).trace_nonneg).1
      rw [← e3, Matrix.trace_sub, Matrix.trace_one, Fintype.card_fin, sub_re, natCast_re] at h1
      linarith
    obtain ⟨Y, B, h1, -⟩ := rootY_loop_pos hN 23 (by norm_num) hi.posM (by
      have hr : reach 23 = 4 ^ 17 := rfl
      have h4 : (Matrix.trace (toM NC t.M)⁻¹).re = 4 * (Matrix.trace ((1 + toM NC U)ᴴ * (1 + toM NC U))⁻¹).re := by
        rw [hinv, Matrix.trace_smul, smul_eq_mul, mul_re]
        simp
      have h0 : (0 : ℝ) ≤ NC := Nat.cast_nonneg _
      rw [hr, h4]
      linarith)
    exact ⟨Y, h1⟩
  · rw [if_neg ht]
    exact ⟨_, rfl⟩

/-- The unit matrix has a root. -/
example : ∃ Y, denman_rootY 4 (fun i => if i % 5 ≠ 0 then 0 else 1) = some (true, Y) := by
  have e := toM_start 4
  refine C120_root_converges (by norm_num) (by rw [e, conjTranspose_one, one_mul]) ?_ ?_
  · rw [e, show (1 + 1 : Matrix (Fin 4) (Fin 4) ℂ) = (2 : ℂ) • 1 by rw [two_smul], det_smul, det_one]
    norm_num
  · rw [e, conjTranspose_add, conjTranspose_one, show ((1 + 1) * (1 + 1) : Matrix (Fin 4) (Fin 4) ℂ) = (4 : ℂ) • 1 by
      rw [← two_smul ℂ, smul_mul_smul_comm, one_mul]; norm_num,
      Matrix.inv_eq_left_inv (B := (1 / 4 : ℂ) • 1) (by rw [smul_mul_smul_comm, one_mul]; norm_num), trace_smul, trace_one]
    norm_num

/-- C120: for a singular matrix the root is computed from memory that was never written, or from numbers that are
not finite. -/
theorem C120_root_singular_fails {NC : ℕ} (hN : 0 < NC) {Y : Arr ℂ} (hd : (toM NC Y).det = 0) :
    denman_rootY NC Y = none := by
  have : inverseInto NC none Y = none := by
    by_cases h2 : NC = 2
    · subst h2
      obtain ⟨v, h1, h3⟩ := C19_two_singular_fails Y hd
      unfold inverseInto
      rw [h1]
      dsimp only
      rw [if_neg]
      intro h
      have := h 0 (by norm_num)
      have h4 := h3 0 0
      simp at h4
      rw [h4] at this
      cases this
    · exact inverseInto_singular hN h2 none hd
  unfold denman_rootY
  rw [rootY_loop]
  unfold rootY_step
  rw [this]
  rfl

/-- The series is cut at order `n`: the number that is tested is below the limit. -/
def stops (NC : ℕ) (S : ℝ) (z : Matrix (Fin NC) (Fin NC) ℂ) (n : ℕ) : Prop :=
  S * ∑ i, ∑ j, ‖((2 / (2 * n + 1) : ℂ) • z ^ (2 * n + 3)) i j‖ < 1 / 1000 * PREC_TOL NC

theorem orderLoop_spec {NC : ℕ} (hN : 0 < NC) (S : ℝ) {z : Matrix (Fin NC) (Fin NC) ℂ} {y yy : Arr ℂ}
    (hy : toM NC y = (2 : ℂ) • z) (hyy : toM NC yy = z * z) (left n : ℕ) (h : left + n = 26) (hn : n ≤ 24) :
    (∃ m, n ≤ m ∧ m ≤ 23 ∧ stops NC S z m ∧ (∀ k, n ≤ k → k < m → ¬ stops NC S z k) ∧
      orderLoop NC S y yy left n = some (some m)) ∨
    ((∀ k, n ≤ k → k ≤ 23 → ¬ stops NC S z k) ∧ orderLoop NC S y yy left n = none) := by
  induction left generalizing n with
  | zero => omega
  | succ left ih =>
    rw [orderLoop]
    by_cases h24 : n = 24
    · right
      refine ⟨fun k _ _ => by omega, ?_⟩
      rw [fact_none (by omega)]
      rfl
    rw [fact_some (by omega), Option.bind_some]
    dsimp only
    rw [if_neg (by unfold NMAX; omega), termErr_eq hN S hy hyy]
    have e : (2 * ((1 / (2 * ((n + 1 : ℕ) : ℝ) - 1) : ℝ) : ℂ)) = 2 / (2 * n + 1) := by
      push_cast
      rw [show (2 * ((n : ℂ) + 1) - 1) = 2 * n + 1 by ring]
      ring
    rw [e]
    by_cases hs : stops NC S z n
    · left
      refine ⟨n, le_rfl, by omega, hs, fun k _ _ => by omega, if_pos hs⟩
    · rw [show (if S * ∑ i, ∑ j, ‖((2 / (2 * n + 1) : ℂ) • z ^ (2 * n + 3)) i j‖ < 1 / 1000 * PREC_TOL NC then
        some (some n) else orderLoop NC S y yy left (n + 1)) = orderLoop NC S y yy left (n + 1) from if_neg hs]
      rcases ih (n + 1) (by omega) (by omega) with ⟨m, h1, h2, h3, h4, h5⟩ | ⟨h1, h2⟩
      · left
        refine ⟨m, by omega, h2, h3, fun k hk1 hk2 => ?_, h5⟩
        rcases Nat.eq_or_lt_of_le hk1 with rfl | hlt
        · exact hs
        · exact h4 k hlt hk2
      · right
        refine ⟨fun k hk1 hk2 => ?_, h2⟩
        rcases Nat.eq_or_lt_of_le hk1 with rfl | hlt
        · exact hs
        · exact h1 k hlt hk2

theorem logFinish_apply {NC : ℕ} (S : ℝ) (Q : Arr ℂ) (i j : Fin NC) :
    toM NC (logFinish NC S Q) i j =
      if i = j then -I * S * (toM NC Q i i - Matrix.trace (toM NC Q) / NC)
      else -I * S * ((toM NC Q i j - conj (toM NC Q j i)) / 2) := by
  unfold logFinish
  dsimp only
  rw [makeHermitian_apply]
  have e := toM_diagMap NC Q (-(trace NC Q / NC))
  have e2 : ∀ r c : Fin NC, toM NC (fun i => (if i % (NC + 1) = 0 then Q i - trace NC Q / NC else Q i) * (-I * S)) r c =
      -I * S * (if r = c then toM NC Q r r - Matrix.trace (toM NC Q) / NC else toM NC Q r c) := by
    intro r c
    rw [toM_smulR NC (fun i => if i % (NC + 1) = 0 then Q i - trace NC Q / NC else Q i)]
    simp only [sub_eq_add_neg] at e ⊢
    rw [e, Matrix.smul_apply, Matrix.add_apply, Matrix.smul_apply, smul_eq_mul, smul_eq_mul, C12_trace]
    by_cases h : r = c
    · rw [if_pos h, h, Matrix.one_apply_eq, mul_one]
    · rw [if_neg h, Matrix.one_apply_ne h, mul_zero, add_zero]
  rw [e2, e2, e2]
  by_cases h : i = j
  · rw [if_pos h, if_pos h, if_pos rfl]
  · rw [if_neg h, if_neg h, if_neg h, if_neg (Ne.symm h), map_mul, map_mul, map_neg, Complex.conj_I, Complex.conj_ofReal]
    ring

/-- C120: once the roots have been taken, the call ends in one of two ways. Either the series is cut at the first order
from 4 to 23 at which the tested number is small, and the result is the stated sum with its trace and the Hermitian
part of its off-diagonal entries removed; or none of these orders is good enough, and memory outside the table of
coefficients is read. -/
theorem C120_series {NC : ℕ} (hN : 0 < NC) (Q U x : Arr ℂ) (N : ℕ)
    (hr : rootsLoop NC (rootCount NC N) U = some (true, x)) (hd : (toM NC x + 1).det ≠ 0)
    {S : ℝ} (hS : S = 2 ^ rootCount NC N)
    {z : Matrix (Fin NC) (Fin NC) ℂ} (hz : z = (toM NC x - 1) * (toM NC x + 1)⁻¹) :
    (∃ n W, 4 ≤ n ∧ n ≤ 23 ∧ stops NC S z n ∧ (∀ k, 4 ≤ k → k < n → ¬ stops NC S z k) ∧
      brute_force_log NC Q U N = .success W ∧
      ∀ i j, toM NC W i j =
        if i = j then -I * S * (2 * atanhSum z n i i - 2 * Matrix.trace (atanhSum z n) / NC)
        else -I * S * (atanhSum z n i j - conj (atanhSum z n j i))) ∨
    ((∀ k, 4 ≤ k → k ≤ 23 → ¬ stops NC S z k) ∧ brute_force_log NC Q U N = .undefined) := by
  have hrun : brute_force_log NC Q U N = logSeries NC S Q x := by
    unfold brute_force_log
    rw [hr, ← hS]
  rw [hrun]
  have ey : toM NC (fun i => if i % (NC + 1) = 0 then x i + 1 else x i) = toM NC x + 1 := by
    rw [toM_diagMap, one_smul]
  have eyy : toM NC (fun i => if i % (NC + 1) = 0 then x i - 1 else x i) = toM NC x - 1 := by
    have := toM_diagMap NC x (-1)
    simp only [← sub_eq_add_neg] at this
    rw [this, neg_one_smul, ← sub_eq_add_neg]
  obtain ⟨X, h1, h2⟩ := inverseInto_some hN (some Q) (M := fun i => if i % (NC + 1) = 0 then x i + 1 else x i)
    (by rw [ey]; exact hd)
  unfold logSeries
  dsimp only
  rw [h1]
  dsimp only
  set y := multab NC (fun i => if i % (NC + 1) = 0 then x i - 1 else x i) X
    (fun i => if i % (NC + 1) = 0 then x i + 1 else x i) with hy
  have hyz : toM NC y = z := by rw [hy, C10_multab, eyy, h2, ey, hz]
  have hy2 : toM NC (fun i => y i * 2) = (2 : ℂ) • z := by rw [toM_smulR, hyz]
  set yy := multab NC y y (fun i => if i % (NC + 1) = 0 then x i - 1 else x i) with hyy
  have hyyz : toM NC yy = z * z := by rw [hyy, C10_multab, hyz]
  rcases orderLoop_spec hN S hy2 hyyz 22 4 rfl (by norm_num) with ⟨n, g1, g2, g3, g4, g5⟩ | ⟨g1, g2⟩
  · left
    obtain ⟨W, w1, w2⟩ := horner_sum hy2 hyyz (n := n) (by omega) (by omega)
    refine ⟨n, logFinish NC S (multab_atomic_left NC (addDiag NC 1 W) fun i => y i * 2), g1, g2, g3, g4, ?_, ?_⟩
    · show (match orderLoop NC S (fun i => y i * 2) yy 22 4 with
        | none => LogRun.undefined
        | some none => LogRun.failure
        | some (some n) => _) = _
      rw [g5]
      dsimp only
      rw [w1]
    · intro i j
      rw [logFinish_apply, w2, Matrix.trace_smul, smul_eq_mul, Matrix.smul_apply, Matrix.smul_apply, Matrix.smul_apply,
        smul_eq_mul, smul_eq_mul, smul_eq_mul, map_mul, Complex.conj_ofNat]
      by_cases h : i = j
      · rw [if_pos h, if_pos h]
      · rw [if_neg h, if_neg h]
        ring
  · right
    refine ⟨g1, ?_⟩
    show (match orderLoop NC S (fun i => y i * 2) yy 22 4 with
        | none => LogRun.undefined
        | some none => LogRun.failure
        | some (some n) => _) = _
    rw [g2]

theorem orderLoop_never {NC : ℕ} (S : ℝ) (y yy : Arr ℂ) (left n : ℕ) (h : left + n = 26) (hn : n ≤ 24) :
    orderLoop NC S y yy left n ≠ some none := by
  induction left generalizing n with
  | zero => omega
  | succ left ih =>
    rw [orderLoop]
    by_cases h24 : n = 24
    · rw [fact_none (by omega)]
      simp
    rw [fact_some (by omega), Option.bind_some]
    dsimp only
    rw [if_neg (by unfold NMAX; omega)]
    split
    · simp
    · exact ih (n + 1) (by omega) (by omega)

/-- C120: a failure is reported only when a root was not found. That the series does not converge is never
reported. -/
theorem C120_reports (NC : ℕ) (Q U : Arr ℂ) (N : ℕ) :
    brute_force_log NC Q U N = .failure ↔ ∃ y, rootsLoop NC (rootCount NC N) U = some (false, y) := by
  unfold brute_force_log
  dsimp only
  rcases rootsLoop NC (rootCount NC N) U with _ | ⟨b, y⟩
  · simp
  · cases b with
    | false => simp
    | true =>
      simp only [Option.some.injEq, Prod.mk.injEq, Bool.true_eq_false, false_and, exists_false, iff_false]
      unfold logSeries
      dsimp only
      split
      · simp
      · split
        · simp
        · next h => exact absurd h (orderLoop_never _ _ _ 22 4 rfl (by norm_num))
        · split <;> simp

/-- C120: whatever is returned with success has no trace, and its off-diagonal entries are those of a Hermitian
matrix. -/
theorem C120_traceless {NC : ℕ} (hN : 0 < NC) {Q U W : Arr ℂ} {N : ℕ} (h : brute_force_log NC Q U N = .success W) :
    Matrix.trace (toM NC W) = 0 ∧ ∀ i j, i ≠ j → toM NC W i j = conj (toM NC W j i) := by
  obtain ⟨S, P, rfl⟩ : ∃ (S : ℝ) (P : Arr ℂ), W = logFinish NC S P := by
    unfold brute_force_log at h
    dsimp only at h
    generalize rootsLoop NC (rootCount NC N) U = r at h
    rcases r with _ | ⟨b, y⟩
    · cases h
    · cases b with
      | false => cases h
      | true =>
        dsimp only at h
        unfold logSeries at h
        dsimp only at h
        split at h
        · cases h
        · split at h
          · cases h
          · cases h
          · split at h
            · cases h
            · cases h
              exact ⟨_, _, rfl⟩
  constructor
  · have e : ∀ i, toM NC (logFinish NC S P) i i = -I * S * (toM NC P i i - Matrix.trace (toM NC P) / NC) := by
      intro i
      rw [logFinish_apply, if_pos rfl]
    rw [Matrix.trace]
    simp only [Matrix.diag_apply, e]
    rw [← mul_sum, sum_sub_distrib, sum_const, card_univ, Fintype.card_fin, nsmul_eq_mul,
      mul_div_cancel₀ _ (by exact_mod_cast hN.ne')]
    rw [show ∑ i, toM NC P i i = Matrix.trace (toM NC P) from rfl, sub_self, mul_zero]
  · intro i j hij
    rw [logFinish_apply, logFinish_apply, if_neg hij, if_neg (Ne.symm hij)]
    simp only [map_mul, map_neg, map_div₀, map_sub, Complex.conj_conj, Complex.conj_I, Complex.conj_ofReal,
      Complex.conj_ofNat]
    ring

theorem cayley_anti {n : Type} [Fintype n] [DecidableEq n] {x : Matrix n n ℂ} (hx : xᴴ * x = 1)
    (hd : (x + 1).det ≠ 0) : ((x - 1) * (x + 1)⁻¹)ᴴ = -((x - 1) * (x + 1)⁻¹) := by
  set z := (x - 1) * (x + 1)⁻¹ with hz
  have hu : IsUnit (x + 1).det := isUnit_iff_ne_zero.2 hd
  have h1 : z * (x + 1) = x - 1 := by rw [hz, mul_assoc, Matrix.nonsing_inv_mul _ hu, mul_one]
  have h2 : (x + 1)ᴴ * zᴴ = (x - 1)ᴴ := by rw [← conjTranspose_mul, h1]
  have h3 : (x + 1)ᴴ * (z + zᴴ) * (x + 1) = 0 := by
    rw [mul_add (x + 1)ᴴ, add_mul _ _ (x + 1), mul_assoc, h1, h2]
    simp only [conjTranspose_add, conjTranspose_sub, conjTranspose_one, add_mul, mul_add, sub_mul, mul_sub, hx, one_mul,
      mul_one]
    abel
  have hu' : IsUnit ((x + 1)ᴴ).det := by
    rw [det_conjTranspose]
    exact isUnit_iff_ne_zero.2 (star_ne_zero.2 hd)
  have h4 : z + zᴴ = 0 := by
    have := congrArg (fun m => ((x + 1)ᴴ)⁻¹ * m * (x + 1)⁻¹) h3
    simp only [mul_zero, zero_mul] at this
    rw [← mul_assoc, ← mul_assoc, Matrix.nonsing_inv_mul _ hu', one_mul, mul_assoc, Matrix.mul_nonsing_inv _ hu,
      mul_one] at this
    exact this
  exact eq_neg_of_add_eq_zero_right h4

theorem atanhSum_anti {n : Type} [Fintype n] [DecidableEq n] {z : Matrix n n ℂ} (h : zᴴ = -z) (m : ℕ) :
    (atanhSum z m)ᴴ = -atanhSum z m := by
  unfold atanhSum
  rw [conjTranspose_sum, ← sum_neg_distrib]
  refine sum_congr rfl fun k _ => ?_
  rw [conjTranspose_smul, conjTranspose_pow, h, Odd.neg_pow ⟨k, rfl⟩, smul_neg]
  congr 2
  rw [Complex.star_def, map_div₀, map_one, map_add, map_mul, Complex.conj_ofNat, Complex.conj_natCast, map_one]

/-- C120: if the matrix left by the roots is unitary, without the eigenvalue `-1`, then the result is Hermitian, and
nothing but the trace is taken away from the sum of the series. -/
theorem C120_hermitian_partial {NC : ℕ} (hN : 0 < NC) {Q U x W : Arr ℂ} {N : ℕ}
    (hr : rootsLoop NC (rootCount NC N) U = some (true, x)) (hx : (toM NC x)ᴴ * toM NC x = 1)
    (hd : (toM NC x + 1).det ≠ 0) (h : brute_force_log NC Q U N = .success W) :
    HermTraceless NC W ∧ ∃ n, 4 ≤ n ∧ n ≤ 23 ∧
      stops NC (2 ^ rootCount NC N) ((toM NC x - 1) * (toM NC x + 1)⁻¹) n ∧
      toM NC W = (-I * 2 ^ rootCount NC N : ℂ) • ((2 : ℂ) • atanhSum ((toM NC x - 1) * (toM NC x + 1)⁻¹) n -
        (2 * Matrix.trace (atanhSum ((toM NC x - 1) * (toM NC x + 1)⁻¹) n) / NC : ℂ) • 1) := by
  have ha := fun n => atanhSum_anti (cayley_anti hx hd) n
  have hc : ∀ n i j, conj (atanhSum ((toM NC x - 1) * (toM NC x + 1)⁻¹) n j i) =
      -atanhSum ((toM NC x - 1) * (toM NC x + 1)⁻¹) n i j := fun n i j => by
    have := congrFun (congrFun (ha n) i) j
    rw [conjTranspose_apply, Matrix.neg_apply] at this
    exact this
  rcases C120_series hN Q U x N hr hd rfl rfl with ⟨n, W', h1, h2, h3, -, h4, h5⟩ | ⟨-, h4⟩
  · rw [h] at h4
    cases h4
    push_cast at h5
    refine ⟨⟨?_, (C120_traceless hN h).1⟩, n, h1, h2, h3, ?_⟩
    · ext i j
      rw [conjTranspose_apply]
      by_cases hij : i = j
      · subst hij
        rw [h5, if_pos rfl]
        have htr : conj (Matrix.trace (atanhSum ((toM NC x - 1) * (toM NC x + 1)⁻¹) n)) =
            -Matrix.trace (atanhSum ((toM NC x - 1) * (toM NC x + 1)⁻¹) n) := by
          have := congrArg Matrix.trace (ha n)
          rw [Matrix.trace_conjTranspose, Matrix.trace_neg] at this
          exact this
        simp only [Complex.star_def, map_mul, map_neg, map_div₀, map_sub, map_pow, Complex.conj_I, Complex.conj_ofNat,
          Complex.conj_natCast, hc, htr]
        ring
      · exact ((C120_traceless hN h).2 i j hij).symm
    · ext i j
      rw [h5, Matrix.smul_apply, Matrix.sub_apply, Matrix.smul_apply, Matrix.smul_apply]
      simp only [smul_eq_mul]
      by_cases hij : i = j
      · subst hij
        rw [if_pos rfl, Matrix.one_apply_eq, mul_one]
      · rw [if_neg hij, Matrix.one_apply_ne hij, hc]
        ring
  · rw [h] at h4
    cases h4

/-! ## The unit matrix -/

theorem root_one {NC : ℕ} (hN : 0 < NC) {U : Arr ℂ} (hU : toM NC U = 1) :
    ∃ Y, denman_rootY NC U = some (true, Y) ∧ toM NC Y = 1 := by
  obtain ⟨t, e1, e2, e3, -⟩ := rootY_first hN (U := U) (by rw [hU, conjTranspose_one, one_mul]) none
  rw [hU, conjTranspose_one] at e2 e3
  have e4 : toM NC t.Y = 1 := by
    rw [e2, one_mul, ← two_smul ℂ, smul_smul]
    norm_num
  have e5 : toM NC t.M = 1 := by
    rw [e3, show (1 + 2 + 1 : Matrix (Fin NC) (Fin NC) ℂ) = (4 : ℂ) • 1 by
      rw [← Algebra.algebraMap_eq_smul_one, map_ofNat]; norm_num, smul_smul]
    norm_num
  refine ⟨t.Y, ?_, e4⟩
  unfold denman_rootY
  rw [rootY_loop, e1, Option.bind_some, if_neg (by norm_num), if_neg]
  rw [diagTol_eq, e5]
  simp only [Matrix.one_apply_eq, norm_one, one_pow, sum_const, card_univ, Fintype.card_fin, nsmul_eq_mul, mul_one, sub_self,
    abs_zero, not_lt]
  exact (prec_pos hN).le

theorem roots_one {NC : ℕ} (hN : 0 < NC) (n : ℕ) {U : Arr ℂ} (hU : toM NC U = 1) :
    ∃ Y, rootsLoop NC n U = some (true, Y) ∧ toM NC Y = 1 := by
  induction n generalizing U with
  | zero => exact ⟨U, rfl, hU⟩
  | succ n ih =>
    obtain ⟨Y, h1, h2⟩ := root_one hN hU
    obtain ⟨Z, h3, h4⟩ := ih h2
    refine ⟨Z, ?_, h4⟩
    rw [rootsLoop, h1, Option.bind_some, if_pos rfl, h3]

/-- C120: the logarithm of the unit matrix is zero. -/
theorem C120_one {NC : ℕ} (hN : 0 < NC) (Q : Arr ℂ) {U : Arr ℂ} (hU : toM NC U = 1) (N : ℕ) :
    ∃ W, brute_force_log NC Q U N = .success W ∧ toM NC W = 0 := by
  obtain ⟨x, h1, h2⟩ := roots_one hN (rootCount NC N) hU
  have hd : (toM NC x + 1).det ≠ 0 := by
    rw [h2, ← two_smul ℂ, det_smul, det_one, mul_one]
    exact pow_ne_zero _ two_ne_zero
  have hz : (toM NC x - 1) * (toM NC x + 1)⁻¹ = 0 := by rw [h2, sub_self, zero_mul]
  have h0 : ∀ n, atanhSum (0 : Matrix (Fin NC) (Fin NC) ℂ) n = 0 := fun n => by
    unfold atanhSum
    refine sum_eq_zero fun k _ => ?_
    rw [zero_pow (by omega), smul_zero]
  rcases C120_series hN Q U x N h1 hd rfl hz.symm with ⟨n, W, -, -, -, -, h4, h5⟩ | ⟨h4, -⟩
  · refine ⟨W, h4, ?_⟩
    ext i j
    rw [h5, h0]
    simp
  · exfalso
    refine h4 4 le_rfl (by norm_num) ?_
    unfold stops
    rw [zero_pow (by norm_num), smul_zero]
    simp only [Matrix.zero_apply, norm_zero, sum_const_zero, mul_zero]
    have := prec_pos hN
    linarith

/-! ## Where it goes wrong -/

/-- C120: without roots the series of the unitary matrix `i` is never good enough, and memory outside the table of
coefficients is read instead of reporting it. -/
theorem C120_outside_fails {NC : ℕ} (hN : 0 < NC) (h10 : NC < 10) (Q : Arr ℂ) {U : Arr ℂ} (hU : toM NC U = (I : ℂ) • 1) :
    brute_force_log NC Q U 0 = .undefined := by
  have hc : rootCount NC 0 = 0 := if_pos h10
  have h1 : (I + 1 : ℂ) ≠ 0 := by
    intro h
    have := congrArg Complex.im h
    simp at this
  have ep : toM NC U + 1 = (I + 1 : ℂ) • 1 := by rw [hU, add_smul, one_smul]
  have hd : (toM NC U + 1).det ≠ 0 := by
    rw [ep, det_smul, det_one, mul_one]
    exact pow_ne_zero _ h1
  have hz : (toM NC U - 1) * (toM NC U + 1)⁻¹ = (I : ℂ) • 1 := by
    rw [ep, Matrix.inv_eq_left_inv (B := (I + 1 : ℂ)⁻¹ • 1) (by
      rw [smul_mul_smul_comm, inv_mul_cancel₀ h1, one_mul, one_smul]), hU,
      show (I : ℂ) • (1 : Matrix (Fin NC) (Fin NC) ℂ) - 1 = (I - 1 : ℂ) • 1 by rw [sub_smul, one_smul], smul_mul_smul_comm,
      one_mul]
    congr 1
    rw [mul_inv_eq_iff_eq_mul₀ h1, mul_add, I_mul_I]
    ring
  rcases C120_series hN Q U U 0 (by rw [hc]; rfl) hd rfl hz.symm with ⟨n, W, -, h2, h3, -⟩ | ⟨-, h4⟩
  · exfalso
    unfold stops at h3
    rw [hc, pow_zero, one_mul, smul_pow, one_pow, smul_smul] at h3
    have e : ∀ i : Fin NC, ∑ j, ‖((2 / (2 * n + 1) * I ^ (2 * n + 3) : ℂ) • (1 : Matrix (Fin NC) (Fin NC) ℂ)) i j‖ =
        2 / (2 * n + 1) := by
      intro i
      rw [sum_eq_single i]
      · rw [Matrix.smul_apply, Matrix.one_apply_eq, smul_eq_mul, mul_one, norm_mul, norm_pow, norm_I, one_pow, mul_one,
          norm_div]
        congr 1
        · simp
        · have : ((2 * n + 1 : ℂ)) = ((2 * n + 1 : ℕ) : ℂ) := by push_cast; ring
          rw [this, Complex.norm_natCast]
          push_cast
          ring
      · intro j _ hj
        rw [Matrix.smul_apply, Matrix.one_apply_ne hj.symm, smul_zero, norm_zero]
      · simp
    simp only [e, sum_const, card_univ, Fintype.card_fin, nsmul_eq_mul] at h3
    unfold PREC_TOL at h3
    have hn : (n : ℝ) ≤ 23 := by exact_mod_cast h2
    have hN1 : (0 : ℝ) < NC := by exact_mod_cast hN
    have : (1 : ℝ) / 50 ≤ 2 / (2 * n + 1) := by
      rw [div_le_div_iff₀ (by norm_num) (by positivity)]
      linarith
    nlinarith
  · exact h4

/-- The diagonal matrix with entries `-1, -1, 1, 1`. -/
noncomputable def minusPair : Arr ℂ := fun i => if i = 0 ∨ i = 5 then -1 else if i = 10 ∨ i = 15 then 1 else 0

theorem toM_minusPair : toM 4 minusPair = Matrix.diagonal ![-1, -1, 1, 1] := by
  ext i j
  rw [toM_apply]
  unfold minusPair
  fin_cases i <;> fin_cases j <;> simp [Matrix.diagonal]

/-- It is in SU(4). -/
theorem isSU_minusPair : IsSU 4 minusPair := by
  unfold IsSU
  rw [toM_minusPair, Matrix.mem_specialUnitaryGroup_iff, Matrix.mem_unitaryGroup_iff', Matrix.star_eq_conjTranspose,
    Matrix.diagonal_conjTranspose, Matrix.diagonal_mul_diagonal, ← Matrix.diagonal_one, det_diagonal]
  constructor
  · congr 1
    ext i
    fin_cases i <;> simp
  · simp [Fin.prod_univ_four]

theorem unitary_minusPair : (toM 4 minusPair)ᴴ * toM 4 minusPair = 1 := by
  have := (Matrix.mem_specialUnitaryGroup_iff.1 isSU_minusPair).1
  rw [Matrix.mem_unitaryGroup_iff'] at this
  exact this

/-- C120: the root of this matrix of SU(4) is reported as found, but its first row is zero: the singular matrix of the
second pass leaves the inverse of the first pass in use. -/
theorem C120_root_minus_fails : ∃ Y, denman_rootY 4 minusPair = some (true, Y) ∧ ∀ j, toM 4 Y 0 j = 0 := by
  have hp : PREC_TOL 4 < 1 / 4 := by unfold PREC_TOL; norm_num
  have hs : toM 4 minusPair = (toM 4 minusPair)ᴴ := by
    rw [toM_minusPair, Matrix.diagonal_conjTranspose]
    congr 1
    ext i
    fin_cases i <;> simp
  obtain ⟨t, e1, e2, e3, J, e4, e5⟩ := rootY_first (by norm_num) unitary_minusPair none
  rw [← hs, toM_minusPair] at e2 e3 e5
  have two : (2 : Matrix (Fin 4) (Fin 4) ℂ) = Matrix.diagonal fun _ => 2 := by
    rw [← Matrix.smul_one_eq_diagonal, ← Algebra.algebraMap_eq_smul_one, map_ofNat]
  rw [← Matrix.diagonal_one] at e2 e5
  rw [two] at e3
  simp only [Matrix.diagonal_add, Matrix.diagonal_mul_diagonal, ← Matrix.diagonal_smul] at e2 e3 e5
  have y1 : toM 4 t.Y = Matrix.diagonal ![0, 0, 1, 1] := by
    rw [e2]; congr 1; ext i; fin_cases i <;> norm_num
  have m1 : toM 4 t.M = Matrix.diagonal ![0, 0, 1, 1] := by
    rw [e3]; congr 1; ext i; fin_cases i <;> norm_num
  have j1 : toM 4 J = Matrix.diagonal ![0, 0, 2, 2] := by
    rw [e5]; congr 1; ext i; fin_cases i <;> norm_num
  have hsing : inverseInto 4 t.INVM t.M = some J := by
    rw [inverseInto_singular (by norm_num) (by norm_num) _ (by rw [m1, det_diagonal]; simp [Fin.prod_univ_four]), e4]
  obtain ⟨u, f1, f2, f3, -⟩ := rootY_step_of hsing
  rw [y1, j1, ← Matrix.diagonal_one] at f2
  rw [m1, j1, two] at f3
  simp only [Matrix.diagonal_add, Matrix.diagonal_mul_diagonal, ← Matrix.diagonal_smul] at f2 f3
  have y2 : toM 4 u.Y = Matrix.diagonal ![0, 0, 3 / 2, 3 / 2] := by
    rw [f2]; congr 1; ext i; fin_cases i <;> norm_num
  have m2 : toM 4 u.M = Matrix.diagonal ![1 / 2, 1 / 2, 5 / 4, 5 / 4] := by
    rw [f3]; congr 1; ext i; fin_cases i <;> norm_num
  have hpos : (toM 4 u.M).PosDef := by
    rw [m2]
    refine Matrix.PosDef.diagonal fun i => ?_
    fin_cases i <;> simp [Complex.pos_iff] <;> norm_num
  have hinv : (toM 4 u.M)⁻¹ = Matrix.diagonal ![2, 2, 4 / 5, 4 / 5] := by
    apply Matrix.inv_eq_left_inv
    rw [m2, Matrix.diagonal_mul_diagonal, ← Matrix.diagonal_one]
    congr 1; ext i; fin_cases i <;> norm_num
  obtain ⟨Y, B, g1, g2⟩ := rootY_loop_pos (NC := 4) (by norm_num) 22 (by norm_num) hpos (by
    rw [hinv, m2]
    have : reach 22 = 4 ^ 16 := rfl
    rw [this]
    simp [Matrix.trace, Fin.sum_univ_four]
    norm_num)
  have t1 : diagTol 4 t.M > PREC_TOL 4 := by
    rw [diagTol_eq, m1]
    simp [Fin.sum_univ_four]
    norm_num
    linarith
  have t2 : diagTol 4 u.M > PREC_TOL 4 := by
    rw [diagTol_eq, m2]
    simp [Fin.sum_univ_four]
    norm_num
    linarith
  refine ⟨Y, ?_, fun j => ?_⟩
  · unfold denman_rootY
    rw [rootY_loop, e1, Option.bind_some, if_neg (by norm_num), if_pos t1, rootY_loop, f1, Option.bind_some,
      if_neg (by norm_num), if_pos t2, g1]
  · rw [g2, y2, Matrix.diagonal_mul]
    simp

/-- C120: the logarithm of that matrix, with the four roots that the library asks for, is computed from memory that was
never written. -/
theorem C120_minus_fails (Q : Arr ℂ) : brute_force_log 4 Q minusPair 4 = .undefined := by
  obtain ⟨Y, h1, h2⟩ := C120_root_minus_fails
  have hd : (toM 4 Y).det = 0 := Matrix.det_eq_zero_of_row_eq_zero 0 h2
  have hr : rootsLoop 4 (rootCount 4 4) minusPair = none := by
    rw [show rootCount 4 4 = 4 from rfl, rootsLoop, h1, Option.bind_some, if_pos rfl, rootsLoop,
      C120_root_singular_fails (by norm_num) hd]
    rfl
  unfold brute_force_log
  rw [hr]

end GLU.Mat
