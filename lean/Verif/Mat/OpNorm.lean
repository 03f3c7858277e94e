import Mathlib.Analysis.CStarAlgebra.Matrix
import Mathlib.Analysis.SpecialFunctions.Exponential
import Mathlib.Analysis.Calculus.MeanValue
import Mathlib.Analysis.Normed.Algebra.MatrixExponential

/-!
# The operator norm of matrices

Entries, unitary factors and the exponential of Hermitian matrices in the operator norm.
-/

namespace GLU.Mat

open Complex Matrix
open scoped Matrix.Norms.L2Operator

theorem entry_le_op {n : ℕ} (A : Matrix (Fin n) (Fin n) ℂ) (i j : Fin n) : ‖A i j‖ ≤ ‖A‖ := by
  have h := l2_opNorm_mulVec A (EuclideanSpace.single j (1 : ℂ))
  rw [EuclideanSpace.norm_single, norm_one, mul_one] at h
  refine le_trans ?_ h
  refine le_trans (le_of_eq ?_) (PiLp.norm_apply_le _ i)
  simp

theorem op_unitary_mul {n : ℕ} {U : Matrix (Fin n) (Fin n) ℂ} (hU : U ∈ unitaryGroup (Fin n) ℂ)
    (A : Matrix (Fin n) (Fin n) ℂ) : ‖U * A‖ = ‖A‖ := CStarRing.norm_mem_unitary_mul A hU

theorem op_mul_unitary {n : ℕ} {U : Matrix (Fin n) (Fin n) ℂ} (hU : U ∈ unitaryGroup (Fin n) ℂ)
    (A : Matrix (Fin n) (Fin n) ℂ) : ‖A * U‖ = ‖A‖ := CStarRing.norm_mul_mem_unitary A hU

theorem op_conj_diag {n : ℕ} {V : Matrix (Fin n) (Fin n) ℂ} (h1 : V * Vᴴ = 1) {d : Fin n → ℂ} {b : ℝ} (hb0 : 0 ≤ b)
    (hb : ∀ i, ‖d i‖ ≤ b) : ‖V * diagonal d * Vᴴ‖ ≤ b := by
  have hV : V ∈ unitaryGroup (Fin n) ℂ := mem_unitaryGroup_iff.2 h1
  rw [← star_eq_conjTranspose, op_mul_unitary (Unitary.star_mem hV), op_unitary_mul hV, l2_opNorm_diagonal]
  exact (pi_norm_le_iff_of_nonneg hb0).2 hb

theorem exp_herm_unitary {n : ℕ} {A : Matrix (Fin n) (Fin n) ℂ} (hA : A.IsHermitian) (t : ℝ) :
    NormedSpace.exp (t • (I • A)) ∈ unitaryGroup (Fin n) ℂ := by
  rw [mem_unitaryGroup_iff, star_eq_conjTranspose, ← Matrix.exp_conjTranspose,
    ← Matrix.exp_add_of_commute]
  · rw [conjTranspose_smul, conjTranspose_smul, hA.eq]
    simp
  · rw [conjTranspose_smul, conjTranspose_smul, hA.eq]
    simp only [star_trivial, star_def, conj_I, neg_smul, smul_neg]
    exact (Commute.refl _).neg_right

/-- The exponential of `i` times a Hermitian matrix does not increase distances. -/
theorem exp_herm_lipschitz {n : ℕ} {A B : Matrix (Fin n) (Fin n) ℂ} (hA : A.IsHermitian) (hB : B.IsHermitian) :
    ‖NormedSpace.exp (I • A) - NormedSpace.exp (I • B)‖ ≤ ‖A - B‖ := by
  have d : ∀ t : ℝ, HasDerivAt (fun t : ℝ => NormedSpace.exp (t • (I • A)) * NormedSpace.exp (t • (I • (-B))))
      (NormedSpace.exp (t • (I • A)) * (I • (A - B)) * NormedSpace.exp (t • (I • (-B)))) t := by
    intro t
    have := (hasDerivAt_exp_smul_const (𝕂 := ℝ) (I • A) t).mul (hasDerivAt_exp_smul_const' (𝕂 := ℝ) (I • (-B)) t)
    refine this.congr_deriv ?_
    rw [smul_sub, smul_neg]
    noncomm_ring
  have hb := Convex.norm_image_sub_le_of_norm_hasDerivWithin_le (s := Set.univ) (C := ‖A - B‖)
    (fun t _ => (d t).hasDerivWithinAt) (fun t _ => by
      rw [op_mul_unitary (exp_herm_unitary (hB.neg) t), op_unitary_mul (exp_herm_unitary hA t), norm_smul, norm_I, one_mul])
    convex_univ (Set.mem_univ (0 : ℝ)) (Set.mem_univ (1 : ℝ))
  simp only [one_smul, zero_smul, NormedSpace.exp_zero, mul_one, sub_zero, norm_one] at hb
  have hu : NormedSpace.exp (I • B) ∈ unitaryGroup (Fin n) ℂ := by
    have := exp_herm_unitary hB 1
    rwa [one_smul] at this
  have hinv : NormedSpace.exp (I • (-B)) * NormedSpace.exp (I • B) = 1 := by
    rw [← Matrix.exp_add_of_commute]
    · simp
    · rw [smul_neg]
      exact (Commute.refl _).neg_left
  have e : NormedSpace.exp (I • A) - NormedSpace.exp (I • B) =
      (NormedSpace.exp (I • A) * NormedSpace.exp (I • (-B)) - 1) * NormedSpace.exp (I • B) := by
    rw [sub_mul, mul_assoc, hinv, mul_one, one_mul]
  rw [e, op_mul_unitary hu]
  exact hb

end GLU.Mat
