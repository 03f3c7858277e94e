import Verif.Mat.Log
import Verif.Mat.EigenProps
import Mathlib.LinearAlgebra.Eigenspace.Basic
import Mathlib.LinearAlgebra.Matrix.NonsingularInverse

/-!
# Lemmas on the exact logarithm
-/

namespace GLU.Mat

open Complex Matrix Polynomial

theorem root_vector {n : ℕ} {M : Matrix (Fin n) (Fin n) ℂ} {l : ℂ} (hl : M.charpoly.eval l = 0) :
    ∃ v, v ≠ 0 ∧ M *ᵥ v = l • v := by
  rw [Matrix.eval_charpoly] at hl
  obtain ⟨v, hv, hv0⟩ := Matrix.exists_mulVec_eq_zero_iff.2 hl
  refine ⟨v, hv, ?_⟩
  rw [Matrix.sub_mulVec, sub_eq_zero] at hv0
  rw [← hv0]
  simp [Matrix.scalar_apply]

/-- A matrix with three different eigenvalues is diagonalised by its eigenvectors. -/
theorem exists_eigenbasis {M : Matrix (Fin 3) (Fin 3) ℂ} {l : Fin 3 → ℂ} (hl : ∀ i, M.charpoly.eval (l i) = 0)
    (hi : Function.Injective l) :
    ∃ P : Matrix (Fin 3) (Fin 3) ℂ, IsUnit P ∧ ∀ i, M *ᵥ P.col i = l i • P.col i := by
  choose v hv hm using fun i => root_vector (hl i)
  have hlin : LinearIndependent ℂ v :=
    Module.End.eigenvectors_linearIndependent' (Matrix.mulVecLin M) l hi v fun i =>
      ⟨Module.End.mem_eigenspace_iff.2 (hm i), hv i⟩
  refine ⟨Matrix.of fun r c => v c r, ?_, fun i => hm i⟩
  rw [← Matrix.linearIndependent_cols_iff_isUnit]
  exact hlin

theorem mul_diag_of_cols {H P : Matrix (Fin 3) (Fin 3) ℂ} {d : Fin 3 → ℂ} (h : ∀ i, H *ᵥ P.col i = d i • P.col i) :
    H * P = P * diagonal d := by
  ext r c
  have := congrFun (h c) r
  rw [Matrix.mul_diagonal]
  rw [Matrix.mulVec, dotProduct] at this
  rw [Matrix.mul_apply]
  rw [show (∑ j, H r j * P j c) = ∑ i, H r i * P.col c i from rfl, this]
  simp [Matrix.col, mul_comm]

/-- Three different points of a circle about the origin do not lie on a line. -/
theorem not_collinear {g : ℂ} (hg : g ≠ 0) {a b c : ℂ} (ha : ‖a‖ = 1) (hb : ‖b‖ = 1) (hc : ‖c‖ = 1) (hab : a ≠ b)
    (hbc : b ≠ c) (hca : c ≠ a) (h1 : (star g * a).im = (star g * b).im) (h2 : (star g * b).im = (star g * c).im) :
    False := by
  have hs : star g ≠ 0 := star_ne_zero.2 hg
  have hn : ∀ {x : ℂ}, ‖x‖ = 1 → (star g * x).re * (star g * x).re + (star g * x).im * (star g * x).im = ‖g‖ ^ 2 := by
    intro x hx
    rw [← Complex.normSq_apply, Complex.normSq_eq_norm_sq, norm_mul, norm_star, hx, mul_one]
  have key : ∀ {x y : ℂ}, (star g * x).im = (star g * y).im → (star g * x).re = (star g * y).re → x = y :=
    fun h h' => mul_left_cancel₀ hs (Complex.ext h' h)
  have na := hn ha
  have nb := hn hb
  have nc := hn hc
  rw [h1] at na
  rw [← h2] at nc
  have e1 : (star g * a).re = -(star g * b).re := by
    have : (star g * a).re * (star g * a).re = (star g * b).re * (star g * b).re := by linarith
    rcases mul_self_eq_mul_self_iff.1 this with h | h
    · exact absurd (key h1 h) hab
    · exact h
  have e2 : (star g * c).re = -(star g * b).re := by
    have : (star g * c).re * (star g * c).re = (star g * b).re * (star g * b).re := by linarith
    rcases mul_self_eq_mul_self_iff.1 this with h | h
    · exact absurd (key h2.symm h).symm hbc
    · exact h
  exact hca (key (by rw [← h2, h1]) (by rw [e1, e2]))

/-- The denominator of the logarithm does not vanish. -/
theorem log_denom {f0 f1 f2 : ℂ} {x : Fin 3 → ℝ} {l : Fin 3 → ℂ} (hP : ∀ k, f0 + f1 * x k + f2 * (x k * x k) = l k)
    (hl : ∀ k, ‖l k‖ = 1) (hi : Function.Injective l) : f1.im * f2.re - f1.re * f2.im ≠ 0 := by
  intro h0
  have d01 : l 0 ≠ l 1 := fun h => absurd (hi h) (by decide)
  have d12 : l 1 ≠ l 2 := fun h => absurd (hi h) (by decide)
  have d20 : l 2 ≠ l 0 := fun h => absurd (hi h) (by decide)
  by_cases h2 : f2 = 0
  · have h1 : f1 ≠ 0 := by
      intro h1
      apply d01
      rw [← hP 0, ← hP 1, h1, h2]
      ring
    have e : ∀ k, (star f1 * l k).im = (star f1 * f0).im := by
      intro k
      rw [← hP k, h2]
      simp
      ring
    exact not_collinear h1 (hl 0) (hl 1) (hl 2) d01 d12 d20 (by rw [e, e]) (by rw [e, e])
  · have e : ∀ k, (star f2 * l k).im = (star f2 * f0).im := by
      intro k
      rw [← hP k]
      simp
      linear_combination x k * h0
    exact not_collinear h2 (hl 0) (hl 1) (hl 2) d01 d12 d20 (by rw [e, e]) (by rw [e, e])

/-- The matrix of the formula. -/
noncomputable def logH (M : Matrix (Fin 3) (Fin 3) ℂ) (f2 trce : ℂ) (imf : ℝ) : Matrix (Fin 3) (Fin 3) ℂ :=
  trce • (star f2 • M - f2 • Mᴴ) - (imf : ℂ) • 1

theorem logH_vec {M : Matrix (Fin 3) (Fin 3) ℂ} (hM : M ∈ unitaryGroup (Fin 3) ℂ) {f0 f1 f2 l : ℂ} {x : ℝ}
    (hP : f0 + f1 * x + f2 * (x * x) = l) (hl : l * star l = 1) {v : Fin 3 → ℂ} (hv : M *ᵥ v = l • v) {d : ℝ}
    (hd : d = f1.im * f2.re - f1.re * f2.im) (hd0 : d ≠ 0) :
    logH M f2 (-I * (1 / d : ℝ) / 2) ((f0.im * f2.re - f0.re * f2.im) * (1 / d)) *ᵥ v = (x : ℂ) • v := by
  have hu := mem_unitaryGroup_iff'.1 hM
  rw [star_eq_conjTranspose] at hu
  have hs : Mᴴ *ᵥ v = star l • v := by
    have : Mᴴ *ᵥ (M *ᵥ v) = v := by rw [Matrix.mulVec_mulVec, hu, Matrix.one_mulVec]
    rw [hv, Matrix.mulVec_smul] at this
    calc Mᴴ *ᵥ v = (star l * l) • (Mᴴ *ᵥ v) := by rw [mul_comm, hl, one_smul]
      _ = star l • v := by rw [mul_smul, this]
  unfold logH
  rw [Matrix.sub_mulVec, Matrix.smul_mulVec, Matrix.sub_mulVec, Matrix.smul_mulVec, Matrix.smul_mulVec, Matrix.smul_mulVec,
    hv, hs, Matrix.one_mulVec, smul_smul, smul_smul, ← sub_smul, smul_smul, ← sub_smul]
  congr 1
  have hdc : (d : ℂ) ≠ 0 := Complex.ofReal_ne_zero.2 hd0
  have e1 : star f2 * l - f2 * star l = 2 * I * ((star f2 * l).im : ℝ) := by
    refine Complex.ext ?_ ?_
    · simp
    · simp
      ring
  have e2 : (star f2 * l).im = (f0.im * f2.re - f0.re * f2.im) + d * x := by
    rw [← hP, hd]
    simp
    ring
  rw [e1, e2]
  push_cast
  field_simp
  linear_combination (-(((f0.im : ℂ) * f2.re - f0.re * f2.im) + d * x)) * I_sq

theorem logMatrix_toM {Q U : Arr ℂ} {f2 : ℂ} {m imf : ℝ} (ht : (logH (toM 3 U) f2 (-I * m / 2) imf).trace = 0) :
    toM 3 (logMatrix Q U f2 (-I * m / 2) imf) = logH (toM 3 U) f2 (-I * m / 2) imf := by
  rw [Matrix.trace_fin_three] at ht
  ext i j
  fin_cases i <;> fin_cases j
  all_goals simp only [logH, toM_apply, logMatrix, Matrix.sub_apply, Matrix.smul_apply, conjTranspose_apply,
    smul_eq_mul] at ht ⊢
  all_goals norm_num at ht ⊢
  all_goals first
    | ring1
    | linear_combination -ht

end GLU.Mat
