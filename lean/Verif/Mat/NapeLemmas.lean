import Verif.Mat.Nape
import Verif.Mat.InvertProps
import Verif.Mat.MMulProps
import Verif.Mat.UNopsProps
import Verif.Mat.LUProps
import Mathlib.LinearAlgebra.Matrix.PosDef
import Mathlib.Analysis.Complex.Order
import Mathlib.Analysis.Matrix.Order

/-!
# The n-APE projection: lemmas
-/

namespace GLU.Mat

open Complex Matrix Finset
open scoped ComplexOrder

theorem toM_addOne (NC : ℕ) (M : Arr ℂ) : toM NC (addOne NC M) = toM NC M + 1 := by
  unfold addOne
  ext i j
  have := add_constant_loop NC M 1 NC i j j.2 le_rfl
  rw [toM_apply, this]
  by_cases h : i = j
  · subst h; simp
  · have : (i : ℕ) ≠ j := fun h' => h (Fin.ext h')
    simp [h, this]

theorem inverseNumbers_some {NC : ℕ} (hN : 0 < NC) {M : Arr ℂ} (hd : (toM NC M).det ≠ 0) :
    ∃ X, inverseNumbers NC M = some X ∧ toM NC X = (toM NC M)⁻¹ := by
  have key : ∃ v, inverse NC M = some v ∧ ∃ X : Matrix (Fin NC) (Fin NC) ℂ,
      (∀ r c : Fin NC, v (c + r * NC) = some (X r c)) ∧ X * toM NC M = 1 := by
    by_cases h2 : NC = 2
    · subst h2
      obtain ⟨v, h, X, h1, h2, -⟩ := C19_two_partial M hd
      exact ⟨v, h, X, h1, h2⟩
    · obtain ⟨h1, h3⟩ := C19_inverse_partial hN h2 M
      cases hv : inverse NC M with
      | none => exact absurd (h1.1 hv) hd
      | some v =>
        obtain ⟨X, h4, h5, -⟩ := h3 v hv
        exact ⟨v, rfl, X, h4, h5⟩
  obtain ⟨v, hv, X, h1, h2⟩ := key
  have hall : ∀ n < NC * NC, (v n).isSome := by
    intro n hn
    have := h1 ⟨n / NC, Nat.div_lt_of_lt_mul hn⟩ ⟨n % NC, Nat.mod_lt _ hN⟩
    dsimp only at this
    rw [show n % NC + n / NC * NC = n by rw [Nat.mul_comm]; exact Nat.mod_add_div n NC] at this
    rw [this]
    rfl
  refine ⟨fun n => (v n).getD 0, ?_, ?_⟩
  · unfold inverseNumbers
    rw [hv, Option.bind_some, if_pos hall]
  · rw [Matrix.inv_eq_left_inv h2]
    ext i j
    rw [toM_apply, show (j : ℕ) + NC * i = j + i * NC by ring, h1 i j]
    rfl

theorem toM_smulR (NC : ℕ) (a : Arr ℂ) (c : ℂ) : toM NC (fun i => a i * c) = c • toM NC a := by
  ext i j
  rw [Matrix.smul_apply, toM_apply, toM_apply, smul_eq_mul, mul_comm]

theorem toM_quarter (NC : ℕ) (a b : Arr ℂ) : toM NC (fun i => 1 / 4 * (a i + b i)) = (1 / 4 : ℂ) • (toM NC a + toM NC b) := by
  ext i j
  rw [Matrix.smul_apply, Matrix.add_apply, toM_apply, toM_apply, toM_apply, smul_eq_mul]

theorem diagTol_eq (NC : ℕ) (M : Arr ℂ) : diagTol NC M = |∑ i : Fin NC, ‖toM NC M i i‖ ^ 2 - NC| := by
  unfold diagTol
  congr 2
  have e : ∀ n, forN n (fun i (tol : ℝ) =>
      let c := M (i * (NC + 1))
      tol + (c.re * c.re + c.im * c.im)) 0 = ∑ i ∈ range n, ‖M (i * (NC + 1))‖ ^ 2 := by
    intro n
    induction n with
    | zero => rfl
    | succ n ih =>
      rw [forN, ih, sum_range_succ, ← Complex.normSq_eq_norm_sq, Complex.normSq_apply]
  rw [e, ← Fin.sum_univ_eq_sum_range (fun i => ‖M (i * (NC + 1))‖ ^ 2) NC]
  refine sum_congr rfl fun i _ => ?_
  rw [toM_apply, show (i : ℕ) + NC * i = i * (NC + 1) by ring]

/-- The matrices of one pass. -/
theorem denmanZ_step_some {NC : ℕ} (hN : 0 < NC) (Z : Arr ℂ) {M : Arr ℂ} (hd : (toM NC M).det ≠ 0) :
    ∃ Z' M', denmanZ_step NC Z M = some (Z', M', diagTol NC M') ∧
      toM NC Z' = (1 / 2 : ℂ) • ((1 + (toM NC M)⁻¹) * toM NC Z) ∧
      toM NC M' = (1 / 4 : ℂ) • (toM NC M + 2 + (toM NC M)⁻¹) := by
  obtain ⟨X, h1, h2⟩ := inverseNumbers_some hN hd
  unfold denmanZ_step
  rw [h1, Option.map_some]
  refine ⟨_, _, rfl, ?_, ?_⟩
  · rw [toM_smulR, C10_multab_atomic_left, toM_addOne, h2, add_comm]
  · rw [toM_quarter, toM_addOne, toM_addOne, h2]
    congr 1
    rw [← one_add_one_eq_two]
    abel

/-! ## Positive matrices -/

section positive

variable {n : Type} [Fintype n] [DecidableEq n]

/-- The new `M` of a pass. -/
noncomputable def nextM (M : Matrix n n ℂ) : Matrix n n ℂ := (1 / 4 : ℂ) • (M + 2 + M⁻¹)

theorem posDef_quarter {M : Matrix n n ℂ} (h : M.PosDef) : ((1 / 4 : ℂ) • M).PosDef := by
  have : (1 / 4 : ℂ) • M = (1 / 4 : ℝ) • M := by
    ext i j
    simp [Matrix.smul_apply]
  rw [this]
  exact h.smul (by norm_num)

theorem posSemidef_quarter {M : Matrix n n ℂ} (h : M.PosSemidef) : ((1 / 4 : ℂ) • M).PosSemidef := by
  have : (1 / 4 : ℂ) • M = (1 / 4 : ℝ) • M := by
    ext i j
    simp [Matrix.smul_apply]
  rw [this]
  exact h.smul (by norm_num)

theorem posDef_det {M : Matrix n n ℂ} (h : M.PosDef) : IsUnit M.det := (Matrix.isUnit_iff_isUnit_det _).1 h.isUnit

theorem posDef_two : (2 : Matrix n n ℂ).PosDef := by
  rw [← one_add_one_eq_two]
  exact Matrix.PosDef.one.add Matrix.PosDef.one

theorem nextM_posDef {M : Matrix n n ℂ} (h : M.PosDef) : (nextM M).PosDef :=
  posDef_quarter ((h.add posDef_two).add h.inv)

theorem nextM_sub {M : Matrix n n ℂ} (h : M.PosDef) :
    nextM M - 1 = (1 / 4 : ℂ) • ((M - 1)ᴴ * M⁻¹ * (M - 1)) := by
  have hu := posDef_det h
  have e : (M - 1)ᴴ = M - 1 := by
    rw [conjTranspose_sub, conjTranspose_one, h.isHermitian]
  have e2 : (M - 1) * M⁻¹ * (M - 1) = M - 2 + M⁻¹ := by
    rw [sub_mul, Matrix.mul_nonsing_inv _ hu, mul_sub, mul_one, sub_mul, one_mul, one_mul, Matrix.nonsing_inv_mul _ hu,
      ← one_add_one_eq_two]
    abel
  have e3 : (1 : Matrix n n ℂ) = (1 / 4 : ℂ) • (4 : Matrix n n ℂ) := by
    ext i j
    rw [Matrix.smul_apply, show (4 : Matrix n n ℂ) = (4 : ℂ) • 1 by
      rw [← Algebra.algebraMap_eq_smul_one, map_ofNat], Matrix.smul_apply, smul_eq_mul, smul_eq_mul]
    ring
  unfold nextM
  rw [e, e2]
  nth_rw 1 [e3]
  rw [← smul_sub]
  congr 1
  rw [show (4 : Matrix n n ℂ) = 2 + 2 by norm_num]
  abel

theorem nextM_ge {M : Matrix n n ℂ} (h : M.PosDef) : (nextM M - 1).PosSemidef := by
  rw [nextM_sub h]
  exact posSemidef_quarter (h.inv.posSemidef.conjTranspose_mul_mul_same _)

theorem entry_le {E : Matrix n n ℂ} (h : E.PosSemidef) (i j : n) : ‖E i j‖ ^ 2 ≤ (E i i).re * (E j j).re := by
  have hd := (h.submatrix ![i, j]).det_nonneg
  rw [det_fin_two] at hd
  simp only [submatrix_apply, cons_val_zero, cons_val_one] at hd
  have hs : E j i = star (E i j) := (h.isHermitian.apply j i).symm
  have hi : (E i i).im = 0 := by
    have := Complex.nonneg_iff.1 (h.diag_nonneg (i := i))
    exact this.2.symm
  have hj : (E j j).im = 0 := by
    have := Complex.nonneg_iff.1 (h.diag_nonneg (i := j))
    exact this.2.symm
  have h0 := (Complex.nonneg_iff.1 hd).1
  rw [hs] at h0
  have h1 : (E i j * star (E i j)).re = ‖E i j‖ ^ 2 := by
    rw [Complex.star_def, Complex.mul_conj, Complex.ofReal_re, Complex.normSq_eq_norm_sq]
  rw [Complex.sub_re, h1, Complex.mul_re, hi, zero_mul, sub_zero] at h0
  linarith

/-- What holds for the two matrices in every pass; `A` is the matrix on entry. -/
structure Inv (A Z M : Matrix n n ℂ) : Prop where
  posM : M.PosDef
  posZ : Z.PosDef
  comm : Z * M = M * Z
  root : Z * Z * A = M

open scoped MatrixOrder in
theorem posDef_mul {A B : Matrix n n ℂ} (hA : A.PosDef) (hB : B.PosDef) (h : A * B = B * A) : (A * B).PosDef :=
  isStrictlyPositive_iff_posDef.1 ((IsStrictlyPositive.commute_iff hA.isStrictlyPositive hB.isStrictlyPositive).1 h)

theorem comm_inv {Z M : Matrix n n ℂ} (hu : IsUnit M.det) (h : Z * M = M * Z) : Z * M⁻¹ = M⁻¹ * Z := by
  calc Z * M⁻¹ = M⁻¹ * M * (Z * M⁻¹) := by rw [Matrix.nonsing_inv_mul _ hu, one_mul]
    _ = M⁻¹ * (M * Z) * M⁻¹ := by simp only [mul_assoc]
    _ = M⁻¹ * Z * (M * M⁻¹) := by rw [← h]; simp only [mul_assoc]
    _ = M⁻¹ * Z := by rw [Matrix.mul_nonsing_inv _ hu, mul_one]

theorem Inv.step {A Z M : Matrix n n ℂ} (h : Inv A Z M) : Inv A ((1 / 2 : ℂ) • ((1 + M⁻¹) * Z)) (nextM M) := by
  have hu := posDef_det h.posM
  have hc := comm_inv hu h.comm
  refine ⟨nextM_posDef h.posM, ?_, ?_, ?_⟩
  · have e : (1 / 2 : ℂ) • ((1 + M⁻¹) * Z) = (1 / 2 : ℝ) • (Z + M⁻¹ * Z) := by
      rw [add_mul, one_mul]
      ext i j
      simp [Matrix.smul_apply]
      ring
    rw [e]
    exact (h.posZ.add (posDef_mul h.posM.inv h.posZ hc.symm)).smul (by norm_num)
  · have h2 : Z * (M + 2 + M⁻¹) = (M + 2 + M⁻¹) * Z := by
      rw [mul_add, mul_add, add_mul, add_mul, h.comm, hc, mul_two, two_mul]
    have h3 : M⁻¹ * (M + 2 + M⁻¹) = (M + 2 + M⁻¹) * M⁻¹ := by
      rw [mul_add, mul_add, add_mul, add_mul, Matrix.nonsing_inv_mul _ hu, Matrix.mul_nonsing_inv _ hu, mul_two, two_mul]
    unfold nextM
    rw [smul_mul_smul_comm, smul_mul_smul_comm, mul_comm (1 / 2 : ℂ)]
    congr 1
    rw [mul_assoc, h2, ← mul_assoc, ← mul_assoc]
    congr 1
    rw [add_mul, one_mul, h3, mul_add, mul_one]
  · have h4 : (1 + M⁻¹) * Z * ((1 + M⁻¹) * Z) * A = (1 + M⁻¹) * (1 + M⁻¹) * M := by
      have : Z * (1 + M⁻¹) = (1 + M⁻¹) * Z := by rw [mul_add, add_mul, hc, mul_one, one_mul]
      calc (1 + M⁻¹) * Z * ((1 + M⁻¹) * Z) * A = (1 + M⁻¹) * (Z * (1 + M⁻¹)) * Z * A := by simp only [mul_assoc]
        _ = (1 + M⁻¹) * (1 + M⁻¹) * (Z * Z * A) := by rw [this]; simp only [mul_assoc]
        _ = _ := by rw [h.root]
    have h5 : (1 + M⁻¹) * (1 + M⁻¹) * M = M + 2 + M⁻¹ := by
      rw [mul_assoc, add_mul, add_mul, one_mul, one_mul, Matrix.nonsing_inv_mul _ hu, mul_add, mul_one,
        Matrix.nonsing_inv_mul _ hu, ← one_add_one_eq_two]
      abel
    unfold nextM
    rw [smul_mul_smul_comm, smul_mul_assoc, h4, h5]
    norm_num

end positive

end GLU.Mat
