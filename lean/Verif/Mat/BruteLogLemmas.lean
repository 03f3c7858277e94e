import Verif.Mat.BruteLog
import Verif.Mat.NapeProps

/-!
# The logarithm for more than three colours: lemmas
-/

namespace GLU.Mat

open Complex Matrix Finset
open scoped ComplexOrder ComplexConjugate

theorem inverseInto_some {NC : ℕ} (hN : 0 < NC) (old : Option (Arr ℂ)) {M : Arr ℂ} (hd : (toM NC M).det ≠ 0) :
    ∃ X, inverseInto NC old M = some X ∧ toM NC X = (toM NC M)⁻¹ := by
  obtain ⟨X, h1, h2⟩ := inverseNumbers_some hN hd
  refine ⟨X, ?_, h2⟩
  unfold inverseNumbers at h1
  unfold inverseInto
  cases h : inverse NC M with
  | none => rw [h] at h1; cases h1
  | some v => rw [h] at h1; exact h1

theorem inverseInto_singular {NC : ℕ} (hN : 0 < NC) (h2 : NC ≠ 2) (old : Option (Arr ℂ)) {M : Arr ℂ}
    (hd : (toM NC M).det = 0) : inverseInto NC old M = old := by
  unfold inverseInto
  rw [((C19_inverse_partial hN h2 M).1).2 hd]

/-- The matrices of one pass. -/
theorem rootY_step_of {NC : ℕ} {s : RootState} {X : Arr ℂ} (h : inverseInto NC s.INVM s.M = some X) :
    ∃ t, rootY_step NC s = some t ∧
      toM NC t.Y = (1 / 2 : ℂ) • (toM NC s.Y * (1 + toM NC X)) ∧
      toM NC t.M = (1 / 4 : ℂ) • (toM NC s.M + 2 + toM NC X) ∧
      ∃ J, t.INVM = some J ∧ toM NC J = toM NC X + 1 := by
  unfold rootY_step
  rw [h, Option.map_some]
  refine ⟨_, rfl, ?_, ?_, _, rfl, toM_addOne _ _⟩
  · rw [toM_smulR, C10_multab_atomic_right, toM_addOne, add_comm]
  · rw [toM_quarter, toM_addOne, toM_addOne]
    congr 1
    rw [← one_add_one_eq_two]
    abel

section unitary

variable {n : Type} [Fintype n] [DecidableEq n]

/-- What holds after the first pass, for a unitary matrix `A` on entry. -/
structure InvY (A Y M : Matrix n n ℂ) : Prop where
  posM : M.PosDef
  gram : Yᴴ * Y = M
  comm : Y * M = M * Y
  root : Y * Y = A * M
  posY : (Y + Yᴴ).PosDef

theorem InvY.first {U : Matrix n n ℂ} (hU : Uᴴ * U = 1) (hd : (1 + U).det ≠ 0) :
    InvY U ((1 / 2 : ℂ) • (U * (1 + Uᴴ))) ((1 / 4 : ℂ) • (U + 2 + Uᴴ)) := by
  have hU' : U * Uᴴ = 1 := mul_eq_one_comm.1 hU
  have eY : U * (1 + Uᴴ) = 1 + U := by rw [mul_add, hU', mul_one, add_comm]
  have hg : (1 + U)ᴴ * (1 + U) = U + 2 + Uᴴ := by
    rw [conjTranspose_add, conjTranspose_one, add_mul, one_mul, mul_add, hU, mul_one, ← one_add_one_eq_two]
    abel
  have hpos : (U + 2 + Uᴴ).PosDef := by
    rw [← hg]
    refine Matrix.PosDef.conjTranspose_mul_self _ ?_
    exact Matrix.mulVec_injective_of_isUnit ((Matrix.isUnit_iff_isUnit_det _).2 (isUnit_iff_ne_zero.2 hd))
  have h2 : (star (1 / 2 : ℂ)) = 1 / 2 := by
    rw [Complex.star_def, map_div₀, map_one, Complex.conj_ofNat]
  have hc : (1 + U) * (U + 2 + Uᴴ) = (U + 2 + Uᴴ) * (1 + U) := by
    simp only [← one_add_one_eq_two, add_mul, mul_add, one_mul, mul_one, hU, hU']
    abel
  rw [eY]
  refine ⟨posDef_quarter hpos, ?_, ?_, ?_, ?_⟩
  · rw [conjTranspose_smul, h2, smul_mul_smul_comm, hg]
    norm_num
  · rw [smul_mul_smul_comm, smul_mul_smul_comm, hc, mul_comm (1 / 2 : ℂ)]
  · rw [smul_mul_smul_comm, mul_smul_comm]
    have : (1 + U) * (1 + U) = U * (U + 2 + Uᴴ) := by
      simp only [← one_add_one_eq_two, add_mul, mul_add, one_mul, mul_one, hU']
      abel
    rw [this]
    norm_num
  · have : (1 / 2 : ℂ) • (1 + U) + ((1 / 2 : ℂ) • (1 + U))ᴴ = (1 / 2 : ℝ) • (U + 2 + Uᴴ) := by
      rw [conjTranspose_smul, h2, conjTranspose_add, conjTranspose_one, ← smul_add,
        show 1 + U + (1 + Uᴴ) = U + 2 + Uᴴ by rw [← one_add_one_eq_two]; abel]
      ext i j
      rw [Matrix.smul_apply, Matrix.smul_apply, Complex.real_smul, smul_eq_mul]
      push_cast
      rfl
    rw [this]
    exact hpos.smul (by norm_num)

theorem InvY.step {A Y M : Matrix n n ℂ} (h : InvY A Y M) :
    InvY A ((1 / 2 : ℂ) • (Y * (1 + M⁻¹))) (nextM M) := by
  have hu := posDef_det h.posM
  have hc := comm_inv hu h.comm
  have hcY : Y * (1 + M⁻¹) = (1 + M⁻¹) * Y := by rw [mul_add, add_mul, hc, mul_one, one_mul]
  have hH : (1 + M⁻¹)ᴴ = 1 + M⁻¹ := by
    rw [conjTranspose_add, conjTranspose_one, h.posM.inv.isHermitian]
  have hcYH : Yᴴ * (1 + M⁻¹) = (1 + M⁻¹) * Yᴴ := by
    have := congrArg conjTranspose hcY
    rw [conjTranspose_mul, conjTranspose_mul, hH] at this
    exact this.symm
  have h2 : (star (1 / 2 : ℂ)) = 1 / 2 := by
    rw [Complex.star_def, map_div₀, map_one, Complex.conj_ofNat]
  have h5 : M * ((1 + M⁻¹) * (1 + M⁻¹)) = M + 2 + M⁻¹ := by
    rw [← mul_assoc]
    simp only [← one_add_one_eq_two, add_mul, mul_add, one_mul, mul_one, Matrix.mul_nonsing_inv _ hu]
    abel
  have h3 : (1 + M⁻¹) * (M + 2 + M⁻¹) = (M + 2 + M⁻¹) * (1 + M⁻¹) := by
    simp only [← one_add_one_eq_two, add_mul, mul_add, one_mul, mul_one, Matrix.mul_nonsing_inv _ hu,
      Matrix.nonsing_inv_mul _ hu]
    abel
  have hcM : Y * (M + 2 + M⁻¹) = (M + 2 + M⁻¹) * Y := by
    rw [mul_add, mul_add, add_mul, add_mul, h.comm, hc, mul_two, two_mul]
  refine ⟨nextM_posDef h.posM, ?_, ?_, ?_, ?_⟩
  · unfold nextM
    rw [conjTranspose_smul, h2, smul_mul_smul_comm, conjTranspose_mul, hH, ← h5]
    rw [show (1 + M⁻¹) * Yᴴ * (Y * (1 + M⁻¹)) = Yᴴ * Y * ((1 + M⁻¹) * (1 + M⁻¹)) by
      rw [← hcYH, mul_assoc, ← mul_assoc (1 + M⁻¹), ← hcY]; simp only [mul_assoc], h.gram]
    norm_num
  · unfold nextM
    rw [smul_mul_smul_comm, smul_mul_smul_comm, mul_comm (1 / 2 : ℂ), mul_assoc, h3, ← mul_assoc, hcM, mul_assoc]
  · unfold nextM
    rw [smul_mul_smul_comm, mul_smul_comm, ← h5]
    rw [show Y * (1 + M⁻¹) * (Y * (1 + M⁻¹)) = Y * Y * ((1 + M⁻¹) * (1 + M⁻¹)) by
      rw [mul_assoc, ← mul_assoc (1 + M⁻¹), ← hcY]; simp only [mul_assoc], h.root]
    rw [mul_assoc]
    norm_num
  · have e : (1 / 2 : ℂ) • (Y * (1 + M⁻¹)) + ((1 / 2 : ℂ) • (Y * (1 + M⁻¹)))ᴴ =
        (1 / 2 : ℝ) • ((Y + Yᴴ) * (1 + M⁻¹)) := by
      rw [conjTranspose_smul, h2, conjTranspose_mul, hH, ← hcYH, ← smul_add, ← add_mul]
      ext i j
      simp [Matrix.smul_apply]
    rw [e]
    refine (posDef_mul h.posY (Matrix.PosDef.one.add h.posM.inv) ?_).smul (by norm_num)
    rw [add_mul, mul_add (1 + M⁻¹), hcY, hcYH]

end unitary

/-! ## The loop of the root -/

theorem rootY_step_inv {NC : ℕ} (hN : 0 < NC) {A : Matrix (Fin NC) (Fin NC) ℂ} {s : RootState}
    (h : InvY A (toM NC s.Y) (toM NC s.M)) :
    ∃ t, rootY_step NC s = some t ∧ InvY A (toM NC t.Y) (toM NC t.M) ∧
      toM NC t.M = nextM (toM NC s.M) ∧ (toM NC t.M - 1).PosSemidef := by
  obtain ⟨X, h1, h2⟩ := inverseInto_some hN s.INVM (posDef_det h.posM).ne_zero
  obtain ⟨t, e1, e2, e3, -⟩ := rootY_step_of h1
  rw [h2] at e2 e3
  have e3' : toM NC t.M = nextM (toM NC s.M) := e3
  refine ⟨t, e1, ?_, e3', ?_⟩
  · rw [e2, e3']
    exact h.step
  · rw [e3']
    exact nextM_ge h.posM

theorem rootY_loop_inv {NC : ℕ} (hN : 0 < NC) {A : Matrix (Fin NC) (Fin NC) ℂ} (left : ℕ) {s : RootState}
    (h : InvY A (toM NC s.Y) (toM NC s.M)) :
    ∃ b Y, rootY_loop NC (left + 1) s = some (b, Y) ∧
      (b = true → ∃ M, InvY A (toM NC Y) M ∧ ∀ i j, ‖(M - 1) i j‖ ≤ PREC_TOL NC / 2) := by
  induction left generalizing s with
  | zero =>
    obtain ⟨t, h1, -⟩ := rootY_step_inv hN h
    refine ⟨false, t.Y, ?_, by simp⟩
    rw [rootY_loop, h1]
    rfl
  | succ left ih =>
    obtain ⟨t, h1, h2, h3, h4⟩ := rootY_step_inv hN h
    rw [rootY_loop, h1, Option.bind_some, if_neg (by omega)]
    by_cases ht : diagTol NC t.M > PREC_TOL NC
    · rw [if_pos ht]
      exact ih h2
    · rw [if_neg ht]
      refine ⟨true, t.Y, rfl, fun _ => ⟨_, h2, tol_entries h4 ?_⟩⟩
      rw [not_lt, diagTol_eq] at ht
      rw [Fintype.card_fin]
      exact le_trans (le_abs_self _) ht

theorem rootY_step_pos {NC : ℕ} (hN : 0 < NC) {s : RootState} (h : (toM NC s.M).PosDef) :
    ∃ t, rootY_step NC s = some t ∧ toM NC t.Y = (1 / 2 : ℂ) • (toM NC s.Y * (1 + (toM NC s.M)⁻¹)) ∧
      toM NC t.M = nextM (toM NC s.M) ∧ (toM NC t.M).PosDef ∧ (toM NC t.M - 1).PosSemidef := by
  obtain ⟨X, h1, h2⟩ := inverseInto_some hN s.INVM (posDef_det h).ne_zero
  obtain ⟨t, e1, e2, e3, -⟩ := rootY_step_of h1
  rw [h2] at e2 e3
  have e3' : toM NC t.M = nextM (toM NC s.M) := e3
  refine ⟨t, e1, e2, e3', ?_, ?_⟩
  · rw [e3']
    exact nextM_posDef h
  · rw [e3']
    exact nextM_ge h

theorem rootY_loop_converges {NC : ℕ} (hN : 0 < NC) (left : ℕ) {s : RootState}
    (hl : 2 ≤ left) (h : (toM NC s.M).PosDef) (h1 : (toM NC s.M - 1).PosSemidef)
    (hs : excess (toM NC s.M) ≤ reach left) :
    ∃ Y B, rootY_loop NC left s = some (true, Y) ∧ toM NC Y = toM NC s.Y * B := by
  induction left, hl using Nat.le_induction generalizing s with
  | base =>
    obtain ⟨t, e1, e2, e3, e5, e4⟩ := rootY_step_pos hN h
    refine ⟨t.Y, (1 / 2 : ℂ) • (1 + (toM NC s.M)⁻¹), ?_, by rw [e2, mul_smul_comm]⟩
    rw [rootY_loop, e1, Option.bind_some, if_neg (by omega), if_neg]
    rw [not_lt, diagTol_eq]
    have := tol_le e4
    rw [Fintype.card_fin] at this
    refine le_trans this ?_
    have q := excess_quadratic h h1
    rw [← e3] at q
    have p0 := excess_nonneg h1
    have p1 := excess_nonneg e4
    have hs' : excess (toM NC s.M) ≤ 1 / 2 ^ 23 := hs
    have hq : excess (toM NC t.M) ≤ 1 / 2 ^ 48 := by
      have : excess (toM NC s.M) ^ 2 ≤ (1 / 2 ^ 23) ^ 2 := pow_le_pow_left₀ p0 hs' 2
      norm_num at this ⊢
      linarith
    have hN1 : (1 : ℝ) ≤ NC := by exact_mod_cast hN
    have hp : (1e-14 : ℝ) ≤ PREC_TOL NC := by
      unfold PREC_TOL
      norm_num
      linarith
    refine le_trans ?_ hp
    have hq2 : excess (toM NC t.M) ^ 2 ≤ (1 / 2 ^ 48) ^ 2 := pow_le_pow_left₀ p1 hq 2
    norm_num at hq hq2 ⊢
    linarith
  | succ left hl ih =>
    obtain ⟨t, e1, e2, e3, e5, e4⟩ := rootY_step_pos hN h
    rw [rootY_loop, e1, Option.bind_some, if_neg (by omega)]
    by_cases ht : diagTol NC t.M > PREC_TOL NC
    · rw [if_pos ht]
      obtain ⟨Y, B, r1, r2⟩ := ih e5 e4 (reach_step left hl (excess_nonneg h1) hs
        (by rw [e3]; exact excess_linear h h1) (by rw [e3]; exact excess_quadratic h h1))
      exact ⟨Y, (1 / 2 : ℂ) • (1 + (toM NC s.M)⁻¹) * B, r1, by rw [r2, e2, ← mul_smul_comm, mul_assoc]⟩
    · rw [if_neg ht]
      exact ⟨t.Y, (1 / 2 : ℂ) • (1 + (toM NC s.M)⁻¹), rfl, by rw [e2, mul_smul_comm]⟩

/-- From a positive matrix, one more pass allowed. -/
theorem rootY_loop_pos {NC : ℕ} (hN : 0 < NC) (left : ℕ) {s : RootState} (hl : 2 ≤ left) (h : (toM NC s.M).PosDef)
    (hs : ((Matrix.trace (toM NC s.M)).re + (Matrix.trace (toM NC s.M)⁻¹).re) / 4 - NC / 2 ≤ reach left) :
    ∃ Y B, rootY_loop NC (left + 1) s = some (true, Y) ∧ toM NC Y = toM NC s.Y * B := by
  obtain ⟨t, e1, e2, e3, e5, e4⟩ := rootY_step_pos hN h
  rw [rootY_loop, e1, Option.bind_some, if_neg (by omega)]
  by_cases ht : diagTol NC t.M > PREC_TOL NC
  · rw [if_pos ht]
    obtain ⟨Y, B, r1, r2⟩ := rootY_loop_converges hN left hl e5 e4 (by
      rw [e3, excess_next h, Fintype.card_fin]
      exact hs)
    exact ⟨Y, (1 / 2 : ℂ) • (1 + (toM NC s.M)⁻¹) * B, r1, by rw [r2, e2, ← mul_smul_comm, mul_assoc]⟩
  · rw [if_neg ht]
    exact ⟨t.Y, (1 / 2 : ℂ) • (1 + (toM NC s.M)⁻¹), rfl, by rw [e2, mul_smul_comm]⟩

theorem unitary_det {n : Type} [Fintype n] [DecidableEq n] {U : Matrix n n ℂ} (hU : Uᴴ * U = 1) : U.det ≠ 0 := by
  intro h
  have := congrArg Matrix.det hU
  rw [det_mul, h, mul_zero, det_one] at this
  exact zero_ne_one this

/-- The first pass. -/
theorem rootY_first {NC : ℕ} (hN : 0 < NC) {U : Arr ℂ} (hU : (toM NC U)ᴴ * toM NC U = 1) (old : Option (Arr ℂ)) :
    ∃ t, rootY_step NC ⟨U, U, old⟩ = some t ∧
      toM NC t.Y = (1 / 2 : ℂ) • (toM NC U * (1 + (toM NC U)ᴴ)) ∧
      toM NC t.M = (1 / 4 : ℂ) • (toM NC U + 2 + (toM NC U)ᴴ) ∧
      ∃ J, t.INVM = some J ∧ toM NC J = (toM NC U)ᴴ + 1 := by
  obtain ⟨X, h1, h2⟩ := inverseInto_some hN old (unitary_det hU)
  rw [Matrix.inv_eq_left_inv hU] at h2
  obtain ⟨t, e1, e2, e3, e4⟩ := rootY_step_of (s := ⟨U, U, old⟩) h1
  rw [h2] at e2 e3 e4
  exact ⟨t, e1, e2, e3, e4⟩

/-- The test after the first pass, where the matrix is below the unit matrix. -/
theorem tol_below {n : Type} [Fintype n] [DecidableEq n] {M : Matrix n n ℂ} (hM : M.PosDef)
    (h : (1 - M).PosSemidef) {tol : ℝ}
    (ht : Fintype.card n - ∑ i, ‖M i i‖ ^ 2 ≤ tol) (i j : n) : ‖(M - 1) i j‖ ≤ tol := by
  have hd : ∀ k, 0 ≤ ((1 - M) k k).re := fun k => (Complex.nonneg_iff.1 (h.diag_nonneg (i := k))).1
  have hm : ∀ k, 0 ≤ (M k k).re ∧ (M k k).im = 0 := fun k => by
    have := Complex.nonneg_iff.1 (hM.posSemidef.diag_nonneg (i := k))
    exact ⟨this.1, this.2.symm⟩
  have hr : ∀ k, ((1 - M) k k).re = 1 - (M k k).re := fun k => by
    rw [Matrix.sub_apply, Matrix.one_apply_eq, sub_re, one_re]
  have e : Fintype.card n - ∑ i, ‖M i i‖ ^ 2 = ∑ i, (1 - (M i i).re ^ 2) := by
    have : (Fintype.card n : ℝ) = ∑ _i : n, 1 := by simp
    rw [this, ← sum_sub_distrib]
    refine sum_congr rfl fun i _ => ?_
    rw [← Complex.normSq_eq_norm_sq, Complex.normSq_apply, (hm i).2]
    ring
  have hk : ∀ k, ((1 - M) k k).re ≤ tol := by
    intro k
    have h1 : ∀ i, 0 ≤ 1 - (M i i).re ^ 2 := fun i => by
      have a := hd i
      rw [hr] at a
      have b := (hm i).1
      nlinarith
    have := single_le_sum (f := fun i => 1 - (M i i).re ^ 2) (fun i _ => h1 i) (mem_univ k)
    rw [← e] at this
    have a := hd k
    rw [hr] at a ⊢
    have b := (hm k).1
    nlinarith
  have h1 := entry_le h i j
  have h0 : 0 ≤ tol := le_trans (hd i) (hk i)
  have h2 : ‖(1 - M) i j‖ ^ 2 ≤ tol ^ 2 := by
    calc _ ≤ _ := h1
      _ ≤ tol * tol := mul_le_mul (hk i) (hk j) (hd j) h0
      _ = tol ^ 2 := by ring
  have h3 := (pow_le_pow_iff_left₀ (norm_nonneg _) h0 (by norm_num : (2 : ℕ) ≠ 0)).1 h2
  rwa [show (1 - M) i j = -((M - 1) i j) by rw [Matrix.sub_apply, Matrix.sub_apply]; ring, norm_neg] at h3

theorem first_below {n : Type} [Fintype n] [DecidableEq n] {U : Matrix n n ℂ} (hU : Uᴴ * U = 1) :
    (1 - (1 / 4 : ℂ) • (U + 2 + Uᴴ)).PosSemidef := by
  have e : 1 - (1 / 4 : ℂ) • (U + 2 + Uᴴ) = (1 / 4 : ℂ) • ((1 - U)ᴴ * (1 - U)) := by
    have h1 : (1 - U)ᴴ * (1 - U) = 2 - U - Uᴴ := by
      rw [conjTranspose_sub, conjTranspose_one, sub_mul, one_mul, mul_sub, hU, mul_one, ← one_add_one_eq_two]
      abel
    have e3 : (1 : Matrix n n ℂ) = (1 / 4 : ℂ) • (4 : Matrix n n ℂ) := by
      ext i j
      rw [Matrix.smul_apply, show (4 : Matrix n n ℂ) = (4 : ℂ) • 1 by
        rw [← Algebra.algebraMap_eq_smul_one, map_ofNat], Matrix.smul_apply, smul_eq_mul, smul_eq_mul]
      ring
    rw [h1]
    nth_rw 1 [e3]
    rw [← smul_sub]
    congr 1
    rw [show (4 : Matrix n n ℂ) = 2 + 2 by norm_num]
    abel
  rw [e]
  exact posSemidef_quarter (Matrix.posSemidef_conjTranspose_mul_self _)

/-! ## The series -/

theorem fact_some {n : ℕ} (h : n < 25) : fact n = some (1 / (2 * (n : ℝ) - 1)) := if_pos h

theorem fact_none {n : ℕ} (h : 25 ≤ n) : fact n = none := if_neg (by unfold NMAX; omega)

theorem toM_addDiag (NC : ℕ) (c : ℂ) (Q : Arr ℂ) : toM NC (addDiag NC c Q) = toM NC Q + c • 1 := by
  unfold addDiag
  ext i j
  have := add_constant_loop NC Q c NC i j j.2 le_rfl
  rw [toM_apply, this]
  by_cases h : i = j
  · subst h; simp
  · have : (i : ℕ) ≠ j := fun h' => h (Fin.ext h')
    simp [h, this]

theorem mod_diag {NC : ℕ} (i j : Fin NC) : ((j : ℕ) + NC * i) % (NC + 1) = 0 ↔ i = j := by
  constructor
  · intro hm
    by_contra h
    have := congrFun (congrFun (toM_start NC) i) j
    rw [toM_apply, Matrix.one_apply_ne h, if_neg (by rw [hm]; simp)] at this
    exact one_ne_zero this
  · rintro rfl
    rw [show (i : ℕ) + NC * i = i * (NC + 1) by ring, Nat.mul_mod_left]

theorem toM_diagMap (NC : ℕ) (y : Arr ℂ) (c : ℂ) :
    toM NC (fun i => if i % (NC + 1) = 0 then y i + c else y i) = toM NC y + c • 1 := by
  ext i j
  rw [toM_apply, Matrix.add_apply, Matrix.smul_apply, toM_apply]
  by_cases h : i = j
  · rw [if_pos ((mod_diag i j).2 h), h, Matrix.one_apply_eq, smul_eq_mul, mul_one]
  · rw [if_neg (fun h' => h ((mod_diag i j).1 h')), Matrix.one_apply_ne h, smul_zero, add_zero]

/-- The sum left by the loop `horner`. -/
theorem horner_some {NC : ℕ} (w : Arr ℂ) (i : ℕ) (hi : 1 ≤ i) (h : i < 25) (Q : Arr ℂ) :
    ∃ Q', horner NC w i Q = some Q' ∧
      toM NC Q' = toM NC w ^ (i - 1) * toM NC Q + ∑ k ∈ range (i - 1), (1 / (2 * k + 3) : ℂ) • toM NC w ^ (k + 1) := by
  induction i, hi using Nat.le_induction generalizing Q with
  | base => exact ⟨Q, rfl, by simp⟩
  | succ i hi ih =>
    obtain ⟨i, rfl⟩ : ∃ k, i = k + 1 := ⟨i - 1, by omega⟩
    obtain ⟨Q', e1, e2⟩ := ih (by omega) (multab_atomic_left NC (addDiag NC ((1 / (2 * ((i + 2 : ℕ) : ℝ) - 1) : ℝ) : ℂ) Q) w)
    refine ⟨Q', ?_, ?_⟩
    · show horner NC w (i + 2) Q = _
      rw [horner, fact_some h]
      exact e1
    · rw [e2, C10_multab_atomic_left, toM_addDiag]
      simp only [Nat.add_sub_cancel]
      rw [sum_range_succ, pow_succ, mul_add, mul_add, ← mul_assoc, mul_smul_comm, mul_smul_comm, mul_one]
      have : (((1 / (2 * ((i + 2 : ℕ) : ℝ) - 1) : ℝ) : ℂ)) = 1 / (2 * i + 3) := by
        push_cast
        congr 1
        ring
      rw [this]
      abel

/-- The partial sums of the inverse hyperbolic tangent. -/
noncomputable def atanhSum {n : Type} [Fintype n] [DecidableEq n] (z : Matrix n n ℂ) (m : ℕ) : Matrix n n ℂ :=
  ∑ k ∈ range (m + 1), (1 / (2 * k + 1) : ℂ) • z ^ (2 * k + 1)

theorem horner_sum {NC : ℕ} {z : Matrix (Fin NC) (Fin NC) ℂ} {y yy : Arr ℂ} (hy : toM NC y = (2 : ℂ) • z)
    (hyy : toM NC yy = z * z) {n : ℕ} (h4 : 1 ≤ n) (h : n < 24) :
    ∃ Q, ((fact (n + 1)).bind fun f => horner NC yy n fun j => yy j * f) = some Q ∧
      toM NC (multab_atomic_left NC (addDiag NC 1 Q) y) = (2 : ℂ) • atanhSum z n := by
  rw [fact_some (by omega), Option.bind_some]
  obtain ⟨Q, e1, e2⟩ := horner_some yy n h4 (by omega) fun j => yy j * ((1 / (2 * ((n + 1 : ℕ) : ℝ) - 1) : ℝ) : ℂ)
  refine ⟨Q, e1, ?_⟩
  rw [C10_multab_atomic_left, toM_addDiag, e2, toM_smulR, hy, hyy, smul_mul_assoc, one_smul]
  congr 1
  obtain ⟨n, rfl⟩ : ∃ k, n = k + 1 := ⟨n - 1, by omega⟩
  have hc : (((1 / (2 * ((n + 1 + 1 : ℕ) : ℝ) - 1) : ℝ) : ℂ)) = 1 / (2 * n + 3) := by
    push_cast
    congr 1
    ring
  unfold atanhSum
  rw [sum_range_succ', Nat.add_sub_cancel, hc, mul_smul_comm, ← pow_succ, ← sq, mul_add, mul_one, add_comm _ (∑ k ∈ range n, _),
    ← sum_range_succ (fun k : ℕ => (1 / (2 * k + 3) : ℂ) • (z ^ 2) ^ (k + 1)) n, mul_sum]
  congr 1
  · refine sum_congr rfl fun k _ => ?_
    rw [mul_smul_comm, ← pow_mul, ← pow_succ', show 2 * (k + 1) + 1 = 2 * (k + 1) + 1 from rfl]
    congr 2
    push_cast
    ring
  · simp

theorem sum_entries {NC : ℕ} (hN : 0 < NC) (Q : Arr ℂ) :
    forN (NC * NC) (fun j err => err + ‖Q j‖) 0 = ∑ i, ∑ j, ‖toM NC Q i j‖ := by
  rw [forN_sum, zero_add]
  have : ∀ m, ∑ j ∈ range (m * NC), ‖Q j‖ = ∑ i ∈ range m, ∑ j : Fin NC, ‖Q (j + NC * i)‖ := by
    intro m
    induction m with
    | zero => simp
    | succ m ih =>
      rw [Nat.succ_mul, sum_range_add, ih, sum_range_succ, Fin.sum_univ_eq_sum_range (fun j => ‖Q (j + NC * m)‖)]
      congr 1
      refine sum_congr rfl fun j _ => ?_
      rw [show m * NC + j = j + NC * m by ring]
  rw [this NC, ← Fin.sum_univ_eq_sum_range (fun i => ∑ j : Fin NC, ‖Q (j + NC * i)‖)]
  rfl

/-- The number the series is stopped by. -/
theorem termErr_eq {NC : ℕ} (hN : 0 < NC) (S : ℝ) {z : Matrix (Fin NC) (Fin NC) ℂ} {y yy : Arr ℂ}
    (hy : toM NC y = (2 : ℂ) • z) (hyy : toM NC yy = z * z) (n : ℕ) (f : ℝ) :
    termErr NC S y yy n f = S * ∑ i, ∑ j, ‖((2 * f : ℂ) • z ^ (2 * n + 3)) i j‖ := by
  unfold termErr
  dsimp only
  rw [sum_entries hN, C10_multab_atomic_left, toM_smulR, C17_matrix_power, hy, hyy, mul_comm]
  congr 1
  refine sum_congr rfl fun i _ => sum_congr rfl fun j _ => ?_
  rw [smul_mul_smul_comm, ← sq, ← pow_mul, ← pow_succ', show 2 * (n + 1) + 1 = 2 * n + 3 by ring]

/-! ## The last loops -/

theorem makeHermitian_apply {NC : ℕ} (Q : Arr ℂ) (i j : Fin NC) :
    toM NC (makeHermitian NC Q) i j =
      if i = j then toM NC Q i i else 1 / 2 * (toM NC Q i j + conj (toM NC Q j i)) := by
  have pos : ∀ {a b c d : ℕ}, b < NC → d < NC → (b + a * NC = d + c * NC ↔ a = c ∧ b = d) := by
    intro a b c d hb hd
    constructor
    · intro h
      have h1 : (b + a * NC) / NC = (d + c * NC) / NC := by rw [h]
      rw [Nat.add_mul_div_right _ _ (by omega), Nat.add_mul_div_right _ _ (by omega), Nat.div_eq_of_lt hb,
        Nat.div_eq_of_lt hd, zero_add, zero_add] at h1
      subst h1
      exact ⟨rfl, by omega⟩
    · rintro ⟨rfl, rfl⟩; rfl
  let H : ℕ → ℕ → ℂ := fun r c => 1 / 2 * (Q (c + r * NC) + conj (Q (r + c * NC)))
  have hH : ∀ r c, conj (H r c) = H c r := by
    intro r c
    simp only [H, map_mul, map_add, Complex.conj_conj, map_div₀, map_one, Complex.conj_ofNat]
    ring
  have key := forN_inv (fun k (P : Arr ℂ) => ∀ r c, r < NC → c < NC →
      P (c + r * NC) = if r ≠ c ∧ (r < k ∨ c < k) then H r c else Q (c + r * NC))
    (n := NC - 1) (body := fun i Q => forFrom (i + 1) NC (fun j Q =>
      let Q := Function.update Q (j + i * NC) (1 / 2 * (Q (j + i * NC) + conj (Q (i + j * NC))))
      Function.update Q (i + j * NC) (conj (Q (j + i * NC)))) Q) (s := Q)
    (by intro r c _ _; simp) (by
      intro k hk P hP r c hr hc
      have inner := forFrom_inv (fun l (P : Arr ℂ) => ∀ r c, r < NC → c < NC →
          P (c + r * NC) = if r ≠ c ∧ (r < k ∨ c < k ∨ (r = k ∧ c < l) ∨ (c = k ∧ r < l)) then H r c else Q (c + r * NC))
        (lo := k + 1) (hi := NC) (by omega) (s := P)
        (body := fun j Q =>
          let Q := Function.update Q (j + k * NC) (1 / 2 * (Q (j + k * NC) + conj (Q (k + j * NC))))
          Function.update Q (k + j * NC) (conj (Q (j + k * NC))))
        (by
          intro r c hr hc
          rw [hP r c hr hc]
          congr 1
          apply propext
          constructor
          · rintro ⟨h1, h2 | h2⟩
            · exact ⟨h1, Or.inl h2⟩
            · exact ⟨h1, Or.inr (Or.inl h2)⟩
          · rintro ⟨h1, h2⟩
            exact ⟨h1, by omega⟩)
        (by
          intro l hl1 hl2 P hP r c hr hc
          dsimp only
          have hkl : k < NC := by omega
          have u1 := hP k l hkl hl2
          have u2 := hP l k hl2 hkl
          rw [if_neg (by omega)] at u1 u2
          have hv : (1 / 2 : ℂ) * (P (l + k * NC) + conj (P (k + l * NC))) = H k l := by rw [u1, u2]
          rw [hv]
          by_cases h1 : c = k ∧ r = l
          · obtain ⟨rfl, rfl⟩ := h1
            rw [Function.update_self, Function.update_self, hH, if_pos (by omega)]
          · rw [Function.update_of_ne (by rw [Ne, pos hc hkl]; omega)]
            by_cases h2 : c = l ∧ r = k
            · obtain ⟨rfl, rfl⟩ := h2
              rw [Function.update_self, if_pos (by omega)]
            · rw [Function.update_of_ne (by rw [Ne, pos hc hl2]; omega), hP r c hr hc]
              congr 1
              apply propext
              omega)
      rw [inner r c hr hc]
      congr 1
      apply propext
      omega)
  have := key i j i.2 j.2
  rw [toM_apply, show (j : ℕ) + NC * i = j + i * NC by ring]
  refine Eq.trans this ?_
  have hi := i.2
  have hj := j.2
  by_cases h : i = j
  · subst h
    rw [if_neg (by omega), if_pos rfl, toM_apply, mul_comm NC]
  · have h' : (i : ℕ) ≠ j := fun h' => h (Fin.ext h')
    rw [if_pos (by omega), if_neg h, toM_apply, toM_apply, mul_comm NC, mul_comm NC]

end GLU.Mat
