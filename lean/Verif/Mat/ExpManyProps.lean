import Verif.Mat.ExpManyLemmas
import Verif.Mat.OpNorm

/-!
# C20: exponentiation for more than three colours

The specification is Mathlib's matrix exponential.  The routine nests a rational approximant to a depth it chooses
itself, between three and nine, and then reunitarises.
-/

namespace GLU.Mat

open Complex Matrix

/-- What one pass of the nesting computes, on the eigenvalues. -/
theorem expStep_value {NC : ℕ} (hN : 3 < NC) {Q : Arr ℂ} {V : Matrix (Fin NC) (Fin NC) ℂ} {e : Fin NC → ℝ}
    (h1 : V * Vᴴ = 1) (h2 : Vᴴ * V = 1) (h3 : toM NC Q = V * diagonal (fun i => (e i : ℂ)) * Vᴴ) (n : ℕ)
    (s : ExpState) (hs : s.stop = false) :
    ∃ s', expStep NC Q n (some s) = some s' ∧ toM NC s'.U =
      V * diagonal (fun i => padeQ (e i / (2 <<< (n - 1) : ℕ)) ^ (2 <<< (n - 1))) * Vᴴ := by
  classical
  unfold expStep
  simp only [Option.bind_some, hs, Bool.false_eq_true, if_false]
  set iter := 2 <<< (n - 1) with hiter
  have hiter0 : (iter : ℂ) ≠ 0 := by
    have : iter ≠ 0 := by rw [hiter, Nat.shiftLeft_eq]; positivity
    exact_mod_cast this
  let x : Fin NC → ℝ := fun i => e i / iter
  have hlt : ∀ r c : Fin NC, (c : ℕ) + NC * r < NC * NC := by
    intro r c
    have := r.2
    have := c.2
    nlinarith
  set SN := mapN (NC * NC) (fun j _ => Q j * (I / (iter : ℂ))) s.SN with hSN
  have hB : toM NC SN = V * diagonal (fun i => I * (x i : ℂ)) * Vᴴ := by
    have e1 : toM NC SN = (I / (iter : ℂ)) • toM NC Q := by
      ext r c
      simp [hSN, mapN_apply, hlt, mul_comm]
    rw [e1, h3, ← Matrix.smul_mul, ← Matrix.mul_smul, ← diagonal_smul]
    congr 3
    ext i
    simp only [x, Pi.smul_apply, smul_eq_mul]
    push_cast
    ring
  have hB' : toM NC (mapN (NC * NC) (fun _ x => x * (-1)) SN) =
      V * diagonal (fun i => I * ((-x i : ℝ) : ℂ)) * Vᴴ := by
    have e1 : toM NC (mapN (NC * NC) (fun _ x => x * (-1)) SN) = (-1 : ℂ) • toM NC SN := by
      ext r c
      simp [mapN_apply, hlt]
    rw [e1, hB, ← Matrix.smul_mul, ← Matrix.mul_smul, ← diagonal_smul]
    congr 3
    ext i
    simp
  have hP : ∀ a, toM NC (horners_pade NC a SN) = V * diagonal (fun i => padeNum (x i)) * Vᴴ :=
    fun a => by rw [toM_horners_pade hN, pade_diag h1 h2 hB]
  have hM : ∀ a, toM NC (horners_pade NC a (mapN (NC * NC) (fun _ x => x * (-1)) SN)) =
      V * diagonal (fun i => star (padeNum (x i))) * Vᴴ := fun a => by
    rw [toM_horners_pade hN, pade_diag h1 h2 hB']
    simp only [padeNum_neg]
  have hmul : ∀ d d' : Fin NC → ℂ, V * diagonal d * Vᴴ * (V * diagonal d' * Vᴴ) =
      V * diagonal (fun i => d i * d' i) * Vᴴ := by
    intro d d'
    calc _ = V * diagonal d * (Vᴴ * V) * diagonal d' * Vᴴ := by simp only [Matrix.mul_assoc]
      _ = V * (diagonal d * diagonal d') * Vᴴ := by
            rw [h2]; simp only [Matrix.mul_assoc, Matrix.one_mul]
      _ = _ := by rw [diagonal_mul_diagonal]
  have hsne : ∀ i, star (padeNum (x i)) ≠ 0 := fun i h => padeNum_ne (x i) (star_eq_zero.1 h)
  set RM := horners_pade NC s.RN_MIN (mapN (NC * NC) (fun _ x => x * (-1)) SN) with hRM
  have hRMm : toM NC RM = _ := hM s.RN_MIN
  have hinv0 : toM NC RM * (V * diagonal (fun i => (star (padeNum (x i)))⁻¹) * Vᴴ) = 1 := by
    rw [hRMm, hmul]
    simp only [mul_inv_cancel₀ (hsne _)]
    rw [diagonal_one, Matrix.mul_one, h1]
  obtain ⟨hnone, hsome⟩ := C19_inverse_partial (NC := NC) (by omega) (by omega) RM
  cases hi : inverse NC RM with
  | none =>
    exfalso
    have hd := hnone.1 hi
    have := congrArg Matrix.det hinv0
    rw [det_mul, hd, zero_mul, det_one] at this
    exact zero_ne_one this
  | some v =>
    obtain ⟨X, hX, hX1, -⟩ := hsome v hi
    have hXe : X = V * diagonal (fun i => (star (padeNum (x i)))⁻¹) * Vᴴ := by
      calc X = X * (toM NC RM * (V * diagonal (fun i => (star (padeNum (x i)))⁻¹) * Vᴴ)) := by
            rw [hinv0, Matrix.mul_one]
        _ = _ := by rw [← Matrix.mul_assoc, hX1, Matrix.one_mul]
    obtain ⟨w, hw, hwX⟩ := readBack_some hX
    rw [hw]
    refine ⟨_, rfl, ?_⟩
    simp only []
    rw [C17_matrix_power, C10_multab_atomic_right, hP, hwX, hXe, hmul]
    have hpow : ∀ k, (V * diagonal (fun i => padeNum (x i) * (star (padeNum (x i)))⁻¹) * Vᴴ) ^ k =
        V * diagonal (fun i => padeQ (x i) ^ k) * Vᴴ := by
      intro k
      induction k with
      | zero => simp [h1]
      | succ k ih =>
        rw [pow_succ, ih, hmul]
        simp only [pow_succ, padeQ]
    exact hpow iter

/-- A depth at which the loop of `exponentiate` ends: what it leaves to the reunitarisation. -/
theorem exp_loop {NC : ℕ} (hN : 3 < NC) {Q : Arr ℂ} {V : Matrix (Fin NC) (Fin NC) ℂ} {e : Fin NC → ℝ}
    (h1 : V * Vᴴ = 1) (h2 : Vᴴ * V = 1) (h3 : toM NC Q = V * diagonal (fun i => (e i : ℂ)) * Vᴴ) (g : Arr ℂ) :
    ∃ s n, 3 ≤ n ∧ n < 10 ∧ forFrom 3 10 (expStep NC Q) (some
      { EOLD := zero_mat NC g, U := g, RN := g, RN_MIN := g, SN := g, stop := false }) = some s ∧
      toM NC s.U = V * diagonal (fun i => padeQ (e i / (2 <<< (n - 1) : ℕ)) ^ (2 <<< (n - 1))) * Vᴴ := by
  have := forFrom_inv (fun n (o : Option ExpState) => ∃ s, o = some s ∧
      (3 < n → ∃ k, 3 ≤ k ∧ k < n ∧ toM NC s.U =
        V * diagonal (fun i => padeQ (e i / (2 <<< (k - 1) : ℕ)) ^ (2 <<< (k - 1))) * Vᴴ) ∧
      (n = 3 → s.stop = false)) (lo := 3) (hi := 10)
    (by norm_num) (body := expStep NC Q)
    (s := some { EOLD := zero_mat NC g, U := g, RN := g, RN_MIN := g, SN := g, stop := false })
    ⟨_, rfl, fun h => by omega, fun _ => rfl⟩
    (fun n hn1 hn2 o ho => by
      obtain ⟨s, rfl, hu, hs⟩ := ho
      by_cases hst : s.stop = true
      · refine ⟨s, ?_, fun _ => ?_, fun h => by omega⟩
        · simp [expStep, hst]
        · rcases Nat.lt_or_eq_of_le hn1 with h | h
          · obtain ⟨k, k1, k2, k3⟩ := hu h
            exact ⟨k, k1, by omega, k3⟩
          · rw [hs h.symm] at hst; cases hst
      · obtain ⟨s', hs', hu'⟩ := expStep_value hN h1 h2 h3 n s (by simpa using hst)
        exact ⟨s', hs', fun _ => ⟨n, hn1, by omega, hu'⟩, fun h => by omega⟩)
  obtain ⟨s, e1, e2, -⟩ := this
  obtain ⟨k, k1, k2, k3⟩ := e2 (by norm_num)
  exact ⟨s, k, k1, k2, e1, k3⟩

section
open scoped Matrix.Norms.L2Operator

/-- **C20**, more than three colours: for every traceless Hermitian matrix the result is defined, special unitary and,
if the eigenvalues are at most `ρ` in modulus, within `(NC + 1) ρ⁹ / (2²⁴ · 25401600)` of the exponential in the
operator norm. -/
theorem C20_many_norm {NC : ℕ} (hN : 3 < NC) {Q : Arr ℂ} (hQ : HermTraceless NC Q) (g : Arr ℂ) :
    ∃ U, exponentiate NC Q g = some U ∧ IsSU NC U ∧ ∀ ρ : ℝ, (∀ i, |hQ.1.eigenvalues i| ≤ ρ) →
      ‖toM NC U - NormedSpace.exp (I • toM NC Q)‖ ≤ (NC + 1) * (ρ ^ 9 / (2 ^ 24 * 25401600)) := by
  obtain ⟨U, hU, hSU⟩ := C20_many_partial hN hQ g
  refine ⟨U, hU, hSU, fun ρ hρ => ?_⟩
  obtain ⟨V, h1, h2, h3⟩ := herm_diag hQ.1
  obtain ⟨s, n, n1, n2, hs, hv⟩ := exp_loop hN h1 h2 h3 g
  set e := hQ.1.eigenvalues
  set m := 2 <<< (n - 1) with hm
  have hm8 : 8 ≤ m := by
    rw [hm, Nat.shiftLeft_eq, ← pow_succ', show n - 1 + 1 = n by omega]
    calc 8 = 2 ^ 3 := by norm_num
      _ ≤ 2 ^ n := Nat.pow_le_pow_right (by norm_num) n1
  unfold exponentiate exponentiateN at hU
  rw [if_neg (by omega), if_neg (by omega), hs] at hU
  have hgr : gram_reunit NC s.U g = some U := hU
  set d : Fin NC → ℂ := fun i => padeQ (e i / m) ^ m with hd
  have hd1 : ∀ i, ‖d i‖ = 1 := fun i => by rw [hd]; simp only [norm_pow, norm_padeQ, one_pow]
  have hE1 : ∀ i, ‖cexp (I * e i)‖ = 1 := fun i => by rw [mul_comm, norm_exp_ofReal_mul_I]
  have hclose : ∀ i, ‖d i - cexp (I * e i)‖ ≤ ρ ^ 9 / (2 ^ 24 * 25401600) := by
    intro i
    refine (padePow_exp (e i) (by omega)).trans ?_
    have hp : |e i| ^ 9 ≤ ρ ^ 9 := pow_le_pow_left₀ (abs_nonneg _) (hρ i) 9
    have hr : (2 : ℝ) ^ 24 ≤ (m : ℝ) ^ 8 := by
      have : ((8 : ℕ) : ℝ) ≤ m := by exact_mod_cast hm8
      calc (2 : ℝ) ^ 24 = ((8 : ℕ) : ℝ) ^ 8 := by norm_num
        _ ≤ _ := pow_le_pow_left₀ (by norm_num) this 8
    exact div_le_div₀ ((pow_nonneg (abs_nonneg _) 9).trans hp) hp (by norm_num)
      (mul_le_mul_of_nonneg_right hr (by norm_num))
  have hε : 0 ≤ ρ ^ 9 / (2 ^ 24 * 25401600) := (norm_nonneg _).trans (hclose ⟨0, by omega⟩)
  have hunit : toM NC s.U * (toM NC s.U)ᴴ = 1 := by
    rw [hv, conjTranspose_mul, conjTranspose_mul, conjTranspose_conjTranspose, diagonal_conjTranspose]
    calc _ = V * (diagonal d * (Vᴴ * V) * diagonal (star d)) * Vᴴ := by simp only [Matrix.mul_assoc]
      _ = 1 := by
        rw [h2, Matrix.mul_one, diagonal_mul_diagonal]
        have : (fun i => d i * star d i) = fun _ => (1 : ℂ) := by
          funext i
          rw [Pi.star_apply, star_def, mul_conj, normSq_eq_norm_sq, hd1]
          simp
        rw [this, diagonal_one, Matrix.mul_one, h1]
  have hdetV : V.det * Vᴴ.det = 1 := by rw [← det_mul, h1, det_one]
  have hexp := exp_diag h1 h3
  have hdet : ‖(toM NC s.U).det - 1‖ ≤ NC * (ρ ^ 9 / (2 ^ 24 * 25401600)) := by
    have e1 : (toM NC s.U).det = ∏ i, d i := by
      rw [hv, det_mul, det_mul, mul_right_comm, hdetV, one_mul, det_diagonal]
    have e2 : ∏ i, cexp (I * e i) = 1 := by
      have := (mem_specialUnitaryGroup_iff.1 (C20_exp_special_unitary hQ)).2
      rw [hexp, det_mul, det_mul, mul_right_comm, hdetV, one_mul, det_diagonal] at this
      exact this
    rw [e1, ← e2]
    refine (unit_prod_sub Finset.univ hd1 hE1).trans ((Finset.sum_le_sum fun i _ => hclose i).trans (le_of_eq ?_))
    simp
  have hA : ‖toM NC s.U - NormedSpace.exp (I • toM NC Q)‖ ≤ ρ ^ 9 / (2 ^ 24 * 25401600) := by
    rw [hexp, hv, ← Matrix.sub_mul, ← Matrix.mul_sub, diagonal_sub]
    exact op_conj_diag h1 hε hclose
  have hB : ‖toM NC U - toM NC s.U‖ ≤ NC * (ρ ^ 9 / (2 ^ 24 * 25401600)) := by
    refine le_trans ?_ hdet
    have e1 : toM NC U - toM NC s.U = diagonal (fun r : Fin NC =>
        if (r : ℕ) = NC - 1 then star (toM NC s.U).det - 1 else 0) * toM NC s.U := by
      rw [reunit_unitary hN hunit hgr]
      conv_lhs => rw [← Matrix.one_mul (toM NC s.U), ← Matrix.mul_assoc, ← Matrix.sub_mul, Matrix.mul_one]
      rw [← diagonal_one, diagonal_sub]
      congr 2
      funext r
      split_ifs <;> simp
    rw [e1, op_mul_unitary (mem_unitaryGroup_iff.2 hunit), l2_opNorm_diagonal, pi_norm_le_iff_of_nonneg (norm_nonneg _)]
    intro r
    split_ifs
    · rw [← norm_star ((toM NC s.U).det - 1), star_sub, star_one]
    · rw [norm_zero]
      exact norm_nonneg _
  calc ‖toM NC U - NormedSpace.exp (I • toM NC Q)‖
      = ‖(toM NC U - toM NC s.U) + (toM NC s.U - NormedSpace.exp (I • toM NC Q))‖ := by
        congr 1; abel
    _ ≤ _ := norm_add_le _ _
    _ ≤ _ := by linarith

end

/-- **C20**, more than three colours: as `C20_many_norm`, entry by entry. -/
theorem C20_many {NC : ℕ} (hN : 3 < NC) {Q : Arr ℂ} (hQ : HermTraceless NC Q) (g : Arr ℂ) :
    ∃ U, exponentiate NC Q g = some U ∧ IsSU NC U ∧ ∀ ρ : ℝ, (∀ i, |hQ.1.eigenvalues i| ≤ ρ) → ∀ i j,
      ‖toM NC U i j - NormedSpace.exp (I • toM NC Q) i j‖ ≤ (NC + 1) * (ρ ^ 9 / (2 ^ 24 * 25401600)) := by
  obtain ⟨U, hU, hSU, hb⟩ := C20_many_norm hN hQ g
  exact ⟨U, hU, hSU, fun ρ hρ i j => (entry_le_op _ i j).trans (hb ρ hρ)⟩

/-- More than three colours, packed input. -/
theorem C20_short_many {NC : ℕ} (hN : 3 < NC) {Q : Arr ℂ} (hQ : HermTraceless NC Q) (p g : Arr ℂ) :
    ∃ U, exponentiate_short NC (pack_hermitian NC p Q) g = some U ∧ IsSU NC U ∧
      ∀ ρ : ℝ, (∀ i, |hQ.1.eigenvalues i| ≤ ρ) → ∀ i j,
        ‖toM NC U i j - NormedSpace.exp (I • toM NC Q) i j‖ ≤ (NC + 1) * (ρ ^ 9 / (2 ^ 24 * 25401600)) := by
  have hr := C13_rebuild_pack (NC := NC) (by omega) hQ g p
  have h : HermTraceless NC (rebuild_hermitian NC g (pack_hermitian NC p Q)) := by
    unfold HermTraceless
    rw [hr]
    exact hQ
  obtain ⟨U, h1, h2, h3⟩ := C20_many hN h g
  refine ⟨U, ?_, h2, fun ρ hρ i j => ?_⟩
  · unfold exponentiate_short
    rw [if_neg (by omega), if_neg (by omega)]
    exact h1
  · have := h3 ρ (fun k => ?_) i j
    · rwa [hr] at this
    · have e : h.1.eigenvalues = hQ.1.eigenvalues := by
        congr 1
      rw [e]
      exact hρ k

/-- The eigenvalues are bounded by the sum of squares of the entries. -/
theorem eigen_le_entries {n : ℕ} {A : Matrix (Fin n) (Fin n) ℂ} (hA : A.IsHermitian) {ρ : ℝ} (h0 : 0 ≤ ρ)
    (h : ∑ r, ∑ c, ‖A r c‖ ^ 2 ≤ ρ ^ 2) (i : Fin n) : |hA.eigenvalues i| ≤ ρ := by
  obtain ⟨V, -, h2, h3⟩ := herm_diag hA
  set e := hA.eigenvalues
  have ht : ∑ r, ∑ c, ‖A r c‖ ^ 2 = ∑ k, e k ^ 2 := by
    have e1 : ((∑ r, ∑ c, ‖A r c‖ ^ 2 : ℝ) : ℂ) = Matrix.trace (A * A) := by
      simp only [Matrix.trace, diag_apply, mul_apply]
      push_cast
      refine Finset.sum_congr rfl fun r _ => Finset.sum_congr rfl fun c _ => ?_
      rw [← hA.apply c r, star_def, mul_conj, normSq_eq_norm_sq]
      push_cast
      rfl
    have e2 : A * A = V * diagonal (fun k => (e k : ℂ) * e k) * Vᴴ := by
      calc A * A = V * diagonal (fun k => (e k : ℂ)) * (Vᴴ * V) * diagonal (fun k => (e k : ℂ)) * Vᴴ := by
            conv_lhs => rw [h3]
            simp only [Matrix.mul_assoc]
        _ = V * (diagonal (fun k => (e k : ℂ)) * diagonal (fun k => (e k : ℂ))) * Vᴴ := by
            rw [h2, Matrix.mul_one]; simp only [Matrix.mul_assoc]
        _ = _ := by rw [diagonal_mul_diagonal]
    rw [e2, Matrix.trace_mul_comm, ← Matrix.mul_assoc, h2, Matrix.one_mul, trace_diagonal] at e1
    have e3 : ((∑ r, ∑ c, ‖A r c‖ ^ 2 : ℝ) : ℂ) = ((∑ k, e k ^ 2 : ℝ) : ℂ) := by
      rw [e1]
      push_cast
      exact Finset.sum_congr rfl fun k _ => by ring
    exact_mod_cast e3
  refine abs_le_of_sq_le_sq (le_trans ?_ h) h0
  rw [ht]
  exact Finset.single_le_sum (f := fun k => e k ^ 2) (fun k _ => sq_nonneg _) (Finset.mem_univ i)

/-- **C20**, more than three colours, in terms of the entries: for matrices of Frobenius norm at most one the result is
within `(NC + 1) / 10¹⁴` of the exponential in every entry. -/
theorem C20_many_small {NC : ℕ} (hN : 3 < NC) {Q : Arr ℂ} (hQ : HermTraceless NC Q)
    (h1 : ∑ r : Fin NC, ∑ c : Fin NC, ‖toM NC Q r c‖ ^ 2 ≤ 1) (g : Arr ℂ) :
    ∃ U, exponentiate NC Q g = some U ∧ IsSU NC U ∧
      ∀ i j, ‖toM NC U i j - NormedSpace.exp (I • toM NC Q) i j‖ ≤ (NC + 1) / 10 ^ 14 := by
  obtain ⟨U, hU, hS, hb⟩ := C20_many hN hQ g
  refine ⟨U, hU, hS, fun i j => ?_⟩
  refine (hb 1 (eigen_le_entries hQ.1 zero_le_one (by rwa [one_pow])) i j).trans ?_
  rw [div_eq_mul_one_div ((NC : ℝ) + 1) (10 ^ 14)]
  exact mul_le_mul_of_nonneg_left (by norm_num) (by positivity)

/-- A traceless Hermitian matrix of four colours that is not diagonal. -/
example : ∃ Q, HermTraceless 4 Q ∧ Q 1 ≠ 0 ∧ ∑ r : Fin 4, ∑ c : Fin 4, ‖toM 4 Q r c‖ ^ 2 ≤ 1 := by
  refine ⟨fun x => if x = 1 then I / 2 else if x = 4 then -I / 2 else 0, ⟨?_, ?_⟩, by simp, ?_⟩
  · ext i j
    fin_cases i <;> fin_cases j <;> simp [toM_apply]
  · rw [Matrix.trace, Fin.sum_univ_four]
    simp [toM_apply]
  · simp only [Fin.sum_univ_four, toM_apply]
    norm_num

end GLU.Mat
