import Verif.Mat.ExpLib
import Verif.Mat.ExpLemmas
import Verif.Mat.VdmProps
import Verif.Mat.BruteLogLemmas
import Mathlib.LinearAlgebra.Matrix.Charpoly.Eigs

/-!
# C122: the exponential for more than three colours in a build with GSL or LAPACKE
-/

namespace GLU.Mat

open Complex Matrix Polynomial

/-- What an eigenvalue library promises: the `z i` are the eigenvalues, each as often as it occurs, in some order. -/
def IsEigenvalues (NC : ℕ) (Q : Arr ℂ) (z : Arr ℝ) : Prop :=
  (toM NC Q).charpoly = ∏ i ∈ Finset.range NC, (X - C (z i : ℂ))

/-- A polynomial of a matrix. -/
noncomputable def matPoly (NC : ℕ) (n : ℕ) (f : Arr ℂ) (A : Matrix (Fin NC) (Fin NC) ℂ) : Matrix (Fin NC) (Fin NC) ℂ :=
  ∑ j ∈ Finset.range n, f j • A ^ j

theorem toM_diag (NC : ℕ) (g : Arr ℂ) (c : ℂ) : toM NC (diag NC g c) = c • 1 := by
  rw [C63_diag, Matrix.smul_one_eq_diagonal]

theorem expand_f_eq {NC : ℕ} (hN : 1 ≤ NC) (Q f g : Arr ℂ) :
    toM NC (expand_f NC Q f (diag NC g (f (NC - 1)))) = matPoly NC NC f (toM NC Q) := by
  have H := forN_inv (fun m (U : Arr ℂ) => toM NC U = ∑ j ∈ Finset.range (m + 1), f (NC - 1 - m + j) • toM NC Q ^ j)
    (n := NC - 1) (body := fun m U => addDiag NC (f (NC - 1 - m - 1)) (multab_atomic_left NC U Q))
    (s := diag NC g (f (NC - 1))) (by
      simp [toM_diag]) (by
      intro m hm U hU
      rw [toM_addDiag, C10_multab_atomic_left, hU, Finset.sum_range_succ' (n := m + 1), Finset.mul_sum]
      congr 1
      · refine Finset.sum_congr rfl fun j _ => ?_
        rw [Matrix.mul_smul, pow_succ', show NC - 1 - (m + 1) + (j + 1) = NC - 1 - m + j by omega])
  unfold expand_f
  rw [H, matPoly, show NC - 1 + 1 = NC by omega]
  refine Finset.sum_congr rfl fun j _ => ?_
  rw [show NC - 1 - (NC - 1) + j = j by omega]

/-- An eigenvector of a matrix is one of its polynomials. -/
theorem matPoly_mulVec {NC n : ℕ} {A : Matrix (Fin NC) (Fin NC) ℂ} {w : Fin NC → ℂ} {t : ℂ} (h : A *ᵥ w = t • w)
    (f : Arr ℂ) : matPoly NC n f A *ᵥ w = polyAt n f t • w := by
  have hp : ∀ j, A ^ j *ᵥ w = t ^ j • w := by
    intro j
    induction j with
    | zero => simp
    | succ j ih => rw [pow_succ', ← Matrix.mulVec_mulVec, ih, Matrix.mulVec_smul, h, smul_smul, pow_succ]
  unfold matPoly polyAt
  rw [Matrix.sum_mulVec, Finset.sum_smul]
  refine Finset.sum_congr rfl fun j _ => ?_
  rw [Matrix.smul_mulVec, hp, smul_smul]

theorem cexp_eq (x : ℝ) : (Real.cos x : ℂ) + I * (Real.sin x : ℂ) = cexp (I * x) := by
  rw [mul_comm I (x : ℂ), exp_mul_I, ofReal_cos, ofReal_sin]
  ring

/-- C122: with distinct eigenvalues the result is defined, and it acts on an eigenvector of the eigenvalue `z i` as the
right number plus `z 0` times the difference quotient to the first eigenvalue. -/
theorem C122_value {NC : ℕ} (hN : 1 ≤ NC) (Q g : Arr ℂ) {z : Arr ℝ} (hz : Distinct NC z) :
    ∃ U, exponentiateLib NC Q z g = some U ∧ ∀ i < NC, ∃ q : ℂ,
      ((z i : ℂ) - z 0) * q = cexp (I * z i) - cexp (I * z 0) ∧
      ∀ w, toM NC Q *ᵥ w = (z i : ℂ) • w → toM NC U *ᵥ w = (cexp (I * z i) + z 0 * q) • w := by
  obtain ⟨f, h1, -, h2⟩ := C23_solver_value hN hz (fun i => (Real.cos (z i) : ℂ) + I * (Real.sin (z i) : ℂ))
  refine ⟨expand_f NC Q f (diag NC g (f (NC - 1))), ?_, fun i hi => ?_⟩
  · unfold exponentiateLib calculate_effs_VDM_herm
    rw [h1]
    rfl
  · obtain ⟨h3, h4⟩ := h2 i hi
    refine ⟨_, by rw [h3, cexp_eq, cexp_eq], fun w hw => ?_⟩
    rw [expand_f_eq hN, matPoly_mulVec hw, h4, cexp_eq]

theorem matPoly_diag {NC n : ℕ} {A V : Matrix (Fin NC) (Fin NC) ℂ} {d : Fin NC → ℂ} (h1 : V * Vᴴ = 1)
    (h2 : Vᴴ * V = 1) (hA : A = V * diagonal d * Vᴴ) (f : Arr ℂ) :
    matPoly NC n f A = V * diagonal (fun i => polyAt n f (d i)) * Vᴴ := by
  have hp : ∀ j, A ^ j = V * diagonal (fun i => d i ^ j) * Vᴴ := by
    intro j
    induction j with
    | zero => simp [h1]
    | succ j ih =>
      rw [pow_succ, ih, hA]
      calc _ = V * diagonal (fun i => d i ^ j) * (Vᴴ * V) * diagonal d * Vᴴ := by simp only [Matrix.mul_assoc]
        _ = V * (diagonal (fun i => d i ^ j) * diagonal d) * Vᴴ := by rw [h2]; simp only [Matrix.mul_assoc, Matrix.one_mul]
        _ = _ := by rw [diagonal_mul_diagonal]; rfl
  have hs : diagonal (fun i => polyAt n f (d i)) = ∑ j ∈ Finset.range n, f j • diagonal (fun i => d i ^ j) := by
    ext a b
    rw [Matrix.sum_apply]
    by_cases h : a = b
    · subst h
      simp [polyAt]
    · simp [h]
  unfold matPoly
  rw [hs, Finset.mul_sum, Finset.sum_mul]
  refine Finset.sum_congr rfl fun j _ => ?_
  rw [hp, Matrix.mul_smul, Matrix.smul_mul]

theorem eigenvalue_mem {NC : ℕ} {Q : Arr ℂ} (hQ : (toM NC Q).IsHermitian) {z : Arr ℝ} (hz : IsEigenvalues NC Q z)
    (k : Fin NC) : ∃ i < NC, z i = hQ.eigenvalues k := by
  have h1 : (toM NC Q).charpoly.eval (hQ.eigenvalues k : ℂ) = 0 := by
    rw [hQ.charpoly_eq, eval_prod]
    exact Finset.prod_eq_zero (Finset.mem_univ k) (by simp)
  rw [hz, eval_prod, Finset.prod_eq_zero_iff] at h1
  obtain ⟨i, hi, h2⟩ := h1
  refine ⟨i, Finset.mem_range.1 hi, ?_⟩
  rw [eval_sub, eval_X, eval_C, sub_eq_zero] at h2
  exact_mod_cast h2.symm

/-- C122 if the first eigenvalue found is zero: the exponential. Missing: all other matrices, see `C122_fails`. -/
theorem C122_exact_partial {NC : ℕ} (hN : 1 ≤ NC) {Q : Arr ℂ} (hQ : (toM NC Q).IsHermitian) (g : Arr ℂ) {z : Arr ℝ}
    (hz : IsEigenvalues NC Q z) (hd : Distinct NC z) (h0 : z 0 = 0) :
    ∃ U, exponentiateLib NC Q z g = some U ∧ toM NC U = NormedSpace.exp (I • toM NC Q) := by
  obtain ⟨f, h1, h2⟩ := C23_interpolates_partial hN hd (fun i => (Real.cos (z i) : ℂ) + I * (Real.sin (z i) : ℂ)) h0
  refine ⟨expand_f NC Q f (diag NC g (f (NC - 1))), ?_, ?_⟩
  · unfold exponentiateLib calculate_effs_VDM_herm
    rw [h1]
    rfl
  · obtain ⟨V, v1, v2, v3⟩ := herm_diag hQ
    rw [expand_f_eq hN, matPoly_diag v1 v2 v3, exp_diag v1 v3]
    congr 3
    funext k
    obtain ⟨i, hi, h3⟩ := eigenvalue_mem hQ hz k
    rw [← h3, h2 i hi, cexp_eq]

/-- The exponential acts on an eigenvector as the exponential of the eigenvalue. -/
theorem exp_mulVec {n : ℕ} {A : Matrix (Fin n) (Fin n) ℂ} (hA : A.IsHermitian) {w : Fin n → ℂ} {t : ℂ}
    (hw : A *ᵥ w = t • w) : NormedSpace.exp (I • A) *ᵥ w = cexp (I * t) • w := by
  obtain ⟨V, v1, v2, v3⟩ := herm_diag hA
  have h1 : diagonal (fun i => (hA.eigenvalues i : ℂ)) *ᵥ (Vᴴ *ᵥ w) = t • (Vᴴ *ᵥ w) := by
    have h2 : Vᴴ *ᵥ (A *ᵥ w) = t • (Vᴴ *ᵥ w) := by rw [hw, Matrix.mulVec_smul]
    rw [← h2]
    conv_rhs => rw [v3]
    rw [Matrix.mulVec_mulVec, Matrix.mulVec_mulVec, ← Matrix.mul_assoc, ← Matrix.mul_assoc, v2, Matrix.one_mul]
  have h3 : diagonal (fun i => cexp (I * hA.eigenvalues i)) *ᵥ (Vᴴ *ᵥ w) = cexp (I * t) • (Vᴴ *ᵥ w) := by
    funext k
    have h4 := congrFun h1 k
    rw [Matrix.mulVec_diagonal, Pi.smul_apply, smul_eq_mul] at h4
    rw [Matrix.mulVec_diagonal, Pi.smul_apply, smul_eq_mul]
    rcases mul_eq_mul_right_iff.1 h4 with h5 | h5
    · rw [h5]
    · rw [h5, mul_zero, mul_zero]
  rw [exp_diag v1 v3, ← Matrix.mulVec_mulVec, ← Matrix.mulVec_mulVec, h3, Matrix.mulVec_smul, Matrix.mulVec_mulVec, v1,
    Matrix.one_mulVec]

/-- C122 fails: with distinct eigenvalues of which the first is not zero, and whose exponentials are not all equal, the
result is not the exponential. -/
theorem C122_fails {NC : ℕ} (hN : 1 ≤ NC) {Q : Arr ℂ} (hQ : (toM NC Q).IsHermitian) (g : Arr ℂ) {z : Arr ℝ}
    (hz : IsEigenvalues NC Q z) (hd : Distinct NC z) (h0 : z 0 ≠ 0) (he : ∃ i < NC, cexp (I * z i) ≠ cexp (I * z 0)) :
    ∃ U, exponentiateLib NC Q z g = some U ∧ toM NC U ≠ NormedSpace.exp (I • toM NC Q) := by
  obtain ⟨U, h1, h2⟩ := C122_value hN Q g hd
  refine ⟨U, h1, fun hU => ?_⟩
  obtain ⟨i, hi, hne⟩ := he
  obtain ⟨q, h3, h4⟩ := h2 i hi
  have hroot : (toM NC Q).charpoly.IsRoot (z i : ℂ) := by
    rw [IsRoot, hz, eval_prod]
    exact Finset.prod_eq_zero (Finset.mem_range.2 hi) (by simp)
  rw [← Matrix.charpoly_toLin', ← Module.End.hasEigenvalue_iff_isRoot_charpoly] at hroot
  obtain ⟨w, hw⟩ := hroot.exists_hasEigenvector
  have hw1 : toM NC Q *ᵥ w = (z i : ℂ) • w := by
    have := hw.apply_eq_smul
    rwa [Matrix.toLin'_apply] at this
  have h5 := h4 w hw1
  rw [hU, exp_mulVec hQ hw1, add_smul, left_eq_add, smul_eq_zero] at h5
  rcases h5 with h5 | h5
  · rcases mul_eq_zero.1 h5 with h6 | h6
    · exact h0 (by exact_mod_cast h6)
    · rw [h6, mul_zero] at h3
      exact hne (sub_eq_zero.1 h3.symm)
  · exact hw.2 h5

/-- The first stage is a division by zero if two of the points agree. -/
theorem solvandermonde_repeated {n : ℕ} {x : Arr ℝ} (hx : ¬ Distinct n x) (v : Arr ℂ) : solvandermonde n v x = none := by
  by_contra hne
  apply hx
  have hsweep : ∀ k, ∀ s : Option (Arr ℂ), vdmSweep n x k s ≠ none →
      s ≠ none ∧ ∀ i, k < i → i < n → x i ≠ x (i - k - 1) := by
    intro k s hs
    have H := forN_inv (fun m (r : Option (Arr ℂ)) => r ≠ none → s ≠ none ∧
        ∀ m' < m, x (n - 1 - m') ≠ x (n - 1 - m' - k - 1)) (n := n - 1 - k)
      (body := fun m f => f.bind (vdmDiff x k (n - 1 - m))) (s := s) (fun h => ⟨h, fun _ h => by omega⟩) (by
        intro m hm r ih hr
        rcases r with _ | r
        · exact absurd rfl hr
        · obtain ⟨h1, h2⟩ := ih (by simp)
          refine ⟨h1, fun m' hm' => ?_⟩
          rcases Nat.lt_succ_iff_lt_or_eq.1 hm' with h | h
          · exact h2 m' h
          · subst h
            intro he
            apply hr
            show vdmDiff x k (n - 1 - m') r = none
            unfold vdmDiff
            rw [if_pos (sub_eq_zero.2 he)])
    obtain ⟨h1, h2⟩ := H hs
    refine ⟨h1, fun i h3 h4 => ?_⟩
    have := h2 (n - 1 - i) (by omega)
    rwa [show n - 1 - (n - 1 - i) = i by omega] at this
  have H := forN_inv (fun k (r : Option (Arr ℂ)) => r ≠ none → ∀ k' < k, ∀ i, k' < i → i < n → x i ≠ x (i - k' - 1))
    (n := n - 1) (body := fun k f => vdmSweep n x k f) (s := some v) (fun _ _ h => by omega) (by
      intro k hk r ih hr k' hk'
      obtain ⟨h1, h2⟩ := hsweep k r hr
      rcases Nat.lt_succ_iff_lt_or_eq.1 hk' with h | h
      · exact ih h1 k' h
      · subst h
        exact h2)
  have H2 := H (by
    intro h
    apply hne
    unfold solvandermonde
    rw [h]
    rfl)
  have hlt : ∀ i j, j < i → i < n → x i ≠ x j := by
    intro i j hj hi
    have := H2 (i - j - 1) (by omega) i (by omega) hi
    rwa [show i - (i - j - 1) - 1 = j by omega] at this
  intro i hi j hj hij
  rcases lt_or_gt_of_ne hij with h | h
  · exact fun e => hlt j i h hj e.symm
  · exact hlt i j h hi

/-- C122 fails: with an eigenvalue that occurs twice there is a division by zero. -/
theorem C122_repeated_fails {NC : ℕ} (Q g : Arr ℂ) {z : Arr ℝ} (hz : ¬ Distinct NC z) :
    exponentiateLib NC Q z g = none := by
  unfold exponentiateLib calculate_effs_VDM_herm
  rw [solvandermonde_repeated hz]
  rfl

/-- C122 fails for the zero matrix, which is what smearing exponentiates on the unit field. -/
theorem C122_zero_fails {NC : ℕ} (hN : 2 ≤ NC) {Q : Arr ℂ} (hQ : toM NC Q = 0) (g : Arr ℂ) {z : Arr ℝ}
    (hz : IsEigenvalues NC Q z) : exponentiateLib NC Q z g = none := by
  apply C122_repeated_fails
  intro hd
  have h : ∀ i < NC, z i = 0 := by
    intro i hi
    have h1 : (toM NC Q).charpoly.eval (z i : ℂ) = 0 := by
      rw [hz, eval_prod]
      exact Finset.prod_eq_zero (Finset.mem_range.2 hi) (by simp)
    rw [hQ, Matrix.charpoly_zero, eval_pow, eval_X] at h1
    exact_mod_cast eq_zero_of_pow_eq_zero h1
  exact hd 0 (by omega) 1 (by omega) (by omega) (by rw [h 0 (by omega), h 1 (by omega)])

/-- The diagonal matrix with the entries `1, -1, 2, -2`. -/
noncomputable def fourDiag : Arr ℂ := arr [1, 0, 0, 0, 0, -1, 0, 0, 0, 0, 2, 0, 0, 0, 0, -2]

/-- Its eigenvalues. -/
def fourEig : Arr ℝ := fun i => if i = 0 then 1 else if i = 1 then -1 else if i = 2 then 2 else -2

theorem toM_fourDiag : toM 4 fourDiag = diagonal (fun i : Fin 4 => (fourEig i : ℂ)) := by
  ext i j
  fin_cases i <;> fin_cases j <;> simp [toM_apply, fourDiag, fourEig, arr]

theorem fourEig_eigenvalues : IsEigenvalues 4 fourDiag fourEig := by
  unfold IsEigenvalues
  rw [toM_fourDiag, Matrix.charpoly_diagonal, Fin.prod_univ_eq_prod_range (fun i => X - C (fourEig i : ℂ)) 4]

theorem fourEig_distinct : Distinct 4 fourEig := by
  intro i hi j hj hij
  interval_cases i <;> interval_cases j <;> first | omega | (simp only [fourEig]; norm_num)

/-- C122 fails on a traceless diagonal matrix with four distinct eigenvalues: the result is defined and not unitary. The
eigenvalue `-1` is sent to `cos 1`. -/
theorem C122_not_unitary_fails (g : Arr ℂ) : HermTraceless 4 fourDiag ∧ ∃ U,
    exponentiateLib 4 fourDiag fourEig g = some U ∧ toM 4 U *ᵥ Pi.single 1 1 = (Real.cos 1 : ℂ) • Pi.single 1 1 ∧
      ¬ IsSU 4 U := by
  have hherm : HermTraceless 4 fourDiag := by
    refine ⟨?_, ?_⟩
    · rw [toM_fourDiag]
      exact Matrix.isHermitian_diagonal_iff.2 fun i => by
        rw [IsSelfAdjoint, Complex.star_def, conj_ofReal]
    · rw [toM_fourDiag, Matrix.trace_diagonal, Fin.sum_univ_four]
      norm_num [fourEig]
  obtain ⟨U, h1, h2⟩ := C122_value (by norm_num : 1 ≤ 4) fourDiag g fourEig_distinct
  obtain ⟨q, h3, h4⟩ := h2 1 (by norm_num)
  have h5 := h4 (Pi.single 1 1) (by
    rw [toM_fourDiag]
    funext k
    rw [Matrix.mulVec_diagonal]
    fin_cases k <;> simp [fourEig])
  have e0 : fourEig 0 = 1 := rfl
  have e1 : fourEig 1 = -1 := rfl
  have hv : cexp (I * (fourEig 1 : ℝ)) + (fourEig 0 : ℝ) * q = (Real.cos 1 : ℂ) := by
    rw [e0, e1, ← cexp_eq, ← cexp_eq, Real.cos_neg, Real.sin_neg] at h3
    rw [e0, e1, ← cexp_eq, Real.cos_neg, Real.sin_neg]
    push_cast at h3 ⊢
    linear_combination (-1 / 2 : ℂ) * h3
  rw [hv] at h5
  refine ⟨hherm, U, h1, h5, fun hU => ?_⟩
  have hu := Matrix.mem_unitaryGroup_iff'.1 (Matrix.mem_specialUnitaryGroup_iff.1 hU).1
  have h6 : (star (toM 4 U) * toM 4 U) *ᵥ Pi.single 1 1 = Pi.single 1 (1 : ℂ) := by rw [hu, Matrix.one_mulVec]
  rw [← Matrix.mulVec_mulVec, h5, Matrix.mulVec_smul] at h6
  have h7 := congrFun h6 1
  have h8 := congrFun h5 1
  simp only [Matrix.mulVec_single_one, Pi.smul_apply, Pi.single_eq_same, smul_eq_mul, mul_one, Matrix.col_apply,
    Matrix.star_apply] at h7 h8
  rw [h8, Complex.star_def, conj_ofReal] at h7
  have h9 : Real.cos 1 * Real.cos 1 = 1 := by exact_mod_cast h7
  have h10 := Real.sin_sq_add_cos_sq 1
  have h11 : 0 < Real.sin 1 := Real.sin_pos_of_pos_of_lt_pi one_pos (by linarith [Real.two_le_pi])
  nlinarith

/-- The hypotheses of `C122_fails` are met by this matrix. -/
example : fourEig 0 ≠ 0 ∧ ∃ i < 4, cexp (I * fourEig i) ≠ cexp (I * fourEig 0) := by
  refine ⟨by simp [fourEig], 1, by norm_num, fun h => ?_⟩
  rw [← cexp_eq, ← cexp_eq] at h
  have h2 : -Real.sin 1 = Real.sin 1 := by
    have := congrArg Complex.im h
    rw [show fourEig 0 = 1 from rfl, show fourEig 1 = -1 from rfl, Real.sin_neg, Real.cos_neg] at this
    simpa only [add_im, ofReal_im, zero_add, I_mul_im, ofReal_re] using this
  have h11 : 0 < Real.sin 1 := Real.sin_pos_of_pos_of_lt_pi one_pos (by linarith [Real.two_le_pi])
  linarith

/-- The hypotheses of `C122_exact_partial` are met by a diagonal matrix with the entries `0, 1, 2, -3`. -/
example : let Q : Arr ℂ := arr [0, 0, 0, 0, 0, 1, 0, 0, 0, 0, 2, 0, 0, 0, 0, -3]
    let z : Arr ℝ := fun i => if i = 0 then 0 else if i = 1 then 1 else if i = 2 then 2 else -3
    HermTraceless 4 Q ∧ IsEigenvalues 4 Q z ∧ Distinct 4 z ∧ z 0 = 0 := by
  intro Q z
  have hQ : toM 4 Q = diagonal (fun i : Fin 4 => (z i : ℂ)) := by
    ext i j
    fin_cases i <;> fin_cases j <;> simp [toM_apply, Q, z, arr]
  refine ⟨⟨?_, ?_⟩, ?_, ?_, rfl⟩
  · rw [hQ]
    exact Matrix.isHermitian_diagonal_iff.2 fun i => by
      rw [IsSelfAdjoint, Complex.star_def, conj_ofReal]
  · rw [hQ, Matrix.trace_diagonal, Fin.sum_univ_four]
    norm_num [z]
  · unfold IsEigenvalues
    rw [hQ, Matrix.charpoly_diagonal, Fin.prod_univ_eq_prod_range (fun i => X - C (z i : ℂ)) 4]
  · intro i hi j hj hij
    interval_cases i <;> interval_cases j <;> first | omega | (simp only [z]; norm_num)

end GLU.Mat
