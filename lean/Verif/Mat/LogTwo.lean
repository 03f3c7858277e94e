import Verif.Mat.LogProps

/-!
# C104: the exact logarithm with two colours
-/

namespace GLU.Mat

open Complex Matrix

theorem su2_facts {U : Arr ℂ} (hU : IsSU 2 U) : U 3 = star (U 0) ∧ U 2 = -star (U 1) ∧
    (U 0).re * (U 0).re + (U 0).im * (U 0).im + ((U 1).re * (U 1).re + (U 1).im * (U 1).im) = 1 := by
  have hd := (mem_specialUnitaryGroup_iff.1 hU).2
  have ha := su_adjugate hU
  have h3 : U 3 = star (U 0) := by
    have := congrFun (congrFun ha 0) 0
    rw [Matrix.adjugate_fin_two] at this
    simpa [toM_apply] using this
  have h2 : U 2 = -star (U 1) := by
    have := congrFun (congrFun ha 1) 0
    rw [Matrix.adjugate_fin_two] at this
    simp only [toM_apply, conjTranspose_apply, cons_val_zero, cons_val_one, of_apply] at this
    norm_num at this
    rw [← neg_eq_iff_eq_neg]
    simpa using this
  refine ⟨h3, h2, ?_⟩
  rw [Matrix.det_fin_two] at hd
  simp only [toM_apply] at hd
  norm_num at hd
  rw [h3, h2] at hd
  have := congrArg Complex.re hd
  simp at this
  linarith

/-- The angle: the real part is its cosine. -/
theorem log2_angle {r : ℝ} (h : ¬ 1 - r * r < 0) :
    let z : ℂ := r + I * (√(1 - r * r) : ℝ)
    0 ≤ arg z ∧ arg z ≤ Real.pi ∧ z.re = Real.cos (arg z) ∧ z.im = Real.sin (arg z) := by
  intro z
  have hs := Real.mul_self_sqrt (not_lt.1 h)
  have hre : z.re = r := by simp [z]
  have him : z.im = √(1 - r * r) := by simp [z]
  have hn : ‖z‖ = 1 := by
    rw [← pow_eq_one_iff_of_nonneg (norm_nonneg z) two_ne_zero, ← Complex.normSq_eq_norm_sq, Complex.normSq_apply, hre, him]
    linarith
  refine ⟨Complex.arg_nonneg_iff.2 (by rw [him]; exact Real.sqrt_nonneg _), Complex.arg_le_pi z, ?_, ?_⟩
  · have := Complex.norm_mul_cos_arg z
    rw [hn, one_mul] at this
    exact this.symm
  · have := Complex.norm_mul_sin_arg z
    rw [hn, one_mul] at this
    exact this.symm

/-- The coefficient `f1` in terms of the angle. -/
noncomputable def logf1 (t : ℝ) : ℝ :=
  if |t| < SINTOLSU2 then 1 - t / 6 * (1 - t / 20 * (1 - t / 42)) else Real.sin t / t

theorem log2_eq {U : Arr ℂ} (hU : IsSU 2 U) :
    ∃ t : ℝ, 0 ≤ t ∧ t ≤ Real.pi ∧ (U 0).re = Real.cos t ∧ log2 U = some (Real.cos t, logf1 t) := by
  obtain ⟨-, -, hn⟩ := su2_facts hU
  have hr : ¬ 1 - (U 0).re * (U 0).re < 0 := by
    nlinarith [mul_self_nonneg (U 0).im, mul_self_nonneg (U 1).re, mul_self_nonneg (U 1).im]
  obtain ⟨h0, h1, hc, hs⟩ := log2_angle hr
  refine ⟨_, h0, h1, ?_, ?_⟩
  · rw [← hc]
    simp
  · unfold log2
    dsimp only
    rw [if_neg hr, hc, hs]
    rfl

theorem logf1_near {t : ℝ} (h0 : 0 ≤ t) (h : t < 1 / 10 ^ 4) : 0 < logf1 t ∧
    |Real.sin t / logf1 t - t| ≤ 2 / 10 ^ 9 ∧ (0 < t → t < Real.sin t / logf1 t) := by
  have hv : logf1 t = 1 - t / 6 * (1 - t / 20 * (1 - t / 42)) := by
    unfold logf1 SINTOLSU2
    rw [abs_of_nonneg h0, if_pos h]
  have h4 : t < 1 / 10000 := by norm_num at h; linarith
  have hA : 0 ≤ 1 - t / 42 ∧ 1 - t / 42 ≤ 1 := ⟨by linarith, by linarith⟩
  have hB : 9 / 10 ≤ 1 - t / 20 * (1 - t / 42) ∧ 1 - t / 20 * (1 - t / 42) ≤ 1 := by
    constructor
    · nlinarith [mul_nonneg h0 hA.1, mul_le_mul_of_nonneg_left hA.2 h0]
    · nlinarith [mul_nonneg h0 hA.1]
  have hC : t / 6 * (1 - t / 20 * (1 - t / 42)) ≤ t / 6 ∧ 9 / 10 * (t / 6) ≤ t / 6 * (1 - t / 20 * (1 - t / 42)) := by
    constructor
    · nlinarith [mul_le_mul_of_nonneg_left hB.2 h0]
    · nlinarith [mul_le_mul_of_nonneg_left hB.1 h0]
  set y := t / 6 * (1 - t / 20 * (1 - t / 42)) with hy
  have hp : 0 < logf1 t := by rw [hv]; linarith [hC.1]
  have hsin1 := Real.sin_le h0
  have hsin2 : t - t ^ 2 / 40000 ≤ Real.sin t := by
    rcases h0.eq_or_lt with h | h
    · rw [← h]; simp
    · have h5 := Real.sin_gt_sub_cube h
      have : t ^ 3 / 6 ≤ t ^ 2 / 40000 := by
        have : t ^ 3 = t ^ 2 * t := by ring
        rw [this]
        nlinarith [sq_nonneg t]
      linarith
  have e : Real.sin t / logf1 t - t = ((Real.sin t - t) + t * y) / logf1 t := by
    rw [eq_div_iff hp.ne', sub_mul, div_mul_cancel₀ _ hp.ne', hv]
    ring
  have hlo : t ^ 2 / 10 ≤ (Real.sin t - t) + t * y := by nlinarith [mul_le_mul_of_nonneg_left hC.2 h0, sq_nonneg t]
  have hhi : (Real.sin t - t) + t * y ≤ t ^ 2 / 6 := by nlinarith [mul_le_mul_of_nonneg_left hC.1 h0]
  refine ⟨hp, ?_, ?_⟩
  · rw [e, abs_div, abs_of_pos hp, div_le_iff₀ hp, hv, abs_of_nonneg (by nlinarith [sq_nonneg t])]
    have : t ^ 2 ≤ 1 / 10 ^ 8 := by nlinarith
    norm_num at this ⊢
    linarith [hC.1]
  · intro ht
    have : 0 < Real.sin t / logf1 t - t := by
      rw [e]
      exact div_pos (by nlinarith [mul_pos ht ht]) hp
    linarith

/-- The exponential of a Hermitian matrix whose square is a number. -/
theorem exp_of_sq {A : Matrix (Fin 2) (Fin 2) ℂ} (hA : A.IsHermitian) {s c : ℝ} (hs : A * A = ((s * s : ℝ) : ℂ) • 1)
    {k : ℝ} : ∃ V : Matrix (Fin 2) (Fin 2) ℂ, ∃ g : Fin 2 → ℝ, V * Vᴴ = 1 ∧ (∀ i, g i = 1 ∨ g i = -1) ∧
      NormedSpace.exp (I • A) = V * diagonal (fun i => (Real.cos s : ℂ) + I * ((g i * Real.sin s : ℝ) : ℂ)) * Vᴴ ∧
      (c : ℂ) • (1 : Matrix (Fin 2) (Fin 2) ℂ) + (I * (k : ℂ)) • A =
        V * diagonal (fun i => (c : ℂ) + I * ((g i * (k * s) : ℝ) : ℂ)) * Vᴴ := by
  obtain ⟨V, h1, h2, h3⟩ := herm_diag hA
  have he : ∀ i, hA.eigenvalues i * hA.eigenvalues i = s * s := by
    intro i
    have h := poly_diag h1 h2 h3 0 0 1
    rw [hs] at h
    have e1 : Vᴴ * ((0 : ℂ) • (1 : Matrix (Fin 2) (Fin 2) ℂ) + (0 : ℂ) • A + (1 : ℂ) • ((s * s : ℝ) : ℂ) •
        (1 : Matrix (Fin 2) (Fin 2) ℂ)) * V = ((s * s : ℝ) : ℂ) • 1 := by
      rw [zero_smul, zero_smul, one_smul, zero_add, zero_add, Matrix.mul_smul, Matrix.smul_mul, Matrix.mul_one, h2]
    rw [h] at e1
    have e2 : Vᴴ * (V * diagonal (fun i => (0 : ℂ) + 0 * (hA.eigenvalues i : ℂ) + 1 * ((hA.eigenvalues i : ℂ) *
        (hA.eigenvalues i : ℂ))) * Vᴴ) * V = diagonal (fun i => (0 : ℂ) + 0 * (hA.eigenvalues i : ℂ) +
        1 * ((hA.eigenvalues i : ℂ) * (hA.eigenvalues i : ℂ))) := by
      calc _ = (Vᴴ * V) * diagonal (fun i => (0 : ℂ) + 0 * (hA.eigenvalues i : ℂ) +
            1 * ((hA.eigenvalues i : ℂ) * (hA.eigenvalues i : ℂ))) * (Vᴴ * V) := by simp only [Matrix.mul_assoc]
        _ = _ := by rw [h2, Matrix.one_mul, Matrix.mul_one]
    rw [e2] at e1
    have := congrFun (congrFun e1 i) i
    simp at this
    exact_mod_cast this
  have hg : ∀ i, ∃ g : ℝ, (g = 1 ∨ g = -1) ∧ hA.eigenvalues i = g * s := by
    intro i
    rcases mul_self_eq_mul_self_iff.1 (he i) with h | h
    · exact ⟨1, Or.inl rfl, by rw [h, one_mul]⟩
    · exact ⟨-1, Or.inr rfl, by rw [h]; ring⟩
  choose g hg1 hg2 using hg
  refine ⟨V, g, h1, hg1, ?_, ?_⟩
  · rw [exp_diag h1 h3]
    congr 3
    ext i
    rw [hg2, show I * ((g i * s : ℝ) : ℂ) = ((g i * s : ℝ) : ℂ) * I by ring, Complex.exp_mul_I, ← Complex.ofReal_cos,
      ← Complex.ofReal_sin]
    rcases hg1 i with h | h
    · rw [h, one_mul, one_mul, mul_comm I]
    · rw [h]
      simp
      ring
  · have h := poly_diag h1 h2 h3 c (I * k) 0
    rw [zero_smul, add_zero] at h
    rw [h]
    congr 3
    ext i
    rw [hg2]
    push_cast
    ring

/-- The result in matrix form. -/
theorem log2_result {U : Arr ℂ} (hU : IsSU 2 U) (Q : Arr ℂ) {t : ℝ} (ht : (U 0).re = Real.cos t)
    (hl : log2 U = some (Real.cos t, logf1 t)) (hf : logf1 t ≠ 0) :
    ∃ Q', exact_log_slow2 Q U = some Q' ∧ HermTraceless 2 Q' ∧
      toM 2 Q' * toM 2 Q' = ((Real.sin t / logf1 t * (Real.sin t / logf1 t) : ℝ) : ℂ) • 1 ∧
      toM 2 U = ((Real.cos t : ℝ) : ℂ) • (1 : Matrix (Fin 2) (Fin 2) ℂ) + (I * (logf1 t : ℂ)) • toM 2 Q' := by
  obtain ⟨h3, h2, hn⟩ := su2_facts hU
  have hfc : (logf1 t : ℂ) ≠ 0 := Complex.ofReal_ne_zero.2 hf
  have hq0 : (U 0 - ((Real.cos t : ℝ) : ℂ)) * (-I / (logf1 t : ℂ)) = (((U 0).im / logf1 t : ℝ) : ℂ) := by
    have : U 0 - ((Real.cos t : ℝ) : ℂ) = I * ((U 0).im : ℝ) := by
      rw [← ht]
      refine Complex.ext ?_ ?_ <;> simp
    rw [this]
    push_cast
    field_simp
    linear_combination (-((U 0).im : ℂ)) * I_sq
  have hsq : Real.sin t * Real.sin t = (U 0).im * (U 0).im + ((U 1).re * (U 1).re + (U 1).im * (U 1).im) := by
    have := Real.sin_sq_add_cos_sq t
    rw [← ht] at this
    nlinarith
  unfold exact_log_slow2
  rw [hl, Option.bind_some]
  dsimp only
  rw [if_neg hf, hq0]
  set a : ℝ := (U 0).im / logf1 t with ha
  set b : ℂ := U 1 * (-I / (logf1 t : ℂ)) with hb
  have hM : toM 2 (fun i => if i = 0 then (a : ℂ) else if i = 1 then b else if i = 2 then star b else
      if i = 3 then -(a : ℂ) else Q i) = !![(a : ℂ), b; star b, -a] := by
    ext i j
    fin_cases i <;> fin_cases j <;> simp [toM_apply]
  refine ⟨_, rfl, ?_⟩
  unfold HermTraceless
  rw [hM]
  have hbb : b * star b = ((((U 1).re * (U 1).re + (U 1).im * (U 1).im) / (logf1 t * logf1 t) : ℝ) : ℂ) := by
    rw [Complex.star_def, Complex.mul_conj, hb]
    congr 1
    rw [Complex.normSq_mul, Complex.normSq_div, Complex.normSq_neg, Complex.normSq_I, Complex.normSq_ofReal,
      Complex.normSq_apply]
    ring
  refine ⟨⟨?_, ?_⟩, ?_, ?_⟩
  · ext i j
    fin_cases i <;> fin_cases j <;> simp
  · rw [Matrix.trace_fin_two]
    simp
  · have e : ((Real.sin t / logf1 t * (Real.sin t / logf1 t) : ℝ) : ℂ) = (a : ℂ) * a + b * star b := by
      rw [hbb, ← Complex.ofReal_mul, ← Complex.ofReal_add]
      congr 1
      rw [div_mul_div_comm, hsq, ha]
      field_simp
    rw [e]
    ext i j
    fin_cases i <;> fin_cases j
    · simp [Matrix.mul_apply, Fin.sum_univ_two]
    · simp [Matrix.mul_apply, Fin.sum_univ_two]
      ring
    · simp [Matrix.mul_apply, Fin.sum_univ_two]
      ring
    · simp [Matrix.mul_apply, Fin.sum_univ_two]
      ring
  · have hfa : (logf1 t : ℂ) * a = (U 0).im := by
      rw [ha, ← Complex.ofReal_mul, mul_div_cancel₀ _ hf]
    have hfb : I * (logf1 t : ℂ) * b = U 1 := by
      rw [hb]
      field_simp
      linear_combination (-(U 1)) * I_sq
    have hfb2 : I * (logf1 t : ℂ) * star b = U 2 := by
      rw [h2, ← hfb]
      simp
    have h0 : U 0 = ((Real.cos t : ℝ) : ℂ) + I * (logf1 t * a) := by
      rw [hfa, ← ht]
      refine Complex.ext ?_ ?_ <;> simp
    ext i j
    fin_cases i <;> fin_cases j
    · simp only [toM_apply]
      simp [-Complex.ofReal_cos]
      rw [h0]
      simp [-Complex.ofReal_cos]
      ring
    · simp only [toM_apply]
      simpa using hfb.symm
    · simp only [toM_apply]
      simpa using hfb2.symm
    · simp only [toM_apply]
      simp [-Complex.ofReal_cos]
      rw [h3, h0]
      simp [-Complex.ofReal_cos]
      ring

/-- **C104**, partial: for every SU(2) matrix other than minus one the routine returns a traceless Hermitian matrix whose
exponential is the matrix to `2e-9`, and exactly when the angle is at least `1e-4`.  Missing: equality for smaller angles
(`C104_two_inexact`) and minus one (`C104_two_fails`). -/
theorem C104_two_partial {U : Arr ℂ} (hU : IsSU 2 U) (h1 : toM 2 U ≠ -1) (Q : Arr ℂ) :
    ∃ Q', exact_log_slow2 Q U = some Q' ∧ HermTraceless 2 Q' ∧
      (∀ i j, ‖NormedSpace.exp (I • toM 2 Q') i j - toM 2 U i j‖ ≤ 2 / 10 ^ 9) ∧
      ((U 0).re ≤ Real.cos (1 / 10 ^ 4) → NormedSpace.exp (I • toM 2 Q') = toM 2 U) := by
  obtain ⟨t, t0, tpi, hc, hl⟩ := log2_eq hU
  have hpi : t ≠ Real.pi := by
    intro h
    apply h1
    obtain ⟨h3, h2, hn⟩ := su2_facts hU
    rw [h, Real.cos_pi] at hc
    rw [hc] at hn
    have i0 : (U 0).im = 0 := by nlinarith [mul_self_nonneg (U 0).im, mul_self_nonneg (U 1).re, mul_self_nonneg (U 1).im]
    have i1 : (U 1).re = 0 := by nlinarith [mul_self_nonneg (U 0).im, mul_self_nonneg (U 1).re, mul_self_nonneg (U 1).im]
    have i2 : (U 1).im = 0 := by nlinarith [mul_self_nonneg (U 0).im, mul_self_nonneg (U 1).re, mul_self_nonneg (U 1).im]
    have u0 : U 0 = -1 := Complex.ext (by simp [hc]) (by simp [i0])
    have u1 : U 1 = 0 := Complex.ext i1 i2
    ext i j
    fin_cases i <;> fin_cases j <;> simp [toM_apply, h3, h2, u0, u1]
  have hfar : ¬ t < 1 / 10 ^ 4 → logf1 t = Real.sin t / t ∧ 0 < t ∧ logf1 t ≠ 0 := by
    intro h
    have ht : 0 < t := lt_of_lt_of_le (by norm_num) (not_lt.1 h)
    have hv : logf1 t = Real.sin t / t := by
      unfold logf1 SINTOLSU2
      rw [abs_of_nonneg t0, if_neg h]
    refine ⟨hv, ht, ?_⟩
    rw [hv]
    exact (div_pos (Real.sin_pos_of_pos_of_lt_pi ht (lt_of_le_of_ne tpi hpi)) ht).ne'
  have hf : logf1 t ≠ 0 := by
    by_cases h : t < 1 / 10 ^ 4
    · exact (logf1_near t0 h).1.ne'
    · exact (hfar h).2.2
  obtain ⟨Q', hQ, hH, hsq, hUm⟩ := log2_result hU Q hc hl hf
  obtain ⟨V, g, hV, hg, he, hp⟩ := exp_of_sq hH.1 hsq (c := Real.cos t) (k := logf1 t)
  have hks : logf1 t * (Real.sin t / logf1 t) = Real.sin t := mul_div_cancel₀ _ hf
  rw [hks] at hp
  have hexact : ¬ t < 1 / 10 ^ 4 → NormedSpace.exp (I • toM 2 Q') = toM 2 U := by
    intro h
    obtain ⟨h1, h2, h3⟩ := hfar h
    have e : Real.sin t / logf1 t = t := by
      rw [div_eq_iff h3, h1, mul_div_cancel₀ _ h2.ne']
    rw [he, hUm, hp, e]
  refine ⟨Q', hQ, hH, ?_, ?_⟩
  · by_cases h : t < 1 / 10 ^ 4
    · obtain ⟨-, hb, -⟩ := logf1_near t0 h
      set s := Real.sin t / logf1 t
      intro i j
      have e : NormedSpace.exp (I • toM 2 Q') - toM 2 U = V * diagonal (fun i => ((Real.cos s : ℂ) +
          I * ((g i * Real.sin s : ℝ) : ℂ)) - ((Real.cos t : ℂ) + I * ((g i * Real.sin t : ℝ) : ℂ))) * Vᴴ := by
        rw [he, hUm, hp, ← Matrix.sub_mul, ← Matrix.mul_sub, diagonal_sub]
      rw [← Matrix.sub_apply, e]
      refine conj_diag_bound hV _ (fun k => ?_) i j
      refine le_trans ?_ hb
      have e2 : ∀ x : ℝ, (Real.cos x : ℂ) + I * ((g k * Real.sin x : ℝ) : ℂ) = cexp (I * ((g k * x : ℝ) : ℂ)) := by
        intro x
        rw [show I * ((g k * x : ℝ) : ℂ) = ((g k * x : ℝ) : ℂ) * I by ring, Complex.exp_mul_I, ← Complex.ofReal_cos,
          ← Complex.ofReal_sin]
        rcases hg k with h | h
        · rw [h, one_mul, one_mul, mul_comm I]
        · rw [h]
          simp
          ring
      rw [e2, e2]
      have e3 : cexp (I * ((g k * s : ℝ) : ℂ)) - cexp (I * ((g k * t : ℝ) : ℂ)) =
          cexp (I * ((g k * t : ℝ) : ℂ)) * (cexp (I * ((g k * (s - t) : ℝ) : ℂ)) - 1) := by
        rw [mul_sub, mul_one, ← Complex.exp_add]
        congr 2
        push_cast
        ring
      rw [e3, norm_mul, mul_comm I ((g k * t : ℝ) : ℂ), Complex.norm_exp_ofReal_mul_I, one_mul]
      refine (Real.norm_exp_I_mul_ofReal_sub_one_le).trans ?_
      rw [Real.norm_eq_abs, abs_mul]
      rcases hg k with h | h <;> rw [h] <;> simp
    · intro i j
      rw [hexact h, sub_self, norm_zero]
      norm_num
  · intro hle
    refine hexact fun h => ?_
    rw [hc] at hle
    have := Real.cos_lt_cos_of_nonneg_of_le_pi t0 (by linarith [Real.two_le_pi] : (1 / 10 ^ 4 : ℝ) ≤ Real.pi) h
    linarith

/-- The diagonal SU(2) matrix with a given angle. -/
noncomputable def phase2 (t : ℝ) : Arr ℂ := fun i => if i = 0 then cexp (I * t) else if i = 3 then cexp (-(I * t)) else 0

theorem toM_phase2 (t : ℝ) : toM 2 (phase2 t) = diagonal ![cexp (I * t), cexp (-(I * t))] := by
  ext i j
  fin_cases i <;> fin_cases j <;> simp [toM_apply, phase2]

theorem phase2_su (t : ℝ) : IsSU 2 (phase2 t) := by
  have hc : (starRingEnd ℂ) (cexp (I * t)) = cexp (-(I * t)) := by
    rw [← Complex.exp_conj]
    simp
  have hc' : (starRingEnd ℂ) (cexp (-(I * t))) = cexp (I * t) := by rw [← hc, Complex.conj_conj]
  have h1 : cexp (I * t) * cexp (-(I * t)) = 1 := by rw [← Complex.exp_add, add_neg_cancel, Complex.exp_zero]
  unfold IsSU
  rw [toM_phase2, mem_specialUnitaryGroup_iff, mem_unitaryGroup_iff]
  constructor
  · ext i j
    fin_cases i <;> fin_cases j
    · simp [Matrix.mul_apply, Fin.sum_univ_two, hc, h1]
    · simp [Matrix.mul_apply, Fin.sum_univ_two]
    · simp [Matrix.mul_apply, Fin.sum_univ_two]
    · simp [Matrix.mul_apply, Fin.sum_univ_two, hc', mul_comm, h1]
  · rw [det_diagonal]
    simp [Fin.prod_univ_two, h1]

/-- **C104** fails for two colours: the expansion for small angles has the angle where its square should stand, so that
the exponential of the result is not the matrix. -/
theorem C104_two_inexact {t : ℝ} (h0 : 0 < t) (h : t < 1 / 10 ^ 4) (Q : Arr ℂ) :
    IsSU 2 (phase2 t) ∧ ∃ Q', exact_log_slow2 Q (phase2 t) = some Q' ∧ NormedSpace.exp (I • toM 2 Q') ≠ toM 2 (phase2 t) := by
  have hU := phase2_su t
  refine ⟨hU, ?_⟩
  obtain ⟨t', t0, tpi, hc, hl⟩ := log2_eq hU
  have hre : (phase2 t 0).re = Real.cos t := by
    unfold phase2
    rw [if_pos rfl, mul_comm, Complex.exp_ofReal_mul_I_re]
  have hpi : t ≤ Real.pi := by
    have := Real.two_le_pi
    norm_num at h
    linarith
  have htt : t' = t := Real.injOn_cos ⟨t0, tpi⟩ ⟨h0.le, hpi⟩ (by rw [← hc, hre])
  subst htt
  obtain ⟨hp, hb, hlt⟩ := logf1_near t0 h
  obtain ⟨Q', hQ, hH, hsq, hUm⟩ := log2_result hU Q hc hl hp.ne'
  refine ⟨Q', hQ, fun he => ?_⟩
  obtain ⟨V, g, hV, hg, he2, hp2⟩ := exp_of_sq hH.1 hsq (c := Real.cos t') (k := logf1 t')
  have hVV : Vᴴ * V = 1 := mul_eq_one_comm.1 hV
  have htr := congrArg Matrix.trace (he2.symm.trans (he.trans (hUm.trans hp2)))
  rw [Matrix.trace_mul_comm, ← Matrix.mul_assoc, hVV, Matrix.one_mul, Matrix.trace_mul_comm, ← Matrix.mul_assoc, hVV,
    Matrix.one_mul, trace_diagonal, trace_diagonal] at htr
  have hr := congrArg Complex.re htr
  simp [Fin.sum_univ_two, -Complex.ofReal_cos, -Complex.ofReal_sin] at hr
  set s := Real.sin t' / logf1 t'
  have hs : s < 1 := by
    have := (abs_le.1 hb).2
    norm_num at this h
    linarith
  have := Real.cos_lt_cos_of_nonneg_of_le_pi t0 (by linarith [Real.two_le_pi] : s ≤ Real.pi) (hlt h0)
  linarith

/-- **C104** fails for minus one: a division by zero. -/
theorem C104_two_fails (Q : Arr ℂ) : IsSU 2 (phase2 Real.pi) ∧ toM 2 (phase2 Real.pi) = -1 ∧
    exact_log_slow2 Q (phase2 Real.pi) = none ∧ exact_log_slow_short2 Q (phase2 Real.pi) = none := by
  have hU := phase2_su Real.pi
  obtain ⟨t', t0, tpi, hc, hl⟩ := log2_eq hU
  have hre : (phase2 Real.pi 0).re = Real.cos Real.pi := by
    unfold phase2
    rw [if_pos rfl, mul_comm, Complex.exp_ofReal_mul_I_re]
  have htt : t' = Real.pi := Real.injOn_cos ⟨t0, tpi⟩ ⟨Real.pi_pos.le, le_refl _⟩ (by rw [← hc, hre])
  subst htt
  have hf : logf1 Real.pi = 0 := by
    unfold logf1 SINTOLSU2
    rw [if_neg, Real.sin_pi, zero_div]
    rw [abs_of_pos Real.pi_pos]
    have := Real.two_le_pi
    norm_num
    linarith
  refine ⟨hU, ?_, ?_, ?_⟩
  · rw [toM_phase2]
    have e : cexp (I * (Real.pi : ℂ)) = -1 := by rw [mul_comm, Complex.exp_pi_mul_I]
    rw [Complex.exp_neg, e]
    ext i j
    fin_cases i <;> fin_cases j <;> simp
  · unfold exact_log_slow2
    rw [hl, Option.bind_some]
    simp only [hf, if_true]
  · unfold exact_log_slow_short2
    rw [hl, Option.bind_some]
    simp only [hf, if_true]

/-- The short version returns the packed logarithm. -/
theorem C104_short2 {U Q Q' : Arr ℂ} (h : exact_log_slow2 Q U = some Q') (P : Arr ℂ) :
    ∃ P', exact_log_slow_short2 P U = some P' ∧ ∀ i < 2, P' i = pack_hermitian 2 P Q' i := by
  unfold exact_log_slow2 at h
  obtain ⟨f, hf, h⟩ := Option.bind_eq_some_iff.1 h
  dsimp only at h
  split at h
  · simp at h
  · next hd =>
    rw [Option.some.injEq] at h
    unfold exact_log_slow_short2
    rw [hf, Option.bind_some]
    dsimp only
    rw [if_neg hd]
    refine ⟨_, rfl, ?_⟩
    obtain ⟨p0, p1⟩ := pack2_apply P Q'
    intro i hi
    rw [← h] at p0 p1 ⊢
    interval_cases i
    · rw [p0]; rfl
    · rw [p1]; rfl

/-- A quarter turn. -/
example (Q : Arr ℂ) : ∃ Q', exact_log_slow2 Q (phase2 (Real.pi / 2)) = some Q' ∧
    NormedSpace.exp (I • toM 2 Q') = toM 2 (phase2 (Real.pi / 2)) := by
  have hre : (phase2 (Real.pi / 2) 0).re = 0 := by
    unfold phase2
    rw [if_pos rfl, mul_comm, Complex.exp_ofReal_mul_I_re, Real.cos_pi_div_two]
  obtain ⟨Q', h, -, -, he⟩ := C104_two_partial (phase2_su (Real.pi / 2)) (by
    intro h
    have h0 := congrArg Complex.re (congrFun (congrFun h 0) 0)
    have e : toM 2 (phase2 (Real.pi / 2)) 0 0 = phase2 (Real.pi / 2) 0 := by simp [toM_apply]
    rw [e, hre] at h0
    norm_num at h0) Q
  refine ⟨Q', h, he ?_⟩
  rw [hre]
  refine Real.cos_nonneg_of_mem_Icc ⟨?_, ?_⟩
  · have := Real.pi_pos
    norm_num
    linarith
  · have := Real.two_le_pi
    norm_num
    linarith

end GLU.Mat
