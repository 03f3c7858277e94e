import Verif.Mat.Exp
import Verif.Mat.InvertProps
import Verif.Mat.PackProps
import Mathlib.Analysis.Matrix.Spectrum
import Mathlib.Analysis.Normed.Algebra.MatrixExponential
import Mathlib.Analysis.SpecialFunctions.Exponential

namespace GLU.Mat

open Complex Matrix

/-! ## Diagonalisation -/

theorem herm_diag {n : ℕ} {A : Matrix (Fin n) (Fin n) ℂ} (hA : A.IsHermitian) :
    ∃ V : Matrix (Fin n) (Fin n) ℂ, V * Vᴴ = 1 ∧ Vᴴ * V = 1 ∧
      A = V * diagonal (fun i => (hA.eigenvalues i : ℂ)) * Vᴴ := by
  refine ⟨hA.eigenvectorUnitary, ?_, ?_, ?_⟩
  · exact Unitary.coe_mul_star_self hA.eigenvectorUnitary
  · exact Unitary.coe_star_mul_self hA.eigenvectorUnitary
  · exact hA.spectral_theorem

theorem exp_diag {n : ℕ} {A V : Matrix (Fin n) (Fin n) ℂ} {e : Fin n → ℝ} (h1 : V * Vᴴ = 1)
    (hA : A = V * diagonal (fun i => (e i : ℂ)) * Vᴴ) :
    NormedSpace.exp (I • A) = V * diagonal (fun i => cexp (I * e i)) * Vᴴ := by
  have hinv : V⁻¹ = Vᴴ := inv_eq_right_inv h1
  have hu : IsUnit V := (isUnit_iff_isUnit_det V).2 (isUnit_det_of_right_inverse h1)
  have e1 : I • A = V * diagonal (fun i => I * (e i : ℂ)) * V⁻¹ := by
    rw [hinv, hA, ← smul_mul_assoc, ← mul_smul_comm, ← diagonal_smul]
    rfl
  rw [e1, exp_conj _ _ hu, exp_diagonal, hinv]
  congr 3
  ext i
  rw [Pi.coe_exp, ← Complex.exp_eq_exp_ℂ]

theorem exp_su {n : ℕ} {A : Matrix (Fin n) (Fin n) ℂ} (hA : A.IsHermitian)
    (hT : Matrix.trace A = 0) : NormedSpace.exp (I • A) ∈ specialUnitaryGroup (Fin n) ℂ := by
  obtain ⟨V, h1, h2, h3⟩ := herm_diag hA
  have hsum : ∑ i, (hA.eigenvalues i : ℂ) = 0 := by
    have := hT
    rw [h3, Matrix.trace_mul_comm, ← Matrix.mul_assoc, h2, Matrix.one_mul, trace_diagonal] at this
    exact this
  rw [exp_diag h1 h3, mem_specialUnitaryGroup_iff, mem_unitaryGroup_iff]
  constructor
  · rw [star_eq_conjTranspose, conjTranspose_mul, conjTranspose_mul, conjTranspose_conjTranspose,
      diagonal_conjTranspose]
    calc _ = V * diagonal (fun i => cexp (I * hA.eigenvalues i)) * (Vᴴ * V) *
          diagonal (star fun i => cexp (I * hA.eigenvalues i)) * Vᴴ := by
            simp only [Matrix.mul_assoc]
      _ = V * (diagonal (fun i => cexp (I * hA.eigenvalues i)) *
          diagonal (star fun i => cexp (I * hA.eigenvalues i))) * Vᴴ := by
            rw [h2]; simp only [Matrix.mul_assoc, Matrix.one_mul]
      _ = 1 := by
        rw [diagonal_mul_diagonal]
        have : (fun i => cexp (I * hA.eigenvalues i) *
            (star fun i => cexp (I * (hA.eigenvalues i : ℂ))) i) = fun _ => 1 := by
          ext i
          simp only [Pi.star_apply, star_def, ← exp_conj, map_mul, conj_I, conj_ofReal]
          rw [← Complex.exp_add]
          simp
        rw [this, diagonal_one, Matrix.mul_one, h1]
  · rw [det_mul, det_mul, mul_right_comm, ← det_mul, h1, det_one, one_mul, det_diagonal,
      ← Complex.exp_sum, ← Finset.mul_sum, hsum, mul_zero, Complex.exp_zero]

theorem poly_diag {n : ℕ} {A V : Matrix (Fin n) (Fin n) ℂ} {d : Fin n → ℂ} (h1 : V * Vᴴ = 1)
    (h2 : Vᴴ * V = 1) (hA : A = V * diagonal d * Vᴴ) (f0 f1 f2 : ℂ) :
    f0 • (1 : Matrix (Fin n) (Fin n) ℂ) + f1 • A + f2 • (A * A) =
      V * diagonal (fun i => f0 + f1 * d i + f2 * (d i * d i)) * Vᴴ := by
  have hAA : A * A = V * diagonal (fun i => d i * d i) * Vᴴ := by
    rw [hA]
    calc _ = V * diagonal d * (Vᴴ * V) * diagonal d * Vᴴ := by simp only [Matrix.mul_assoc]
      _ = V * (diagonal d * diagonal d) * Vᴴ := by
            rw [h2]; simp only [Matrix.mul_assoc, Matrix.one_mul]
      _ = _ := by rw [diagonal_mul_diagonal]
  have e : diagonal (fun i => f0 + f1 * d i + f2 * (d i * d i)) =
      f0 • (1 : Matrix (Fin n) (Fin n) ℂ) + f1 • diagonal d + f2 • diagonal (fun i => d i * d i) := by
    ext i j
    by_cases h : i = j
    · subst h; simp
    · simp [h]
  rw [e, hAA, Matrix.mul_add, Matrix.mul_add, Matrix.add_mul, Matrix.add_mul, Matrix.mul_smul,
    Matrix.mul_smul, Matrix.mul_smul, Matrix.smul_mul, Matrix.smul_mul, Matrix.smul_mul,
    Matrix.mul_one, h1, ← hA]

/-- Entries of a conjugated diagonal matrix are bounded by the largest eigenvalue. -/
theorem conj_diag_bound {n : ℕ} {V : Matrix (Fin n) (Fin n) ℂ} (h1 : V * Vᴴ = 1) (d : Fin n → ℂ)
    {b : ℝ} (hb : ∀ i, ‖d i‖ ≤ b) (i j : Fin n) : ‖(V * diagonal d * Vᴴ) i j‖ ≤ b := by
  have hrow : ∀ r, ∑ k, ‖V r k‖ ^ 2 = 1 := by
    intro r
    have := congrFun (congrFun h1 r) r
    rw [Matrix.mul_apply, one_apply_eq] at this
    have h := congrArg Complex.re this
    rw [Complex.re_sum] at h
    rw [Complex.one_re] at h
    rw [← h]
    refine Finset.sum_congr rfl fun k _ => ?_
    rw [conjTranspose_apply, star_def, mul_conj, ofReal_re, normSq_eq_norm_sq]
  have hb0 : 0 ≤ b := (norm_nonneg _).trans (hb i)
  rw [Matrix.mul_apply]
  simp only [mul_diagonal, conjTranspose_apply]
  calc ‖∑ k, V i k * d k * star (V j k)‖ ≤ ∑ k, ‖V i k * d k * star (V j k)‖ := norm_sum_le _ _
    _ ≤ ∑ k, b * ((‖V i k‖ ^ 2 + ‖V j k‖ ^ 2) / 2) := by
        refine Finset.sum_le_sum fun k _ => ?_
        rw [norm_mul, norm_mul, norm_star]
        have a1 := hb k
        have a2 := norm_nonneg (V i k)
        have a3 := norm_nonneg (V j k)
        have a4 : ‖V i k‖ * ‖V j k‖ ≤ (‖V i k‖ ^ 2 + ‖V j k‖ ^ 2) / 2 := by
          nlinarith [sq_nonneg (‖V i k‖ - ‖V j k‖)]
        calc ‖V i k‖ * ‖d k‖ * ‖V j k‖ = ‖d k‖ * (‖V i k‖ * ‖V j k‖) := by ring
          _ ≤ b * (‖V i k‖ * ‖V j k‖) := by gcongr
          _ ≤ _ := by gcongr
    _ = b := by
        rw [← Finset.mul_sum, ← Finset.sum_div, Finset.sum_add_distrib, hrow, hrow]
        ring

/-! ## Sine against its truncated series -/

theorem sin_taylor {w : ℝ} (hw : |w| ≤ 1) :
    |Real.sin w - w * (1 - w * w / 6 * (1 - w * w / 20 * (1 - w * w / 42)))| ≤ |w| ^ 9 / 326592 := by
  have h := Complex.exp_bound (x := w * I) (by simpa using hw) (n := 9) (by norm_num)
  have h' := (Complex.abs_im_le_norm _).trans h
  have e : (cexp (w * I) - ∑ m ∈ Finset.range 9, (w * I) ^ m / (m.factorial : ℂ)).im =
      Real.sin w - w * (1 - w * w / 6 * (1 - w * w / 20 * (1 - w * w / 42))) := by
    rw [Complex.sub_im, Complex.exp_ofReal_mul_I_im]
    congr 1
    have i2 : (I : ℂ) ^ 2 = -1 := I_sq
    have i3 : (I : ℂ) ^ 3 = -I := by rw [pow_succ, i2]; ring
    have i4 : (I : ℂ) ^ 4 = 1 := by rw [pow_succ, i3]; simp
    have i5 : (I : ℂ) ^ 5 = I := by rw [pow_succ, i4]; ring
    have i6 : (I : ℂ) ^ 6 = -1 := by rw [pow_succ, i5]; simp
    have i7 : (I : ℂ) ^ 7 = -I := by rw [pow_succ, i6]; ring
    have i8 : (I : ℂ) ^ 8 = 1 := by rw [pow_succ, i7]; simp
    have : ∑ m ∈ Finset.range 9, ((w : ℂ) * I) ^ m / (m.factorial : ℂ) =
        ((1 - w ^ 2 / 2 + w ^ 4 / 24 - w ^ 6 / 720 + w ^ 8 / 40320 : ℝ) : ℂ) +
        ((w * (1 - w * w / 6 * (1 - w * w / 20 * (1 - w * w / 42))) : ℝ) : ℂ) * I := by
      simp only [Finset.sum_range_succ, Finset.sum_range_zero, mul_pow, i2, i3, i4, i5, i6, i7, i8,
        Nat.factorial]
      push_cast
      ring
    rw [this]
    simp only [Complex.add_im, Complex.ofReal_im, Complex.mul_im, Complex.ofReal_re, I_im, I_re,
      mul_one, mul_zero, zero_add, add_zero]
  rw [e] at h'
  refine h'.trans (le_of_eq ?_)
  simp [Nat.factorial]
  ring

/-! ## The three coefficients -/

/-- The value of the interpolating polynomial without the sign flag at the three roots. -/
theorem effs_core {u w E0 : ℝ} (hd : 9 * (u * u) - w * w ≠ 0) {x : ℝ}
    (hx : x = 2 * u ∨ x = -u + w ∨ x = -u - w) {D : ℂ} (hD : D = 1 / (9 * (u * u) - w * w))
    {one : ℂ} (hone : one = cexp (-(I * u))) {c : ℝ} (hc : c = Real.cos w) :
    ∃ t : ℝ, (t = 0 ∨ t = 1 ∨ t = -1) ∧
    D * ((((u * u - w * w : ℝ) : ℂ) * (star one * star one) +
        one * ((8 * (u * u) * c : ℝ) + 2 * I * u * (3 * (u * u : ℝ) + (w * w : ℝ)) * E0)) +
      (((2 * u : ℝ) : ℂ) * (star one * star one) -
        one * ((2 * u * c : ℝ) - I * (3 * (u * u : ℝ) - (w * w : ℝ)) * E0)) * x +
      (star one * star one - one * (c + 3 * I * u * E0)) * (x * x)) =
      cexp (I * x) + t * I * one * (w * E0 - Real.sin w : ℝ) := by
  have hd' : (9 * ((u : ℂ) * u) - w * w) ≠ 0 := by
    have := Complex.ofReal_ne_zero.2 hd
    push_cast at this
    exact this
  have htwo : star one * star one = cexp (I * (2 * u : ℝ)) := by
    rw [hone, star_def, ← exp_conj, ← Complex.exp_add]
    congr 1
    simp
    ring
  have hpm : ∀ s : ℝ, (s = 1 ∨ s = -1) → cexp (I * (-u + s * w : ℝ)) =
      one * (Real.cos w + s * I * Real.sin w) := by
    intro s hs
    have : cexp (I * (-u + s * w : ℝ)) = one * cexp ((s * w : ℝ) * I) := by
      rw [hone, ← Complex.exp_add]
      congr 1
      push_cast
      ring
    rw [this, Complex.exp_mul_I, ← Complex.ofReal_cos, ← Complex.ofReal_sin]
    rcases hs with rfl | rfl
    · simp [mul_comm]
    · simp [mul_comm]
  subst hD hc
  rcases hx with rfl | rfl | rfl
  · refine ⟨0, Or.inl rfl, ?_⟩
    rw [htwo]
    rw [one_div, inv_mul_eq_iff_eq_mul₀ hd']
    push_cast
    ring
  · refine ⟨1, Or.inr (Or.inl rfl), ?_⟩
    have := hpm 1 (Or.inl rfl)
    rw [show (-u + w : ℝ) = -u + 1 * w by ring, this]
    rw [one_div, inv_mul_eq_iff_eq_mul₀ hd']
    push_cast
    ring
  · refine ⟨-1, Or.inr (Or.inr rfl), ?_⟩
    have := hpm (-1) (Or.inr rfl)
    rw [show (-u - w : ℝ) = -u + (-1) * w by ring, this]
    rw [one_div, inv_mul_eq_iff_eq_mul₀ hd']
    push_cast
    ring

theorem cexp_neg_mul (u : ℝ) : (Real.cos u : ℂ) - I * Real.sin u = cexp (-(I * u)) := by
  rw [show -(I * (u : ℂ)) = ((-u : ℝ) : ℂ) * I by push_cast; ring, Complex.exp_mul_I,
    ← Complex.ofReal_cos, ← Complex.ofReal_sin, Real.cos_neg, Real.sin_neg]
  push_cast
  ring

/-- Removing the sign flag. -/
theorem flag_value {s : ℝ} (hs : s = 1 ∨ s = -1) (D x : ℝ) (F0 F1 F2 R : ℂ)
    (h : (D : ℂ) * (F0 + F1 * ((s * x : ℝ) : ℂ) + F2 * (((s * x : ℝ) : ℂ) * ((s * x : ℝ) : ℂ))) =
      cexp (I * ((s * x : ℝ) : ℂ)) + R) :
    ∃ R' : ℂ, ‖R'‖ = ‖R‖ ∧
    (D : ℂ) * (F0.re + I * F0.im * s) + (D : ℂ) * (s * F1.re + I * F1.im) * x +
      (D : ℂ) * (F2.re + I * F2.im * s) * (x * x) = cexp (I * x) + R' := by
  rcases hs with rfl | rfl
  · refine ⟨R, rfl, ?_⟩
    rw [one_mul] at h
    rw [← h]
    simp only [ofReal_one, mul_one, one_mul]
    have e : ∀ z : ℂ, (z.re : ℂ) + I * z.im = z := fun z => by rw [mul_comm]; exact re_add_im z
    rw [e, e, e]
    ring
  · refine ⟨star R, norm_star R, ?_⟩
    have h' := congrArg star h
    have e : ∀ z : ℂ, (z.re : ℂ) + I * z.im * ((-1 : ℝ) : ℂ) = star z := fun z => by
      apply Complex.ext <;> simp
    have e' : ((-1 : ℝ) : ℂ) * F1.re + I * F1.im = -star F1 := by
      apply Complex.ext <;> simp
    have e'' : star (cexp (I * ((-1 * x : ℝ) : ℂ))) = cexp (I * x) := by
      rw [star_def, ← exp_conj]
      simp
    rw [star_add, e''] at h'
    rw [e, e', e, ← h']
    simp only [star_mul', star_add, star_def, conj_ofReal]
    push_cast
    ring

theorem gap_contra {flag u w : ℝ} {e : Fin 3 → ℝ} (hflag : flag = 1 ∨ flag = -1) (hw0 : 0 ≤ w)
    (hwt : w < 1 / 20) (hgap : ∀ i j, i ≠ j → 1 / 10 ≤ |e i - e j|)
    (hroot : ∀ i, flag * e i = 2 * u ∨ flag * e i = -u + w ∨ flag * e i = -u - w) : False := by
  have hdiff : ∀ i j, i ≠ j → 1 / 10 ≤ |flag * e i - flag * e j| := by
    intro i j hij
    have h := hgap i j hij
    rw [← mul_sub, abs_mul]
    rcases hflag with h' | h' <;> rw [h']
    · rwa [abs_one, one_mul]
    · rwa [abs_neg, abs_one, one_mul]
  have d01 := hdiff 0 1 (by decide)
  have d02 := hdiff 0 2 (by decide)
  have d12 := hdiff 1 2 (by decide)
  clear hdiff hgap hflag
  have key : ∀ x y : ℝ, (x = 2 * u ∨ x = -u + w ∨ x = -u - w) →
      (y = 2 * u ∨ y = -u + w ∨ y = -u - w) → 1 / 10 ≤ |x - y| → x = 2 * u ∨ y = 2 * u := by
    intro x y hx hy h
    rcases hx with hx | hx | hx
    · exact Or.inl hx
    all_goals
      rcases hy with hy | hy | hy
      · exact Or.inr hy
      all_goals
        exfalso
        rw [hx, hy, le_abs] at h
        rcases h with h | h <;> linarith
  have key2 : ∀ x y : ℝ, x = 2 * u → y = 2 * u → ¬ 1 / 10 ≤ |x - y| := by
    intro x y hx hy h
    rw [hx, hy, sub_self, abs_zero] at h
    norm_num at h
  rcases key _ _ (hroot 0) (hroot 1) d01 with h | h
  · rcases key _ _ (hroot 1) (hroot 2) d12 with h' | h'
    · exact key2 _ _ h h' d01
    · exact key2 _ _ h h' d02
  · rcases key _ _ (hroot 0) (hroot 2) d02 with h' | h'
    · exact key2 _ _ h' h d01
    · exact key2 _ _ h h' d12

theorem effs3_spec (e : Fin 3 → ℝ) (hs : e 0 + e 1 + e 2 = 0) {c0 c1 : ℝ}
    (h0 : c0 = e 0 * e 1 * e 2) (h1 : c1 = (e 0 ^ 2 + e 1 ^ 2 + e 2 ^ 2) / 6) (hpos : 0 < c1) :
    ∃ f0 f1 f2, effs3 c0 c1 = some (f0, f1, f2) ∧
      (∀ i, ‖f0 + f1 * e i + f2 * (e i * e i) - cexp (I * e i)‖ ≤ 1 / 10 ^ 17) ∧
      ((∀ i j, i ≠ j → 1 / 10 ≤ |e i - e j|) →
        ∀ i, f0 + f1 * e i + f2 * (e i * e i) = cexp (I * e i)) := by
  have he2 : e 2 = -e 0 - e 1 := by linarith
  unfold effs3
  extract_lets flag c0' rc1 c0_max theta s c u w uu ww denom s' c' one two two' s'' c'' E0 F0 F1 F2 f0 f1 f2
  have hflag : flag = 1 ∨ flag = -1 := by
    simp only [flag]; split
    · exact Or.inr rfl
    · exact Or.inl rfl
  have hc0' : 0 ≤ c0' := by
    simp only [c0', flag]; split <;> linarith
  have hrc : 0 < rc1 := Real.sqrt_pos.2 hpos
  have hrc2 : rc1 * rc1 = c1 := Real.mul_self_sqrt hpos.le
  have hmax : 0 < c0_max := by positivity
  have hf2 : flag * flag = 1 := by rcases hflag with h | h <;> rw [h] <;> norm_num
  have hdisc : c0' * c0' ≤ c0_max * c0_max := by
    have a1 : c0' * c0' = c0 * c0 := by
      simp only [c0']; linear_combination c0 * c0 * hf2
    have a2 : c0_max * c0_max = 4 * c1 * c1 * c1 := by
      simp only [c0_max]; linear_combination 4 * c1 * c1 * hrc2
    rw [a1, a2, h0, h1, he2]
    have : 0 ≤ ((e 0 - e 1) * (2 * e 0 + e 1) * (e 0 + 2 * e 1)) ^ 2 := sq_nonneg _
    nlinarith [this]
  have hq0 : 0 ≤ c0' / c0_max := by positivity
  have hq1 : c0' / c0_max ≤ 1 := by
    rw [div_le_one hmax]
    exact abs_le_of_sq_le_sq' (by nlinarith) hmax.le |>.2
  rw [if_neg (by
    rintro (h | h)
    · exact hmax.ne' h
    · rw [abs_of_nonneg hq0] at h; linarith)]
  -- the angle
  have hth0 : 0 ≤ theta := by
    have := Real.arccos_nonneg (c0' / c0_max)
    simp only [theta]; linarith
  have hth1 : theta ≤ Real.pi / 6 := by
    have := Real.arccos_le_pi_div_two.2 hq0
    simp only [theta]; linarith
  have hcos3 : 4 * c ^ 3 - 3 * c = c0' / c0_max := by
    have := Real.cos_three_mul theta
    rw [show 3 * theta = Real.arccos (c0' / c0_max) by simp only [theta]; ring,
      Real.cos_arccos (by linarith) hq1] at this
    exact this.symm
  have hsc : s ^ 2 + c ^ 2 = 1 := Real.sin_sq_add_cos_sq theta
  have hs0 : 0 ≤ s := Real.sin_nonneg_of_nonneg_of_le_pi hth0 (by linarith [Real.pi_pos])
  have h3 : √3 * √3 = (3 : ℝ) := Real.mul_self_sqrt (by norm_num)
  have hc34 : 3 / 4 ≤ c ^ 2 := by
    have : √3 / 2 ≤ c := by
      rw [← Real.cos_pi_div_six]
      exact Real.cos_le_cos_of_nonneg_of_le_pi hth0 (by linarith [Real.pi_pos]) hth1
    have h3p : 0 ≤ √3 := Real.sqrt_nonneg 3
    nlinarith
  have huu : uu = c1 * c ^ 2 := by
    simp only [uu, u]; linear_combination c ^ 2 * hrc2
  have hww : ww = 3 * c1 * s ^ 2 := by
    simp only [ww, w]; linear_combination rc1 * rc1 * s ^ 2 * h3 + 3 * s ^ 2 * hrc2
  have hden : 9 * uu - ww ≠ 0 := by
    have : 9 * uu - ww = c1 * (12 * c ^ 2 - 3) := by
      rw [huu, hww]; linear_combination -3 * c1 * hsc
    rw [this]
    exact (mul_pos hpos (by linarith)).ne'
  rw [if_neg hden]
  have hw0 : 0 ≤ w := by positivity
  have hroot : ∀ i, flag * e i = 2 * u ∨ flag * e i = -u + w ∨ flag * e i = -u - w := by
    intro i
    have hcub : (flag * e i) ^ 3 - 3 * c1 * (flag * e i) - c0' = 0 := by
      have : e i ^ 3 - 3 * c1 * e i - c0 = 0 := by
        rw [h0, h1, he2]
        fin_cases i
        · simp; ring
        · simp; ring
        · simp [he2]; ring
      simp only [c0']
      linear_combination flag * this + flag * e i ^ 3 * hf2
    have hprod : (flag * e i - 2 * u) * ((flag * e i - (-u + w)) * (flag * e i - (-u - w))) = 0 := by
      have hA : 3 * uu + ww = 3 * c1 := by
        rw [huu, hww]; linear_combination 3 * c1 * hsc
      have hB : 2 * u * (uu - ww) = c0' := by
        have : c0' = c0_max * (4 * c ^ 3 - 3 * c) := by rw [hcos3]; field_simp
        rw [this, huu, hww]
        simp only [u, c0_max]
        linear_combination -6 * rc1 * c * c1 * hsc
      simp only [uu, ww] at hA hB
      linear_combination hcub - flag * e i * hA - hB
    rcases mul_eq_zero.1 hprod with h | h
    · exact Or.inl (by linarith)
    · rcases mul_eq_zero.1 h with h | h
      · exact Or.inr (Or.inl (by linarith))
      · exact Or.inr (Or.inr (by linarith))
  have hval : ∀ i, ∃ R : ℂ, ‖R‖ ≤ |w * E0 - Real.sin w| ∧
      f0 + f1 * e i + f2 * (e i * e i) = cexp (I * e i) + R := by
    intro i
    obtain ⟨t, ht, hcore⟩ := effs_core (E0 := E0) hden (hroot i)
      (D := (denom : ℂ)) (by simp only [denom, uu, ww]; push_cast; rfl)
      (one := one) (cexp_neg_mul u) (c := c'') rfl
    obtain ⟨R', hR', hv⟩ := flag_value hflag denom (e i) F0 F1 F2 _ hcore
    refine ⟨R', ?_, hv⟩
    rw [hR', norm_mul, norm_mul, norm_mul, Complex.norm_I, mul_one,
      show one = cexp (-(I * u)) from cexp_neg_mul u,
      show -(I * (u : ℂ)) = ((-u : ℝ) : ℂ) * I by push_cast; ring, Complex.norm_exp_ofReal_mul_I,
      mul_one, Complex.norm_real, Complex.norm_real, Real.norm_eq_abs, Real.norm_eq_abs]
    have : |t| ≤ 1 := by
      rcases ht with rfl | rfl | rfl <;> simp
    exact mul_le_of_le_one_left (abs_nonneg _) this
  refine ⟨f0, f1, f2, rfl, fun i => ?_, fun hgap i => ?_⟩
  · obtain ⟨R, hR, hv⟩ := hval i
    rw [hv, add_sub_cancel_left]
    refine hR.trans ?_
    by_cases hwt : |w| < SINTOL
    · have hE : E0 = 1 - ww / 6 * (1 - ww / 20 * (1 - ww / 42)) := if_pos hwt
      have hwt' : |w| < 1 / 20 := hwt
      have := sin_taylor (w := w) (by linarith)
      rw [abs_sub_comm, hE]
      refine this.trans ?_
      have h9 : |w| ^ 9 ≤ (1 / 20) ^ 9 := pow_le_pow_left₀ (abs_nonneg _) hwt'.le 9
      calc |w| ^ 9 / 326592 ≤ (1 / 20) ^ 9 / 326592 := by gcongr
        _ ≤ 1 / 10 ^ 17 := by norm_num
    · have hE : E0 = Real.sin w / w := if_neg hwt
      have hwne : w ≠ 0 := by
        intro h; apply hwt; rw [h, abs_zero]; unfold SINTOL; norm_num
      rw [hE, mul_div_cancel₀ _ hwne, sub_self, abs_zero]
      positivity
  · obtain ⟨R, hR, hv⟩ := hval i
    have hwt : ¬ |w| < SINTOL := by
      intro hwt
      rw [abs_of_nonneg hw0] at hwt
      exact gap_contra hflag hw0 hwt hgap hroot
    have hE : E0 = Real.sin w / w := if_neg hwt
    have hwne : w ≠ 0 := by
      intro h; apply hwt; rw [h, abs_zero]; unfold SINTOL; norm_num
    rw [hE, mul_div_cancel₀ _ hwne, sub_self, abs_zero] at hR
    rw [hv, norm_le_zero_iff.1 hR, add_zero]

end GLU.Mat
