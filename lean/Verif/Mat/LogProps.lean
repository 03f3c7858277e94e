import Verif.Mat.LogLemmas

/-!
# C104: the exact logarithm of a link

The logarithm of a special unitary matrix `U` is a traceless Hermitian matrix `Q` with `exp(iQ) = U`.
-/

namespace GLU.Mat

open Complex Matrix Polynomial

/-- The eigenvalues, in whatever order, are pairwise at least `δ` apart. -/
def Apart (M : Matrix (Fin 3) (Fin 3) ℂ) (δ : ℝ) : Prop :=
  ∀ a b c, IsSpectrum3 M (a, b, c) → δ ≤ ‖a - b‖

theorem spectrum_swap {M : Matrix (Fin 3) (Fin 3) ℂ} {a b c : ℂ} (h : IsSpectrum3 M (a, b, c)) :
    IsSpectrum3 M (b, c, a) ∧ IsSpectrum3 M (c, a, b) := by
  rw [isSpectrum3_iff] at h
  rw [isSpectrum3_iff, isSpectrum3_iff]
  exact ⟨fun x => by rw [h]; ring, fun x => by rw [h]; ring⟩

theorem cexp_arg {l : ℂ} (h : ‖l‖ = 1) : cexp (I * arg l) = l := by
  have := Complex.norm_mul_exp_arg_mul_I l
  rw [h, Complex.ofReal_one, one_mul, mul_comm] at this
  exact this


/-- **C104**, partial: for every SU(3) matrix whose eigenvalues are at least `2e-13` apart the routine returns a
traceless Hermitian matrix of which it is the exponential, whatever was in the place of the result.  Missing: matrices
with equal eigenvalues (`C104_identity_unset`, `C104_fails`) or nearly equal ones. -/
theorem C104_three_partial {U : Arr ℂ} (hU : IsSU 3 U) (hA : Apart (toM 3 U) (2 / 10 ^ 13)) (Q : Arr ℂ) :
    ∃ Q', exact_log_slow3 Q U = some Q' ∧ HermTraceless 3 Q' ∧ NormedSpace.exp (I • toM 3 Q') = toM 3 U := by
  have hsp := C69_su3 hU
  obtain ⟨n0, n1, n2, hprod⟩ := C69_su3_unit hU
  unfold exact_log_slow3
  dsimp only at n0 n1 n2 hprod ⊢
  set z := Eigenvalues_su3 U
  have d01 : 2 / 10 ^ 13 ≤ ‖z.1 - z.2.1‖ := hA z.1 z.2.1 z.2.2 hsp
  have d12 : 2 / 10 ^ 13 ≤ ‖z.2.1 - z.2.2‖ := hA z.2.1 z.2.2 z.1 (spectrum_swap hsp).1
  have d20 : 2 / 10 ^ 13 ≤ ‖z.2.2 - z.1‖ := hA z.2.2 z.1 z.2.1 (spectrum_swap hsp).2
  have hpos : (0 : ℝ) < 2 / 10 ^ 13 := by norm_num
  have ne01 : z.1 ≠ z.2.1 := fun h => by rw [h, sub_self, norm_zero] at d01; linarith
  have ne12 : z.2.1 ≠ z.2.2 := fun h => by rw [h, sub_self, norm_zero] at d12; linarith
  have ne20 : z.2.2 ≠ z.1 := fun h => by rw [h, sub_self, norm_zero] at d20; linarith
  have c0 := cexp_arg n0
  have c1 := cexp_arg n1
  set q0 := arg z.1
  set q1 := arg z.2.1
  have c2 : cexp (I * ((-q0 - q1 : ℝ) : ℂ)) = z.2.2 := by
    have e : cexp (I * ((-q0 - q1 : ℝ) : ℂ)) * (z.1 * z.2.1) = 1 := by
      rw [← c0, ← c1, ← Complex.exp_add, ← Complex.exp_add, ← Complex.exp_zero]
      congr 1
      push_cast
      ring
    calc cexp (I * ((-q0 - q1 : ℝ) : ℂ)) = cexp (I * ((-q0 - q1 : ℝ) : ℂ)) * (z.1 * z.2.1 * z.2.2) := by rw [hprod, mul_one]
      _ = z.2.2 := by rw [← mul_assoc, e, one_mul]
  have hx01 : q0 ≠ q1 := fun h => ne01 (by rw [← c0, ← c1, h])
  have hx02 : q0 ≠ -q0 - q1 := fun h => ne20 (by rw [← c2, ← h, c0])
  rw [if_neg fun h => hx01 h.1]
  set u : ℝ := 0.5 * q0 with hu
  set w : ℝ := q1 + u with hw
  have hq0 : q0 = 2 * u := by rw [hu]; ring
  have hq1 : q1 = -u + w := by rw [hw]; ring
  have hq2 : -q0 - q1 = -u - w := by rw [hw, hu]; ring
  have hden : 9 * (u * u) - w * w ≠ 0 := by
    have : 9 * (u * u) - w * w = (q0 - q1) * (q0 - (-q0 - q1)) := by rw [hw, hu]; ring
    rw [this]
    exact mul_ne_zero (sub_ne_zero.2 hx01) (sub_ne_zero.2 hx02)
  have hwl : 1 / 10 ^ 13 ≤ |w| := by
    have e : z.2.1 - z.2.2 = z.2.2 * (cexp (I * ((2 * w : ℝ) : ℂ)) - 1) := by
      rw [mul_sub, mul_one]
      congr 1
      rw [← c1, ← c2, ← Complex.exp_add]
      congr 1
      rw [hq2, hq1]
      push_cast
      ring
    rw [e, norm_mul, n2, one_mul] at d12
    have h := d12.trans (Real.norm_exp_I_mul_ofReal_sub_one_le (x := 2 * w))
    rw [Real.norm_eq_abs, abs_mul, abs_of_pos (by norm_num : (0 : ℝ) < 2)] at h
    linarith
  have hE : w * logE0 w - Real.sin w = 0 := by
    unfold logE0 STOL
    dsimp only
    rw [if_neg (not_lt.2 hwl)]
    have : w ≠ 0 := by
      intro h0
      rw [h0, abs_zero] at hwl
      linarith
    rw [mul_div_cancel₀ _ this, sub_self]
  unfold f_hermitian_log3
  dsimp only
  rw [← hu, ← hw, if_neg hden, Option.bind_some]
  set D : ℂ := ((1 / (9 * (u * u) - w * w) : ℝ) : ℂ) with hD
  set one : ℂ := (Real.cos u : ℂ) - I * Real.sin u with hone
  set E := logE0 w
  set f0 := (((u * u - w * w : ℝ) : ℂ) * (star one * star one) + one * (((8 * (u * u) * Real.cos w : ℝ) : ℂ) +
    I * 2 * u * ((3 * (u * u) + w * w : ℝ) : ℂ) * E)) * D with hf0
  set f1 := (((2 * u : ℝ) : ℂ) * (star one * star one) - one * (((2 * u * Real.cos w : ℝ) : ℂ) -
    I * ((3 * (u * u) - w * w : ℝ) : ℂ) * E)) * D with hf1
  set f2 := (star one * star one - one * ((Real.cos w : ℝ) + 3 * I * u * E)) * D with hf2
  have hval : ∀ x : ℝ, x = 2 * u ∨ x = -u + w ∨ x = -u - w → f0 + f1 * x + f2 * (x * x) = cexp (I * x) := by
    intro x hx
    obtain ⟨t, -, h⟩ := effs_core (E0 := E) hden hx (D := D) (by rw [hD]; push_cast; ring)
      (one := one) (cexp_neg_mul u) (c := Real.cos w) rfl
    rw [hE, Complex.ofReal_zero, mul_zero, add_zero] at h
    rw [← h, hf0, hf1, hf2]
    push_cast
    ring
  set x : Fin 3 → ℝ := ![q0, q1, -q0 - q1] with hxd
  set l : Fin 3 → ℂ := ![z.1, z.2.1, z.2.2] with hld
  have hP : ∀ k, f0 + f1 * x k + f2 * (x k * x k) = l k := by
    intro k
    fin_cases k
    · show f0 + f1 * q0 + f2 * (q0 * q0) = z.1
      rw [hval q0 (Or.inl hq0), c0]
    · show f0 + f1 * q1 + f2 * (q1 * q1) = z.2.1
      rw [hval q1 (Or.inr (Or.inl hq1)), c1]
    · show f0 + f1 * ((-q0 - q1 : ℝ) : ℂ) + f2 * (((-q0 - q1 : ℝ) : ℂ) * ((-q0 - q1 : ℝ) : ℂ)) = z.2.2
      rw [hval (-q0 - q1) (Or.inr (Or.inr hq2)), c2]
  have hxe : ∀ k, cexp (I * x k) = l k := by
    intro k
    fin_cases k
    · exact c0
    · exact c1
    · exact c2
  have hln : ∀ k, ‖l k‖ = 1 := by
    intro k
    fin_cases k
    · exact n0
    · exact n1
    · exact n2
  have hinj : Function.Injective l := by
    intro i j h
    fin_cases i <;> fin_cases j <;> first
      | rfl
      | exact absurd h ne01
      | exact absurd h ne01.symm
      | exact absurd h ne12
      | exact absurd h ne12.symm
      | exact absurd h ne20
      | exact absurd h ne20.symm
  have hd0 := log_denom hP hln hinj
  rw [if_neg hd0]
  refine ⟨_, rfl, ?_⟩
  set d := f1.im * f2.re - f1.re * f2.im with hdd
  have hev : ∀ k, (toM 3 U).charpoly.eval (l k) = 0 := by
    intro k
    rw [isSpectrum3_iff.1 hsp]
    fin_cases k <;> simp [hld]
  obtain ⟨P, hPu, hPv⟩ := exists_eigenbasis hev hinj
  have hun := (mem_specialUnitaryGroup_iff.1 hU).1
  have hunit : ∀ k, l k * star (l k) = 1 := fun k => root_unit hun (hev k)
  set H := logH (toM 3 U) f2 (-I * (1 / d : ℝ) / 2) ((f0.im * f2.re - f0.re * f2.im) * (1 / d)) with hH
  have hHv : ∀ k, H *ᵥ P.col k = (x k : ℂ) • P.col k := fun k => logH_vec hun (hP k) (hunit k) (hPv k) hdd hd0
  have hHP := mul_diag_of_cols hHv
  have hMP := mul_diag_of_cols hPv
  have hdet : IsUnit P.det := (Matrix.isUnit_iff_isUnit_det P).1 hPu
  have hHe : H = P * diagonal (fun k => (x k : ℂ)) * P⁻¹ := by
    rw [← hHP, Matrix.mul_assoc, Matrix.mul_nonsing_inv _ hdet, Matrix.mul_one]
  have hMe : toM 3 U = P * diagonal l * P⁻¹ := by
    rw [← hMP, Matrix.mul_assoc, Matrix.mul_nonsing_inv _ hdet, Matrix.mul_one]
  have htr : H.trace = 0 := by
    rw [hHe, Matrix.trace_mul_comm, ← Matrix.mul_assoc, Matrix.nonsing_inv_mul _ hdet, Matrix.one_mul, trace_diagonal,
      Fin.sum_univ_three]
    simp [hxd]
  have hQ := logMatrix_toM (Q := Q) htr
  rw [hQ, ← hH]
  refine ⟨⟨?_, ?_⟩, ?_⟩
  · rw [hQ, ← hH, hH]
    unfold logH
    rw [Matrix.IsHermitian, conjTranspose_sub, conjTranspose_smul, conjTranspose_sub, conjTranspose_smul, conjTranspose_smul,
      conjTranspose_conjTranspose, conjTranspose_smul, conjTranspose_one, star_star]
    have e1 : star (-I * ((1 / d : ℝ) : ℂ) / 2) = -(-I * ((1 / d : ℝ) : ℂ) / 2) := by
      simp
      ring
    have e2 : ∀ r : ℝ, star (r : ℂ) = r := fun r => Complex.conj_ofReal r
    rw [e1, e2, neg_smul, ← smul_neg, neg_sub]
  · rw [hQ, ← hH, htr]
  · have e1 : I • H = P * diagonal (fun k => I * (x k : ℂ)) * P⁻¹ := by
      rw [hHe, ← smul_mul_assoc, ← mul_smul_comm, ← diagonal_smul]
      rfl
    rw [e1, exp_conj _ _ hPu, exp_diagonal, hMe]
    congr 3
    ext k
    rw [Pi.coe_exp, ← Complex.exp_eq_exp_ℂ]
    exact hxe k

/-- Taking the exponential of the logarithm gives the link back to `1e-17`. -/
theorem C104_roundtrip_partial {U : Arr ℂ} (hU : IsSU 3 U) (hA : Apart (toM 3 U) (2 / 10 ^ 13)) (Q g : Arr ℂ) :
    ∃ Q' V, exact_log_slow3 Q U = some Q' ∧ exponentiate 3 Q' g = some V ∧
      ∀ i j, ‖toM 3 V i j - toM 3 U i j‖ ≤ 1 / 10 ^ 17 := by
  obtain ⟨Q', h1, h2, h3⟩ := C104_three_partial hU hA Q
  obtain ⟨V, hV, hc, -⟩ := C20_three_partial h2 g
  rw [h3] at hc
  exact ⟨Q', V, h1, hV, hc⟩

/-- Whatever is returned for a matrix other than the identity is Hermitian and traceless: no hypothesis on the matrix. -/
theorem C104_hermitian {U Q Q' : Arr ℂ} (hU : IsSU 3 U) (h1 : toM 3 U ≠ 1) (h : exact_log_slow3 Q U = some Q') :
    HermTraceless 3 Q' := by
  have hne : ¬ (arg (Eigenvalues_su3 U).1 = arg (Eigenvalues_su3 U).2.1 ∧
      arg (Eigenvalues_su3 U).2.1 = -(arg (Eigenvalues_su3 U).1 - arg (Eigenvalues_su3 U).2.1)) := by
    rintro ⟨e1, e2⟩
    obtain ⟨n0, n1, n2, hp⟩ := C69_su3_unit hU
    have e3 : arg (Eigenvalues_su3 U).2.1 = 0 := by rw [e2, e1]; ring
    have l0 : (Eigenvalues_su3 U).1 = 1 := by
      have := cexp_arg n0
      rw [e1, e3] at this
      simpa using this.symm
    have l1 : (Eigenvalues_su3 U).2.1 = 1 := by
      have := cexp_arg n1
      rw [e3] at this
      simpa using this.symm
    have l2 : (Eigenvalues_su3 U).2.2 = 1 := by
      have h := hp
      rw [l0, l1] at h
      simpa using h
    have hs := isSpectrum3_iff.1 (C69_su3 hU)
    rw [l0, l1, l2] at hs
    obtain ⟨t, -, -⟩ := vieta3 fun x => by rw [← hs x, charpoly_su3 hU]
    refine h1 ?_
    have hu := (mem_specialUnitaryGroup_iff.1 hU).1
    rw [C12_trace, Matrix.trace_fin_three] at t
    have hre := congrArg Complex.re t
    simp only [Complex.add_re, Complex.one_re] at hre
    have hrow : ∀ r, ∑ k, ‖toM 3 U r k‖ ^ 2 = 1 := by
      intro r
      have hh := mem_unitaryGroup_iff.1 hu
      have := congrFun (congrFun hh r) r
      rw [Matrix.mul_apply, one_apply_eq] at this
      have h := congrArg Complex.re this
      rw [Complex.re_sum] at h
      rw [Complex.one_re] at h
      rw [← h]
      refine Finset.sum_congr rfl fun k _ => ?_
      rw [star_apply, Complex.star_def, Complex.mul_conj, Complex.ofReal_re, Complex.normSq_eq_norm_sq]
    have hle : ∀ i, (toM 3 U i i).re ≤ 1 := fun i =>
      (Complex.re_le_norm _).trans (by
        have := Finset.single_le_sum (f := fun k => ‖toM 3 U i k‖ ^ 2) (fun k _ => by positivity) (Finset.mem_univ i)
        rw [hrow] at this
        exact (sq_le_one_iff₀ (norm_nonneg _)).1 this)
    have hr : ∀ i, (toM 3 U i i).re = 1 := by
      have a0 := hle 0
      have a1 := hle 1
      have a2 := hle 2
      intro i
      fin_cases i
      · show (toM 3 U 0 0).re = 1
        linarith
      · show (toM 3 U 1 1).re = 1
        linarith
      · show (toM 3 U 2 2).re = 1
        linarith
    ext i j
    have hri := hr i
    have hsum := hrow i
    by_cases hij : i = j
    · subst hij
      rw [one_apply_eq]
      have hn : ‖toM 3 U i i‖ ^ 2 ≤ 1 := by
        have := Finset.single_le_sum (f := fun k => ‖toM 3 U i k‖ ^ 2) (fun k _ => by positivity) (Finset.mem_univ i)
        linarith
      rw [← Complex.normSq_eq_norm_sq, Complex.normSq_apply, hri] at hn
      have : (toM 3 U i i).im = 0 := by nlinarith
      exact Complex.ext (by rw [hri, Complex.one_re]) (by rw [this, Complex.one_im])
    · rw [one_apply_ne hij]
      have hn : 1 ≤ ‖toM 3 U i i‖ ^ 2 := by
        rw [← Complex.normSq_eq_norm_sq, Complex.normSq_apply, hri]
        nlinarith [mul_self_nonneg (toM 3 U i i).im]
      have h2 := Finset.add_le_sum (f := fun k => ‖toM 3 U i k‖ ^ 2) (fun k _ => by positivity) (Finset.mem_univ i)
        (Finset.mem_univ j) hij
      have : ‖toM 3 U i j‖ ^ 2 ≤ 0 := by linarith
      have : ‖toM 3 U i j‖ = 0 := by nlinarith [norm_nonneg (toM 3 U i j)]
      exact norm_eq_zero.1 this
  unfold exact_log_slow3 at h
  dsimp only at h
  rw [if_neg hne] at h
  obtain ⟨f, -, h⟩ := Option.bind_eq_some_iff.1 h
  split at h
  · simp at h
  · rw [Option.some.injEq] at h
    rw [← h]
    refine ⟨?_, ?_⟩
    · ext i j
      fin_cases i <;> fin_cases j <;>
        · simp [toM_apply, logMatrix, conjTranspose_apply]
          try ring
    · rw [Matrix.trace_fin_three]
      simp [toM_apply, logMatrix]
      ring

theorem spectrum_mem {M : Matrix (Fin 3) (Fin 3) ℂ} {z : ℂ × ℂ × ℂ} (h : IsSpectrum3 M z) :
    M.charpoly.eval z.1 = 0 ∧ M.charpoly.eval z.2.1 = 0 ∧ M.charpoly.eval z.2.2 = 0 := by
  rw [isSpectrum3_iff] at h
  exact ⟨by rw [h]; ring, by rw [h]; ring, by rw [h]; ring⟩

/-- The identity matrix as an array. -/
def one3 : Arr ℂ := fun i => if i = 0 ∨ i = 4 ∨ i = 8 then 1 else 0

theorem toM_one3 : toM 3 one3 = 1 := by
  ext i j
  fin_cases i <;> fin_cases j <;> simp [toM_apply, one3]

theorem one3_su : IsSU 3 one3 := by
  unfold IsSU
  rw [toM_one3]
  exact one_mem _

theorem eigen_one3 : Eigenvalues_su3 one3 = (1, 1, 1) := by
  obtain ⟨h0, h1, h2⟩ := spectrum_mem (C69_su3 one3_su)
  have e : ∀ x : ℂ, (toM 3 one3).charpoly.eval x = 0 → x = 1 := by
    intro x hx
    rw [charpoly_su3 one3_su, C12_trace, toM_one3, Matrix.trace_one] at hx
    have : (x - 1) ^ 3 = 0 := by
      simp at hx
      linear_combination hx
    have := pow_eq_zero_iff (by norm_num) |>.1 this
    linear_combination this
  exact Prod.ext (e _ h0) (Prod.ext (e _ h1) (e _ h2))

/-- **C104** fails for the identity: the routine returns without writing the result, so that whatever was there before
is taken for the logarithm; the short version divides by zero. -/
theorem C104_identity_unset (Q : Arr ℂ) :
    IsSU 3 one3 ∧ exact_log_slow3 Q one3 = some Q ∧ exact_log_slow_short3 Q one3 = none := by
  refine ⟨one3_su, ?_, ?_⟩
  · unfold exact_log_slow3
    rw [eigen_one3]
    simp
  · unfold exact_log_slow_short3
    rw [eigen_one3]
    simp

/-- Minus one twice and one. -/
def twist3 : Arr ℂ := fun i => if i = 0 ∨ i = 4 then -1 else if i = 8 then 1 else 0

theorem toM_twist3 : toM 3 twist3 = diagonal ![-1, -1, 1] := by
  ext i j
  fin_cases i <;> fin_cases j <;> simp [toM_apply, twist3]

theorem twist3_su : IsSU 3 twist3 := by
  unfold IsSU
  rw [toM_twist3, mem_specialUnitaryGroup_iff, mem_unitaryGroup_iff]
  constructor
  · ext i j
    fin_cases i <;> fin_cases j <;> simp [Matrix.mul_apply, Fin.sum_univ_three]
  · rw [det_diagonal]
    simp [Fin.prod_univ_three]

theorem eigen_twist3 : Eigenvalues_su3 twist3 = (-1, -1, 1) ∨ Eigenvalues_su3 twist3 = (-1, 1, -1) ∨
    Eigenvalues_su3 twist3 = (1, -1, -1) := by
  have hs := C69_su3 twist3_su
  obtain ⟨h0, h1, h2⟩ := spectrum_mem hs
  have ht : trace 3 twist3 = -1 := by
    rw [C12_trace, toM_twist3, trace_diagonal]
    simp [Fin.sum_univ_three]
  have e : ∀ x : ℂ, (toM 3 twist3).charpoly.eval x = 0 → x = 1 ∨ x = -1 := by
    intro x hx
    rw [charpoly_su3 twist3_su, ht] at hx
    have : (x - 1) * ((x + 1) * (x + 1)) = 0 := by
      simp at hx
      linear_combination hx
    rcases mul_eq_zero.1 this with h | h
    · left; linear_combination h
    · right
      have := mul_self_eq_zero.1 h
      linear_combination this
  have hsum : (Eigenvalues_su3 twist3).1 + (Eigenvalues_su3 twist3).2.1 + (Eigenvalues_su3 twist3).2.2 = -1 := by
    rw [← ht]
    exact (vieta3 fun x => by rw [← isSpectrum3_iff.1 hs x, charpoly_su3 twist3_su]).1.symm
  have hr := congrArg Complex.re hsum
  rcases e _ h0 with a | a <;> rcases e _ h1 with b | b <;> rcases e _ h2 with c | c
  all_goals rw [a, b, c] at hr
  all_goals simp at hr
  all_goals try (exfalso; linarith)
  · exact Or.inr (Or.inr (Prod.ext a (Prod.ext b c)))
  · exact Or.inr (Or.inl (Prod.ext a (Prod.ext b c)))
  · exact Or.inl (Prod.ext a (Prod.ext b c))

/-- **C104** fails for the diagonal matrix with `-1, -1, 1`, whose logarithm `diag(π, -π, 0)` is not found: in whatever
order the eigenvalues come, the routine divides by zero. -/
theorem C104_fails (Q : Arr ℂ) : IsSU 3 twist3 ∧ exact_log_slow3 Q twist3 = none := by
  refine ⟨twist3_su, ?_⟩
  have hpi := Real.pi_ne_zero
  have h12 : ¬ |(Real.pi / 2 : ℝ)| < STOL := by
    unfold STOL
    rw [abs_of_pos (by positivity)]
    have := Real.two_le_pi
    norm_num
    linarith
  have h1 : ¬ |(Real.pi : ℝ)| < STOL := by
    unfold STOL
    rw [abs_of_pos (by positivity)]
    have := Real.two_le_pi
    norm_num
    linarith
  unfold exact_log_slow3
  rcases eigen_twist3 with h | h | h
  · rw [h]
    simp only [Complex.arg_neg_one]
    rw [if_neg (by simp [hpi])]
    unfold f_hermitian_log3
    dsimp only
    rw [if_pos (by ring), Option.bind_none]
  · rw [h]
    simp only [Complex.arg_neg_one, Complex.arg_one]
    rw [if_neg (by simp [hpi])]
    unfold f_hermitian_log3
    dsimp only
    have e : (0.5 * Real.pi : ℝ) = Real.pi / 2 := by ring
    have e2 : (0 + Real.pi / 2 : ℝ) = Real.pi / 2 := zero_add _
    rw [e, e2, if_neg (by
      have : 9 * (Real.pi / 2 * (Real.pi / 2)) - Real.pi / 2 * (Real.pi / 2) = 2 * Real.pi ^ 2 := by ring
      rw [this]; positivity), Option.bind_some]
    have hE : logE0 (Real.pi / 2) = 2 / Real.pi := by
      unfold logE0
      dsimp only
      rw [if_neg h12, Real.sin_pi_div_two]
      field_simp
    rw [hE, Real.cos_pi_div_two, Real.sin_pi_div_two]
    have hf1 : ((2 * (Real.pi / 2) : ℝ) : ℂ) * (star (((0 : ℝ) : ℂ) - I * ((1 : ℝ) : ℂ)) *
        star (((0 : ℝ) : ℂ) - I * ((1 : ℝ) : ℂ))) - (((0 : ℝ) : ℂ) - I * ((1 : ℝ) : ℂ)) *
        (((2 * (Real.pi / 2) * 0 : ℝ) : ℂ) - I * ((3 * (Real.pi / 2 * (Real.pi / 2)) - Real.pi / 2 * (Real.pi / 2) : ℝ) : ℂ) *
          ((2 / Real.pi : ℝ) : ℂ)) = 0 := by
      have hc : (Real.pi : ℂ) ≠ 0 := Complex.ofReal_ne_zero.2 hpi
      push_cast
      simp
      field_simp
      ring_nf
      simp
      try ring
    rw [hf1, zero_mul]
    simp
  · rw [h]
    simp only [Complex.arg_neg_one, Complex.arg_one]
    rw [if_neg (by simp [Ne.symm hpi])]
    unfold f_hermitian_log3
    dsimp only
    have e : (Real.pi + 0.5 * 0 : ℝ) = Real.pi := by ring
    have e0 : (0.5 * 0 : ℝ) = 0 := mul_zero _
    rw [e, e0, if_neg (by simp [hpi]), Option.bind_some]
    have hE : logE0 Real.pi = 0 := by
      unfold logE0
      dsimp only
      rw [if_neg h1, Real.sin_pi, zero_div]
    rw [hE]
    simp

/-- The short version returns the packed logarithm whenever the long one returns one, except for the identity. -/
theorem C104_short3 {U : Arr ℂ} (hU : IsSU 3 U) (h1 : toM 3 U ≠ 1) {Q Q' : Arr ℂ} (h : exact_log_slow3 Q U = some Q')
    (P : Arr ℂ) : ∃ P', exact_log_slow_short3 P U = some P' ∧ ∀ i < 5, P' i = pack_hermitian 3 P Q' i := by
  unfold exact_log_slow3 at h
  dsimp only at h
  split at h
  · next hz =>
    exfalso
    obtain ⟨e1, e2⟩ := hz
    obtain ⟨n0, n1, n2, hp⟩ := C69_su3_unit hU
    rw [Option.some.injEq] at h
    have := C104_hermitian (Q := fun _ => I) hU h1 (Q' := fun _ => I) (by
      unfold exact_log_slow3
      dsimp only
      rw [if_pos ⟨e1, e2⟩])
    have := congrArg Complex.im (congrFun (congrFun this.1 0) 0)
    simp [toM_apply] at this
    norm_num at this
  · obtain ⟨f, hf, h⟩ := Option.bind_eq_some_iff.1 h
    split at h
    · simp at h
    · next hd =>
      rw [Option.some.injEq] at h
      unfold f_hermitian_log3 at hf
      dsimp only at hf
      split at hf
      · simp at hf
      · next hden =>
        rw [Option.some.injEq] at hf
        unfold exact_log_slow_short3
        dsimp only
        rw [if_neg hden]
        have im : ∀ a b : ℂ, (a * star b).im = a.im * b.re - a.re * b.im := by
          intro a b
          simp
          ring
        rw [im, im]
        have k0 := congrArg Prod.fst hf
        have k1 := congrArg (fun t => t.2.1) hf
        have k2 := congrArg (fun t => t.2.2) hf
        dsimp only at k0 k1 k2
        rw [k0, k1, k2, if_neg hd]
        refine ⟨_, rfl, ?_⟩
        obtain ⟨p0, p1, p2, p3, p4⟩ := pack3_apply P Q'
        intro i hi
        rw [← h] at p0 p1 p2 p3 p4 ⊢
        interval_cases i
        · rw [p0]; rfl
        · rw [p1]; rfl
        · rw [p2]; rfl
        · rw [p3]; rfl
        · rw [p4]; rfl

/-! ## The hypotheses are met -/

theorem cyclic3_apart : Apart (toM 3 cyclic3) (2 / 10 ^ 13) := by
  intro a b c h
  have ht : trace 3 cyclic3 = 0 := by
    rw [C12_trace, toM_cyclic3, trace_fin_three]
    simp
  obtain ⟨h1, h2, h3⟩ := vieta3 fun x => by rw [← isSpectrum3_iff.1 h x, charpoly_su3 cyclic3_su]
  rw [ht] at h1 h2
  rw [star_zero] at h2
  dsimp only at h1 h2 h3
  have hc : c = -a - b := by linear_combination -h1
  have hu := (mem_specialUnitaryGroup_iff.1 cyclic3_su).1
  have hn : ‖c‖ = 1 := by
    have : c ^ 3 = 1 := by
      rw [hc] at h2 h3 ⊢
      linear_combination -h3 - (a + b) * h2
    have h' := congrArg norm this
    rw [norm_pow, norm_one] at h'
    exact (pow_eq_one_iff_of_nonneg (norm_nonneg c) (by norm_num)).1 h'
  have hs : (a - b) ^ 2 = -3 * c ^ 2 := by
    rw [hc] at h2 ⊢
    linear_combination 4 * h2
  have h' := congrArg norm hs
  rw [norm_pow, norm_mul, norm_pow, hn, norm_neg] at h'
  norm_num at h' ⊢
  nlinarith [norm_nonneg (a - b)]

/-- The logarithm of the cyclic permutation of the colours is found. -/
example (Q : Arr ℂ) : ∃ Q', exact_log_slow3 Q cyclic3 = some Q' ∧ HermTraceless 3 Q' ∧
    NormedSpace.exp (I • toM 3 Q') = !![0, 1, 0; 0, 0, 1; 1, 0, 0] := by
  rw [← toM_cyclic3]
  exact C104_three_partial cyclic3_su cyclic3_apart Q

/-- C104, the function `sin w / w` of the logarithm: the quotient itself unless `|w|` is below the tolerance, where it is the
expansion up to the sixth power with an error of the next order. -/
theorem C104_sinc (w : ℝ) :
    (STOL ≤ |w| → w * logE0 w = Real.sin w) ∧
      (|w| < STOL → |w * logE0 w - Real.sin w| ≤ |w| ^ 9) := by
  constructor
  · intro h
    have hw : w ≠ 0 := by
      rintro rfl
      rw [abs_zero] at h
      exact absurd h (not_le.2 (by unfold STOL; positivity))
    unfold logE0
    rw [if_neg (not_lt.2 h)]
    field_simp
  · intro h
    have h1 : |w| ≤ 1 := h.le.trans (by unfold STOL; norm_num)
    have hb := Complex.exp_bound (x := (w : ℂ) * I) (n := 9) (by simpa using h1) (by norm_num)
    have him := (Complex.abs_im_le_norm _).trans hb
    rw [Complex.sub_im, Complex.exp_ofReal_mul_I_im] at him
    have e : (∑ m ∈ Finset.range 9, ((w : ℂ) * I) ^ m / (m.factorial : ℂ)).im = w * logE0 w := by
      unfold logE0
      rw [if_pos h]
      have p2 : ((w : ℂ) * I) ^ 2 = ((-(w * w) : ℝ) : ℂ) := by
        rw [mul_pow, Complex.I_sq]
        push_cast
        ring
      have p3 : ((w : ℂ) * I) ^ 3 = ((-(w * w) * w : ℝ) : ℂ) * I := by
        rw [pow_succ, p2]
        push_cast
        ring
      have p4 : ((w : ℂ) * I) ^ 4 = (((w * w) * (w * w) : ℝ) : ℂ) := by
        rw [show 4 = 2 * 2 from rfl, pow_mul, p2]
        push_cast
        ring
      have p5 : ((w : ℂ) * I) ^ 5 = (((w * w) * (w * w) * w : ℝ) : ℂ) * I := by
        rw [pow_succ, p4]
        push_cast
        ring
      have p6 : ((w : ℂ) * I) ^ 6 = ((-((w * w) * (w * w) * (w * w)) : ℝ) : ℂ) := by
        rw [show 6 = 2 * 3 from rfl, pow_mul, p2]
        push_cast
        ring
      have p7 : ((w : ℂ) * I) ^ 7 = ((-((w * w) * (w * w) * (w * w)) * w : ℝ) : ℂ) * I := by
        rw [pow_succ, p6]
        push_cast
        ring
      have p8 : ((w : ℂ) * I) ^ 8 = (((w * w) * (w * w) * ((w * w) * (w * w)) : ℝ) : ℂ) := by
        rw [show 8 = 4 * 2 from rfl, pow_mul, p4]
        push_cast
        ring
      simp only [Finset.sum_range_succ, Finset.sum_range_zero, p2, p3, p4, p5, p6, p7, p8, Nat.factorial]
      simp [Complex.div_im, Complex.normSq]
      ring
    rw [e] at him
    rw [abs_sub_comm]
    refine him.trans ?_
    have hn : ‖(w : ℂ) * I‖ = |w| := by simp
    rw [hn]
    refine mul_le_of_le_one_right (by positivity) ?_
    norm_num [Nat.factorial]

example : (STOL ≤ |(1 : ℝ)|) ∧ |(1 / 10 ^ 14 : ℝ)| < STOL := by
  unfold STOL
  constructor
  · norm_num
  · rw [abs_of_pos (by positivity)]
    norm_num

end GLU.Mat
