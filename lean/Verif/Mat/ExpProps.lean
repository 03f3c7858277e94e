import Verif.Mat.ExpLemmas
import Verif.Mat.GramProps
import Mathlib.Analysis.SpecialFunctions.Trigonometric.Bounds

/-!
# C20: exponentiation

The specification is Mathlib's matrix exponential `NormedSpace.exp (I • Q)`, which
`C20_exp_special_unitary` shows to be special unitary.  The routines replace `sin w / w` by a
truncated series for nearly degenerate eigenvalues, so equality holds only away from
degeneracy (`_partial`); everywhere the result is within `10^-17` of the exponential for three
colours.  For two colours the series is written in `z` instead of `z^2` and the result is not
unitary (`C20_two_small_fails`).
-/

namespace GLU.Mat

open Complex Matrix

/-- The exponential of `i` times a traceless Hermitian matrix is special unitary. -/
theorem C20_exp_special_unitary {NC : ℕ} {Q : Arr ℂ} (hQ : HermTraceless NC Q) :
    NormedSpace.exp (I • toM NC Q) ∈ specialUnitaryGroup (Fin NC) ℂ :=
  exp_su hQ.1 hQ.2

/-- Distinct eigenvalues are at least `δ` apart. -/
def Separated {n : ℕ} {A : Matrix (Fin n) (Fin n) ℂ} (hA : A.IsHermitian) (δ : ℝ) : Prop :=
  ∀ i j, i ≠ j → δ ≤ |hA.eigenvalues i - hA.eigenvalues j|

theorem exp3_generic {A : Matrix (Fin 3) (Fin 3) ℂ} (hA : A.IsHermitian) (hT : Matrix.trace A = 0)
    {c0 c1 : ℝ} (h0 : (c0 : ℂ) = A.det) (h1 : (c1 : ℂ) = Matrix.trace (A * A) / 6) :
    (c1 < DBL_MIN → (∀ i j, ‖(1 : Matrix (Fin 3) (Fin 3) ℂ) i j - NormedSpace.exp (I • A) i j‖ ≤
      1 / 10 ^ 17) ∧ ¬ Separated hA (1 / 10)) ∧
    (¬ c1 < DBL_MIN → ∃ f0 f1 f2, effs3 c0 c1 = some (f0, f1, f2) ∧
      (∀ i j, ‖(f0 • (1 : Matrix (Fin 3) (Fin 3) ℂ) + f1 • A + f2 • (A * A)) i j -
        NormedSpace.exp (I • A) i j‖ ≤ 1 / 10 ^ 17) ∧
      (Separated hA (1 / 10) → f0 • (1 : Matrix (Fin 3) (Fin 3) ℂ) + f1 • A + f2 • (A * A) =
        NormedSpace.exp (I • A))) := by
  obtain ⟨V, h1V, h2V, h3⟩ := herm_diag hA
  set e := hA.eigenvalues with he
  have hsum : e 0 + e 1 + e 2 = 0 := by
    have := hT
    rw [h3, Matrix.trace_mul_comm, ← Matrix.mul_assoc, h2V, Matrix.one_mul, trace_diagonal,
      Fin.sum_univ_three] at this
    exact_mod_cast this
  have hsq : A * A = V * diagonal (fun i => (e i : ℂ) * e i) * Vᴴ := by
    have := poly_diag h1V h2V h3 0 0 1
    simpa using this
  have hc1 : c1 = (e 0 ^ 2 + e 1 ^ 2 + e 2 ^ 2) / 6 := by
    have := h1
    rw [hsq, Matrix.trace_mul_comm, ← Matrix.mul_assoc, h2V, Matrix.one_mul, trace_diagonal,
      Fin.sum_univ_three] at this
    have h' : (c1 : ℂ) = (((e 0 ^ 2 + e 1 ^ 2 + e 2 ^ 2) / 6 : ℝ) : ℂ) := by
      rw [this]; push_cast; ring
    exact_mod_cast h'
  have hc0 : c0 = e 0 * e 1 * e 2 := by
    have := h0
    rw [hA.det_eq_prod_eigenvalues, Fin.prod_univ_three] at this
    have h' : (c0 : ℂ) = ((e 0 * e 1 * e 2 : ℝ) : ℂ) := by
      rw [this]; push_cast; rfl
    exact_mod_cast h'
  have hexp := exp_diag h1V h3
  have hmin : DBL_MIN ≤ 1 / 10 ^ 40 := by
    unfold DBL_MIN
    rw [_root_.zpow_neg, one_div]
    apply inv_anti₀ (by positivity)
    have h200 : (10 : ℝ) ^ 40 ≤ 2 ^ 200 := by norm_num
    have : (2 : ℝ) ^ 200 ≤ 2 ^ 1022 := pow_le_pow_right₀ (by norm_num) (by norm_num)
    exact_mod_cast h200.trans this
  have hone : (1 : Matrix (Fin 3) (Fin 3) ℂ) = V * diagonal (fun _ => 1) * Vᴴ := by
    rw [diagonal_one, Matrix.mul_one, h1V]
  have hdiff : ∀ d d' : Fin 3 → ℂ, V * diagonal d * Vᴴ - V * diagonal d' * Vᴴ =
      V * diagonal (fun i => d i - d' i) * Vᴴ := by
    intro d d'
    rw [← Matrix.sub_mul, ← Matrix.mul_sub, diagonal_sub]
  constructor
  · intro hlt
    constructor
    · intro i j
      rw [← Matrix.sub_apply, hexp, hone, hdiff]
      refine conj_diag_bound h1V _ (fun k => ?_) i j
      have hk : |e k| ≤ 1 / 10 ^ 17 := by
        apply abs_le_of_sq_le_sq _ (by norm_num)
        have : e k ^ 2 ≤ 6 * c1 := by
          rw [hc1]
          fin_cases k <;> simp <;> nlinarith [sq_nonneg (e 0), sq_nonneg (e 1), sq_nonneg (e 2)]
        calc e k ^ 2 ≤ 6 * c1 := this
          _ ≤ 6 * (1 / 10 ^ 40) := by linarith
          _ ≤ (1 / 10 ^ 17) ^ 2 := by norm_num
      rw [norm_sub_rev]
      exact (Real.norm_exp_I_mul_ofReal_sub_one_le (x := e k)).trans hk
    · intro hsep
      have h01 := hsep 0 1 (by decide)
      have : (1 / 10) ^ 2 ≤ (e 0 - e 1) ^ 2 := sq_le_sq' (by linarith [abs_nonneg (e 0 - e 1)]) h01 |>.trans (sq_abs _).le
      have h2 : 1 / 600 * (1 / 2) ≤ c1 := by
        rw [hc1]
        nlinarith [sq_nonneg (e 0 + e 1), sq_nonneg (e 2)]
      have : (1 : ℝ) / 10 ^ 40 < 1 / 600 * (1 / 2) := by norm_num
      linarith
  · intro hge
    have hpos : 0 < c1 := by
      have : 0 < DBL_MIN := by unfold DBL_MIN; positivity
      linarith
    obtain ⟨f0, f1, f2, hf, hb, hx⟩ := effs3_spec e hsum hc0 hc1 hpos
    refine ⟨f0, f1, f2, hf, fun i j => ?_, fun hsep => ?_⟩
    · rw [← Matrix.sub_apply, hexp, poly_diag h1V h2V h3, hdiff]
      exact conj_diag_bound h1V _ hb i j
    · rw [hexp, poly_diag h1V h2V h3]
      congr 3
      ext i
      exact hx hsep i

theorem herm3_facts {Q : Arr ℂ} (hQ : HermTraceless 3 Q) :
    (Q 0).im = 0 ∧ (Q 4).im = 0 ∧ (Q 8).im = 0 ∧ Q 3 = star (Q 1) ∧ Q 6 = star (Q 2) ∧
      Q 7 = star (Q 5) ∧ Q 8 = -Q 0 - Q 4 := by
  obtain ⟨hH, hT⟩ := hQ
  have h : ∀ i j : Fin 3, star (toM 3 Q j i) = toM 3 Q i j := fun i j => hH.apply i j
  rw [Matrix.trace, Fin.sum_univ_three] at hT
  have h00 := h 0 0
  have h11 := h 1 1
  have h22 := h 2 2
  have h10 := h 1 0
  have h20 := h 2 0
  have h21 := h 2 1
  simp [toM_apply] at h00 h11 h22 h10 h20 h21 hT
  refine ⟨conj_eq_iff_im.1 h00, conj_eq_iff_im.1 h11, conj_eq_iff_im.1 h22, h10.symm, h20.symm,
    h21.symm, by linear_combination hT⟩

theorem toM_assemble3 {Q : Arr ℂ} (hQ : HermTraceless 3 Q) (f0 f1 f2 : ℂ) :
    toM 3 (assemble3 (Q 0).re (Q 1).re (Q 1).im (Q 2).re (Q 2).im (Q 4).re (Q 5).re (Q 5).im
      (Q 8).re (Q 1) (Q 2) (Q 3) (Q 5) (Q 6) (Q 7) f0 f1 f2) =
    f0 • (1 : Matrix (Fin 3) (Fin 3) ℂ) + f1 • toM 3 Q + f2 • (toM 3 Q * toM 3 Q) := by
  obtain ⟨i0, i4, i8, h3, h6, h7, h8⟩ := herm3_facts hQ
  have r0 : Q 0 = ((Q 0).re : ℂ) := Complex.ext rfl (by simpa using i0)
  have r4 : Q 4 = ((Q 4).re : ℂ) := Complex.ext rfl (by simpa using i4)
  have r8' : Q 8 = ((Q 8).re : ℂ) := Complex.ext rfl (by simpa using i8)
  have r8 : (Q 8).re = -(Q 0).re - (Q 4).re := by rw [h8]; simp
  have e1 : Q 1 = (Q 1).re + I * (Q 1).im := by rw [mul_comm]; exact (re_add_im _).symm
  have e2 : Q 2 = (Q 2).re + I * (Q 2).im := by rw [mul_comm]; exact (re_add_im _).symm
  have e5 : Q 5 = (Q 5).re + I * (Q 5).im := by rw [mul_comm]; exact (re_add_im _).symm
  have s1 : star (Q 1) = (Q 1).re - I * (Q 1).im := by apply Complex.ext <;> simp
  have s2 : star (Q 2) = (Q 2).re - I * (Q 2).im := by apply Complex.ext <;> simp
  have s5 : star (Q 5) = (Q 5).re - I * (Q 5).im := by apply Complex.ext <;> simp
  rw [r8] at r8'
  rw [r8, h3, h6, h7]
  generalize (Q 0).re = a0 at *
  generalize (Q 4).re = a4 at *
  generalize (Q 1).re = a1 at *
  generalize (Q 1).im = b1 at *
  generalize (Q 2).re = a2 at *
  generalize (Q 2).im = b2 at *
  generalize (Q 5).re = a5 at *
  generalize (Q 5).im = b5 at *
  ext i j
  have hI : I * I = -1 := I_mul_I
  fin_cases i <;> fin_cases j <;>
    simp only [assemble3, toM_apply, Matrix.add_apply, Matrix.smul_apply, Matrix.mul_apply,
      Fin.sum_univ_three, one_apply, arr, smul_eq_mul] <;>
    simp [r0, r4, r8', h3, h6, h7, e1, e2, e5] <;>
    ring_nf <;> (try simp only [I_sq]) <;> simp <;> ring_nf <;> simp

theorem c0det_eq {Q : Arr ℂ} (hQ : HermTraceless 3 Q) :
    ((c0det (Q 0).re (Q 1).re (Q 1).im (Q 2).re (Q 2).im (Q 4).re (Q 5).re (Q 5).im (Q 8).re : ℝ) : ℂ) =
      (toM 3 Q).det := by
  obtain ⟨i0, i4, i8, h3, h6, h7, h8⟩ := herm3_facts hQ
  rw [det_fin_three]
  simp only [toM_apply]
  norm_num
  rw [h3, h6, h7]
  simp only [c0det]
  apply Complex.ext
  · simp [i0, i4, i8]; ring
  · simp [i0, i4, i8]; ring

theorem c1_eq {Q : Arr ℂ} (hQ : HermTraceless 3 Q) :
    ((((Q 0).re * (Q 0).re + (Q 0).re * (Q 4).re + (Q 4).re * (Q 4).re + (Q 1).re * (Q 1).re +
      (Q 1).im * (Q 1).im + (Q 2).re * (Q 2).re + (Q 2).im * (Q 2).im + (Q 5).re * (Q 5).re +
      (Q 5).im * (Q 5).im) / 3 : ℝ) : ℂ) = Matrix.trace (toM 3 Q * toM 3 Q) / 6 := by
  obtain ⟨i0, i4, i8, h3, h6, h7, h8⟩ := herm3_facts hQ
  rw [Matrix.trace, Fin.sum_univ_three]
  simp only [Matrix.diag, Matrix.mul_apply, Fin.sum_univ_three, toM_apply]
  norm_num
  rw [h3, h6, h7, h8]
  apply Complex.ext
  · simp [i0, i4]; ring
  · simp [i0, i4]; ring

/-- Three colours: the result is defined and every entry is within `10^-17` of the
exponential, which is special unitary; it equals the exponential when the eigenvalues are not
closer than `1/10`.  Missing for the full claim: equality for nearly degenerate eigenvalues,
where the code uses a truncated series. -/
theorem C20_three_partial {Q : Arr ℂ} (hQ : HermTraceless 3 Q) (g : Arr ℂ) :
    ∃ U, exponentiate 3 Q g = some U ∧
      (∀ i j, ‖toM 3 U i j - NormedSpace.exp (I • toM 3 Q) i j‖ ≤ 1 / 10 ^ 17) ∧
      (Separated hQ.1 (1 / 10) →
        toM 3 U = NormedSpace.exp (I • toM 3 Q) ∧ IsSU 3 U) := by
  obtain ⟨hlt, hge⟩ := exp3_generic hQ.1 hQ.2 (c0det_eq hQ) (c1_eq hQ)
  simp only [exponentiate, if_true, exponentiate3]
  split
  · next h =>
    obtain ⟨hb, hs⟩ := hlt h
    refine ⟨_, rfl, fun i j => ?_, fun h => absurd h hs⟩
    have : toM 3 (arr [1, 0, 0, 0, 1, 0, 0, 0, 1]) = (1 : Matrix (Fin 3) (Fin 3) ℂ) := by
      ext i j
      fin_cases i <;> fin_cases j <;> simp [toM_apply, arr]
    rw [this]
    exact hb i j
  · next h =>
    obtain ⟨f0, f1, f2, hf, hb, hx⟩ := hge h
    rw [hf]
    refine ⟨_, rfl, fun i j => ?_, fun hs => ?_⟩
    · rw [toM_assemble3 hQ]
      exact hb i j
    · unfold IsSU
      rw [toM_assemble3 hQ, hx hs]
      exact ⟨rfl, C20_exp_special_unitary hQ⟩

theorem pack3_apply (p b : Arr ℂ) : pack_hermitian 3 p b 0 = b 0 ∧ pack_hermitian 3 p b 1 = b 1 ∧
    pack_hermitian 3 p b 2 = b 2 ∧ pack_hermitian 3 p b 3 = b 4 ∧ pack_hermitian 3 p b 4 = b 5 := by
  simp [pack_hermitian, forN, forFrom]

theorem pack2_apply (p b : Arr ℂ) : pack_hermitian 2 p b 0 = b 0 ∧ pack_hermitian 2 p b 1 = b 1 := by
  simp [pack_hermitian, forN, forFrom]

/-- Three colours, packed input: the same result as from the full matrix. -/
theorem C20_short_three {Q : Arr ℂ} (hQ : HermTraceless 3 Q) (p g g' : Arr ℂ) :
    exponentiate_short 3 (pack_hermitian 3 p Q) g = exponentiate 3 Q g' := by
  obtain ⟨i0, i4, i8, h3, h6, h7, h8⟩ := herm3_facts hQ
  obtain ⟨p0, p1, p2, p3, p4⟩ := pack3_apply p Q
  have r8 : -((Q 0).re + (Q 4).re) = (Q 8).re := by rw [h8]; simp; ring
  simp only [exponentiate_short, exponentiate, if_true, exponentiate_short3, exponentiate3, p0, p1,
    p2, p3, p4, r8, h3, h6, h7]
  have : -(Q 0).re * (Q 8).re = (Q 0).re * (Q 0).re + (Q 0).re * (Q 4).re := by rw [← r8]; ring
  rw [this]

/-! ## Two colours -/

theorem herm2_facts {Q : Arr ℂ} (hQ : HermTraceless 2 Q) :
    (Q 0).im = 0 ∧ Q 2 = star (Q 1) ∧ Q 3 = -Q 0 := by
  obtain ⟨hH, hT⟩ := hQ
  have h : ∀ i j : Fin 2, star (toM 2 Q j i) = toM 2 Q i j := fun i j => hH.apply i j
  rw [Matrix.trace, Fin.sum_univ_two] at hT
  have h00 := h 0 0
  have h10 := h 1 0
  simp [toM_apply] at h00 h10 hT
  exact ⟨conj_eq_iff_im.1 h00, h10.symm, by linear_combination hT⟩

/-- Two colours, packed input. -/
theorem C20_short_two {Q : Arr ℂ} (hQ : HermTraceless 2 Q) (p g g' : Arr ℂ) :
    exponentiate_short 2 (pack_hermitian 2 p Q) g = exponentiate 2 Q g' := by
  obtain ⟨i0, h2, h3⟩ := herm2_facts hQ
  obtain ⟨p0, p1⟩ := pack2_apply p Q
  have r0 : ((Q 0).re : ℂ) = Q 0 := Complex.ext rfl (by simpa using i0.symm)
  simp [exponentiate_short, exponentiate, exponentiate_short2, exponentiate2, p0, p1, r0]

theorem toM_exponentiate2 {Q : Arr ℂ} (hQ : HermTraceless 2 Q) :
    let z := √((Q 0).re * (Q 0).re + (Q 1).re * (Q 1).re + (Q 1).im * (Q 1).im)
    toM 2 (exponentiate2 Q) = (Real.cos z : ℂ) • (1 : Matrix (Fin 2) (Fin 2) ℂ) +
      (I * f1su2 z) • toM 2 Q + (0 : ℂ) • (toM 2 Q * toM 2 Q) := by
  obtain ⟨i0, h2, h3⟩ := herm2_facts hQ
  have r0 : ((Q 0).re : ℂ) = Q 0 := Complex.ext rfl (by simpa using i0.symm)
  intro z
  ext i j
  fin_cases i <;> fin_cases j <;> simp [exponentiate2, toM_apply, arr, r0, h2, h3, z]
  ring

/-- Two colours: every entry is within `2*10^-9` of the exponential, and the result is the
exponential, so special unitary, when the eigenvalues are at least `2*10^-4` apart.  Missing for
the full claim: the series branch, which is wrong (`C20_two_small_fails`). -/
theorem C20_two_partial {Q : Arr ℂ} (hQ : HermTraceless 2 Q) (g : Arr ℂ) :
    ∃ U, exponentiate 2 Q g = some U ∧
      (∀ i j, ‖toM 2 U i j - NormedSpace.exp (I • toM 2 Q) i j‖ ≤ 2 / 10 ^ 9) ∧
      (Separated hQ.1 (2 / 10 ^ 4) → toM 2 U = NormedSpace.exp (I • toM 2 Q) ∧ IsSU 2 U) := by
  refine ⟨exponentiate2 Q, by simp [exponentiate], ?_⟩
  have hU := toM_exponentiate2 hQ
  obtain ⟨i0, h2, h3'⟩ := herm2_facts hQ
  obtain ⟨V, h1V, h2V, h3⟩ := herm_diag hQ.1
  set e := hQ.1.eigenvalues with he
  simp only [] at hU
  set z := √((Q 0).re * (Q 0).re + (Q 1).re * (Q 1).re + (Q 1).im * (Q 1).im) with hz
  have hz0 : 0 ≤ z := Real.sqrt_nonneg _
  have hsum : e 0 + e 1 = 0 := by
    have := hQ.2
    rw [h3, Matrix.trace_mul_comm, ← Matrix.mul_assoc, h2V, Matrix.one_mul, trace_diagonal,
      Fin.sum_univ_two] at this
    exact_mod_cast this
  have hdet : z * z = -(e 0 * e 1) := by
    have hzz : z * z = (Q 0).re * (Q 0).re + (Q 1).re * (Q 1).re + (Q 1).im * (Q 1).im :=
      Real.mul_self_sqrt (by nlinarith [sq_nonneg (Q 0).re, sq_nonneg (Q 1).re, sq_nonneg (Q 1).im])
    have := hQ.1.det_eq_prod_eigenvalues
    rw [Fin.prod_univ_two, det_fin_two] at this
    simp [toM_apply, h2, h3'] at this
    have h' := congrArg Complex.re this
    simp [i0] at h'
    rw [hzz]
    linarith
  have hez : ∀ i, e i = z ∨ e i = -z := by
    intro i
    have : (e i - z) * (e i + z) = 0 := by
      fin_cases i
      · simp only [Fin.zero_eta]
        linear_combination e 0 * hsum - hdet
      · simp only [Fin.mk_one]
        linear_combination e 1 * hsum - hdet
    rcases mul_eq_zero.1 this with h | h
    · exact Or.inl (by linarith)
    · exact Or.inr (by linarith)
  have hexp := exp_diag h1V h3
  have hdiff : ∀ d d' : Fin 2 → ℂ, V * diagonal d * Vᴴ - V * diagonal d' * Vᴴ =
      V * diagonal (fun i => d i - d' i) * Vᴴ := by
    intro d d'
    rw [← Matrix.sub_mul, ← Matrix.mul_sub, diagonal_sub]
  have hexpi : ∀ i, cexp (I * e i) = Real.cos z + I * Real.sin (e i) := by
    intro i
    rw [mul_comm, Complex.exp_mul_I, ← Complex.ofReal_cos, ← Complex.ofReal_sin]
    have : Real.cos (e i) = Real.cos z := by
      rcases hez i with h | h <;> rw [h]
      exact Real.cos_neg z
    rw [this, mul_comm I]
  have hval : ∀ i, ‖(Real.cos z : ℂ) + I * f1su2 z * e i + 0 * ((e i : ℂ) * e i) - cexp (I * e i)‖ =
      |z * f1su2 z - Real.sin z| := by
    intro i
    rw [hexpi]
    rcases hez i with h | h <;> rw [h]
    · rw [show (Real.cos z : ℂ) + I * f1su2 z * (z : ℝ) + 0 * ((z : ℂ) * z) -
        (Real.cos z + I * Real.sin z) = I * ((z * f1su2 z - Real.sin z : ℝ) : ℂ) by push_cast; ring,
        norm_mul, norm_I, one_mul, norm_real, Real.norm_eq_abs]
    · rw [Real.sin_neg, show (Real.cos z : ℂ) + I * f1su2 z * ((-z : ℝ) : ℂ) +
        0 * (((-z : ℝ) : ℂ) * ((-z : ℝ) : ℂ)) -
        (Real.cos z + I * ((-Real.sin z : ℝ) : ℂ)) = -I * ((z * f1su2 z - Real.sin z : ℝ) : ℂ) by
          push_cast; ring,
        norm_mul, norm_neg, norm_I, one_mul, norm_real, Real.norm_eq_abs]
  have hexact : ¬ |z| < SINTOLSU2 → z * f1su2 z - Real.sin z = 0 := by
    intro h
    have hzne : z ≠ 0 := by
      intro h'; apply h; rw [h', abs_zero]; unfold SINTOLSU2; norm_num
    rw [f1su2, if_neg h, mul_div_cancel₀ _ hzne, sub_self]
  constructor
  · intro i j
    rw [← Matrix.sub_apply, hU, hexp, poly_diag h1V h2V h3, hdiff]
    refine conj_diag_bound h1V _ (fun k => (hval k).le.trans ?_) i j
    by_cases h : |z| < SINTOLSU2
    · have hlt : z < 1 / 10 ^ 4 := by rw [abs_of_nonneg hz0] at h; exact h
      rw [f1su2, if_pos h]
      have hs := Real.sin_le hz0
      have hs' : z - z ^ 3 / 4 ≤ Real.sin z := by
        rcases hz0.eq_or_lt with h0 | h0
        · rw [← h0]; simp
        · exact (by
            have := Real.sin_gt_sub_cube h0; nlinarith [pow_pos h0 3])
      rw [abs_le]
      have hz2 : z * z ≤ 1 / 10 ^ 8 := by nlinarith
      have hz3 : z ^ 3 ≤ 1 / 10 ^ 12 := by
        have : z ^ 3 = z * (z * z) := by ring
        rw [this]; nlinarith
      have hz4 : z ^ 4 ≤ 1 / 10 ^ 16 := by
        have : z ^ 4 = (z * z) * (z * z) := by ring
        rw [this]; nlinarith
      have hz30 : 0 ≤ z ^ 3 := by positivity
      have hz40 : 0 ≤ z ^ 4 := by positivity
      have hexpand : z * (1 - z / 6 * (1 - z / 20 * (1 - z / 42))) =
          z - z * z / 6 + z ^ 3 / 120 - z ^ 4 / 5040 := by ring
      rw [hexpand]
      constructor <;> nlinarith
    · rw [hexact h, abs_zero]; positivity
  · intro hsep
    have h : ¬ |z| < SINTOLSU2 := by
      have h01 := hsep 0 1 (by decide)
      rw [show hQ.1.eigenvalues 0 - hQ.1.eigenvalues 1 = 2 * e 0 by
        simp only [← he]; linarith, abs_mul, abs_two] at h01
      have : |e 0| = |z| := by
        rcases hez 0 with h | h <;> rw [h]
        exact abs_neg z
      rw [this] at h01
      unfold SINTOLSU2
      intro h
      linarith
    have : toM 2 (exponentiate2 Q) = NormedSpace.exp (I • toM 2 Q) := by
      rw [hU, hexp, poly_diag h1V h2V h3]
      congr 3
      ext i
      have := hval i
      rw [hexact h, abs_zero] at this
      exact sub_eq_zero.1 (norm_eq_zero.1 this)
    exact ⟨this, by unfold IsSU; rw [this]; exact C20_exp_special_unitary hQ⟩

/-- Two colours: for every non-zero argument in the range of the series the result is not
unitary, so the property fails there. -/
theorem C20_two_small_fails {Q : Arr ℂ} (hQ : HermTraceless 2 Q)
    (h0 : 0 < normSq (Q 0) + normSq (Q 1)) (h1 : normSq (Q 0) + normSq (Q 1) < 1 / 10 ^ 8)
    (g : Arr ℂ) : ∃ U, exponentiate 2 Q g = some U ∧ toM 2 U ∉ unitaryGroup (Fin 2) ℂ := by
  refine ⟨exponentiate2 Q, by simp [exponentiate], fun hu => ?_⟩
  obtain ⟨i0, h2, h3'⟩ := herm2_facts hQ
  set z := √((Q 0).re * (Q 0).re + (Q 1).re * (Q 1).re + (Q 1).im * (Q 1).im) with hz
  have hn : (Q 0).re * (Q 0).re + (Q 1).re * (Q 1).re + (Q 1).im * (Q 1).im =
      normSq (Q 0) + normSq (Q 1) := by
    simp [normSq_apply, i0]; ring
  have hzz : z * z = normSq (Q 0) + normSq (Q 1) := by
    rw [hz, hn]; exact Real.mul_self_sqrt h0.le
  have hzp : 0 < z := Real.sqrt_pos.2 (by rw [hn]; exact h0)
  have hlt : z < 1 / 10 ^ 4 := by
    apply lt_of_mul_self_lt_mul_self₀ (by norm_num)
    rw [hzz]; linarith
  have hf : f1su2 z = 1 - z / 6 * (1 - z / 20 * (1 - z / 42)) := by
    rw [f1su2, if_pos]
    rw [abs_of_pos hzp]; exact hlt
  have hrow := congrFun (congrFun (mem_unitaryGroup_iff.1 hu) 0) 0
  rw [Matrix.mul_apply, Fin.sum_univ_two] at hrow
  simp [exponentiate2, toM_apply, arr, ← hz] at hrow
  have hre := congrArg Complex.re hrow
  simp at hre
  have hkey : Real.cos z ^ 2 + f1su2 z ^ 2 * z ^ 2 = 1 := by
    rw [pow_two z, hzz, ← hn]
    rw [Complex.cos_ofReal_re] at hre
    linear_combination hre
  have hs := Real.sin_gt_sub_cube hzp
  have hsc := Real.sin_sq_add_cos_sq z
  have ha : 0 ≤ f1su2 z * z := by
    rw [hf]; apply mul_nonneg _ hzp.le; nlinarith
  have hb : f1su2 z * z < Real.sin z := by
    refine lt_trans ?_ hs
    rw [hf]
    have : 0 < z * z := by positivity
    nlinarith
  nlinarith

/-! ## More than three colours -/

theorem toM_horners_pade {NC : ℕ} (hN : 3 < NC) (a b : Arr ℂ) :
    toM NC (horners_pade NC a b) = 1 + (1 / 2 : ℂ) • toM NC b + (3 / 28 : ℂ) • toM NC b ^ 2 +
      (1 / 84 : ℂ) • toM NC b ^ 3 + (1 / 1680 : ℂ) • toM NC b ^ 4 := by
  have hlast : ∀ v : Arr ℂ, forN NC (fun i a => Function.update a (i * (NC + 1))
      (a (i * (NC + 1)) + 1)) v = add_constant NC v 1 := by
    intro v
    unfold add_constant
    rw [if_neg (by omega), if_neg (by omega)]
  have hfirst : toM NC (mapN (NC * NC) (fun i _ => b i * pade 4) a) = (1 / 1680 : ℂ) • toM NC b := by
    ext r c
    have hlt : (c : ℕ) + NC * r < NC * NC := by
      have := r.2
      have := c.2
      nlinarith
    simp [mapN_apply, hlt, pade, mul_comm]
  unfold horners_pade
  simp only []
  rw [hlast, C63_add_constant]
  simp only [forN]
  rw [C10_multab_atomic_left, C63_add_constant, C10_multab_atomic_left, C63_add_constant,
    C10_multab_atomic_left, C63_add_constant, hfirst]
  simp only [pade]
  simp only [Matrix.mul_add, Matrix.mul_smul, Matrix.mul_one, pow_succ, pow_zero, Matrix.one_mul,
    Matrix.mul_assoc, one_smul]
  abel

/-- The numerator of the approximant at an imaginary argument. -/
noncomputable def padeNum (x : ℝ) : ℂ :=
  1 + 1 / 2 * (I * x) + 3 / 28 * (I * x) ^ 2 + 1 / 84 * (I * x) ^ 3 + 1 / 1680 * (I * x) ^ 4

theorem padeNum_ne (x : ℝ) : padeNum x ≠ 0 := by
  intro h
  have i3 : (I : ℂ) ^ 3 = -I := by rw [pow_succ, I_sq]; ring
  have i4 : (I : ℂ) ^ 4 = 1 := by rw [pow_succ, i3]; simp
  have e : padeNum x = ((1 - 3 / 28 * x ^ 2 + 1 / 1680 * x ^ 4 : ℝ) : ℂ) +
      ((x / 2 - x ^ 3 / 84 : ℝ) : ℂ) * I := by
    unfold padeNum
    rw [mul_pow, mul_pow, mul_pow, I_sq, i3, i4]
    push_cast
    ring
  rw [e] at h
  have hre := congrArg Complex.re h
  have him := congrArg Complex.im h
  simp only [add_re, add_im, mul_re, mul_im, ofReal_re, ofReal_im, I_re, I_im, zero_re, zero_im] at hre him
  ring_nf at hre him
  have h1 : x * (42 - x ^ 2) = 0 := by linear_combination 84 * him
  rcases mul_eq_zero.1 h1 with h | h
  · rw [h] at hre; norm_num at hre
  · have h2 : x ^ 2 = 42 := by linarith
    have h4 : x ^ 4 = 42 ^ 2 := by rw [← h2]; ring
    rw [h2, h4] at hre
    norm_num at hre

theorem padeNum_neg (x : ℝ) : padeNum (-x) = star (padeNum x) := by
  unfold padeNum
  simp

theorem pade_diag {n : ℕ} {B V : Matrix (Fin n) (Fin n) ℂ} {x : Fin n → ℝ} (h1 : V * Vᴴ = 1)
    (h2 : Vᴴ * V = 1) (hB : B = V * diagonal (fun i => I * (x i : ℂ)) * Vᴴ) :
    1 + (1 / 2 : ℂ) • B + (3 / 28 : ℂ) • B ^ 2 + (1 / 84 : ℂ) • B ^ 3 + (1 / 1680 : ℂ) • B ^ 4 =
      V * diagonal (fun i => padeNum (x i)) * Vᴴ := by
  have hmul : ∀ d d' : Fin n → ℂ, V * diagonal d * Vᴴ * (V * diagonal d' * Vᴴ) =
      V * diagonal (fun i => d i * d' i) * Vᴴ := by
    intro d d'
    calc _ = V * diagonal d * (Vᴴ * V) * diagonal d' * Vᴴ := by simp only [Matrix.mul_assoc]
      _ = V * (diagonal d * diagonal d') * Vᴴ := by
            rw [h2]; simp only [Matrix.mul_assoc, Matrix.one_mul]
      _ = _ := by rw [diagonal_mul_diagonal]
  have hpow : ∀ k, B ^ k = V * diagonal (fun i => (I * (x i : ℂ)) ^ k) * Vᴴ := by
    intro k
    induction k with
    | zero => simp [h1]
    | succ k ih =>
      rw [pow_succ, ih, hB, hmul]
      simp only [pow_succ]
  have hd : diagonal (fun i => padeNum (x i)) = (1 : Matrix (Fin n) (Fin n) ℂ) +
      (1 / 2 : ℂ) • diagonal (fun i => (I * (x i : ℂ)) ^ 1) +
      (3 / 28 : ℂ) • diagonal (fun i => (I * (x i : ℂ)) ^ 2) +
      (1 / 84 : ℂ) • diagonal (fun i => (I * (x i : ℂ)) ^ 3) +
      (1 / 1680 : ℂ) • diagonal (fun i => (I * (x i : ℂ)) ^ 4) := by
    ext i j
    by_cases h : i = j
    · subst h; simp [padeNum]
    · simp [h]
  rw [hd, hpow 2, hpow 3, hpow 4, show B = B ^ 1 by rw [pow_one], hpow 1]
  simp only [Matrix.mul_add, Matrix.add_mul, Matrix.mul_smul, Matrix.smul_mul, Matrix.mul_one, h1]

theorem readBack_some {NC : ℕ} {v : Arr CE} {X : Matrix (Fin NC) (Fin NC) ℂ}
    (h : ∀ r c : Fin NC, v (c + r * NC) = some (X r c)) :
    ∃ w, readBack NC (some v) = some w ∧ toM NC w = X := by
  classical
  refine ⟨fun x => (v x).getD 0, ?_, ?_⟩
  · unfold readBack
    simp only [Option.bind_some]
    rw [if_pos]
    intro x hx
    have hN : 0 < NC := Nat.pos_of_ne_zero fun h => by simp [h] at hx
    have := h ⟨x / NC, Nat.div_lt_of_lt_mul hx⟩ ⟨x % NC, Nat.mod_lt _ hN⟩
    simp only [] at this
    rw [show x % NC + x / NC * NC = x by rw [mul_comm]; exact Nat.mod_add_div x NC] at this
    rw [this]
    rfl
  · ext r c
    rw [toM_apply, mul_comm, h r c]
    rfl

/-- One pass of the nesting produces a unitary matrix: the approximant is a quotient of a
number and its conjugate on every eigenvalue. -/
theorem expStep_unitary {NC : ℕ} (hN : 3 < NC) {Q : Arr ℂ} (hQ : HermTraceless NC Q) (n : ℕ)
    (s : ExpState) (hs : s.stop = false) :
    ∃ s', expStep NC Q n (some s) = some s' ∧ toM NC s'.U * (toM NC s'.U)ᴴ = 1 := by
  classical
  obtain ⟨V, h1, h2, h3⟩ := herm_diag hQ.1
  set e := hQ.1.eigenvalues
  unfold expStep
  simp only [Option.bind_some, hs, Bool.false_eq_true, if_false]
  set iter := 2 <<< (n - 1) with hiter
  have hiter0 : (iter : ℂ) ≠ 0 := by
    have : iter ≠ 0 := by rw [hiter, Nat.shiftLeft_eq]; positivity
    exact_mod_cast this
  let x : Fin NC → ℝ := fun i => e i / iter
  have hlt : ∀ r c : Fin NC, (c : ℕ) + NC * r < NC * NC := by
    intro r c
    have := r.2
    have := c.2
    nlinarith
  set SN := mapN (NC * NC) (fun j _ => Q j * (I / (iter : ℂ))) s.SN with hSN
  have hB : toM NC SN = V * diagonal (fun i => I * (x i : ℂ)) * Vᴴ := by
    have e1 : toM NC SN = (I / (iter : ℂ)) • toM NC Q := by
      ext r c
      simp [hSN, mapN_apply, hlt, mul_comm]
    rw [e1, h3, ← Matrix.smul_mul, ← Matrix.mul_smul, ← diagonal_smul]
    congr 3
    ext i
    simp only [x, Pi.smul_apply, smul_eq_mul]
    push_cast
    ring
  have hB' : toM NC (mapN (NC * NC) (fun _ x => x * (-1)) SN) =
      V * diagonal (fun i => I * ((-x i : ℝ) : ℂ)) * Vᴴ := by
    have e1 : toM NC (mapN (NC * NC) (fun _ x => x * (-1)) SN) = (-1 : ℂ) • toM NC SN := by
      ext r c
      simp [mapN_apply, hlt]
    rw [e1, hB, ← Matrix.smul_mul, ← Matrix.mul_smul, ← diagonal_smul]
    congr 3
    ext i
    simp
  have hP : ∀ a, toM NC (horners_pade NC a SN) = V * diagonal (fun i => padeNum (x i)) * Vᴴ :=
    fun a => by rw [toM_horners_pade hN, pade_diag h1 h2 hB]
  have hM : ∀ a, toM NC (horners_pade NC a (mapN (NC * NC) (fun _ x => x * (-1)) SN)) =
      V * diagonal (fun i => star (padeNum (x i))) * Vᴴ := fun a => by
    rw [toM_horners_pade hN, pade_diag h1 h2 hB']
    simp only [padeNum_neg]
  have hmul : ∀ d d' : Fin NC → ℂ, V * diagonal d * Vᴴ * (V * diagonal d' * Vᴴ) =
      V * diagonal (fun i => d i * d' i) * Vᴴ := by
    intro d d'
    calc _ = V * diagonal d * (Vᴴ * V) * diagonal d' * Vᴴ := by simp only [Matrix.mul_assoc]
      _ = V * (diagonal d * diagonal d') * Vᴴ := by
            rw [h2]; simp only [Matrix.mul_assoc, Matrix.one_mul]
      _ = _ := by rw [diagonal_mul_diagonal]
  have hsne : ∀ i, star (padeNum (x i)) ≠ 0 := fun i h => padeNum_ne (x i) (star_eq_zero.1 h)
  set RM := horners_pade NC s.RN_MIN (mapN (NC * NC) (fun _ x => x * (-1)) SN) with hRM
  have hRMm : toM NC RM = _ := hM s.RN_MIN
  have hinv0 : toM NC RM * (V * diagonal (fun i => (star (padeNum (x i)))⁻¹) * Vᴴ) = 1 := by
    rw [hRMm, hmul]
    simp only [mul_inv_cancel₀ (hsne _)]
    rw [diagonal_one, Matrix.mul_one, h1]
  obtain ⟨hnone, hsome⟩ := C19_inverse_partial (NC := NC) (by omega) (by omega) RM
  cases hi : inverse NC RM with
  | none =>
    exfalso
    have hd := hnone.1 hi
    have := congrArg Matrix.det hinv0
    rw [det_mul, hd, zero_mul, det_one] at this
    exact zero_ne_one this
  | some v =>
    obtain ⟨X, hX, hX1, -⟩ := hsome v hi
    have hXe : X = V * diagonal (fun i => (star (padeNum (x i)))⁻¹) * Vᴴ := by
      calc X = X * (toM NC RM * (V * diagonal (fun i => (star (padeNum (x i)))⁻¹) * Vᴴ)) := by
            rw [hinv0, Matrix.mul_one]
        _ = _ := by rw [← Matrix.mul_assoc, hX1, Matrix.one_mul]
    obtain ⟨w, hw, hwX⟩ := readBack_some hX
    rw [hw]
    refine ⟨_, rfl, ?_⟩
    simp only []
    rw [C17_matrix_power, C10_multab_atomic_right, hP, hwX, hXe, hmul]
    have hu : (V * diagonal (fun i => padeNum (x i) * (star (padeNum (x i)))⁻¹) * Vᴴ) ∈
        unitaryGroup (Fin NC) ℂ := by
      rw [mem_unitaryGroup_iff, star_eq_conjTranspose, conjTranspose_mul, conjTranspose_mul,
        conjTranspose_conjTranspose, diagonal_conjTranspose, ← Matrix.mul_assoc V, hmul]
      have : (fun i => padeNum (x i) * (star (padeNum (x i)))⁻¹ *
          (star fun i => padeNum (x i) * (star (padeNum (x i)))⁻¹) i) = fun _ => (1 : ℂ) := by
        ext i
        have h := padeNum_ne (x i)
        have h' := hsne i
        simp only [Pi.star_apply, star_mul', star_inv₀, star_star]
        field_simp
      rw [this, diagonal_one, Matrix.mul_one, h1]
    exact mem_unitaryGroup_iff.1 (pow_mem hu iter)

/-- More than three colours: the result is defined and special unitary.  Missing for the full
claim: a bound on the distance from the exponential, since the nesting depth is limited. -/
theorem C20_many_partial {NC : ℕ} (hN : 3 < NC) {Q : Arr ℂ} (hQ : HermTraceless NC Q) (g : Arr ℂ) :
    ∃ U, exponentiate NC Q g = some U ∧ IsSU NC U := by
  have hloop : ∃ s, forFrom 3 10 (expStep NC Q) (some
      { EOLD := zero_mat NC g, U := g, RN := g, RN_MIN := g, SN := g, stop := false }) = some s ∧
      toM NC s.U * (toM NC s.U)ᴴ = 1 := by
    have := forFrom_inv (fun n (o : Option ExpState) => ∃ s, o = some s ∧
        (3 < n → toM NC s.U * (toM NC s.U)ᴴ = 1) ∧ (n = 3 → s.stop = false)) (lo := 3) (hi := 10)
      (by norm_num) (body := expStep NC Q)
      (s := some { EOLD := zero_mat NC g, U := g, RN := g, RN_MIN := g, SN := g, stop := false })
      ⟨_, rfl, fun h => by omega, fun _ => rfl⟩
      (fun n h1 h2 o ho => by
        obtain ⟨s, rfl, hu, hs⟩ := ho
        by_cases hst : s.stop = true
        · refine ⟨s, ?_, fun _ => hu ?_, fun h => by omega⟩
          · simp [expStep, hst]
          · rcases Nat.lt_or_eq_of_le h1 with h | h
            · exact h
            · rw [hs h.symm] at hst; cases hst
        · obtain ⟨s', hs', hu'⟩ := expStep_unitary hN hQ n s (by simpa using hst)
          exact ⟨s', hs', fun _ => hu', fun h => by omega⟩)
    obtain ⟨s, h1, h2, -⟩ := this
    exact ⟨s, h1, h2 (by norm_num)⟩
  obtain ⟨s, hs, hu⟩ := hloop
  have hli : LinearIndependent ℂ (leading NC s.U) := by
    have hrows : LinearIndependent ℂ (toM NC s.U).row :=
      linearIndependent_rows_of_isUnit ((isUnit_iff_isUnit_det _).2 (isUnit_det_of_right_inverse hu))
    have := hrows.comp (fun k : Fin (NC - 1) => (⟨k, by omega⟩ : Fin NC)) (fun a b h => by
      apply Fin.ext
      simpa using h)
    convert this using 1
    funext k c
    simp [leading, show ¬ NC ≤ 3 by omega]
  obtain ⟨U, hU⟩ := C15_defined (by omega) g hli
  refine ⟨U, ?_, C15_special_unitary (by omega) hU⟩
  unfold exponentiate exponentiateN
  rw [if_neg (by omega), if_neg (by omega), hs]
  exact hU

/-- More than three colours, packed input. -/
theorem C20_short_many_partial {NC : ℕ} (hN : 3 < NC) {Q : Arr ℂ} (hQ : HermTraceless NC Q)
    (p g : Arr ℂ) : ∃ U, exponentiate_short NC (pack_hermitian NC p Q) g = some U ∧ IsSU NC U := by
  unfold exponentiate_short
  rw [if_neg (by omega), if_neg (by omega)]
  refine C20_many_partial hN ?_ g
  unfold HermTraceless
  rw [C13_rebuild_pack (by omega) hQ]
  exact hQ

/-! ## Non-vacuity -/

/-- A traceless Hermitian matrix that is not diagonal and has separated eigenvalues, so that
`C20_three_partial` gives equality with the exponential. -/
example : ∃ h : HermTraceless 3 (arr [0, 1, 0, 1, 0, 0, 0, 0, 0]), Separated h.1 (1 / 10) := by
  have hH : (toM 3 (arr [0, 1, 0, 1, 0, 0, 0, 0, (0 : ℂ)])).IsHermitian := by
    ext i j
    fin_cases i <;> fin_cases j <;> simp [toM_apply, arr]
  have hT : Matrix.trace (toM 3 (arr [0, 1, 0, 1, 0, 0, 0, 0, (0 : ℂ)])) = 0 := by
    rw [Matrix.trace, Fin.sum_univ_three]
    simp [toM_apply, arr]
  refine ⟨⟨hH, hT⟩, ?_⟩
  set A := toM 3 (arr [0, 1, 0, 1, 0, 0, 0, 0, (0 : ℂ)]) with hA
  have hcube : A * (A * A) = A := by
    ext i j
    fin_cases i <;> fin_cases j <;> simp [hA, toM_apply, arr, Matrix.mul_apply, Fin.sum_univ_three]
  have htr2 : Matrix.trace (A * A) = 2 := by
    rw [Matrix.trace, Fin.sum_univ_three]
    simp [hA, toM_apply, arr, Matrix.mul_apply, Fin.sum_univ_three]
    norm_num
  obtain ⟨V, h1, h2, h3⟩ := herm_diag hH
  change Separated hH (1 / 10)
  set e := hH.eigenvalues with he
  have hdiag : ∀ d : Fin 3 → ℂ, Matrix.trace (V * diagonal d * Vᴴ) = d 0 + d 1 + d 2 := by
    intro d
    rw [Matrix.trace_mul_comm, ← Matrix.mul_assoc, h2, Matrix.one_mul, trace_diagonal,
      Fin.sum_univ_three]
  have hmul : ∀ d d' : Fin 3 → ℂ, V * diagonal d * Vᴴ * (V * diagonal d' * Vᴴ) =
      V * diagonal (fun i => d i * d' i) * Vᴴ := by
    intro d d'
    calc _ = V * diagonal d * (Vᴴ * V) * diagonal d' * Vᴴ := by simp only [Matrix.mul_assoc]
      _ = V * (diagonal d * diagonal d') * Vᴴ := by
            rw [h2]; simp only [Matrix.mul_assoc, Matrix.one_mul]
      _ = _ := by rw [diagonal_mul_diagonal]
  have hsum : e 0 + e 1 + e 2 = 0 := by
    have := hT
    rw [h3, hdiag] at this
    exact_mod_cast this
  have hsq : e 0 * e 0 + e 1 * e 1 + e 2 * e 2 = 2 := by
    have := htr2
    rw [h3, hmul, hdiag] at this
    exact_mod_cast this
  have hroot : ∀ i, e i = 0 ∨ e i = 1 ∨ e i = -1 := by
    intro i
    have hc := hcube
    rw [h3, hmul, hmul] at hc
    have hc' : diagonal (fun i => (e i : ℂ) * ((e i : ℂ) * e i)) = diagonal fun i => (e i : ℂ) := by
      have := congrArg (fun M => Vᴴ * M * V) hc
      simp only [Matrix.mul_assoc, h2, Matrix.mul_one] at this
      simp only [← Matrix.mul_assoc, h2, Matrix.one_mul] at this
      exact this
    have h := congrFun (congrFun hc' i) i
    rw [diagonal_apply_eq, diagonal_apply_eq] at h
    have h' : e i * (e i * e i) = e i := by exact_mod_cast h
    have : e i * ((e i - 1) * (e i + 1)) = 0 := by linear_combination h'
    rcases mul_eq_zero.1 this with h | h
    · exact Or.inl h
    · rcases mul_eq_zero.1 h with h | h
      · exact Or.inr (Or.inl (by linarith))
      · exact Or.inr (Or.inr (by linarith))
  have h01 : 1 ≤ |e 0 - e 1| ∧ 1 ≤ |e 0 - e 2| ∧ 1 ≤ |e 1 - e 2| := by
    rcases hroot 0 with a | a | a <;> rcases hroot 1 with b | b | b <;>
      rcases hroot 2 with c | c | c <;> rw [a, b, c] at hsum hsq ⊢ <;>
      first | (exfalso; linarith) | (norm_num)
  obtain ⟨d1, d2, d3⟩ := h01
  intro i j hij
  fin_cases i <;> fin_cases j <;> simp at hij ⊢ <;>
    first
    | linarith
    | (rw [abs_sub_comm]; linarith)

/-- The hypotheses of `C20_two_small_fails` are met. -/
example : HermTraceless 2 (arr [0, 1 / 10 ^ 5, 1 / 10 ^ 5, 0]) ∧
    0 < normSq (arr [0, 1 / 10 ^ 5, 1 / 10 ^ 5, (0 : ℂ)] 0) +
      normSq (arr [0, 1 / 10 ^ 5, 1 / 10 ^ 5, (0 : ℂ)] 1) ∧
    normSq (arr [0, 1 / 10 ^ 5, 1 / 10 ^ 5, (0 : ℂ)] 0) +
      normSq (arr [0, 1 / 10 ^ 5, 1 / 10 ^ 5, (0 : ℂ)] 1) < 1 / 10 ^ 8 := by
  refine ⟨⟨?_, ?_⟩, ?_, ?_⟩
  · ext i j
    fin_cases i <;> fin_cases j <;> simp [toM_apply, arr]
  · rw [Matrix.trace, Fin.sum_univ_two]
    simp [toM_apply, arr]
  · simp [arr]
  · simp [arr]; norm_num

end GLU.Mat
