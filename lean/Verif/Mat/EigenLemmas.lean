import Verif.Mat.Eigen
import Verif.Mat.ExpProps
import Mathlib.LinearAlgebra.Matrix.Charpoly.Coeff
import Mathlib.LinearAlgebra.Matrix.Charpoly.Eigs
import Mathlib.Analysis.Complex.Polynomial.Basic

/-!
# Lemmas on the eigenvalues
-/

namespace GLU.Mat

open Complex Matrix Polynomial

open scoped ComplexOrder

/-! ## Roots -/

theorem cubert_pow (z : ℂ) : cubert z ^ 3 = z := by
  unfold cubert
  dsimp only
  rw [mul_pow, ← Complex.ofReal_pow, ← Real.rpow_natCast, ← Real.rpow_mul (norm_nonneg z)]
  have e : (Real.cos (arg z / 3) : ℂ) + I * Real.sin (arg z / 3) = cexp ((arg z / 3 : ℝ) * I) := by
    rw [Complex.exp_mul_I, ← Complex.ofReal_cos, ← Complex.ofReal_sin, mul_comm I]
  rw [e, ← Complex.exp_nat_mul]
  have e2 : ((3 : ℕ) : ℂ) * ((arg z / 3 : ℝ) * I) = arg z * I := by push_cast; ring
  rw [e2]
  norm_num

theorem cubert_eq_zero {z : ℂ} : cubert z = 0 ↔ z = 0 := by
  constructor
  · intro h
    have := cubert_pow z
    rw [h] at this
    simpa using this.symm
  · intro h
    have := cubert_pow z
    rw [h] at this
    rw [h]
    exact pow_eq_zero_iff (by norm_num) |>.1 this

/-- The root that is taken lies in the right half plane. -/
theorem cubert_re {z : ℂ} (hz : z ≠ 0) : 0 < (cubert z).re := by
  unfold cubert
  dsimp only
  have h1 := Complex.neg_pi_lt_arg z
  have h2 := Complex.arg_le_pi z
  have hc : 0 < Real.cos (arg z / 3) := Real.cos_pos_of_mem_Ioo ⟨by linarith, by linarith [Real.pi_pos]⟩
  have hr : 0 < ‖z‖ ^ (1 / 3 : ℝ) := Real.rpow_pos_of_pos (norm_pos_iff.2 hz) _
  rw [Complex.re_ofReal_mul]
  simp only [Complex.add_re, Complex.ofReal_re, Complex.mul_re, Complex.I_re, zero_mul, Complex.I_im, Complex.ofReal_im,
    mul_zero, sub_zero, add_zero]
  exact mul_pos hr hc

theorem squarert_spec {D : ℝ} (hD : 0 ≤ D) (R : ℂ) :
    squarert (D : ℂ) R * squarert (D : ℂ) R = D ∧ 0 ≤ (star R * (squarert (D : ℂ) R : ℂ)).re := by
  have ht : ((((√‖(D : ℂ)‖ : ℝ) : ℂ) * (Real.cos (arg (D : ℂ) * 0.5) + I * Real.sin (arg (D : ℂ) * 0.5))).re) = √D := by
    rw [Complex.arg_ofReal_of_nonneg hD, Complex.norm_real, Real.norm_of_nonneg hD]
    simp
  unfold squarert
  dsimp only
  rw [ht]
  split
  · next h =>
    refine ⟨by rw [neg_mul_neg, Real.mul_self_sqrt hD], ?_⟩
    push_cast
    rw [mul_neg, Complex.neg_re]
    linarith
  · next h => exact ⟨Real.mul_self_sqrt hD, not_lt.1 h⟩

theorem csqrt_sq (z : ℂ) : csqrt z * csqrt z = z := by
  unfold csqrt
  have e : (Real.cos (arg z / 2) : ℂ) + I * Real.sin (arg z / 2) = cexp ((arg z / 2 : ℝ) * I) := by
    rw [Complex.exp_mul_I, ← Complex.ofReal_cos, ← Complex.ofReal_sin, mul_comm I]
  rw [e, mul_mul_mul_comm, ← Complex.ofReal_mul, Real.mul_self_sqrt (norm_nonneg z), ← Complex.exp_add,
    show ((arg z / 2 : ℝ) : ℂ) * I + (arg z / 2 : ℝ) * I = arg z * I by push_cast; ring]
  exact Complex.norm_mul_exp_arg_mul_I z

theorem rr3_sq : rr3 * rr3 = -3 := by
  unfold rr3
  rw [mul_mul_mul_comm, I_mul_I, ← Complex.ofReal_mul, Real.mul_self_sqrt (by norm_num)]
  norm_num

/-! ## Cardano's formula -/

theorem cardano {A B Q R : ℂ} (hAB : A * B = Q) (hs : A ^ 3 + B ^ 3 = -2 * R) (y : ℂ) :
    (y - (A + B)) * (y - (rr3 * (A - B) - (A + B)) / 2) * (y - (-(rr3 * (A - B)) - (A + B)) / 2) =
      y ^ 3 - 3 * Q * y + 2 * R := by
  have h3 := rr3_sq
  rw [← hAB, show 2 * R = -(A ^ 3 + B ^ 3) by rw [hs]; ring]
  linear_combination (-(y - (A + B)) * (A - B) ^ 2 / 4) * h3

/-- `Q / A` completes a cube root. -/
theorem cardano_other {A Q R S : ℂ} (hS : S * S = R * R - Q * Q * Q) (hA : A ^ 3 = -(R + S)) (h0 : A ≠ 0) :
    A * (Q / A) = Q ∧ A ^ 3 + (Q / A) ^ 3 = -2 * R := by
  refine ⟨mul_div_cancel₀ Q h0, ?_⟩
  have h3 : A ^ 3 ≠ 0 := pow_ne_zero 3 h0
  have : (Q / A) ^ 3 = -(R - S) := by
    rw [div_pow, div_eq_iff h3, hA]
    linear_combination hS
  rw [this, hA]
  ring

/-! ## The characteristic polynomial -/

theorem charpoly3 {M : Matrix (Fin 3) (Fin 3) ℂ} (x : ℂ) :
    M.charpoly.eval x = x ^ 3 - M.trace * x ^ 2 + M.adjugate.trace * x - M.det := by
  rw [Matrix.eval_charpoly, Matrix.det_fin_three, Matrix.det_fin_three, Matrix.adjugate_fin_three, Matrix.trace_fin_three,
    Matrix.trace_fin_three]
  simp [Matrix.scalar_apply]
  ring

/-- The eigenvalues of a unitary matrix have modulus one. -/
theorem root_unit {n : ℕ} {M : Matrix (Fin n) (Fin n) ℂ} (h : M ∈ unitaryGroup (Fin n) ℂ) {l : ℂ}
    (hl : M.charpoly.eval l = 0) : l * star l = 1 := by
  rw [Matrix.eval_charpoly] at hl
  obtain ⟨v, hv, hv0⟩ := Matrix.exists_mulVec_eq_zero_iff.2 hl
  have he : M *ᵥ v = l • v := by
    rw [Matrix.sub_mulVec, sub_eq_zero] at hv0
    rw [← hv0]
    simp [Matrix.scalar_apply]
  have hn : star (M *ᵥ v) ⬝ᵥ (M *ᵥ v) = star v ⬝ᵥ v := by
    rw [Matrix.star_mulVec, ← Matrix.dotProduct_mulVec, Matrix.mulVec_mulVec]
    have := mem_unitaryGroup_iff'.1 h
    rw [star_eq_conjTranspose] at this
    rw [this, Matrix.one_mulVec]
  rw [he, star_smul, smul_dotProduct, dotProduct_smul, smul_eq_mul, smul_eq_mul, ← mul_assoc] at hn
  have hp : star v ⬝ᵥ v ≠ 0 := fun h => hv (dotProduct_star_self_eq_zero.1 h)
  rw [mul_comm l]
  exact mul_right_cancel₀ hp (by rw [hn, one_mul])

/-- The three roots of a characteristic polynomial. -/
theorem exists_roots3 (M : Matrix (Fin 3) (Fin 3) ℂ) :
    ∃ a b c : ℂ, ∀ x, M.charpoly.eval x = (x - a) * (x - b) * (x - c) := by
  have hs : M.charpoly.Splits := IsAlgClosed.splits _
  have hm := M.charpoly_monic
  have hc : M.charpoly.roots.card = 3 := by
    rw [← hs.natDegree_eq_card_roots, M.charpoly_natDegree_eq_dim, Fintype.card_fin]
  obtain ⟨a, b, c, h⟩ := Multiset.card_eq_three.1 hc
  refine ⟨a, b, c, fun x => ?_⟩
  rw [hs.eval_eq_prod_roots_of_monic hm, h]
  simp [mul_assoc]

/-- Its coefficients are the elementary symmetric functions of the roots. -/
theorem vieta3 {a b c t s d : ℂ} (h : ∀ x : ℂ, x ^ 3 - t * x ^ 2 + s * x - d = (x - a) * (x - b) * (x - c)) :
    t = a + b + c ∧ s = a * b + b * c + c * a ∧ d = a * b * c := by
  have h0 := h 0
  have h1 := h 1
  have h2 := h (-1)
  have h3 := h 2
  refine ⟨?_, ?_, ?_⟩
  · linear_combination (-1 / 2) * h1 - (1 / 2) * h2 + h0
  · linear_combination h1 - (1 / 3) * h2 - (1 / 6) * h3 - (1 / 2) * h0
  · linear_combination -h0

theorem disc3 (l m n : ℂ) :
    let a := -(l + m + n) / 3
    let Q := a * a - (l * m + m * n + n * l) / 3
    let R := a * a * a - 0.5 * a * (l * m + m * n + n * l) - 0.5 * (l * m * n)
    R * R - Q * Q * Q = -((l - m) * (m - n) * (n - l)) ^ 2 / 108 := by
  intro a Q R
  simp only [a, Q, R]
  ring

/-- For three numbers of modulus one with product one the discriminant is real and not negative. -/
theorem disc3_unit {l m n : ℂ} (hl : l * star l = 1) (hm : m * star m = 1) (hn : n * star n = 1) (h : l * m * n = 1) :
    ∃ D : ℝ, 0 ≤ D ∧ -((l - m) * (m - n) * (n - l)) ^ 2 / 108 = (D : ℂ) := by
  set W := (l - m) * (m - n) * (n - l) with hW
  have hc : star l * star m * star n = 1 := by rw [← star_mul', ← star_mul', h, star_one]
  have hs : star W = -W := by
    have e : star W * ((l * m * n) * (l * m * n)) = -W := by
      rw [hW, star_mul', star_mul', star_sub, star_sub, star_sub]
      have e1 : (star l - star m) * (l * m) = m - l := by linear_combination m * hl - l * hm
      have e2 : (star m - star n) * (m * n) = n - m := by linear_combination n * hm - m * hn
      have e3 : (star n - star l) * (n * l) = l - n := by linear_combination l * hn - n * hl
      calc _ = ((star l - star m) * (l * m)) * ((star m - star n) * (m * n)) * ((star n - star l) * (n * l)) := by ring
        _ = _ := by rw [e1, e2, e3]; ring
    rwa [h, mul_one, mul_one] at e
  refine ⟨‖W‖ ^ 2 / 108, by positivity, ?_⟩
  have e : W * star W = ((‖W‖ ^ 2 : ℝ) : ℂ) := by
    rw [Complex.star_def, Complex.mul_conj, Complex.normSq_eq_norm_sq]
  rw [hs] at e
  push_cast at e ⊢
  rw [← e]
  ring

/-- The characteristic polynomial of a special unitary 3x3 matrix. -/
theorem charpoly_su3 {U : Arr ℂ} (hU : IsSU 3 U) (x : ℂ) :
    (toM 3 U).charpoly.eval x = x ^ 3 - trace 3 U * x ^ 2 + star (trace 3 U) * x - 1 := by
  rw [charpoly3, su_adjugate hU, (mem_specialUnitaryGroup_iff.1 hU).2, trace_conjTranspose, C12_trace]

theorem disc_su3 {U : Arr ℂ} (hU : IsSU 3 U) :
    let a := -(trace 3 U) / 3
    let Q := a * a + star a
    let R := a * (Q + star a * 0.5) - 0.5
    ∃ D : ℝ, 0 ≤ D ∧ R * R - Q * Q * Q = (D : ℂ) := by
  intro a Q R
  obtain ⟨l, m, n, h⟩ := exists_roots3 (toM 3 U)
  have hu := (mem_specialUnitaryGroup_iff.1 hU).1
  have hl := root_unit hu (l := l) (by rw [h]; ring)
  have hm := root_unit hu (l := m) (by rw [h]; ring)
  have hn := root_unit hu (l := n) (by rw [h]; ring)
  obtain ⟨h1, h2, h3⟩ := vieta3 (a := l) (b := m) (c := n) (fun x => by rw [← h x, charpoly_su3 hU])
  obtain ⟨D, hD, e⟩ := disc3_unit hl hm hn h3.symm
  refine ⟨D, hD, ?_⟩
  rw [← e, ← disc3 l m n]
  have ha : star a = -(l * m + m * n + n * l) / 3 := by
    simp only [a]
    rw [star_div₀, star_neg, h2]
    simp
  simp only [Q, R, ha, ← h1, ← h2, ← h3, a]
  ring

/-- Three numbers are the eigenvalues of a matrix, with multiplicity. -/
def IsSpectrum3 (M : Matrix (Fin 3) (Fin 3) ℂ) (z : ℂ × ℂ × ℂ) : Prop :=
  M.charpoly = (X - C z.1) * (X - C z.2.1) * (X - C z.2.2)

theorem isSpectrum3_iff {M : Matrix (Fin 3) (Fin 3) ℂ} {z : ℂ × ℂ × ℂ} :
    IsSpectrum3 M z ↔ ∀ x, M.charpoly.eval x = (x - z.1) * (x - z.2.1) * (x - z.2.2) := by
  constructor
  · intro h x
    rw [h]
    simp
  · intro h
    refine Polynomial.funext fun x => ?_
    rw [h]
    simp

theorem far_spectrum {U : Arr ℂ} (hU : IsSU 3 U) : IsSpectrum3 (toM 3 U) (Eigenvalues_su3_far U) := by
  rw [isSpectrum3_iff]
  intro x
  have ht : U 0 + U 4 + U 8 = trace 3 U := by
    rw [C12_trace, trace_fin_three]
    simp [toM_apply]
  obtain ⟨D, hD, hd⟩ := disc_su3 hU
  unfold Eigenvalues_su3_far
  rw [ht]
  dsimp only at hd ⊢
  rw [hd, charpoly_su3 hU]
  set t := trace 3 U
  set a := -t / 3 with ha
  set Q := a * a + star a with hQ
  set R := a * (Q + star a * 0.5) - 0.5 with hR
  obtain ⟨hS, hsg⟩ := squarert_spec hD R
  set S : ℂ := ((squarert (D : ℂ) R : ℝ) : ℂ) with hSd
  have hS' : S * S = R * R - Q * Q * Q := by
    rw [hd, hSd, ← Complex.ofReal_mul, hS]
  have key : ∃ B, (if -cubert (R + S) ≠ 0 then Q / -cubert (R + S) else 0) = B ∧ -cubert (R + S) * B = Q ∧
      (-cubert (R + S)) ^ 3 + B ^ 3 = -2 * R := by
    have hA : (-cubert (R + S)) ^ 3 = -(R + S) := by rw [neg_pow, cubert_pow]; ring
    by_cases h0 : -cubert (R + S) = 0
    · have h1 : R + S = 0 := cubert_eq_zero.1 (neg_eq_zero.1 h0)
      have hRS : S = -R := by linear_combination h1
      have hR0 : R = 0 := by
        have h2 : 0 ≤ (star R * S).re := hsg
        rw [hRS, mul_neg, Complex.neg_re, Complex.star_def, ← Complex.normSq_eq_conj_mul_self, Complex.ofReal_re] at h2
        exact Complex.normSq_eq_zero.1 (le_antisymm (by linarith) (Complex.normSq_nonneg R))
      have hQ0 : Q = 0 := by
        have : Q ^ 3 = 0 := by
          rw [hRS, hR0] at hS'
          linear_combination hS'
        exact pow_eq_zero_iff (by norm_num) |>.1 this
      refine ⟨0, by rw [if_neg (not_not.2 h0)], by rw [hQ0, mul_zero], ?_⟩
      rw [h0, hR0]
      ring
    · obtain ⟨h1, h2⟩ := cardano_other hS' hA h0
      exact ⟨_, if_pos h0, h1, h2⟩
  obtain ⟨B, e, h1, h2⟩ := key
  rw [e]
  have hc := cardano h1 h2 (x + a)
  have hst : star t = -3 * star a := by
    rw [ha, star_div₀, star_neg]
    simp
    ring
  have ht3 : t = -3 * a := by rw [ha]; ring
  rw [hst, ht3]
  have e2 : x ^ 3 - -3 * a * x ^ 2 + -3 * star a * x - 1 = (x + a) ^ 3 - 3 * Q * (x + a) + 2 * R := by
    rw [hR, hQ]
    ring
  rw [e2, ← hc]
  ring

theorem stab_spectrum {U : Arr ℂ} (hU : IsSU 3 U) (hn : 0 < (trace 3 U).re) :
    IsSpectrum3 (toM 3 U) (Eigenvalues_su3_stab U) := by
  rw [isSpectrum3_iff]
  intro x
  obtain ⟨D, hD, hd⟩ := disc_su3 hU
  unfold Eigenvalues_su3_stab
  dsimp only at hd ⊢
  rw [charpoly_su3 hU]
  set t := trace 3 U
  set a := -t / 3 with ha
  set Q := a * a + star a with hQ
  set R := a * (Q + star a * 0.5) - 0.5 with hR
  have h1a : 1 - t / 3 = 1 + a := by rw [ha]; ring
  have hst : star t = -3 * star a := by
    rw [ha, star_div₀, star_neg]
    simp
    ring
  have ht3 : t = -3 * a := by rw [ha]; ring
  rw [h1a, star_add, star_one]
  have hp : -(1 + star a) + (1 + a) * (2 - (1 + a)) = -Q := by rw [hQ]; ring
  have hq : ((1 + a) * (1 - -(1 + star a) - (1 + a) * 2 * (1 - (1 + a) / 3)) + -(1 + star a)) * 1.5 = R := by
    rw [hR, hQ]
    ring
  rw [hp, hq]
  have hd' : R * R + -Q * -Q * -Q = (D : ℂ) := by rw [← hd]; ring
  rw [hd']
  obtain ⟨hS, -⟩ := squarert_spec hD (-Q)
  set S : ℂ := ((squarert (D : ℂ) (-Q) : ℝ) : ℂ) with hSd
  have hS' : S * S = R * R - Q * Q * Q := by
    rw [hd, hSd, ← Complex.ofReal_mul, hS]
  have key : ∃ B, (if (cubert (S - R)).re ≠ 0 then - -Q / cubert (S - R) else 0) = B ∧ cubert (S - R) * B = Q ∧
      (cubert (S - R)) ^ 3 + B ^ 3 = -2 * R := by
    by_cases h0 : S - R = 0
    · have h1 : S = R := sub_eq_zero.1 h0
      have hQ0 : Q = 0 := by
        have : Q ^ 3 = 0 := by
          rw [h1] at hS'
          linear_combination hS'
        exact pow_eq_zero_iff (by norm_num) |>.1 this
      have hc0 : cubert (S - R) = 0 := cubert_eq_zero.2 h0
      have ha1 : a = -1 := by
        have hre := congrArg Complex.re hQ0
        have him := congrArg Complex.im hQ0
        rw [hQ] at hre him
        simp only [Complex.add_re, Complex.mul_re, Complex.star_def, Complex.conj_re, Complex.zero_re, Complex.add_im,
          Complex.mul_im, Complex.conj_im, Complex.zero_im] at hre him
        have hneg : a.re < 0 := by
          have : t.re = -3 * a.re := by rw [ht3]; simp
          linarith
        have hy : a.im = 0 := by
          have : a.im * (2 * a.re - 1) = 0 := by linarith
          rcases mul_eq_zero.1 this with h | h
          · exact h
          · linarith
        have hx : a.re = -1 := by
          rw [hy] at hre
          have : a.re * (a.re + 1) = 0 := by linarith
          rcases mul_eq_zero.1 this with h | h
          · linarith
          · linarith
        exact Complex.ext (by simp [hx]) (by simp [hy])
      have hR0 : R = 0 := by
        rw [hR, hQ0, ha1]
        simp
      refine ⟨0, by rw [hc0]; simp, by rw [hQ0, mul_zero], ?_⟩
      rw [hc0, hR0]
      ring
    · have hne : cubert (S - R) ≠ 0 := fun h => h0 (cubert_eq_zero.1 h)
      have hA : cubert (S - R) ^ 3 = -(R + -S) := by rw [cubert_pow]; ring
      obtain ⟨h1, h2⟩ := cardano_other (Q := Q) (R := R) (S := -S) (by rw [neg_mul_neg, hS']) hA hne
      refine ⟨Q / cubert (S - R), ?_, h1, h2⟩
      rw [if_pos (cubert_re h0).ne', neg_neg]
  obtain ⟨B, e, h1, h2⟩ := key
  rw [e]
  have hc := cardano h1 h2 (x + a)
  rw [hst, ht3]
  have e2 : x ^ 3 - -3 * a * x ^ 2 + -3 * star a * x - 1 = (x + a) ^ 3 - 3 * Q * (x + a) + 2 * R := by
    rw [hR, hQ]
    ring
  rw [e2, ← hc]
  ring

theorem csqrt_neg {D : ℝ} (hD : D ≤ 0) : csqrt (D : ℂ) = I * (√(-D) : ℝ) := by
  unfold csqrt
  rcases hD.eq_or_lt with h | h
  · simp [h]
  · rw [Complex.arg_ofReal_of_neg h, Complex.norm_real, Real.norm_of_nonpos hD]
    simp [mul_comm]

theorem csqrt_pos {D : ℝ} (hD : 0 ≤ D) : csqrt (D : ℂ) = (√D : ℝ) := by
  unfold csqrt
  rw [Complex.arg_ofReal_of_nonneg hD, Complex.norm_real, Real.norm_of_nonneg hD]
  simp

theorem csqrt_half (z : ℂ) : 0 < (csqrt z).re ∨ (csqrt z).re = 0 ∧ 0 ≤ (csqrt z).im := by
  have h1 := Complex.neg_pi_lt_arg z
  have h2 := Complex.arg_le_pi z
  have hr : (csqrt z).re = √‖z‖ * Real.cos (arg z / 2) := by
    unfold csqrt
    rw [Complex.re_ofReal_mul]
    simp [-Complex.ofReal_cos, -Complex.ofReal_sin]
  have hi : (csqrt z).im = √‖z‖ * Real.sin (arg z / 2) := by
    unfold csqrt
    rw [Complex.im_ofReal_mul]
    simp [-Complex.ofReal_cos, -Complex.ofReal_sin]
  rw [hr, hi]
  rcases eq_or_ne z 0 with h | h
  · right
    simp [h]
  have hs : 0 < √‖z‖ := Real.sqrt_pos.2 (norm_pos_iff.2 h)
  rcases h2.eq_or_lt with h | h
  · right
    rw [h, Real.cos_pi_div_two, Real.sin_pi_div_two]
    exact ⟨mul_zero _, by linarith⟩
  · left
    exact mul_pos hs (Real.cos_pos_of_mem_Ioo ⟨by linarith, by linarith⟩)

theorem csqrt_neg_iff (t : ℂ) : csqrt (t * t) = -t ↔ t.re < 0 ∨ t.re = 0 ∧ t.im ≤ 0 := by
  have hh := csqrt_half (t * t)
  rcases mul_self_eq_mul_self_iff.1 (csqrt_sq (t * t)) with h | h
  · rw [h] at hh ⊢
    constructor
    · intro e
      have h0 : t = 0 := by linear_combination (1 / 2) * e
      right
      simp [h0]
    · intro e
      have hr : t.re = 0 := by
        rcases hh with a | a <;> rcases e with b | b <;> linarith [a, b]
      have hi : t.im = 0 := by
        rcases hh with a | a <;> rcases e with b | b <;> first | linarith [a.2, b.2] | (exfalso; linarith)
      have : t = 0 := Complex.ext hr hi
      rw [this, neg_zero]
  · rw [h] at hh ⊢
    simp only [Complex.neg_re, Complex.neg_im, neg_eq_zero] at hh
    refine ⟨fun _ => ?_, fun _ => rfl⟩
    rcases hh with a | ⟨a, b⟩
    · left; linarith
    · right; exact ⟨a, by linarith⟩

/-- The eigenvalues of a Hermitian matrix are real. -/
theorem root_real {n : ℕ} {M : Matrix (Fin n) (Fin n) ℂ} (h : M.IsHermitian) {l : ℂ}
    (hl : M.charpoly.eval l = 0) : l.im = 0 := by
  rw [Matrix.eval_charpoly] at hl
  obtain ⟨v, hv, hv0⟩ := Matrix.exists_mulVec_eq_zero_iff.2 hl
  have he : M *ᵥ v = l • v := by
    rw [Matrix.sub_mulVec, sub_eq_zero] at hv0
    rw [← hv0]
    simp [Matrix.scalar_apply]
  have hn : star (M *ᵥ v) ⬝ᵥ v = star v ⬝ᵥ (M *ᵥ v) := by
    rw [Matrix.star_mulVec, h.eq, ← Matrix.dotProduct_mulVec]
  rw [he, star_smul, smul_dotProduct, dotProduct_smul, smul_eq_mul, smul_eq_mul] at hn
  have hp : star v ⬝ᵥ v ≠ 0 := fun h => hv (dotProduct_star_self_eq_zero.1 h)
  exact Complex.conj_eq_iff_im.1 (mul_right_cancel₀ hp hn)

theorem charpoly_herm3 {Q : Arr ℂ} (hQ : HermTraceless 3 Q) (x : ℂ) :
    (toM 3 Q).charpoly.eval x = x ^ 3 - 0.5 * (trace_prod_herm 3 Q : ℝ) * x - det 3 Q := by
  have h0 : (toM 3 Q).trace = 0 := hQ.2
  rw [charpoly3, h0, C18_det (by norm_num), C12_trace_prod_herm hQ.1 (by norm_num)]
  have : (toM 3 Q).adjugate.trace = 0.5 * ((toM 3 Q).trace * (toM 3 Q).trace - (toM 3 Q * toM 3 Q).trace) := by
    rw [Matrix.adjugate_fin_three, Matrix.trace_fin_three, Matrix.trace_fin_three, Matrix.trace_fin_three]
    simp [Matrix.mul_apply, Fin.sum_univ_three]
    ring
  rw [this, h0]
  ring

theorem disc_herm3 {Q : Arr ℂ} (hQ : HermTraceless 3 Q) :
    (det 3 Q).im = 0 ∧ 0 ≤ trace_prod_herm 3 Q ∧
      (det 3 Q).re * (det 3 Q).re / 4 - (trace_prod_herm 3 Q / 6) ^ 3 ≤ 0 ∧
      (trace_prod_herm 3 Q = 0 → ∀ i < 9, Q i = 0) := by
  obtain ⟨l, m, n, h⟩ := exists_roots3 (toM 3 Q)
  have hl := root_real hQ.1 (l := l) (by rw [h]; ring)
  have hm := root_real hQ.1 (l := m) (by rw [h]; ring)
  have hn := root_real hQ.1 (l := n) (by rw [h]; ring)
  obtain ⟨h1, h2, h3⟩ := vieta3 (a := l) (b := m) (c := n) (t := 0) (s := -0.5 * (trace_prod_herm 3 Q : ℝ)) (d := det 3 Q)
    (fun x => by rw [← h x, charpoly_herm3 hQ]; ring)
  obtain ⟨l, rfl⟩ : ∃ r : ℝ, l = r := ⟨l.re, Complex.ext rfl (by simp [hl])⟩
  obtain ⟨m, rfl⟩ : ∃ r : ℝ, m = r := ⟨m.re, Complex.ext rfl (by simp [hm])⟩
  obtain ⟨n, rfl⟩ : ∃ r : ℝ, n = r := ⟨n.re, Complex.ext rfl (by simp [hn])⟩
  have hs : l + m + n = 0 := by exact_mod_cast h1.symm
  have hd : (det 3 Q).re = l * m * n := by rw [h3, ← Complex.ofReal_mul, ← Complex.ofReal_mul, Complex.ofReal_re]
  have ht : trace_prod_herm 3 Q = -2 * (l * m + m * n + n * l) := by
    have : ((trace_prod_herm 3 Q : ℝ) : ℂ) = ((-2 * (l * m + m * n + n * l) : ℝ) : ℂ) := by
      push_cast
      rw [← h2]
      ring
    exact_mod_cast this
  refine ⟨by rw [h3, ← Complex.ofReal_mul, ← Complex.ofReal_mul, Complex.ofReal_im], ?_, ?_, ?_⟩
  · simp only [trace_prod_herm, if_true]
    nlinarith [mul_self_nonneg (Q 0).re, mul_self_nonneg (Q 4).re, mul_self_nonneg (Q 8).re, mul_self_nonneg (Q 1).re,
      mul_self_nonneg (Q 1).im, mul_self_nonneg (Q 2).re, mul_self_nonneg (Q 2).im, mul_self_nonneg (Q 5).re,
      mul_self_nonneg (Q 5).im]
  · rw [hd, ht]
    have : n = -l - m := by linarith
    subst this
    have e : l * m * (-l - m) * (l * m * (-l - m)) / 4 - (-2 * (l * m + m * (-l - m) + (-l - m) * l) / 6) ^ 3 =
        -((l - m) * (m - (-l - m)) * ((-l - m) - l)) ^ 2 / 108 := by ring
    rw [e]
    have := sq_nonneg ((l - m) * (m - (-l - m)) * ((-l - m) - l))
    linarith
  · intro h0
    obtain ⟨q0, q4, q8, q3, q6, q7, -⟩ := herm3_facts hQ
    simp only [trace_prod_herm, if_true] at h0
    have z : ∀ x : ℝ, x * x ≤ 0 → x = 0 := fun x hx => mul_self_eq_zero.1 (le_antisymm hx (mul_self_nonneg x))
    have a0 := mul_self_nonneg (Q 0).re
    have a4 := mul_self_nonneg (Q 4).re
    have a8 := mul_self_nonneg (Q 8).re
    have a1 := mul_self_nonneg (Q 1).re
    have b1 := mul_self_nonneg (Q 1).im
    have a2 := mul_self_nonneg (Q 2).re
    have b2 := mul_self_nonneg (Q 2).im
    have a5 := mul_self_nonneg (Q 5).re
    have b5 := mul_self_nonneg (Q 5).im
    have e0 : Q 0 = 0 := Complex.ext (z _ (by linarith)) q0
    have e4 : Q 4 = 0 := Complex.ext (z _ (by linarith)) q4
    have e8 : Q 8 = 0 := Complex.ext (z _ (by linarith)) q8
    have e1 : Q 1 = 0 := Complex.ext (z _ (by linarith)) (z _ (by linarith))
    have e2 : Q 2 = 0 := Complex.ext (z _ (by linarith)) (z _ (by linarith))
    have e5 : Q 5 = 0 := Complex.ext (z _ (by linarith)) (z _ (by linarith))
    intro i hi
    interval_cases i
    · exact e0
    · exact e1
    · exact e2
    · rw [q3, e1, star_zero]
    · exact e4
    · exact e5
    · rw [q6, e2, star_zero]
    · rw [q7, e5, star_zero]
    · exact e8

end GLU.Mat
