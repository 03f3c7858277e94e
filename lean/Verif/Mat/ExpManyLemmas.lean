import Verif.Mat.ExpProps
import Verif.Mat.GramTri
import Mathlib.Analysis.Calculus.MeanValue
import Mathlib.Analysis.SpecialFunctions.ExpDeriv

/-!
# Lemmas for the exponential of more than three colours

The quotient of `horners_pade` at opposite arguments against the exponential on the unit circle,
powers and products of numbers of modulus one, and the reunitarisation of a unitary matrix.
-/

namespace GLU.Mat

open Complex Matrix Finset

/-! ## The approximant on the unit circle -/

theorem star_padeNum (x : ℝ) : star (padeNum x) = 1 - 1 / 2 * (I * x) + 3 / 28 * (I * x) ^ 2 -
    1 / 84 * (I * x) ^ 3 + 1 / 1680 * (I * x) ^ 4 := by
  rw [← padeNum_neg]
  unfold padeNum
  push_cast
  ring

theorem one_le_padeNum (x : ℝ) : 1 ≤ ‖padeNum x‖ := by
  have i3 : (I : ℂ) ^ 3 = -I := by rw [pow_succ, I_sq]; ring
  have i4 : (I : ℂ) ^ 4 = 1 := by rw [pow_succ, i3]; simp
  have e : padeNum x = ((1 - 3 / 28 * x ^ 2 + 1 / 1680 * x ^ 4 : ℝ) : ℂ) +
      ((1 / 2 * x - 1 / 84 * x ^ 3 : ℝ) : ℂ) * I := by
    unfold padeNum
    simp only [mul_pow, I_sq, i3, i4]
    push_cast
    ring
  have h : 1 ≤ ‖padeNum x‖ ^ 2 := by
    rw [e, ← normSq_eq_norm_sq, normSq_add_mul_I]
    have h2 := sq_nonneg x
    have h4 : 0 ≤ x ^ 4 := by positivity
    have h6 : 0 ≤ x ^ 6 := by positivity
    have h8 : 0 ≤ x ^ 8 := by positivity
    nlinarith
  nlinarith [norm_nonneg (padeNum x)]

/-- The approximant at `i x`. -/
noncomputable def padeQ (x : ℝ) : ℂ := padeNum x * (star (padeNum x))⁻¹

theorem norm_padeQ (x : ℝ) : ‖padeQ x‖ = 1 := by
  unfold padeQ
  rw [norm_mul, norm_inv, norm_star, mul_inv_cancel₀ (norm_ne_zero_iff.2 (padeNum_ne x))]

theorem padeQ_deriv (x : ℝ) : HasDerivAt (fun t : ℝ => cexp (-(I * t)) * padeQ t - 1)
    (-(I * cexp (-(I * x)) * (I * x) ^ 8 / (1680 ^ 2 * star (padeNum x) ^ 2))) x := by
  set D : ℂ → ℂ := fun z => 1 - 1 / 2 * (I * z) + 3 / 28 * (I * z) ^ 2 - 1 / 84 * (I * z) ^ 3 +
    1 / 1680 * (I * z) ^ 4 with hD
  set N : ℂ → ℂ := fun z => 1 + 1 / 2 * (I * z) + 3 / 28 * (I * z) ^ 2 + 1 / 84 * (I * z) ^ 3 +
    1 / 1680 * (I * z) ^ 4 with hN
  have hDx : ∀ t : ℝ, D t = star (padeNum t) := fun t => (star_padeNum t).symm
  have hNx : ∀ t : ℝ, N t = padeNum t := fun t => rfl
  have hI : ∀ z : ℂ, HasDerivAt (fun z : ℂ => I * z) I z := fun z => by
    simpa using (hasDerivAt_id z).const_mul I
  have hp : ∀ (k : ℕ) (z : ℂ), HasDerivAt (fun z : ℂ => (I * z) ^ (k + 1)) ((k + 1 : ℕ) * (I * z) ^ k * I) z :=
    fun k z => (hI z).pow (k + 1)
  have dN : HasDerivAt N (1 / 2 * I + 3 / 28 * ((2 : ℕ) * (I * x) ^ 1 * I) +
      1 / 84 * ((3 : ℕ) * (I * x) ^ 2 * I) + 1 / 1680 * ((4 : ℕ) * (I * x) ^ 3 * I)) (x : ℂ) := by
    have := (((((hI x).const_mul (1 / 2)).const_add 1).add ((hp 1 x).const_mul (3 / 28))).add
      ((hp 2 x).const_mul (1 / 84))).add ((hp 3 x).const_mul (1 / 1680))
    exact this
  have dD : HasDerivAt D (-(1 / 2 * I) + 3 / 28 * ((2 : ℕ) * (I * x) ^ 1 * I) -
      1 / 84 * ((3 : ℕ) * (I * x) ^ 2 * I) + 1 / 1680 * ((4 : ℕ) * (I * x) ^ 3 * I)) (x : ℂ) := by
    have := (((((hI x).const_mul (1 / 2)).const_sub 1).add ((hp 1 x).const_mul (3 / 28))).sub
      ((hp 2 x).const_mul (1 / 84))).add ((hp 3 x).const_mul (1 / 1680))
    exact this
  have dE : HasDerivAt (fun z : ℂ => cexp (-(I * z))) (cexp (-(I * x)) * -I) (x : ℂ) := (hI x).neg.cexp
  have hne : D x ≠ 0 := by
    rw [hDx]
    exact fun h => padeNum_ne x (star_eq_zero.1 h)
  have := (((dE.mul (dN.div dD hne)).sub_const 1).comp_ofReal)
  have e : (fun t : ℝ => cexp (-(I * t)) * padeQ t - 1) =
      fun t : ℝ => ((fun z : ℂ => cexp (-(I * z))) * (N / D)) t - 1 := by
    funext t
    simp only [Pi.mul_apply, div_eq_mul_inv, Pi.inv_apply, hDx, hNx, padeQ]
  rw [e]
  convert this using 1
  simp only [Pi.div_apply]
  rw [← hDx]
  have hne2 : D x ^ 2 ≠ 0 := pow_ne_zero 2 hne
  rw [← sub_eq_zero]
  field_simp
  simp only [hD, hN]
  ring_nf

theorem padeQ_neg (x : ℝ) : padeQ (-x) = star (padeQ x) := by
  unfold padeQ
  rw [padeNum_neg, star_mul', star_inv₀, star_star]

theorem padeQ_zero : padeQ 0 = 1 := by
  unfold padeQ padeNum
  simp

theorem padeQ_exp_nonneg {x : ℝ} (hx : 0 ≤ x) : ‖padeQ x - cexp (I * x)‖ ≤ x ^ 9 / 25401600 := by
  have hb := image_norm_le_of_norm_deriv_right_le_deriv_boundary (a := 0) (b := x)
    (f := fun t : ℝ => cexp (-(I * t)) * padeQ t - 1)
    (f' := fun t : ℝ => -(I * cexp (-(I * t)) * (I * t) ^ 8 / (1680 ^ 2 * star (padeNum t) ^ 2)))
    (B := fun t => t ^ 9 / 25401600) (B' := fun t => t ^ 8 / 1680 ^ 2)
    (fun t _ => (padeQ_deriv t).continuousAt.continuousWithinAt)
    (fun t _ => (padeQ_deriv t).hasDerivWithinAt) (by simp [padeQ_zero])
    (fun t => by
      have := (hasDerivAt_pow 9 t).div_const (25401600 : ℝ)
      refine this.congr_deriv ?_
      push_cast
      ring)
    (fun t ht => by
      have h1 := one_le_padeNum t
      have hE : ‖cexp (-(I * t))‖ = 1 := by
        rw [show -(I * (t : ℂ)) = ((-t : ℝ) : ℂ) * I by push_cast; ring, norm_exp_ofReal_mul_I]
      rw [norm_neg, norm_div, norm_mul, norm_mul, norm_pow, norm_mul, norm_mul, norm_pow, norm_pow, norm_star,
        norm_I, hE, one_mul, one_mul, one_mul, norm_real, Real.norm_of_nonneg ht.1]
      have : ‖(1680 : ℂ)‖ = 1680 := by norm_num
      rw [this]
      have h2 : (1 : ℝ) ≤ ‖padeNum t‖ ^ 2 := one_le_pow₀ h1
      have h8 : 0 ≤ t ^ 8 := pow_nonneg ht.1 8
      exact div_le_div_of_nonneg_left h8 (by norm_num) (by nlinarith))
    (Set.right_mem_Icc.2 hx)
  have hE : ‖cexp (I * x)‖ = 1 := by rw [mul_comm, norm_exp_ofReal_mul_I]
  have e : padeQ x - cexp (I * x) = cexp (I * x) * (cexp (-(I * x)) * padeQ x - 1) := by
    rw [mul_sub, ← mul_assoc, ← Complex.exp_add]
    simp
  rw [e, norm_mul, hE, one_mul]
  exact hb

/-- The approximant agrees with the exponential to ninth order, for every real argument. -/
theorem padeQ_exp (x : ℝ) : ‖padeQ x - cexp (I * x)‖ ≤ |x| ^ 9 / 25401600 := by
  rcases le_total 0 x with h | h
  · rw [abs_of_nonneg h]
    exact padeQ_exp_nonneg h
  · rw [abs_of_nonpos h]
    have := padeQ_exp_nonneg (neg_nonneg.2 h)
    rw [padeQ_neg] at this
    have e : padeQ x - cexp (I * x) = star (star (padeQ x) - cexp (I * ((-x : ℝ) : ℂ))) := by
      rw [star_sub, star_star]
      congr 1
      change _ = (starRingEnd ℂ) _
      rw [← Complex.exp_conj]
      simp
    rw [e, norm_star]
    exact this

/-! ## Numbers of modulus one -/

theorem unit_pow_sub {a b : ℂ} (ha : ‖a‖ = 1) (hb : ‖b‖ = 1) (n : ℕ) : ‖a ^ n - b ^ n‖ ≤ n * ‖a - b‖ := by
  induction n with
  | zero => simp
  | succ n ih =>
    have e : a ^ (n + 1) - b ^ (n + 1) = (a ^ n - b ^ n) * a + b ^ n * (a - b) := by ring
    rw [e]
    refine (norm_add_le _ _).trans ?_
    rw [norm_mul, norm_mul, norm_pow, ha, hb, one_pow, one_mul, mul_one]
    push_cast
    linarith

theorem unit_prod_sub {ι : Type*} (s : Finset ι) {a b : ι → ℂ} (ha : ∀ i, ‖a i‖ = 1) (hb : ∀ i, ‖b i‖ = 1) :
    ‖∏ i ∈ s, a i - ∏ i ∈ s, b i‖ ≤ ∑ i ∈ s, ‖a i - b i‖ := by
  classical
  induction s using Finset.induction_on with
  | empty => simp
  | insert i s hi ih =>
    rw [prod_insert hi, prod_insert hi, sum_insert hi]
    have e : a i * ∏ j ∈ s, a j - b i * ∏ j ∈ s, b j =
        (a i - b i) * ∏ j ∈ s, a j + b i * (∏ j ∈ s, a j - ∏ j ∈ s, b j) := by ring
    rw [e]
    refine (norm_add_le _ _).trans ?_
    rw [norm_mul, norm_mul, norm_prod, prod_congr rfl (fun j _ => ha j), prod_const_one, mul_one, hb, one_mul]
    linarith

/-- The power of the approximant at the divided argument. -/
theorem padePow_exp (l : ℝ) {m : ℕ} (hm : 0 < m) :
    ‖padeQ (l / m) ^ m - cexp (I * l)‖ ≤ |l| ^ 9 / (m ^ 8 * 25401600) := by
  have hm0 : (m : ℂ) ≠ 0 := by exact_mod_cast hm.ne'
  have hmr : (0 : ℝ) < m := by exact_mod_cast hm
  have e : cexp (I * l) = cexp (I * ((l / m : ℝ) : ℂ)) ^ m := by
    rw [← Complex.exp_nat_mul]
    congr 1
    push_cast
    field_simp
  rw [e]
  refine (unit_pow_sub (norm_padeQ _) (by rw [mul_comm, norm_exp_ofReal_mul_I]) m).trans ?_
  refine (mul_le_mul_of_nonneg_left (padeQ_exp (l / m)) hmr.le).trans (le_of_eq ?_)
  rw [abs_div, abs_of_pos hmr, div_pow]
  field_simp

/-! ## Reunitarisation of a unitary matrix -/

/-- Orthonormal vectors are their own Gram-Schmidt orthonormalisation. -/
theorem gs_fixed {n m : ℕ} {u v : ℕ → Fin n → ℂ} (h : IsGramSchmidt m u v)
    (hu : ∀ i < m, ∀ j < m, ip (u i) (u j) = if i = j then 1 else 0) : ∀ k < m, v k = u k := by
  intro k
  induction k using Nat.strong_induction_on with
  | _ k ih =>
    intro hk
    obtain ⟨r, hr, e⟩ := h.step k hk
    have e0 : ∑ j ∈ range k, ip (v j) (u k) • v j = 0 := by
      refine sum_eq_zero fun j hj => ?_
      have hjk := mem_range.1 hj
      rw [ih j hjk (by omega), hu j (by omega) k hk, if_neg (by omega), zero_smul]
    rw [e0, sub_zero] at e
    have h1 := hu k hk k hk
    rw [if_pos rfl, ← e] at h1
    have h2 : ip ((r : ℂ) • v k) ((r : ℂ) • v k) = (r : ℂ) * r * ip (v k) (v k) := by
      simp only [ip, Pi.smul_apply, dotProduct, smul_eq_mul, mul_sum, Pi.star_apply, star_mul']
      refine sum_congr rfl fun c _ => ?_
      simp
      ring
    rw [h2, h.unit k hk, mul_one] at h1
    have h3 : r * r = 1 := by exact_mod_cast h1
    have h4 : r = 1 := by nlinarith
    rw [h4, ofReal_one, one_smul] at e
    exact e

theorem unitary_entry_le {n : ℕ} {M : Matrix (Fin n) (Fin n) ℂ} (h : M * Mᴴ = 1) (i j : Fin n) : ‖M i j‖ ≤ 1 := by
  have e := congrFun (congrFun h i) i
  rw [one_apply_eq, mul_apply] at e
  have e2 : ∑ c, ‖M i c‖ ^ 2 = 1 := by
    have : ((∑ c, ‖M i c‖ ^ 2 : ℝ) : ℂ) = 1 := by
      rw [← e]
      push_cast
      refine sum_congr rfl fun c _ => ?_
      rw [conjTranspose_apply, star_def, mul_conj, normSq_eq_norm_sq]
      push_cast
      rfl
    exact_mod_cast this
  have h1 : ‖M i j‖ ^ 2 ≤ 1 := by
    rw [← e2]
    exact single_le_sum (f := fun c => ‖M i c‖ ^ 2) (fun c _ => by positivity) (mem_univ j)
  nlinarith [norm_nonneg (M i j)]

/-- More than three colours: reunitarising a unitary matrix only multiplies the last row by a number that makes the
determinant one. -/
theorem reunit_unitary {NC : ℕ} (hN : 3 < NC) {U g V : Arr ℂ} (hU : toM NC U * (toM NC U)ᴴ = 1)
    (h : gram_reunit NC U g = some V) :
    toM NC V = diagonal (fun r : Fin NC => if (r : ℕ) = NC - 1 then star (toM NC U).det else 1) * toM NC U := by
  have hSU := mem_specialUnitaryGroup_iff.1 (C15_special_unitary (by omega) h)
  have hV : toM NC V * (toM NC V)ᴴ = 1 := mem_unitaryGroup_iff.1 hSU.1
  have hU' : (toM NC U)ᴴ * toM NC U = 1 := mul_eq_one_comm.1 hU
  have hl : ∀ (A : Arr ℂ) (k : ℕ) (hk : k < NC) (c : Fin NC), lead NC A k c = toM NC A ⟨k, hk⟩ c := fun A k hk c => by
    unfold lead
    rw [if_neg (by omega), toM_apply]
  have hrow : ∀ r : Fin NC, (r : ℕ) < NC - 1 → ∀ c, toM NC V r c = toM NC U r c := by
    intro r hr c
    have := congrFun (gs_fixed (C15_gram_schmidt (by omega) h) (fun a ha b hb => by
      have e := congrFun (congrFun hU ⟨b, by omega⟩) ⟨a, by omega⟩
      rw [mul_apply, one_apply] at e
      simp only [ip, dotProduct, Pi.star_apply, hl U a (by omega), hl U b (by omega)]
      rw [sum_congr rfl fun c _ => mul_comm (star (toM NC U ⟨a, by omega⟩ c)) _]
      rw [show (if a = b then (1 : ℂ) else 0) = if (⟨b, by omega⟩ : Fin NC) = ⟨a, by omega⟩ then 1 else 0 by
        simp only [Fin.mk.injEq, eq_comm], ← e]
      rfl) r hr) c
    rw [hl V r r.2, hl U r r.2] at this
    exact this
  let L : Fin NC := ⟨NC - 1, by omega⟩
  set W := toM NC V * (toM NC U)ᴴ with hW
  have hWU : W * toM NC U = toM NC V := by rw [hW, Matrix.mul_assoc, hU', Matrix.mul_one]
  have hWW : W * Wᴴ = 1 := by
    rw [hW, conjTranspose_mul, conjTranspose_conjTranspose, Matrix.mul_assoc, ← Matrix.mul_assoc _ (toM NC U), hU',
      Matrix.one_mul, hV]
  have hWrow : ∀ r : Fin NC, r ≠ L → ∀ c, W r c = (1 : Matrix (Fin NC) (Fin NC) ℂ) r c := by
    intro r hr c
    have hr' : (r : ℕ) < NC - 1 := by
      have h1 := r.2
      have h2 : (r : ℕ) ≠ NC - 1 := fun h => hr (Fin.ext h)
      omega
    rw [← hU, hW, mul_apply, mul_apply]
    exact sum_congr rfl fun k _ => by rw [hrow r hr']
  have hWL : ∀ c, c ≠ L → W L c = 0 := by
    intro c hc
    have e := congrFun (congrFun hWW L) c
    rw [one_apply_ne (Ne.symm hc), mul_apply] at e
    rw [← e]
    have : ∀ k, W L k * Wᴴ k c = if k = c then W L c else 0 := fun k => by
      rw [conjTranspose_apply, hWrow c hc k, one_apply]
      by_cases hk : k = c
      · subst hk; simp
      · rw [if_neg (Ne.symm hk), if_neg hk]; simp
    simp only [this]
    simp
  have hWd : W = diagonal (fun r => if r = L then W L L else 1) := by
    ext r c
    by_cases hrc : r = c
    · subst hrc
      rw [diagonal_apply_eq]
      by_cases hr : r = L
      · rw [if_pos hr, hr]
      · rw [if_neg hr, hWrow r hr, one_apply_eq]
    · rw [diagonal_apply_ne _ hrc]
      by_cases hr : r = L
      · rw [hr]
        exact hWL c (fun h => hrc (hr.trans h.symm))
      · rw [hWrow r hr, one_apply_ne hrc]
  have hdet : W L L = star (toM NC U).det := by
    have e1 : W.det = W L L := by
      rw [hWd, det_diagonal, Finset.prod_ite_eq' univ L (fun _ => W L L), if_pos (mem_univ _)]
      rw [diagonal_apply_eq, if_pos rfl]
    rw [← e1, hW, det_mul, det_conjTranspose, show (toM NC V).det = 1 from hSU.2, one_mul]
  rw [← hWU]
  conv_lhs => rw [hWd, hdet]
  congr 2
  funext r
  exact if_congr ⟨fun h => congrArg Fin.val h, fun h => Fin.ext h⟩ rfl rfl

end GLU.Mat
