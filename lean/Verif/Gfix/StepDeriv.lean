import Verif.Mat.GramTri
import Mathlib.Analysis.Calculus.Deriv.Star
import Mathlib.Analysis.Calculus.Deriv.Mul
import Mathlib.Analysis.Calculus.Deriv.Add
import Mathlib.Analysis.Calculus.Deriv.Inv
import Mathlib.Analysis.SpecialFunctions.Sqrt
import Mathlib.Analysis.Complex.RealDeriv

/-!
# First order of the reunitarisation

A differentiable path of matrices through the identity whose direction is anti-Hermitian and traceless keeps that
direction when it is reunitarised.
-/

namespace GLU.Gfix

open Complex Matrix Finset GLU.Mat

theorem ip_deriv {n : ℕ} {x y : ℝ → Fin n → ℂ} {x' y' : Fin n → ℂ} (hx : ∀ c, HasDerivAt (fun t => x t c) (x' c) 0)
    (hy : ∀ c, HasDerivAt (fun t => y t c) (y' c) 0) :
    HasDerivAt (fun t => ip (x t) (y t)) (ip x' (y 0) + ip (x 0) y') 0 := by
  have h : HasDerivAt (fun t => ∑ c, star (x t c) * y t c) (∑ c, (star (x' c) * y 0 c + star (x 0 c) * y' c)) 0 :=
    HasDerivAt.fun_sum fun c _ => (hx c).star.mul (hy c)
  rw [sum_add_distrib] at h
  exact h

/-- The unit vectors. -/
def unitVec (n k : ℕ) : Fin n → ℂ := fun c => if (c : ℕ) = k then 1 else 0

theorem ip_unit {n j k : ℕ} (hj : j < n) : ip (unitVec n j) (unitVec n k) = if j = k then 1 else 0 := by
  unfold ip dotProduct unitVec
  rw [Finset.sum_eq_single ⟨j, hj⟩]
  · simp
  · intro c _ hc
    have : (c : ℕ) ≠ j := fun h => hc (Fin.ext h)
    simp [this]
  · intro h
    exact absurd (mem_univ _) h

theorem gs_norm {n m : ℕ} {u v : ℕ → Fin n → ℂ} (h : IsGramSchmidt m u v) {k : ℕ} (hk : k < m) {w : Fin n → ℂ}
    (hw : w = u k - ∑ j ∈ range k, ip (v j) (u k) • v j) :
    0 < (ip w w).re ∧ ∀ c, v k c = w c / (Real.sqrt (ip w w).re : ℂ) := by
  obtain ⟨r, hr, e⟩ := h.step k hk
  rw [← hw] at e
  have n1 : ip w w = ((r * r : ℝ) : ℂ) := by
    rw [← e, ip_smul_left, ip_smul_right, h.unit k hk, star_def, conj_ofReal]; push_cast; ring
  rw [n1, ofReal_re]
  refine ⟨by positivity, fun c => ?_⟩
  rw [Real.sqrt_mul_self hr.le, ← e]
  have hc : (r : ℂ) ≠ 0 := by exact_mod_cast hr.ne'
  simp only [Pi.smul_apply, smul_eq_mul]
  field_simp

theorem gs_deriv {n m : ℕ} (hm : m ≤ n) {u v : ℝ → ℕ → Fin n → ℂ} (hgs : ∀ t, IsGramSchmidt m (u t) (v t))
    {b : ℕ → Fin n → ℂ} (hu : ∀ k < m, u 0 k = unitVec n k)
    (hd : ∀ k < m, ∀ c, HasDerivAt (fun t => u t k c) (b k c) 0)
    (skew : ∀ j < m, ∀ k < m, ip (b j) (unitVec n k) + ip (unitVec n j) (b k) = 0) :
    ∀ k < m, v 0 k = unitVec n k ∧ ∀ c, HasDerivAt (fun t => v t k c) (b k c) 0 := by
  intro k
  induction k using Nat.strong_induction_on with
  | _ k ih =>
    intro hk
    set w : ℝ → Fin n → ℂ := fun t => u t k - ∑ j ∈ range k, ip (v t j) (u t k) • v t j with hw
    have hN := fun t => gs_norm (hgs t) hk (w := w t) rfl
    have w0 : w 0 = unitVec n k := by
      rw [hw]
      dsimp only
      rw [hu k hk]
      have : ∑ j ∈ range k, ip (v 0 j) (unitVec n k) • v 0 j = 0 := sum_eq_zero fun j hj => by
        have hj' := mem_range.1 hj
        rw [(ih j hj' (by omega)).1, ip_unit (by omega), if_neg (by omega), zero_smul]
      rw [this, sub_zero]
    have wd : ∀ c, HasDerivAt (fun t => w t c) (b k c) 0 := by
      intro c
      have h1 : HasDerivAt (fun t => ∑ j ∈ range k, ip (v t j) (u t k) * v t j c) 0 0 := by
        have h2 : HasDerivAt (fun t => ∑ j ∈ range k, ip (v t j) (u t k) * v t j c)
            (∑ j ∈ range k, (0 : ℂ)) 0 := by
          refine HasDerivAt.fun_sum fun j hj => ?_
          have hj' := mem_range.1 hj
          obtain ⟨v0, vd⟩ := ih j hj' (by omega)
          have h3 := (ip_deriv vd (hd k hk)).mul (vd c)
          rw [v0, hu k hk, skew j (by omega) k hk, ip_unit (by omega), if_neg (by omega), zero_mul, zero_mul,
            add_zero] at h3
          exact h3
        rw [sum_const_zero] at h2
        exact h2
      have h4 := (hd k hk c).sub h1
      rw [sub_zero] at h4
      refine h4.congr_of_eventuallyEq (Filter.Eventually.of_forall fun t => ?_)
      simp [hw, Finset.sum_apply]
    have nd : HasDerivAt (fun t => (ip (w t) (w t)).re) 0 0 := by
      have h1 := ip_deriv wd wd
      rw [w0, skew k hk k hk] at h1
      exact (Complex.reCLM.hasFDerivAt.comp_hasDerivAt (0 : ℝ) h1)
    have n0 : (ip (w 0) (w 0)).re = 1 := by rw [w0, ip_unit (by omega), if_pos rfl, one_re]
    have sd : HasDerivAt (fun t => ((Real.sqrt (ip (w t) (w t)).re : ℝ) : ℂ)) 0 0 := by
      have := (nd.sqrt (by rw [n0]; norm_num)).ofReal_comp
      simpa using this
    refine ⟨?_, fun c => ?_⟩
    · funext c
      rw [(hN 0).2 c, n0, w0]
      simp
    · have h1 := (wd c).div sd (by rw [n0]; simp)
      rw [n0] at h1
      simp only [Real.sqrt_one, ofReal_one, mul_one, mul_zero, sub_zero, one_pow, div_one] at h1
      refine h1.congr_of_eventuallyEq (Filter.Eventually.of_forall fun t => ?_)
      exact (hN t).2 c

theorem det_deriv {n : ℕ} {M : ℝ → Matrix (Fin n) (Fin n) ℂ} {B : Matrix (Fin n) (Fin n) ℂ}
    (hd : ∀ i j, HasDerivAt (fun t => M t i j) (B i j) 0) : ∃ d, HasDerivAt (fun t => (M t).det) d 0 := by
  simp only [det_apply]
  exact ⟨_, HasDerivAt.fun_sum fun σ _ => (HasDerivAt.fun_finsetProd fun i _ => hd (σ i) i).const_smul _⟩

theorem det_deriv_one {n : ℕ} {M : ℝ → Matrix (Fin n) (Fin n) ℂ} {B : Matrix (Fin n) (Fin n) ℂ} (h0 : M 0 = 1)
    (hd : ∀ i j, HasDerivAt (fun t => M t i j) (B i j) 0) : HasDerivAt (fun t => (M t).det) B.trace 0 := by
  simp only [det_apply]
  have h := HasDerivAt.fun_sum (u := (univ : Finset (Equiv.Perm (Fin n)))) fun σ _ =>
    (HasDerivAt.fun_finsetProd (u := (univ : Finset (Fin n))) fun i _ => hd (σ i) i).const_smul (Equiv.Perm.sign σ)
  refine h.congr_deriv ?_
  rw [Finset.sum_eq_single 1]
  · rw [Equiv.Perm.sign_one, one_smul]
    unfold Matrix.trace
    refine sum_congr rfl fun i _ => ?_
    rw [diag_apply, Equiv.Perm.one_apply, h0, prod_eq_one fun j _ => by rw [Equiv.Perm.one_apply, one_apply_eq],
      one_smul]
  · intro σ _ hσ
    rw [smul_eq_zero_iff_eq]
    refine sum_eq_zero fun i _ => ?_
    have : ∃ j, j ≠ i ∧ σ j ≠ j := by
      by_contra hcon
      apply hσ
      ext j
      have fix : ∀ j, j ≠ i → σ j = j := fun j hj => by
        by_contra h
        exact hcon ⟨j, hj, h⟩
      by_cases hj : j = i
      · subst hj
        by_contra h
        have h2 : σ j ≠ j := fun e => h (by rw [e]; rfl)
        exact h2 (σ.injective (fix (σ j) h2))
      · rw [fix j hj]; rfl
    obtain ⟨j, hj, hsj⟩ := this
    rw [Finset.prod_eq_zero (i := j) (by simp [hj]) (by rw [h0]; exact one_apply_ne hsj), zero_smul]
  · intro h
    exact absurd (mem_univ _) h

/-- The last row of a path of special unitary matrices follows the others. -/
theorem last_row_deriv {m : ℕ} {G : ℝ → Matrix (Fin (m + 1)) (Fin (m + 1)) ℂ}
    (hG : ∀ t, G t ∈ specialUnitaryGroup (Fin (m + 1)) ℂ) {B : Matrix (Fin (m + 1)) (Fin (m + 1)) ℂ}
    (hB : Bᴴ = -B) (hT : B.trace = 0) (h0 : ∀ i, i ≠ Fin.last m → G 0 i = (1 : Matrix _ _ ℂ) i)
    (hd : ∀ i, i ≠ Fin.last m → ∀ j, HasDerivAt (fun t => G t i j) (B i j) 0) :
    G 0 = 1 ∧ ∀ i j, HasDerivAt (fun t => G t i j) (B i j) 0 := by
  have g0 : G 0 = 1 := su_last_row (hG 0) (one_mem _) fun i j hi => by rw [h0 i hi]
  have last : ∀ t c, G t (Fin.last m) c = star (adjugate (G t) c (Fin.last m)) := fun t c => by
    rw [su_adjugate (hG t), conjTranspose_apply, star_star]
  have cof : ∀ c : Fin (m + 1), ∀ i j, HasDerivAt (fun t => (G t).submatrix (Fin.last m).succAbove c.succAbove i j)
      ((B.submatrix (Fin.last m).succAbove c.succAbove) i j) 0 := fun c i j => hd _ (Fin.succAbove_ne _ _) _
  have ex : ∀ c, ∃ d, HasDerivAt (fun t => G t (Fin.last m) c) d 0 := by
    intro c
    obtain ⟨d, h⟩ := det_deriv (cof c)
    have h2 := (h.const_mul ((-1 : ℂ) ^ ((Fin.last m : Fin (m + 1)) + c : ℕ))).star
    refine ⟨_, h2.congr_of_eventuallyEq (Filter.Eventually.of_forall fun t => ?_)⟩
    beta_reduce
    rw [last t c, adjugate_fin_succ_eq_det_submatrix]
  choose d hdl using ex
  set X : Matrix (Fin (m + 1)) (Fin (m + 1)) ℂ := fun i j => if i = Fin.last m then d j else B i j with hX
  have hXd : ∀ i j, HasDerivAt (fun t => G t i j) (X i j) 0 := by
    intro i j
    by_cases hi : i = Fin.last m
    · subst hi; simp only [hX, if_pos]; exact hdl j
    · simp only [hX, if_neg hi]; exact hd i hi j
  have skew : ∀ i j, X i j + star (X j i) = 0 := by
    intro i j
    have h1 : HasDerivAt (fun t => ∑ k, G t i k * star (G t j k))
        (∑ k, (X i k * star (G 0 j k) + G 0 i k * star (X j k))) 0 :=
      HasDerivAt.fun_sum fun k _ => (hXd i k).mul (hXd j k).star
    have h2 : (fun t => ∑ k, G t i k * star (G t j k)) = fun _ => (1 : Matrix (Fin (m + 1)) (Fin (m + 1)) ℂ) i j := by
      funext t
      have e := mem_unitaryGroup_iff.1 (mem_specialUnitaryGroup_iff.1 (hG t)).1
      rw [← e, mul_apply]
      rfl
    rw [h2] at h1
    have h3 := (hasDerivAt_const (0 : ℝ) ((1 : Matrix (Fin (m + 1)) (Fin (m + 1)) ℂ) i j)).unique h1
    rw [g0, sum_add_distrib] at h3
    have e1 : ∑ k, X i k * star ((1 : Matrix (Fin (m + 1)) (Fin (m + 1)) ℂ) j k) = X i j := by
      simp [Matrix.one_apply, apply_ite]
    have e2 : ∑ k, (1 : Matrix (Fin (m + 1)) (Fin (m + 1)) ℂ) i k * star (X j k) = star (X j i) := by
      simp [Matrix.one_apply]
    rw [e1, e2] at h3
    exact h3.symm
  have skewB : ∀ i j, B i j + star (B j i) = 0 := by
    intro i j
    have := congrFun (congrFun hB i) j
    rw [conjTranspose_apply, Matrix.neg_apply] at this
    rw [this, add_neg_cancel]
  have key : ∀ c, d c = B (Fin.last m) c := by
    intro c
    by_cases hc : c = Fin.last m
    · subst hc
      have h1 := (det_deriv_one (M := fun t => (G t).submatrix (Fin.last m).succAbove (Fin.last m).succAbove)
        (by rw [g0]; exact submatrix_one _ Fin.succAbove_right_injective) (cof (Fin.last m)))
      have h2 := (h1.const_mul ((-1 : ℂ) ^ ((Fin.last m : Fin (m + 1)) + (Fin.last m : Fin (m + 1)) : ℕ))).star
      have h3 := h2.congr_of_eventuallyEq (f₁ := fun t => G t (Fin.last m) (Fin.last m))
        (Filter.Eventually.of_forall fun t => by beta_reduce; rw [last t, adjugate_fin_succ_eq_det_submatrix])
      have h4 := (hdl (Fin.last m)).unique h3
      rw [h4]
      have e1 : (B.submatrix (Fin.last m).succAbove (Fin.last m).succAbove).trace = -B (Fin.last m) (Fin.last m) := by
        unfold Matrix.trace at hT ⊢
        rw [Fin.sum_univ_castSucc] at hT
        simp only [diag_apply, submatrix_apply, Fin.succAbove_last] at hT ⊢
        linear_combination hT
      rw [e1]
      have e2 : ((-1 : ℂ) ^ ((Fin.last m : Fin (m + 1)) + (Fin.last m : Fin (m + 1)) : ℕ)) = 1 := by
        rw [← two_mul, pow_mul]; norm_num
      rw [e2, one_mul, star_neg]
      linear_combination -skewB (Fin.last m) (Fin.last m)
    · have h1 := skew (Fin.last m) c
      have h2 := skewB (Fin.last m) c
      simp only [hX, if_true, if_neg hc] at h1
      linear_combination h1 - h2
  refine ⟨g0, fun i j => ?_⟩
  by_cases hi : i = Fin.last m
  · subst hi
    rw [← key j]
    exact hdl j
  · exact hd i hi j

/-- Reunitarising a path through the identity keeps its direction. -/
theorem gram_deriv {NC : ℕ} (hN : 1 < NC) {M V : ℝ → Arr ℂ} {array : Arr ℂ}
    (hV : ∀ t, gram_reunit NC (M t) array = some (V t)) {B : Matrix (Fin NC) (Fin NC) ℂ} (hB : Bᴴ = -B)
    (hT : B.trace = 0)
    (h0 : ∀ k < NC - 1, lead NC (M 0) k = unitVec NC k)
    (hd : ∀ k : Fin NC, (k : ℕ) < NC - 1 → ∀ c : Fin NC, HasDerivAt (fun t => lead NC (M t) k c)
      (if NC ≤ 3 then B c k else B k c) 0) :
    toM NC (V 0) = 1 ∧ ∀ i j, HasDerivAt (fun t => toM NC (V t) i j) (B i j) 0 := by
  have skewB : ∀ i j, B i j + star (B j i) = 0 := by
    intro i j
    have := congrFun (congrFun hB i) j
    rw [conjTranspose_apply, Matrix.neg_apply] at this
    rw [this, add_neg_cancel]
  have hSU := fun t => C15_special_unitary hN (hV t)
  obtain ⟨m, rfl⟩ : ∃ m, NC = m + 1 := ⟨NC - 1, by omega⟩
  rw [Nat.add_sub_cancel] at h0 hd
  set b : ℕ → Fin (m + 1) → ℂ := fun k c => if h : k < m + 1 then (if m + 1 ≤ 3 then B c ⟨k, h⟩ else B ⟨k, h⟩ c) else 0
    with hb
  have ipl : ∀ {k : ℕ} (hk : k < m + 1) (x : Fin (m + 1) → ℂ), ip x (unitVec (m + 1) k) = star (x ⟨k, hk⟩) := by
    intro k hk x
    unfold ip dotProduct unitVec
    rw [Finset.sum_eq_single ⟨k, hk⟩]
    · simp
    · intro c _ hc
      have : (c : ℕ) ≠ k := fun h => hc (Fin.ext h)
      simp [this]
    · intro h
      exact absurd (mem_univ _) h
  have ipr : ∀ {k : ℕ} (hk : k < m + 1) (x : Fin (m + 1) → ℂ), ip (unitVec (m + 1) k) x = x ⟨k, hk⟩ := by
    intro k hk x
    rw [← ip_star, ipl hk, star_star]
  have key := gs_deriv (m := m) (n := m + 1) (by omega) (u := fun t => lead (m + 1) (M t))
    (v := fun t => lead (m + 1) (V t)) (fun t => C15_gram_schmidt hN (hV t)) (b := b) h0
    (fun k hk c => by
      have := hd ⟨k, by omega⟩ hk c
      simp only [hb]
      rw [dif_pos (by omega)]
      exact this)
    (fun j hj k hk => by
      rw [ipl (by omega), ipr (by omega)]
      simp only [hb]
      rw [dif_pos (by omega), dif_pos (by omega)]
      split
      · rw [add_comm]; exact skewB _ _
      · rw [add_comm]; exact skewB _ _)
  by_cases h3 : m + 1 ≤ 3
  · have := last_row_deriv (G := fun t => (toM (m + 1) (V t))ᵀ) (fun t => su_transpose (hSU t)) (B := Bᵀ)
      (by rw [conjTranspose, transpose_map]; exact congrArg Matrix.transpose hB) (by rw [trace_transpose]; exact hT)
      (fun i hi => by
        have hlt : (i : ℕ) < m := by
          have := i.2
          have : (i : ℕ) ≠ m := fun h => hi (Fin.ext h)
          omega
        have e := (key i hlt).1
        funext c
        have e2 := congrFun e c
        simp only [lead, if_pos h3, unitVec] at e2
        rw [transpose_apply, toM_apply, e2, one_apply]
        simp only [Fin.ext_iff, eq_comm])
      (fun i hi j => by
        have hlt : (i : ℕ) < m := by
          have := i.2
          have : (i : ℕ) ≠ m := fun h => hi (Fin.ext h)
          omega
        have e := (key i hlt).2 j
        simp only [lead, if_pos h3, hb, dif_pos i.2] at e
        exact e)
    exact ⟨transpose_injective (by rw [transpose_one]; exact this.1), fun i j => this.2 j i⟩
  · have := last_row_deriv (G := fun t => toM (m + 1) (V t)) hSU (B := B) hB hT
      (fun i hi => by
        have hlt : (i : ℕ) < m := by
          have := i.2
          have : (i : ℕ) ≠ m := fun h => hi (Fin.ext h)
          omega
        have e := (key i hlt).1
        funext c
        have e2 := congrFun e c
        simp only [lead, if_neg h3, unitVec] at e2
        rw [toM_apply, e2, one_apply]
        simp only [Fin.ext_iff, eq_comm])
      (fun i hi j => by
        have hlt : (i : ℕ) < m := by
          have := i.2
          have : (i : ℕ) ≠ m := fun h => hi (Fin.ext h)
          omega
        have e := (key i hlt).2 j
        simp only [lead, if_neg h3, hb, dif_pos i.2] at e
        exact e)
    exact this

end GLU.Gfix
