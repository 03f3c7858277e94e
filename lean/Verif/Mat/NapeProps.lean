import Verif.Mat.NapeLemmas
import Verif.Mat.GramProps

/-!
# The n-APE projection (C109)
-/

namespace GLU.Mat

open Complex Matrix Finset
open scoped ComplexOrder

theorem prec_pos {NC : ℕ} (hN : 0 < NC) : 0 < PREC_TOL NC := by
  unfold PREC_TOL
  positivity

section trace

variable {n : Type} [Fintype n] [DecidableEq n]

theorem diag_ge {M : Matrix n n ℂ} (h : (M - 1).PosSemidef) (i : n) :
    (M i i).im = 0 ∧ 1 ≤ (M i i).re ∧ (M i i).re = 1 + ((M - 1) i i).re := by
  have := Complex.nonneg_iff.1 (h.diag_nonneg (i := i))
  rw [Matrix.sub_apply, Matrix.one_apply_eq] at this
  rw [Matrix.sub_apply, Matrix.one_apply_eq]
  simp only [sub_re, one_re, sub_im, one_im, sub_zero] at this ⊢
  exact ⟨this.2.symm, by linarith [this.1], by ring⟩

theorem norm_diag {M : Matrix n n ℂ} (h : (M - 1).PosSemidef) (i : n) : ‖M i i‖ ^ 2 = (M i i).re ^ 2 := by
  rw [← Complex.normSq_eq_norm_sq, Complex.normSq_apply, (diag_ge h i).1]
  ring

/-- The sum of the diagonal tests every entry. -/
theorem tol_entries {M : Matrix n n ℂ} (h : (M - 1).PosSemidef) {tol : ℝ}
    (ht : ∑ i, ‖M i i‖ ^ 2 - Fintype.card n ≤ tol) (i j : n) : ‖(M - 1) i j‖ ≤ tol / 2 := by
  have hd : ∀ k, 0 ≤ ((M - 1) k k).re := fun k => (Complex.nonneg_iff.1 (h.diag_nonneg (i := k))).1
  have e : ∑ i, ‖M i i‖ ^ 2 - Fintype.card n = ∑ i, (2 * ((M - 1) i i).re + ((M - 1) i i).re ^ 2) := by
    have : (Fintype.card n : ℝ) = ∑ _i : n, 1 := by simp
    rw [this, ← sum_sub_distrib]
    refine sum_congr rfl fun i _ => ?_
    rw [norm_diag h, (diag_ge h i).2.2]
    ring
  have hk : ∀ k, ((M - 1) k k).re ≤ tol / 2 := by
    intro k
    have := single_le_sum (f := fun i => 2 * ((M - 1) i i).re + ((M - 1) i i).re ^ 2) (fun i _ => by
      have := hd i
      positivity) (mem_univ k)
    rw [← e] at this
    have h2 := sq_nonneg ((M - 1) k k).re
    linarith
  have h1 := entry_le h i j
  have h2 : ‖(M - 1) i j‖ ^ 2 ≤ (tol / 2) ^ 2 := by
    calc _ ≤ _ := h1
      _ ≤ (tol / 2) * (tol / 2) := mul_le_mul (hk i) (hk j) (hd j) (le_trans (hd i) (hk i))
      _ = _ := by ring
  exact (sq_le_sq₀ (norm_nonneg _) (le_trans (hd i) (hk i))).1 h2

end trace

/-- Leaving the loop with success: the final matrices. -/
def Done (NC : ℕ) (A Z : Matrix (Fin NC) (Fin NC) ℂ) : Prop :=
  ∃ M, Inv A Z M ∧ (M - 1).PosSemidef ∧ ∑ i, ‖M i i‖ ^ 2 - (NC : ℝ) ≤ PREC_TOL NC

theorem denmanZ_step_inv {NC : ℕ} (hN : 0 < NC) {A : Matrix (Fin NC) (Fin NC) ℂ} {Z M : Arr ℂ}
    (h : Inv A (toM NC Z) (toM NC M)) :
    ∃ Z' M', denmanZ_step NC Z M = some (Z', M', diagTol NC M') ∧ Inv A (toM NC Z') (toM NC M') ∧
      toM NC M' = nextM (toM NC M) ∧ (toM NC M' - 1).PosSemidef := by
  obtain ⟨Z', M', h1, h2, h3⟩ := denmanZ_step_some hN Z (M := M) (posDef_det h.posM).ne_zero
  have h3' : toM NC M' = nextM (toM NC M) := h3
  refine ⟨Z', M', h1, ?_, h3', ?_⟩
  · rw [h2, h3']; exact h.step
  · rw [h3']; exact nextM_ge h.posM

theorem loop_done {NC : ℕ} (hN : 0 < NC) {A : Matrix (Fin NC) (Fin NC) ℂ} (left : ℕ) {Z M : Arr ℂ}
    (h : Inv A (toM NC Z) (toM NC M)) :
    ∃ b Z', denmanLoop NC (denmanZ_step NC) (left + 1) Z M = some (b, Z') ∧
      (b = true → Done NC A (toM NC Z')) := by
  induction left generalizing Z M with
  | zero =>
    obtain ⟨Z', M', h1, -⟩ := denmanZ_step_inv hN h
    refine ⟨false, Z', ?_, by simp⟩
    rw [denmanLoop, h1]
    rfl
  | succ left ih =>
    obtain ⟨Z', M', h1, h2, h3, h4⟩ := denmanZ_step_inv hN h
    rw [denmanLoop, h1, Option.bind_some, if_neg (by omega)]
    dsimp only
    by_cases ht : diagTol NC M' > PREC_TOL NC
    · rw [if_pos ht]
      exact ih h2
    · rw [if_neg ht]
      refine ⟨true, Z', rfl, fun _ => ⟨_, h2, h4, ?_⟩⟩
      rw [not_lt, diagTol_eq] at ht
      exact le_trans (le_abs_self _) ht

/-! ## The scale factors -/

theorem rootFactor_some {NC : ℕ} {d : ℂ} (h : d ≠ 0) : rootFactor NC d = some (d ^ (-1 / (NC : ℂ))) := if_neg h

theorem root_pow {NC : ℕ} (hN : 0 < NC) {d : ℂ} (h : d ≠ 0) : (d ^ (-1 / (NC : ℂ))) ^ NC * d = 1 := by
  rw [← Complex.cpow_mul_nat, div_mul_cancel₀ _ (by exact_mod_cast hN.ne'), Complex.cpow_neg_one, inv_mul_cancel₀ h]

theorem root_norm {NC : ℕ} {d : ℂ} (h : d ≠ 0) :
    (star d * d) ^ (-1 / (NC : ℂ)) = star (d ^ (-1 / (NC : ℂ))) * d ^ (-1 / (NC : ℂ)) := by
  have hp : 0 < ‖d‖ := norm_pos_iff.2 h
  have e : (-1 / (NC : ℂ)) = ((-1 / (NC : ℝ) : ℝ) : ℂ) := by push_cast; rfl
  have e1 : ∀ z : ℂ, star z * z = ((‖z‖ ^ 2 : ℝ) : ℂ) := by
    intro z
    rw [Complex.star_def, ← Complex.normSq_eq_conj_mul_self, Complex.normSq_eq_norm_sq]
  rw [e1, e1, e, ← Complex.ofReal_cpow (by positivity), Complex.norm_cpow_real, ← Real.rpow_natCast,
    ← Real.rpow_natCast, ← Real.rpow_mul hp.le, ← Real.rpow_mul hp.le, mul_comm]

/-- The matrix that is inverted. -/
theorem scaled {NC : ℕ} (hN : 0 < NC) {U : Arr ℂ} (hd : (toM NC U).det ≠ 0) :
    ∃ c : ℂ, c ^ NC * (toM NC U).det = 1 ∧
      nape_reunit NC U = (denmanLoop NC (denmanZ_step NC) 25 (fun i => if i % (NC + 1) ≠ 0 then 0 else 1)
        (fun i => multabdag NC U U (fun _ => 0) i * (star c * c))).map fun r =>
          if r.1 then (true, multab_atomic_right NC (fun i => U i * c) r.2) else (false, fun i => U i * c) := by
  refine ⟨(toM NC U).det ^ (-1 / (NC : ℂ)), root_pow hN hd, ?_⟩
  have hz : det NC (multabdag NC U U (fun _ => 0)) = star (toM NC U).det * (toM NC U).det := by
    rw [C18_det hN, C10_multabdag, Matrix.det_mul, Matrix.det_conjTranspose]
  unfold nape_reunit
  dsimp only
  rw [hz, rootFactor_some (mul_ne_zero (star_ne_zero.2 hd) hd), Option.bind_some, C18_det hN, rootFactor_some hd,
    Option.bind_some, root_norm hd]
  rfl

theorem toM_start (NC : ℕ) : toM NC (fun i => if i % (NC + 1) ≠ 0 then (0 : ℂ) else 1) = 1 := by
  ext i j
  rw [toM_apply, Matrix.one_apply]
  by_cases h : i = j
  · subst h
    rw [if_pos rfl, if_neg]
    rw [show (i : ℕ) + NC * i = i * (NC + 1) by ring, Nat.mul_mod_left]
    simp
  · rw [if_neg h, if_pos]
    intro hm
    obtain ⟨k, hk⟩ := Nat.dvd_of_mod_eq_zero hm
    have hi := i.2
    have hj := j.2
    have hki : k = i := by
      rcases lt_trichotomy k i with hlt | heq | hgt
      · exfalso
        have : (NC + 1) * (k + 1) ≤ (NC + 1) * i := Nat.mul_le_mul_left _ hlt
        nlinarith
      · exact heq
      · exfalso
        have : (NC + 1) * (i + 1) ≤ (NC + 1) * k := Nat.mul_le_mul_left _ hgt
        nlinarith
    subst hki
    apply h
    apply Fin.ext
    nlinarith

theorem posDef_gram {NC : ℕ} {U : Matrix (Fin NC) (Fin NC) ℂ} (hd : U.det ≠ 0) : (Uᴴ * U).PosDef := by
  refine Matrix.PosDef.conjTranspose_mul_self U ?_
  have hu : IsUnit U := (Matrix.isUnit_iff_isUnit_det _).2 (isUnit_iff_ne_zero.2 hd)
  exact Matrix.mulVec_injective_of_isUnit hu

/-- The start of the loop. -/
theorem start_inv {NC : ℕ} (U : Arr ℂ) {c : ℂ} (hd : (c • toM NC U).det ≠ 0) :
    toM NC (fun i => multabdag NC U U (fun _ => 0) i * (star c * c)) = (c • toM NC U)ᴴ * (c • toM NC U) ∧
    Inv ((c • toM NC U)ᴴ * (c • toM NC U)) (toM NC fun i => if i % (NC + 1) ≠ 0 then (0 : ℂ) else 1)
      (toM NC (fun i => multabdag NC U U (fun _ => 0) i * (star c * c))) := by
  have e : toM NC (fun i => multabdag NC U U (fun _ => 0) i * (star c * c)) = (c • toM NC U)ᴴ * (c • toM NC U) := by
    rw [toM_smulR, C10_multabdag, conjTranspose_smul, smul_mul_smul_comm]
  refine ⟨e, ?_⟩
  rw [e, toM_start]
  exact ⟨posDef_gram hd, Matrix.PosDef.one, by rw [one_mul, mul_one], by rw [one_mul, one_mul]⟩

theorem det_scaled {NC : ℕ} {U : Matrix (Fin NC) (Fin NC) ℂ} {c : ℂ} (h : c ^ NC * U.det = 1) : (c • U).det = 1 := by
  rw [Matrix.det_smul, Fintype.card_fin, h]

/-- C109: the projection gives finite numbers exactly for the invertible matrices. -/
theorem C109_defined {NC : ℕ} (hN : 0 < NC) (U : Arr ℂ) :
    (nape_reunit NC U).isSome ↔ (toM NC U).det ≠ 0 := by
  constructor
  · intro h hd
    unfold nape_reunit at h
    dsimp only at h
    rw [show det NC (multabdag NC U U (fun _ => 0)) = 0 by
      rw [C18_det hN, C10_multabdag, Matrix.det_mul, hd, mul_zero]] at h
    unfold rootFactor at h
    rw [if_pos rfl] at h
    cases h
  · intro hd
    obtain ⟨c, hc, e⟩ := scaled hN hd
    obtain ⟨b, Z, h1, -⟩ := loop_done hN 24 (start_inv U (c := c) (by rw [det_scaled hc]; exact one_ne_zero)).2
    rw [e, h1]
    rfl

/-- C109: when the projection reports success, the result `W` is the matrix times a positive matrix and a number,
its determinant is a positive number, and `W† W` differs from the unit matrix in every entry by at most half the
tolerance. -/
theorem C109_projection_partial {NC : ℕ} (hN : 0 < NC) {U W : Arr ℂ} (h : nape_reunit NC U = some (true, W)) :
    (∀ i j, ‖((toM NC W)ᴴ * toM NC W - 1) i j‖ ≤ PREC_TOL NC / 2) ∧
    (∃ d : ℝ, 0 < d ∧ (toM NC W).det = d ∧ ((toM NC W)ᴴ * toM NC W).det = (d : ℂ) ^ 2) ∧
    ∃ (c : ℂ) (P : Matrix (Fin NC) (Fin NC) ℂ), c ^ NC * (toM NC U).det = 1 ∧ P.PosDef ∧
      toM NC W = c • (toM NC U * P) := by
  have hd := (C109_defined hN U).1 (by rw [h]; rfl)
  obtain ⟨c, hc, e⟩ := scaled hN hd
  obtain ⟨e0, hi⟩ := start_inv U (c := c) (by rw [det_scaled hc]; exact one_ne_zero)
  obtain ⟨b, Z, h1, h2⟩ := loop_done hN 24 hi
  rw [h1] at e
  rw [h, Option.map_some, Option.some.injEq] at e
  cases b with
  | false => simp at e
  | true =>
    obtain ⟨M, hI, hM, ht⟩ := h2 rfl
    simp only [if_true, Prod.mk.injEq, true_and] at e
    have hW : toM NC W = (c • toM NC U) * toM NC Z := by
      rw [e, C10_multab_atomic_right, toM_smulR]
    have hZu := posDef_det hI.posZ
    have hZZ : toM NC Z * ((c • toM NC U)ᴴ * (c • toM NC U)) * toM NC Z = M := by
      have h3 := hI.root
      calc toM NC Z * ((c • toM NC U)ᴴ * (c • toM NC U)) * toM NC Z
          = (toM NC Z)⁻¹ * toM NC Z * (toM NC Z * ((c • toM NC U)ᴴ * (c • toM NC U))) * toM NC Z := by
            rw [Matrix.nonsing_inv_mul _ hZu, one_mul]
        _ = (toM NC Z)⁻¹ * (toM NC Z * toM NC Z * ((c • toM NC U)ᴴ * (c • toM NC U))) * toM NC Z := by
            simp only [mul_assoc]
        _ = (toM NC Z)⁻¹ * (M * toM NC Z) := by rw [h3, mul_assoc]
        _ = M := by rw [← hI.comm, ← mul_assoc, Matrix.nonsing_inv_mul _ hZu, one_mul]
    have hWW : (toM NC W)ᴴ * toM NC W = M := by
      rw [hW, conjTranspose_mul, hI.posZ.isHermitian]
      rw [← hZZ]
      simp only [mul_assoc]
    refine ⟨?_, ?_, c, toM NC Z, hc, hI.posZ, by rw [hW, smul_mul_assoc]⟩
    · intro i j
      rw [hWW]
      exact tol_entries hM (by rw [Fintype.card_fin]; exact ht) i j
    · have hdet : (toM NC W).det = (toM NC Z).det := by rw [hW, Matrix.det_mul, det_scaled hc, one_mul]
      have hpos := hI.posZ.det_pos
      obtain ⟨d, h5, h6⟩ : ∃ d : ℝ, 0 < d ∧ (toM NC Z).det = d := by
        obtain ⟨h5, h6⟩ := Complex.pos_iff.1 hpos
        exact ⟨_, h5, Complex.ext (by simp) (by rw [Complex.ofReal_im]; exact h6.symm)⟩
      refine ⟨d, h5, by rw [hdet, h6], ?_⟩
      rw [Matrix.det_mul, Matrix.det_conjTranspose, hdet, h6, Complex.star_def, Complex.conj_ofReal, sq]

/-- A matrix which is unitary after scaling. -/
theorem nape_scaled {NC : ℕ} (hN : 0 < NC) {U : Arr ℂ} {a b : ℂ}
    (ha : rootFactor NC (det NC (multabdag NC U U (fun _ => 0))) = some a) (hb : rootFactor NC (det NC U) = some b)
    (hun : a • ((toM NC U)ᴴ * toM NC U) = 1) : ∃ W, nape_reunit NC U = some (true, W) ∧ toM NC W = b • toM NC U := by
  have hM0 : toM NC (fun i => multabdag NC U U (fun _ => 0) i * a) = 1 := by
    rw [toM_smulR, C10_multabdag, hun]
  obtain ⟨Z2, M2, g1, g2, g3⟩ := denmanZ_step_some hN (fun i => if i % (NC + 1) ≠ 0 then (0 : ℂ) else 1)
    (M := fun i => multabdag NC U U (fun _ => 0) i * a) (by rw [hM0, Matrix.det_one]; exact one_ne_zero)
  have two : (2 : Matrix (Fin NC) (Fin NC) ℂ) = (2 : ℂ) • 1 := by
    rw [← Algebra.algebraMap_eq_smul_one, map_ofNat]
  have hM : toM NC M2 = 1 := by
    rw [g3, hM0, inv_one]
    ext i j
    rw [Matrix.smul_apply, Matrix.add_apply, Matrix.add_apply, two, Matrix.smul_apply, smul_eq_mul, smul_eq_mul]
    ring
  have hZ : toM NC Z2 = 1 := by
    rw [g2, toM_start, hM0, inv_one, mul_one, one_add_one_eq_two]
    ext i j
    rw [Matrix.smul_apply, two, Matrix.smul_apply, smul_eq_mul, smul_eq_mul]
    ring
  refine ⟨multab_atomic_right NC (fun i => U i * b) Z2, ?_, ?_⟩
  · unfold nape_reunit
    dsimp only
    rw [ha, hb, Option.bind_some, Option.bind_some]
    unfold denman_rootZ
    dsimp only
    rw [denmanLoop, g1, Option.bind_some, if_neg (by norm_num)]
    dsimp only
    rw [if_neg, Option.map_some, if_pos rfl]
    rw [diagTol_eq, hM, not_lt]
    simp only [Matrix.one_apply_eq, norm_one, one_pow, sum_const, card_univ, Fintype.card_fin, nsmul_eq_mul, mul_one,
      sub_self, abs_zero]
    exact (prec_pos hN).le
  · rw [C10_multab_atomic_right, hZ, mul_one, toM_smulR]

/-- C109: a special unitary matrix is not changed. -/
theorem C109_fixed {NC : ℕ} (hN : 0 < NC) {U : Arr ℂ} (hU : IsSU NC U) :
    ∃ W, nape_reunit NC U = some (true, W) ∧ toM NC W = toM NC U := by
  have hdet : (toM NC U).det = 1 := (Matrix.mem_specialUnitaryGroup_iff.1 hU).2
  have hun : (toM NC U)ᴴ * toM NC U = 1 := Matrix.mem_unitaryGroup_iff'.1 (Matrix.mem_specialUnitaryGroup_iff.1 hU).1
  obtain ⟨W, h1, h2⟩ := nape_scaled hN (U := U) (a := 1) (b := 1)
    (by rw [C18_det hN, C10_multabdag, hun, Matrix.det_one, rootFactor_some one_ne_zero, Complex.one_cpow])
    (by rw [C18_det hN, hdet, rootFactor_some one_ne_zero, Complex.one_cpow]) (by rw [hun, one_smul])
  exact ⟨W, h1, by rw [h2, one_smul]⟩

/-- C109: a positive multiple of a special unitary matrix gives that matrix. -/
theorem C109_multiple {NC : ℕ} (hN : 0 < NC) {U S : Arr ℂ} (hS : IsSU NC S) {s : ℝ} (hs : 0 < s)
    (hU : toM NC U = (s : ℂ) • toM NC S) : ∃ W, nape_reunit NC U = some (true, W) ∧ toM NC W = toM NC S := by
  have hN0 : (NC : ℝ) ≠ 0 := by exact_mod_cast hN.ne'
  have hdet : (toM NC S).det = 1 := (Matrix.mem_specialUnitaryGroup_iff.1 hS).2
  have hun : (toM NC S)ᴴ * toM NC S = 1 := Matrix.mem_unitaryGroup_iff'.1 (Matrix.mem_specialUnitaryGroup_iff.1 hS).1
  have hs0 : (s : ℂ) ≠ 0 := by exact_mod_cast hs.ne'
  have hd : (toM NC U).det = ((s ^ NC : ℝ) : ℂ) := by
    rw [hU, Matrix.det_smul, hdet, mul_one, Fintype.card_fin]
    push_cast
    rfl
  have hz : det NC (multabdag NC U U (fun _ => 0)) = (((s ^ NC) ^ 2 : ℝ) : ℂ) := by
    rw [C18_det hN, C10_multabdag, Matrix.det_mul, Matrix.det_conjTranspose, hd, Complex.star_def, Complex.conj_ofReal]
    push_cast
    ring
  have e : (-1 / (NC : ℂ)) = ((-1 / (NC : ℝ) : ℝ) : ℂ) := by push_cast; rfl
  have r1 : ((s ^ NC : ℝ) : ℂ) ^ (-1 / (NC : ℂ)) = ((s⁻¹ : ℝ) : ℂ) := by
    rw [e, ← Complex.ofReal_cpow (by positivity), ← Real.rpow_natCast, ← Real.rpow_mul hs.le,
      mul_div_cancel₀ _ hN0, Real.rpow_neg_one]
  have r2 : (((s ^ NC) ^ 2 : ℝ) : ℂ) ^ (-1 / (NC : ℂ)) = (((s⁻¹) ^ 2 : ℝ) : ℂ) := by
    rw [e, ← Complex.ofReal_cpow (by positivity), ← pow_mul, mul_comm NC 2, pow_mul, ← Real.rpow_natCast,
      ← Real.rpow_mul (by positivity), mul_div_cancel₀ _ hN0, Real.rpow_neg_one, inv_pow]
  have hp : 0 < s ^ NC := by positivity
  have hn1 : ((s ^ NC : ℝ) : ℂ) ≠ 0 := by exact_mod_cast hp.ne'
  have hn2 : (((s ^ NC) ^ 2 : ℝ) : ℂ) ≠ 0 := by
    have : 0 < (s ^ NC) ^ 2 := by positivity
    exact_mod_cast this.ne'
  obtain ⟨W, h1, h2⟩ := nape_scaled hN (U := U) (a := (((s⁻¹) ^ 2 : ℝ) : ℂ)) (b := ((s⁻¹ : ℝ) : ℂ))
    (by rw [hz, rootFactor_some hn2, r2]) (by rw [C18_det hN, hd, rootFactor_some hn1, r1]) (by
      rw [hU, conjTranspose_smul, smul_mul_smul_comm, hun, smul_smul, Complex.star_def, Complex.conj_ofReal]
      push_cast
      rw [show ((s : ℂ)⁻¹) ^ 2 * ((s : ℂ) * s) = 1 by field_simp, one_smul])
  refine ⟨W, h1, ?_⟩
  rw [h2, hU, smul_smul, Complex.ofReal_inv, inv_mul_cancel₀ hs0, one_smul]

/-! ## How fast it converges -/

section conv

variable {n : Type} [Fintype n] [DecidableEq n]

/-- How far a matrix above the unit matrix is from it. -/
noncomputable def excess (M : Matrix n n ℂ) : ℝ := ∑ i, ((M - 1) i i).re

theorem excess_nonneg {M : Matrix n n ℂ} (h : (M - 1).PosSemidef) : 0 ≤ excess M :=
  sum_nonneg fun i _ => (Complex.nonneg_iff.1 (h.diag_nonneg (i := i))).1

theorem inv_le_one {M : Matrix n n ℂ} (hM : M.PosDef) (h : (M - 1).PosSemidef) : (1 - M⁻¹).PosSemidef := by
  have hu := posDef_det hM
  have h1 : ((M - 1)ᴴ * (M - 1) + (M - 1)).PosSemidef := (Matrix.posSemidef_conjTranspose_mul_self (M - 1)).add h
  have h2 := h1.conjTranspose_mul_mul_same M⁻¹
  have e : (M⁻¹)ᴴ * ((M - 1)ᴴ * (M - 1) + (M - 1)) * M⁻¹ = 1 - M⁻¹ := by
    rw [hM.inv.isHermitian, h.isHermitian]
    have : (M - 1) * (M - 1) + (M - 1) = M * (M - 1) := by noncomm_ring
    rw [this, ← mul_assoc, Matrix.nonsing_inv_mul _ hu, one_mul, sub_mul, one_mul, Matrix.mul_nonsing_inv _ hu]
  rwa [e] at h2

theorem excess_next {M : Matrix n n ℂ} (M0 : M.PosDef) :
    excess (nextM M) = ((Matrix.trace M).re + (Matrix.trace M⁻¹).re) / 4 - Fintype.card n / 2 := by
  unfold excess
  have : ∀ i, ((nextM M - 1) i i).re = ((M i i).re + (M⁻¹ i i).re) / 4 - 1 / 2 := by
    intro i
    unfold nextM
    rw [Matrix.sub_apply, Matrix.one_apply_eq, Matrix.smul_apply, Matrix.add_apply, Matrix.add_apply,
      show (2 : Matrix n n ℂ) = (2 : ℂ) • 1 by rw [← Algebra.algebraMap_eq_smul_one, map_ofNat],
      Matrix.smul_apply, Matrix.one_apply_eq]
    simp
    ring
  rw [sum_congr rfl fun i _ => this i, sum_sub_distrib, ← sum_div, sum_add_distrib]
  unfold Matrix.trace
  rw [Complex.re_sum, Complex.re_sum]
  simp only [Matrix.diag_apply, sum_const, card_univ, nsmul_eq_mul]
  ring

theorem excess_linear {M : Matrix n n ℂ} (hM : M.PosDef) (h : (M - 1).PosSemidef) :
    excess (nextM M) ≤ excess M / 4 := by
  rw [excess_next hM]
  have h1 : 0 ≤ ∑ i, ((1 - M⁻¹ : Matrix n n ℂ) i i).re :=
    sum_nonneg fun i _ => (Complex.nonneg_iff.1 ((inv_le_one hM h).diag_nonneg (i := i))).1
  unfold excess
  unfold Matrix.trace
  rw [Complex.re_sum, Complex.re_sum]
  simp only [Matrix.sub_apply, Matrix.one_apply_eq, sub_re, one_re, sum_sub_distrib, sum_const, card_univ, nsmul_eq_mul,
    mul_one, Matrix.diag_apply] at h1 ⊢
  linarith

theorem excess_quadratic {M : Matrix n n ℂ} (hM : M.PosDef) (h : (M - 1).PosSemidef) :
    excess (nextM M) ≤ excess M ^ 2 / 4 := by
  have e : excess (nextM M) = (∑ i, (((M - 1)ᴴ * M⁻¹ * (M - 1) : Matrix n n ℂ) i i).re) / 4 := by
    unfold excess
    rw [nextM_sub hM, sum_div]
    refine sum_congr rfl fun i _ => ?_
    rw [Matrix.smul_apply, smul_eq_mul]
    simp
    ring
  have h1 : (((M - 1)ᴴ * (1 - M⁻¹) * (M - 1))).PosSemidef := (inv_le_one hM h).conjTranspose_mul_mul_same _
  have h2 : ∀ i, (((M - 1)ᴴ * M⁻¹ * (M - 1) : Matrix n n ℂ) i i).re ≤ (((M - 1)ᴴ * (M - 1) : Matrix n n ℂ) i i).re := by
    intro i
    have := (Complex.nonneg_iff.1 (h1.diag_nonneg (i := i))).1
    rw [mul_sub (M - 1)ᴴ, sub_mul ((M - 1)ᴴ * 1), mul_one, Matrix.sub_apply, sub_re] at this
    linarith
  have h3 : ∀ i, (((M - 1)ᴴ * (M - 1) : Matrix n n ℂ) i i).re ≤ ∑ j, ((M - 1) j j).re * ((M - 1) i i).re := by
    intro i
    rw [Matrix.mul_apply, Complex.re_sum]
    refine sum_le_sum fun j _ => ?_
    rw [Matrix.conjTranspose_apply, Complex.star_def, ← Complex.normSq_eq_conj_mul_self, Complex.ofReal_re,
      Complex.normSq_eq_norm_sq]
    exact entry_le h j i
  rw [e]
  have h4 : ∑ i, (((M - 1)ᴴ * M⁻¹ * (M - 1) : Matrix n n ℂ) i i).re ≤ excess M ^ 2 := by
    calc _ ≤ ∑ i, ∑ j, ((M - 1) j j).re * ((M - 1) i i).re := sum_le_sum fun i _ => le_trans (h2 i) (h3 i)
      _ = excess M ^ 2 := by
        unfold excess
        rw [sq, sum_mul_sum]
        exact sum_comm
  linarith

/-- The number that is tested, from the distance. -/
theorem tol_le {M : Matrix n n ℂ} (h : (M - 1).PosSemidef) :
    |∑ i, ‖M i i‖ ^ 2 - Fintype.card n| ≤ 2 * excess M + excess M ^ 2 := by
  have hd : ∀ k, 0 ≤ ((M - 1) k k).re := fun k => (Complex.nonneg_iff.1 (h.diag_nonneg (i := k))).1
  have e : ∑ i, ‖M i i‖ ^ 2 - Fintype.card n = ∑ i, (2 * ((M - 1) i i).re + ((M - 1) i i).re ^ 2) := by
    have : (Fintype.card n : ℝ) = ∑ _i : n, 1 := by simp
    rw [this, ← sum_sub_distrib]
    refine sum_congr rfl fun i _ => ?_
    rw [norm_diag h, (diag_ge h i).2.2]
    ring
  rw [e, abs_of_nonneg (sum_nonneg fun i _ => by have := hd i; positivity), sum_add_distrib, ← mul_sum]
  have : ∑ i, ((M - 1) i i).re ^ 2 ≤ (∑ i, ((M - 1) i i).re) ^ 2 := sum_sq_le_sq_sum_of_nonneg fun i _ => hd i
  unfold excess
  linarith

end conv

/-- How far from the unit matrix the loop may be with so many passes left. -/
noncomputable def reach : ℕ → ℝ
  | 0 => 0
  | 1 => 0
  | 2 => 1 / 2 ^ 23
  | 3 => 1 / 2 ^ 11
  | 4 => 1 / 2 ^ 5
  | 5 => 1 / 4
  | k + 6 => 4 ^ k

theorem reach_step (left : ℕ) {s s' : ℝ} (hl : 2 ≤ left) (h0 : 0 ≤ s) (h : s ≤ reach (left + 1))
    (h1 : s' ≤ s / 4) (h2 : s' ≤ s ^ 2 / 4) : s' ≤ reach left := by
  have key : ∀ g : ℝ, s ≤ g → s' ≤ g ^ 2 / 4 := fun g hg => by nlinarith
  match left, hl with
  | 2, _ => exact le_trans (key _ h) (by norm_num [reach])
  | 3, _ => exact le_trans (key _ h) (by norm_num [reach])
  | 4, _ => exact le_trans (key _ h) (by norm_num [reach])
  | 5, _ =>
    have : s ≤ 1 := by simpa [reach] using h
    simp only [reach]
    linarith
  | k + 6, _ =>
    have : s ≤ 4 ^ (k + 1) := h
    show s' ≤ 4 ^ k
    rw [pow_succ] at this
    linarith

theorem loop_converges {NC : ℕ} (hN : 0 < NC) {A : Matrix (Fin NC) (Fin NC) ℂ} (left : ℕ) {Z M : Arr ℂ}
    (hl : 2 ≤ left) (h : Inv A (toM NC Z) (toM NC M)) (h1 : (toM NC M - 1).PosSemidef)
    (hs : excess (toM NC M) ≤ reach left) :
    ∃ Z', denmanLoop NC (denmanZ_step NC) left Z M = some (true, Z') := by
  induction left, hl using Nat.le_induction generalizing Z M with
  | base =>
    obtain ⟨Z', M', e1, e2, e3, e4⟩ := denmanZ_step_inv hN h
    refine ⟨Z', ?_⟩
    rw [denmanLoop, e1, Option.bind_some, if_neg (by omega)]
    dsimp only
    rw [if_neg]
    rw [not_lt, diagTol_eq]
    have := tol_le e4
    rw [Fintype.card_fin] at this
    refine le_trans this ?_
    have q := excess_quadratic h.posM h1
    rw [← e3] at q
    have p0 := excess_nonneg h1
    have p1 := excess_nonneg e4
    have hs' : excess (toM NC M) ≤ 1 / 2 ^ 23 := hs
    have hq : excess (toM NC M') ≤ 1 / 2 ^ 48 := by
      have : excess (toM NC M) ^ 2 ≤ (1 / 2 ^ 23) ^ 2 := pow_le_pow_left₀ p0 hs' 2
      norm_num at this ⊢
      linarith
    have hN1 : (1 : ℝ) ≤ NC := by exact_mod_cast hN
    have hp : (1e-14 : ℝ) ≤ PREC_TOL NC := by
      unfold PREC_TOL
      norm_num
      linarith
    refine le_trans ?_ hp
    have hq2 : excess (toM NC M') ^ 2 ≤ (1 / 2 ^ 48) ^ 2 := pow_le_pow_left₀ p1 hq 2
    norm_num at hq hq2 ⊢
    linarith
  | succ left hl ih =>
    obtain ⟨Z', M', e1, e2, e3, e4⟩ := denmanZ_step_inv hN h
    rw [denmanLoop, e1, Option.bind_some, if_neg (by omega)]
    dsimp only
    by_cases ht : diagTol NC M' > PREC_TOL NC
    · rw [if_pos ht]
      refine ih e2 e4 (reach_step left hl (excess_nonneg h1) hs ?_ ?_)
      · rw [e3]; exact excess_linear h.posM h1
      · rw [e3]; exact excess_quadratic h.posM h1
    · rw [if_neg ht]
      exact ⟨_, rfl⟩

/-- C109: the projection reports success unless the matrix, scaled to unit determinant, is of the size `4^10`
or has an inverse of that size. -/
theorem C109_converges {NC : ℕ} (hN : 0 < NC) {U : Arr ℂ} {V : Matrix (Fin NC) (Fin NC) ℂ} {c : ℂ}
    (hc : c ^ NC * (toM NC U).det = 1) (hV : V = c • toM NC U)
    (h : (Matrix.trace (Vᴴ * V)).re + (Matrix.trace (Vᴴ * V)⁻¹).re ≤ 4 ^ 19) :
    ∃ W, nape_reunit NC U = some (true, W) := by
  have hd : (toM NC U).det ≠ 0 := by
    intro h0
    rw [h0, mul_zero] at hc
    exact zero_ne_one hc
  obtain ⟨b, hb, e⟩ := scaled hN hd
  have hbc : star b * b = star c * c := by
    have h1 : ‖b‖ ^ NC = ‖c‖ ^ NC := by
      rw [← norm_pow, ← norm_pow, mul_right_cancel₀ hd (hb.trans hc.symm)]
    have h2 : ‖b‖ = ‖c‖ := (pow_left_inj₀ (norm_nonneg _) (norm_nonneg _) hN.ne').1 h1
    rw [Complex.star_def, ← Complex.normSq_eq_conj_mul_self, ← Complex.normSq_eq_conj_mul_self,
      Complex.normSq_eq_norm_sq, Complex.normSq_eq_norm_sq, h2]
  rw [hbc] at e
  obtain ⟨e0, hi⟩ := start_inv U (c := c) (by rw [det_scaled hc]; exact one_ne_zero)
  rw [← hV] at e0 hi
  rw [e, denmanLoop]
  obtain ⟨Z', M', e1, e2, e3, e4⟩ := denmanZ_step_inv hN hi
  rw [e1, Option.bind_some, if_neg (by norm_num)]
  dsimp only
  have hex : excess (toM NC M') ≤ reach 24 := by
    rw [e3, excess_next hi.posM, e0]
    have : reach 24 = 4 ^ 18 := rfl
    rw [this, Fintype.card_fin]
    have h0 : (0 : ℝ) ≤ NC := Nat.cast_nonneg _
    norm_num at h ⊢
    linarith
  by_cases ht : diagTol NC M' > PREC_TOL NC
  · obtain ⟨Z2, h2⟩ := loop_converges hN 24 (by norm_num) e2 e4 hex
    rw [if_pos ht, h2]
    exact ⟨_, rfl⟩
  · rw [if_neg ht]
    exact ⟨_, rfl⟩

theorem next_diag {NC : ℕ} {M : Matrix (Fin NC) (Fin NC) ℂ} (hM : M.PosDef) (i : Fin NC) :
    (M i i).re / 4 ≤ (nextM M i i).re := by
  have h1 := (Complex.nonneg_iff.1 (hM.inv.posSemidef.diag_nonneg (i := i))).1
  unfold nextM
  rw [Matrix.smul_apply, Matrix.add_apply, Matrix.add_apply,
    show (2 : Matrix (Fin NC) (Fin NC) ℂ) = (2 : ℂ) • 1 by rw [← Algebra.algebraMap_eq_smul_one, map_ofNat],
    Matrix.smul_apply, Matrix.one_apply_eq]
  simp
  linarith

theorem loop_fails {NC : ℕ} (hN : 0 < NC) (hp : PREC_TOL NC < 3) {A : Matrix (Fin NC) (Fin NC) ℂ} (left : ℕ)
    {Z M : Arr ℂ} (h : Inv A (toM NC Z) (toM NC M)) {i : Fin NC} (hi : 2 * 4 ^ left ≤ (toM NC M i i).re) :
    ∃ Z', denmanLoop NC (denmanZ_step NC) (left + 1) Z M = some (false, Z') := by
  induction left generalizing Z M with
  | zero =>
    obtain ⟨Z', M', h1, -⟩ := denmanZ_step_inv hN h
    refine ⟨Z', ?_⟩
    rw [denmanLoop, h1]
    rfl
  | succ left ih =>
    obtain ⟨Z', M', h1, h2, h3, h4⟩ := denmanZ_step_inv hN h
    rw [denmanLoop, h1, Option.bind_some, if_neg (by omega)]
    dsimp only
    have hd : 2 * 4 ^ left ≤ (toM NC M' i i).re := by
      rw [h3]
      refine le_trans ?_ (next_diag h.posM i)
      rw [pow_succ] at hi
      linarith
    have h2' : (2 : ℝ) ≤ (toM NC M' i i).re := le_trans (by
      have : (1 : ℝ) ≤ 4 ^ left := one_le_pow₀ (by norm_num)
      linarith) hd
    rw [if_pos]
    · exact ih h2 hd
    · rw [gt_iff_lt, diagTol_eq]
      refine lt_of_lt_of_le hp (le_trans ?_ (le_abs_self _))
      have e : ∑ i, ‖toM NC M' i i‖ ^ 2 - (NC : ℝ) = ∑ i, ((toM NC M' i i).re ^ 2 - 1) := by
        rw [sum_sub_distrib]
        simp only [sum_const, card_univ, Fintype.card_fin, nsmul_eq_mul, mul_one]
        rw [sum_congr rfl fun i _ => norm_diag h4 i]
      rw [e]
      have := single_le_sum (f := fun i => (toM NC M' i i).re ^ 2 - 1) (fun j _ => by
        have := (diag_ge h4 j).2.1
        show 0 ≤ (toM NC M' j j).re ^ 2 - 1
        nlinarith) (mem_univ i)
      refine le_trans ?_ this
      show 3 ≤ (toM NC M' i i).re ^ 2 - 1
      nlinarith

/-- C109: where the matrix, scaled to unit determinant, has a column of length `2^25` or more, the passes run
out: the caller, who does not look at the result, is left with the scaled matrix. -/
theorem C109_slow {NC : ℕ} (hN : 0 < NC) (hp : PREC_TOL NC < 3) {U : Arr ℂ} {c : ℂ}
    (hc : c ^ NC * (toM NC U).det = 1) {i : Fin NC}
    (h : 2 ^ 49 ≤ (((c • toM NC U)ᴴ * (c • toM NC U)) i i).re) :
    ∃ b : ℂ, b ^ NC * (toM NC U).det = 1 ∧ nape_reunit NC U = some (false, fun k => U k * b) := by
  have hd : (toM NC U).det ≠ 0 := by
    intro h0
    rw [h0, mul_zero] at hc
    exact zero_ne_one hc
  obtain ⟨b, hb, e⟩ := scaled hN hd
  refine ⟨b, hb, ?_⟩
  have hbc : star b * b = star c * c := by
    have h1 : ‖b‖ ^ NC = ‖c‖ ^ NC := by
      rw [← norm_pow, ← norm_pow, mul_right_cancel₀ hd (hb.trans hc.symm)]
    have h2 : ‖b‖ = ‖c‖ := (pow_left_inj₀ (norm_nonneg _) (norm_nonneg _) hN.ne').1 h1
    rw [Complex.star_def, ← Complex.normSq_eq_conj_mul_self, ← Complex.normSq_eq_conj_mul_self,
      Complex.normSq_eq_norm_sq, Complex.normSq_eq_norm_sq, h2]
  rw [hbc] at e
  obtain ⟨e0, hi⟩ := start_inv U (c := c) (by rw [det_scaled hc]; exact one_ne_zero)
  obtain ⟨Z', h1⟩ := loop_fails hN hp 24 hi (i := i) (by
    rw [e0]
    refine le_trans ?_ h
    norm_num)
  rw [e, h1]
  rfl

/-- The matrix `diag(2^30, 2^-30, 1)`. -/
noncomputable def stretched : Arr ℂ := fun n =>
  if n = 0 then 2 ^ 30 else if n = 4 then 1 / 2 ^ 30 else if n = 8 then 1 else 0

theorem stretched_toM : toM 3 stretched = Matrix.diagonal ![(2 : ℂ) ^ 30, 1 / 2 ^ 30, 1] := by
  ext i j
  fin_cases i <;> fin_cases j <;> simp [toM_apply, stretched, Matrix.diagonal]

theorem stretched_det : (toM 3 stretched).det = 1 := by
  rw [stretched_toM, Matrix.det_diagonal, Fin.prod_univ_three]
  show (2 : ℂ) ^ 30 * (1 / 2 ^ 30) * 1 = 1
  norm_num

/-- C109: a positive diagonal matrix of determinant one whose nearest special unitary matrix is the unit matrix is
reported as a failure and comes back with its large entry. -/
theorem C109_fails : ∃ W, nape_reunit 3 stretched = some (false, W) ∧ ‖toM 3 W 0 0‖ = 2 ^ 30 := by
  have h1 : (1 : ℂ) ^ 3 * (toM 3 stretched).det = 1 := by rw [stretched_det]; norm_num
  obtain ⟨b, hb, h⟩ := C109_slow (NC := 3) (by norm_num) (by unfold PREC_TOL; norm_num) h1 (i := 0) (by
    rw [one_smul, stretched_toM, Matrix.diagonal_conjTranspose, Matrix.diagonal_mul_diagonal, Matrix.diagonal_apply_eq]
    norm_num [Matrix.cons_val_zero])
  refine ⟨_, h, ?_⟩
  rw [stretched_det, mul_one] at hb
  have hn : ‖b‖ = 1 := by
    have h2 : ‖b‖ ^ 3 = 1 := by rw [← norm_pow, hb, norm_one]
    exact (pow_eq_one_iff_of_nonneg (norm_nonneg _) (by norm_num)).1 h2
  rw [toM_smulR, Matrix.smul_apply, stretched_toM, Matrix.diagonal_apply_eq, smul_eq_mul, norm_mul, hn, one_mul]
  norm_num [Matrix.cons_val_zero]

/-! ## In terms of the condition number -/

section cond

variable {n : Type} [Fintype n] [DecidableEq n]

theorem posSemidef_real {M : Matrix n n ℂ} (h : M.PosSemidef) {x : ℝ} (hx : 0 ≤ x) : ((x : ℂ) • M).PosSemidef := by
  have : (x : ℂ) • M = x • M := by
    ext i j
    simp [Matrix.smul_apply]
  rw [this]
  exact h.smul hx

theorem posDef_real {M : Matrix n n ℂ} (h : M.PosDef) {x : ℝ} (hx : 0 < x) : ((x : ℂ) • M).PosDef := by
  have : (x : ℂ) • M = x • M := by
    ext i j
    simp [Matrix.smul_apply]
  rw [this]
  exact h.smul hx

theorem eigen_between {H : Matrix n n ℂ} (hH : H.IsHermitian) {a b : ℝ} (h1 : (H - (a : ℂ) • 1).PosSemidef)
    (h2 : ((b : ℂ) • 1 - H).PosSemidef) (i : n) : a ≤ hH.eigenvalues i ∧ hH.eigenvalues i ≤ b := by
  have g1 := h1.dotProduct_mulVec_nonneg (hH.eigenvectorBasis i)
  have g2 := h2.dotProduct_mulVec_nonneg (hH.eigenvectorBasis i)
  have hv : star ⇑(hH.eigenvectorBasis i) ⬝ᵥ ⇑(hH.eigenvectorBasis i) = (1 : ℂ) := by
    have := hH.eigenvectorBasis.orthonormal.1 i
    rw [dotProduct_comm, ← EuclideanSpace.inner_eq_star_dotProduct, inner_self_eq_norm_sq_to_K, this]
    simp
  have hl := hH.eigenvalues_eq i
  rw [sub_mulVec, dotProduct_sub, smul_mulVec, one_mulVec, dotProduct_smul, hv] at g1 g2
  have g1' := (Complex.nonneg_iff.1 g1).1
  have g2' := (Complex.nonneg_iff.1 g2).1
  simp only [sub_re, smul_eq_mul, mul_one, ofReal_re] at g1' g2'
  have hl' : hH.eigenvalues i = (star ⇑(hH.eigenvectorBasis i) ⬝ᵥ H *ᵥ ⇑(hH.eigenvectorBasis i)).re := hl
  constructor <;> linarith

theorem det_between {H : Matrix n n ℂ} (hH : H.IsHermitian) {a b : ℝ} (ha : 0 ≤ a) (h1 : (H - (a : ℂ) • 1).PosSemidef)
    (h2 : ((b : ℂ) • 1 - H).PosSemidef) : ∃ d : ℝ, H.det = d ∧ a ^ Fintype.card n ≤ d ∧ d ≤ b ^ Fintype.card n := by
  refine ⟨∏ i, hH.eigenvalues i, ?_, ?_, ?_⟩
  · rw [hH.det_eq_prod_eigenvalues]
    push_cast
    rfl
  · rw [← card_univ, ← prod_const]
    exact prod_le_prod (fun _ _ => ha) fun i _ => (eigen_between hH h1 h2 i).1
  · rw [← card_univ, ← prod_const]
    exact prod_le_prod (fun i _ => le_trans ha (eigen_between hH h1 h2 i).1) fun i _ => (eigen_between hH h1 h2 i).2

theorem trace_le {H : Matrix n n ℂ} {b : ℝ} (h : ((b : ℂ) • 1 - H).PosSemidef) :
    (Matrix.trace H).re ≤ Fintype.card n * b := by
  unfold Matrix.trace
  rw [Complex.re_sum, ← card_univ, ← nsmul_eq_mul, ← sum_const]
  refine sum_le_sum fun i _ => ?_
  have := (Complex.nonneg_iff.1 (h.diag_nonneg (i := i))).1
  rw [Matrix.sub_apply, Matrix.smul_apply, Matrix.one_apply_eq] at this
  simp at this
  exact this

theorem trace_inv_le {H : Matrix n n ℂ} (hH : H.PosDef) {a : ℝ} (ha : 0 < a) (h : (H - (a : ℂ) • 1).PosSemidef) :
    (Matrix.trace H⁻¹).re ≤ Fintype.card n * a⁻¹ := by
  have ha0 : (a : ℂ) ≠ 0 := by exact_mod_cast ha.ne'
  have hu := posDef_det hH
  have e : (((a⁻¹ : ℝ) : ℂ) • H - 1).PosSemidef := by
    have := posSemidef_real h (inv_nonneg.2 ha.le)
    rwa [smul_sub, smul_smul, Complex.ofReal_inv, inv_mul_cancel₀ ha0, one_smul, ← Complex.ofReal_inv] at this
  have g := inv_le_one (posDef_real hH (inv_pos.2 ha)) e
  have hi : (((a⁻¹ : ℝ) : ℂ) • H)⁻¹ = (a : ℂ) • H⁻¹ := by
    refine Matrix.inv_eq_left_inv ?_
    rw [smul_mul_smul_comm, Matrix.nonsing_inv_mul _ hu, Complex.ofReal_inv, mul_inv_cancel₀ ha0, one_smul]
  rw [hi] at g
  refine trace_le ?_
  have := posSemidef_real g (inv_nonneg.2 ha.le)
  rwa [smul_sub, smul_smul, Complex.ofReal_inv, inv_mul_cancel₀ ha0, one_smul, ← Complex.ofReal_inv] at this

end cond

theorem PosDef_of_ge {NC : ℕ} {H : Matrix (Fin NC) (Fin NC) ℂ} {a : ℝ} (ha : 0 < a)
    (h : (H - (a : ℂ) • 1).PosSemidef) : H.PosDef := by
  have := (posDef_real (Matrix.PosDef.one (n := Fin NC) (R := ℂ)) ha).add_posSemidef h
  rwa [add_sub_cancel] at this

/-- C109: the projection succeeds on every matrix `V` with `a ≤ V† V ≤ b` and `b/a ≤ 4^19/(2 NC)`. -/
theorem C109_conditioned {NC : ℕ} (hN : 0 < NC) {U : Arr ℂ} {a b : ℝ} (ha : 0 < a)
    (h1 : ((toM NC U)ᴴ * toM NC U - (a : ℂ) • 1).PosSemidef)
    (h2 : ((b : ℂ) • 1 - (toM NC U)ᴴ * toM NC U).PosSemidef) (hab : 2 * NC * b ≤ 4 ^ 19 * a) :
    ∃ W, nape_reunit NC U = some (true, W) := by
  have hH := PosDef_of_ge ha h1
  have hd : (toM NC U).det ≠ 0 := by
    intro h0
    have := (posDef_det hH).ne_zero
    rw [Matrix.det_mul, h0, mul_zero] at this
    exact this rfl
  obtain ⟨c, hc, -⟩ := scaled hN hd
  refine C109_converges hN hc rfl ?_
  obtain ⟨d, hdd, d1, d2⟩ := det_between hH.isHermitian ha.le h1 h2
  rw [Fintype.card_fin] at d1 d2
  have hc0 : c ≠ 0 := by
    intro h0
    rw [h0, zero_pow hN.ne', zero_mul] at hc
    exact zero_ne_one hc
  -- the size of the scale factor
  have hq0 : 0 < normSq c := normSq_pos.2 hc0
  have hq : normSq c ^ NC * d = 1 := by
    have e1 : (normSq c : ℂ) ^ NC * (d : ℂ) = 1 := by
      rw [← hdd, Matrix.det_mul, Matrix.det_conjTranspose, Complex.normSq_eq_conj_mul_self, mul_pow, ← Complex.star_def,
        ← star_pow]
      calc star (c ^ NC) * c ^ NC * (star (toM NC U).det * (toM NC U).det)
          = star (c ^ NC * (toM NC U).det) * (c ^ NC * (toM NC U).det) := by rw [star_mul']; ring
        _ = 1 := by rw [hc, star_one, one_mul]
    exact_mod_cast e1
  have hb : 0 < b := by
    by_contra hb
    have i : Fin NC := ⟨0, hN⟩
    have := eigen_between hH.isHermitian h1 h2 i
    linarith [this.1, this.2]
  have q1 : normSq c * a ≤ 1 := by
    refine (pow_le_one_iff_of_nonneg (by positivity) hN.ne').1 ?_
    rw [mul_pow, ← hq]
    exact mul_le_mul_of_nonneg_left d1 (by positivity)
  have q2 : 1 ≤ normSq c * b := by
    refine (one_le_pow_iff_of_nonneg (by positivity) hN.ne').1 ?_
    rw [mul_pow, ← hq]
    exact mul_le_mul_of_nonneg_left d2 (by positivity)
  have eV : (c • toM NC U)ᴴ * (c • toM NC U) = (normSq c : ℂ) • ((toM NC U)ᴴ * toM NC U) := by
    rw [conjTranspose_smul, smul_mul_smul_comm, Complex.star_def, Complex.normSq_eq_conj_mul_self]
  have t1 : (Matrix.trace ((c • toM NC U)ᴴ * (c • toM NC U))).re ≤ NC * (normSq c * b) := by
    have := posSemidef_real h2 hq0.le
    rw [smul_sub, smul_smul, ← Complex.ofReal_mul] at this
    have := trace_le this
    rwa [Fintype.card_fin, ← eV] at this
  have t2 : (Matrix.trace ((c • toM NC U)ᴴ * (c • toM NC U))⁻¹).re ≤ NC * (normSq c * a)⁻¹ := by
    have g := posSemidef_real h1 hq0.le
    rw [smul_sub, smul_smul, ← Complex.ofReal_mul] at g
    have := trace_inv_le (posDef_real hH hq0) (by positivity) g
    rwa [Fintype.card_fin, ← eV] at this
  have hN0 : (0 : ℝ) < NC := by exact_mod_cast hN
  have r1 : normSq c * b ≤ b / a := by
    rw [le_div_iff₀ ha]
    nlinarith
  have r2 : (normSq c * a)⁻¹ ≤ b / a := by
    rw [inv_le_iff_one_le_mul₀ (by positivity)]
    have : b / a * (normSq c * a) = normSq c * b := by field_simp
    rw [this]
    exact q2
  have r3 : 2 * NC * (b / a) ≤ 4 ^ 19 := by
    rw [← mul_div_assoc, div_le_iff₀ ha]
    exact hab
  have m1 : NC * (normSq c * b) ≤ NC * (b / a) := mul_le_mul_of_nonneg_left r1 hN0.le
  have m2 : NC * (normSq c * a)⁻¹ ≤ NC * (b / a) := mul_le_mul_of_nonneg_left r2 hN0.le
  linarith

end GLU.Mat
