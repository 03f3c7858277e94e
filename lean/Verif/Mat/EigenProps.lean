import Verif.Mat.EigenLemmas
import Verif.Mat.InvertProps

/-!
# C69: the eigenvalues of a matrix

The eigenvalues of `M` with their multiplicities are the roots of its characteristic polynomial: `IsSpectrum3 M z`
(`EigenLemmas`) and `IsSpectrum2 M z` say that the polynomial is the product of the factors `X - z_k`.
-/

namespace GLU.Mat

open Complex Matrix Polynomial

/-- Two numbers are the eigenvalues of a matrix, with multiplicity. -/
def IsSpectrum2 (M : Matrix (Fin 2) (Fin 2) ℂ) (z : ℂ × ℂ) : Prop :=
  M.charpoly = (X - C z.1) * (X - C z.2)

theorem isSpectrum2_iff {M : Matrix (Fin 2) (Fin 2) ℂ} {z : ℂ × ℂ} :
    IsSpectrum2 M z ↔ z.1 + z.2 = M.trace ∧ z.1 * z.2 = M.det := by
  have hc : ∀ x, M.charpoly.eval x = x ^ 2 - M.trace * x + M.det := by
    intro x
    rw [Matrix.eval_charpoly, Matrix.det_fin_two, Matrix.det_fin_two, Matrix.trace_fin_two]
    simp [Matrix.scalar_apply]
    ring
  constructor
  · intro h
    have h0 : (M.charpoly).eval 0 = ((X - C z.1) * (X - C z.2)).eval 0 := by rw [h]
    have h1 : (M.charpoly).eval 1 = ((X - C z.1) * (X - C z.2)).eval 1 := by rw [h]
    rw [hc] at h0 h1
    simp at h0 h1
    exact ⟨by linear_combination h1 - h0, h0.symm⟩
  · rintro ⟨h1, h2⟩
    refine Polynomial.funext fun x => ?_
    rw [hc, ← h1, ← h2]
    simp
    ring

/-! ## Special unitary matrices -/

/-- **C69**: for every SU(3) matrix the routine returns the three eigenvalues, on both sides of the threshold. -/
theorem C69_su3 {U : Arr ℂ} (hU : IsSU 3 U) : IsSpectrum3 (toM 3 U) (Eigenvalues_su3 U) := by
  unfold Eigenvalues_su3
  split
  · next h =>
    refine stab_spectrum hU ?_
    rw [C12_trace, trace_fin_three]
    simp only [toM_apply, Complex.add_re]
    norm_num at h ⊢
    linarith
  · exact far_spectrum hU

/-- The returned numbers have modulus one and product one. -/
theorem C69_su3_unit {U : Arr ℂ} (hU : IsSU 3 U) :
    let z := Eigenvalues_su3 U
    ‖z.1‖ = 1 ∧ ‖z.2.1‖ = 1 ∧ ‖z.2.2‖ = 1 ∧ z.1 * z.2.1 * z.2.2 = 1 := by
  intro z
  have h := isSpectrum3_iff.1 (C69_su3 hU)
  have hu := (mem_specialUnitaryGroup_iff.1 hU).1
  have e : ∀ {l : ℂ}, l * star l = 1 → ‖l‖ = 1 := by
    intro l hl
    rw [Complex.star_def, Complex.mul_conj, Complex.normSq_eq_norm_sq] at hl
    have : ‖l‖ ^ 2 = 1 := by exact_mod_cast hl
    exact (pow_eq_one_iff_of_nonneg (norm_nonneg l) (by norm_num)).1 this
  refine ⟨e (root_unit hu (by rw [h]; ring)), e (root_unit hu (by rw [h]; ring)), e (root_unit hu (by rw [h]; ring)), ?_⟩
  exact (vieta3 fun x => by rw [← h x, charpoly_su3 hU]).2.2.symm

/-- **C69**: for every SU(2) matrix the square root is defined and the routine returns the two eigenvalues. -/
theorem C69_su2 {U : Arr ℂ} (hU : IsSU 2 U) :
    ∃ z, Eigenvalues_su2 U = some z ∧ IsSpectrum2 (toM 2 U) z ∧ ‖z.1‖ = 1 ∧ z.2 = star z.1 := by
  have hd := (mem_specialUnitaryGroup_iff.1 hU).2
  have ha := su_adjugate hU
  have h3 : U 3 = star (U 0) := by
    have := congrFun (congrFun ha 0) 0
    rw [Matrix.adjugate_fin_two] at this
    simpa [toM_apply] using this
  have h1 : U 1 = -star (U 2) := by
    have := congrFun (congrFun ha 0) 1
    rw [Matrix.adjugate_fin_two] at this
    simp only [toM_apply, conjTranspose_apply, cons_val_zero, cons_val_one, of_apply] at this
    norm_num at this
    rw [← neg_eq_iff_eq_neg]
    simpa using this
  have hn : (U 0).re * (U 0).re + (U 0).im * (U 0).im + ((U 2).re * (U 2).re + (U 2).im * (U 2).im) = 1 := by
    rw [Matrix.det_fin_two] at hd
    simp only [toM_apply] at hd
    norm_num at hd
    rw [h3, h1] at hd
    have := congrArg Complex.re hd
    simp at this
    linarith
  have hr : ¬ 1 - (U 0).re * (U 0).re < 0 := by
    nlinarith [mul_self_nonneg (U 0).im, mul_self_nonneg (U 2).re, mul_self_nonneg (U 2).im]
  have hsq := Real.mul_self_sqrt (not_lt.1 hr)
  refine ⟨_, if_neg hr, isSpectrum2_iff.2 ⟨?_, ?_⟩, ?_, rfl⟩
  · rw [Matrix.trace_fin_two]
    simp only [toM_apply]
    norm_num
    rw [h3]
    refine Complex.ext ?_ ?_ <;> simp
  · rw [hd]
    refine Complex.ext ?_ ?_
    · simp
      linarith
    · simp
      ring
  · rw [← pow_eq_one_iff_of_nonneg (norm_nonneg _) (two_ne_zero), ← Complex.normSq_eq_norm_sq, Complex.normSq_apply]
    simp
    linarith

/-! ## General matrices -/

/-- **C69**, partial: whenever the routine for general 3x3 matrices finishes without a division by zero, what it
returns are the eigenvalues; and it does so for every invertible matrix with `tr² ≠ 3 det tr(M⁻¹)`.  Missing: singular
matrices and those with `tr² = 3 det tr(M⁻¹)`, see `C69_general3_fails`. -/
theorem C69_general3_partial (U : Arr ℂ) :
    (∀ z, Eigenvalues_general3 U = some z → IsSpectrum3 (toM 3 U) z) ∧
    ((toM 3 U).det ≠ 0 → (toM 3 U).trace ^ 2 ≠ 3 * (toM 3 U).adjugate.trace → ∃ z, Eigenvalues_general3 U = some z) := by
  obtain ⟨hi, hv⟩ := C19_inverse_partial (NC := 3) (by norm_num) (by norm_num) U
  have hfound : ∀ v, inverse 3 U = some v → ∃ w, readBack 3 (some v) = some w ∧
      det 3 U * trace 3 w = (toM 3 U).adjugate.trace := by
    intro v h
    obtain ⟨Y, hY, h1, h2⟩ := hv v h
    obtain ⟨w, hw, hwX⟩ := readBack_some hY
    refine ⟨w, hw, ?_⟩
    rw [C12_trace, hwX, C18_det (by norm_num)]
    have : (toM 3 U).adjugate = (toM 3 U).det • Y := by
      calc (toM 3 U).adjugate = Y * toM 3 U * (toM 3 U).adjugate := by rw [h1, Matrix.one_mul]
        _ = _ := by rw [Matrix.mul_assoc, mul_adjugate, Matrix.mul_smul, Matrix.mul_one]
    rw [this, Matrix.trace_smul, smul_eq_mul]
  constructor
  · intro z hz
    unfold Eigenvalues_general3 at hz
    cases h : inverse 3 U with
    | none => rw [h] at hz; simp [readBack] at hz
    | some v =>
      obtain ⟨w, hw, hb⟩ := hfound v h
      rw [h, hw, Option.bind_some] at hz
      unfold Eigenvalues3 at hz
      dsimp only at hz
      rw [hb] at hz
      split at hz
      · simp at hz
      · next h0 =>
        rw [isSpectrum3_iff]
        intro x
        simp only [Option.some.injEq] at hz
        rw [← hz, charpoly3, ← C12_trace, ← C18_det (by norm_num)]
        dsimp only
        set t := trace 3 U
        set a := -t / 3 with ha
        set b := (toM 3 U).adjugate.trace
        set d := det 3 U
        set Q := a * a - b / 3 with hQ
        set R := a * a * a - 0.5 * a * b + 0.5 * -d with hR
        have hA : (-cubert (R + csqrt (R * R - Q * Q * Q))) ^ 3 = -(R + csqrt (R * R - Q * Q * Q)) := by
          rw [neg_pow, cubert_pow]; ring
        obtain ⟨h1, h2⟩ := cardano_other (csqrt_sq _) hA h0
        have hc := cardano h1 h2 (x + a)
        have ht : t = -3 * a := by rw [ha]; ring
        have e2 : x ^ 3 - t * x ^ 2 + b * x - d = (x + a) ^ 3 - 3 * Q * (x + a) + 2 * R := by
          rw [hR, hQ, ht]
          ring
        rw [e2, ← hc]
        ring
  · intro hd hne
    have hs : inverse 3 U ≠ none := fun h => hd (hi.1 h)
    obtain ⟨v, h⟩ := Option.ne_none_iff_exists'.1 hs
    obtain ⟨w, hw, hb⟩ := hfound v h
    unfold Eigenvalues_general3 Eigenvalues3
    rw [h, hw, Option.bind_some]
    dsimp only
    rw [hb]
    split
    · next h0 =>
      exfalso
      have h1 := cubert_eq_zero.1 (neg_eq_zero.1 h0)
      set R := -trace 3 U / 3 * (-trace 3 U / 3) * (-trace 3 U / 3) - 0.5 * (-trace 3 U / 3) * (toM 3 U).adjugate.trace +
        0.5 * -det 3 U
      set Q := -trace 3 U / 3 * (-trace 3 U / 3) - (toM 3 U).adjugate.trace / 3 with hQ
      have h2 := csqrt_sq (R * R - Q * Q * Q)
      have h3 : Q ^ 3 = 0 := by
        have : csqrt (R * R - Q * Q * Q) = -R := by linear_combination h1
        rw [this] at h2
        linear_combination h2
      have h4 : Q = 0 := pow_eq_zero_iff (by norm_num) |>.1 h3
      apply hne
      rw [← C12_trace]
      rw [hQ] at h4
      linear_combination 9 * h4
    · exact ⟨_, rfl⟩

/-- The cyclic permutation of three colours. -/
def cyclic3 : Arr ℂ := fun i => if i = 1 ∨ i = 5 ∨ i = 6 then 1 else 0

theorem toM_cyclic3 : toM 3 cyclic3 = !![0, 1, 0; 0, 0, 1; 1, 0, 0] := by
  ext i j
  fin_cases i <;> fin_cases j <;> simp [toM_apply, cyclic3]

theorem cyclic3_su : IsSU 3 cyclic3 := by
  unfold IsSU
  rw [toM_cyclic3, mem_specialUnitaryGroup_iff, mem_unitaryGroup_iff]
  constructor
  · ext i j
    fin_cases i <;> fin_cases j <;> simp [Matrix.mul_apply, Fin.sum_univ_three]
  · rw [det_fin_three]
    simp

/-- **C69** fails for general matrices: the routine divides zero by zero for the cyclic permutation, which is an SU(3)
matrix with three different eigenvalues. -/
theorem C69_general3_fails : IsSU 3 cyclic3 ∧ Eigenvalues_general3 cyclic3 = none := by
  refine ⟨cyclic3_su, ?_⟩
  obtain ⟨hi, hv⟩ := C19_inverse_partial (NC := 3) (by norm_num) (by norm_num) cyclic3
  have hd : det 3 cyclic3 = 1 := by
    rw [C18_det (by norm_num)]
    exact (mem_specialUnitaryGroup_iff.1 cyclic3_su).2
  have hs : inverse 3 cyclic3 ≠ none := fun h => by
    have := hi.1 h
    rw [← C18_det (by norm_num), hd] at this
    exact one_ne_zero this
  obtain ⟨v, h⟩ := Option.ne_none_iff_exists'.1 hs
  obtain ⟨Y, hY, h1, h2⟩ := hv v h
  obtain ⟨w, hw, hwX⟩ := readBack_some hY
  have ht : trace 3 cyclic3 = 0 := by
    rw [C12_trace, toM_cyclic3, trace_fin_three]
    simp
  have hw0 : trace 3 w = 0 := by
    have hu := mem_unitaryGroup_iff.1 (mem_specialUnitaryGroup_iff.1 cyclic3_su).1
    have : Y = star (toM 3 cyclic3) := by
      calc Y = Y * (toM 3 cyclic3 * star (toM 3 cyclic3)) := by rw [hu, Matrix.mul_one]
        _ = _ := by rw [← Matrix.mul_assoc, h1, Matrix.one_mul]
    rw [C12_trace, hwX, this, star_eq_conjTranspose, trace_conjTranspose, ← C12_trace, ht, star_zero]
  unfold Eigenvalues_general3
  rw [h, hw, Option.bind_some, hd, ht, hw0]
  unfold Eigenvalues3
  dsimp only
  have e : (-0 / 3 * (-0 / 3) * (-0 / 3) - 0.5 * (-0 / 3) * (1 * 0) + 0.5 * -1 : ℂ) = -0.5 := by norm_num
  have e2 : (-0.5 * -0.5 - (-0 / 3 * (-0 / 3) - 1 * 0 / 3) * (-0 / 3 * (-0 / 3) - 1 * 0 / 3) *
      (-0 / 3 * (-0 / 3) - 1 * 0 / 3) : ℂ) = ((0.25 : ℝ) : ℂ) := by push_cast; norm_num
  rw [e, e2, csqrt_pos (by norm_num), show (√0.25 : ℝ) = 0.5 by
    rw [Real.sqrt_eq_iff_mul_self_eq (by norm_num) (by norm_num)]; norm_num]
  rw [if_pos]
  rw [neg_eq_zero, cubert_eq_zero]
  push_cast
  norm_num

/-- **C69**, partial: whenever the routine for general 2x2 matrices finishes without a division by zero, what it returns
are the eigenvalues; it divides by zero exactly for the singular matrices with a trace on the left.  Missing: those. -/
theorem C69_general2_partial (U : Arr ℂ) :
    (∀ z, Eigenvalues2 U = some z → IsSpectrum2 (toM 2 U) z) ∧
    (Eigenvalues2 U = none ↔
      (toM 2 U).det = 0 ∧ ((toM 2 U).trace.re < 0 ∨ (toM 2 U).trace.re = 0 ∧ (toM 2 U).trace.im ≤ 0)) := by
  have hs := csqrt_sq (trace 2 U * trace 2 U - 4 * det 2 U)
  constructor
  · intro z hz
    unfold Eigenvalues2 at hz
    dsimp only at hz
    split at hz
    · simp at hz
    · next h0 =>
      simp only [Option.some.injEq] at hz
      rw [← hz, isSpectrum2_iff, ← C12_trace, ← C18_det (by norm_num)]
      refine ⟨?_, mul_div_cancel₀ _ h0⟩
      dsimp only
      set s := csqrt (trace 2 U * trace 2 U - 4 * det 2 U)
      rw [← sub_eq_zero]
      refine mul_right_cancel₀ h0 ?_
      rw [sub_mul, add_mul, div_mul_cancel₀ _ h0, zero_mul]
      linear_combination (1 / 4) * hs
  · unfold Eigenvalues2
    dsimp only
    rw [← C12_trace, ← C18_det (by norm_num), ← csqrt_neg_iff]
    set t := trace 2 U
    set d := det 2 U
    split
    · next h0 =>
      refine ⟨fun _ => ?_, fun _ => rfl⟩
      have h1 : csqrt (t * t - 4 * d) = -t := by
        have : (0.5 : ℂ) ≠ 0 := by norm_num
        linear_combination (mul_eq_zero.1 h0).resolve_left this
      have hd : d = 0 := by
        rw [h1] at hs
        linear_combination (1 / 4) * hs
      refine ⟨hd, ?_⟩
      rw [← h1, hd]
      congr 1
      ring
    · next h0 =>
      simp only [reduceCtorEq, false_iff, not_and]
      refine fun h1 h2 => h0 ?_
      rw [h1, show t * t - 4 * 0 = t * t by ring, h2]
      ring

/-- **C69** fails for general matrices with two colours: the diagonal matrix with `-1` and `0`. -/
theorem C69_general2_fails :
    toM 2 (fun i => if i = 0 then -1 else 0) = !![(-1 : ℂ), 0; 0, 0] ∧ Eigenvalues2 (fun i => if i = 0 then -1 else 0) = none := by
  have e : toM 2 (fun i => if i = 0 then -1 else 0) = !![(-1 : ℂ), 0; 0, 0] := by
    ext i j
    fin_cases i <;> fin_cases j <;> simp [toM_apply]
  refine ⟨e, (C69_general2_partial _).2.2 ?_⟩
  rw [e, Matrix.det_fin_two, Matrix.trace_fin_two]
  simp

/-- An invertible matrix with two different eigenvalues on which the general routine succeeds. -/
example : ∃ z, Eigenvalues2 (fun i => if i = 0 then 2 else if i = 3 then 3 else 0) = some z ∧
    IsSpectrum2 !![(2 : ℂ), 0; 0, 3] z := by
  have e : toM 2 (fun i => if i = 0 then 2 else if i = 3 then 3 else 0) = !![(2 : ℂ), 0; 0, 3] := by
    ext i j
    fin_cases i <;> fin_cases j <;> simp [toM_apply]
  obtain ⟨h1, h2⟩ := C69_general2_partial (fun i => if i = 0 then 2 else if i = 3 then 3 else 0)
  rw [e] at h1 h2
  have : Eigenvalues2 (fun i => if i = 0 then 2 else if i = 3 then 3 else 0) ≠ none := by
    rw [Ne, h2, Matrix.det_fin_two]
    simp
  obtain ⟨z, hz⟩ := Option.ne_none_iff_exists'.1 this
  exact ⟨z, hz, h1 z hz⟩

/-! ## Hermitian matrices -/

/-- **C69**, partial: for every traceless Hermitian 3x3 matrix that is not zero the routine returns the eigenvalues.
Missing: the zero matrix, see `C69_hermitian3_fails`. -/
theorem C69_hermitian3_partial {U : Arr ℂ} (hU : HermTraceless 3 U) (h0 : toM 3 U ≠ 0) :
    ∃ z : ℝ × ℝ × ℝ, Eigenvalues_hermitian3 U = some z ∧ IsSpectrum3 (toM 3 U) (z.1, z.2.1, z.2.2) := by
  obtain ⟨hd, ht0, hD, hz⟩ := disc_herm3 hU
  have ht : 0 < trace_prod_herm 3 U := by
    refine lt_of_le_of_ne ht0 fun h => h0 ?_
    ext i j
    rw [toM_apply]
    exact hz h.symm _ (by have := i.isLt; have := j.isLt; omega)
  set t := trace_prod_herm 3 U with htd
  obtain ⟨d, hdd⟩ : ∃ d : ℝ, det 3 U = d := ⟨(det 3 U).re, Complex.ext rfl (by simp [hd])⟩
  rw [hdd, Complex.ofReal_re] at hD
  set D := d * d / 4 - (t / 6) ^ 3 with hDd
  have e1 : -(d : ℂ) * -d / 4 + ((-0.5 * t * (-0.5 * t) * (-0.5 * t) / 27 : ℝ) : ℂ) = (D : ℂ) := by
    rw [hDd]
    push_cast
    ring
  have e2 : ((-(-0.5 * t) / 3 : ℝ) : ℂ) = ((t / 6 : ℝ) : ℂ) := by
    push_cast
    ring
  set P := -(d : ℂ) / 2 + csqrt (D : ℂ) with hP
  have hPn : ‖P‖ ^ 2 = (t / 6) ^ 3 := by
    rw [hP, csqrt_neg hD, ← Complex.normSq_eq_norm_sq, Complex.normSq_apply]
    have := Real.mul_self_sqrt (neg_nonneg.2 hD)
    simp
    rw [this, hDd]
    ring
  have hA3 : (-cubert P) ^ 3 = -P := by rw [neg_pow, cubert_pow]; ring
  have hne : -cubert P ≠ 0 := by
    intro h
    have : P = 0 := cubert_eq_zero.1 (neg_eq_zero.1 h)
    rw [this, norm_zero] at hPn
    have : (0 : ℝ) < (t / 6) ^ 3 := by positivity
    nlinarith
  have hn : ‖-cubert P‖ ^ 2 = t / 6 := by
    have h6 : (‖-cubert P‖ ^ 2) ^ 3 = (t / 6) ^ 3 := by
      rw [← hPn, ← pow_mul, mul_comm, pow_mul, ← norm_pow, hA3, norm_neg]
    exact (pow_left_inj₀ (by positivity) (by positivity) (by norm_num)).1 h6
  set A := -cubert P with hAd
  have hB : ((t / 6 : ℝ) : ℂ) / A = star A := by
    rw [div_eq_iff hne, ← hn, Complex.star_def, ← Complex.normSq_eq_conj_mul_self, Complex.normSq_eq_norm_sq]
  have hcs : csqrt (D : ℂ) * csqrt (D : ℂ) = (-(d : ℂ) / 2) * (-(d : ℂ) / 2) -
      ((t / 6 : ℝ) : ℂ) * ((t / 6 : ℝ) : ℂ) * ((t / 6 : ℝ) : ℂ) := by
    rw [csqrt_sq, hDd]
    push_cast
    ring
  obtain ⟨h1, h2⟩ := cardano_other hcs hA3 hne
  rw [hB] at h1 h2
  have hv : Eigenvalues_hermitian3 U = some ((A + star A).re, ((-(A + star A) + rr3 * (A - star A)) * 0.5).re,
      -(A + star A).re - ((-(A + star A) + rr3 * (A - star A)) * 0.5).re) := by
    unfold Eigenvalues_hermitian3
    dsimp only
    rw [hdd, ← htd, e1, e2, ← hP, ← hAd, if_neg hne, hB]
  refine ⟨_, hv, ?_⟩
  rw [isSpectrum3_iff]
  intro x
  rw [charpoly_herm3 hU, hdd, ← htd]
  have hc := cardano h1 h2 x
  have r1 : (((A + star A).re : ℝ) : ℂ) = A + star A := Complex.ext rfl (by simp)
  have r2 : ((((-(A + star A) + rr3 * (A - star A)) * 0.5).re : ℝ) : ℂ) = (-(A + star A) + rr3 * (A - star A)) * 0.5 := by
    refine Complex.ext rfl ?_
    have e5 : (-(A + star A) + rr3 * (A - star A)) * 0.5 = ((-A.re - √3 * A.im : ℝ) : ℂ) := by
      unfold rr3
      refine Complex.ext ?_ ?_
      · simp
        ring
      · simp
    rw [e5]
    simp
  dsimp only
  push_cast
  rw [r1, r2]
  have e3 : x ^ 3 - 0.5 * (t : ℂ) * x - d = x ^ 3 - 3 * ((t / 6 : ℝ) : ℂ) * x + 2 * (-(d : ℂ) / 2) := by
    push_cast
    ring
  rw [e3, ← hc]
  ring

/-- **C69** fails for the zero matrix: zero is divided by zero. -/
theorem C69_hermitian3_fails : HermTraceless 3 (fun _ => 0) ∧ Eigenvalues_hermitian3 (fun _ => 0) = none := by
  have e : toM 3 (fun _ => (0 : ℂ)) = 0 := by
    ext i j
    simp [toM_apply]
  refine ⟨⟨by rw [e]; exact Matrix.isHermitian_zero, by rw [e, trace_zero]⟩, ?_⟩
  have hd : det 3 (fun _ => (0 : ℂ)) = 0 := by
    rw [C18_det (by norm_num), e, det_zero]
  unfold Eigenvalues_hermitian3
  dsimp only
  rw [hd, if_pos]
  rw [neg_eq_zero, cubert_eq_zero]
  simp [trace_prod_herm, csqrt]

/-- **C69**: for every traceless Hermitian 2x2 matrix the routine returns the eigenvalues. -/
theorem C69_hermitian2 {U : Arr ℂ} (hU : HermTraceless 2 U) :
    IsSpectrum2 (toM 2 U) ((Eigenvalues_hermitian2 U).1, (Eigenvalues_hermitian2 U).2) := by
  obtain ⟨hH, hT⟩ := hU
  have h : ∀ i j : Fin 2, star (toM 2 U j i) = toM 2 U i j := fun i j => hH.apply i j
  have h00 : (U 0).im = 0 := by
    have := congrArg Complex.im (h 0 0)
    simp [toM_apply] at this
    linarith
  have h2 : U 2 = star (U 1) := by
    have := h 1 0
    simp [toM_apply] at this
    simpa using this.symm
  have h3 : U 3 = -U 0 := by
    rw [trace_fin_two] at hT
    simp [toM_apply] at hT
    linear_combination hT
  have hp : 0 ≤ (U 0).re * (U 0).re + (U 1).re * (U 1).re + (U 1).im * (U 1).im := by
    nlinarith [mul_self_nonneg (U 0).re, mul_self_nonneg (U 1).re, mul_self_nonneg (U 1).im]
  unfold Eigenvalues_hermitian2
  dsimp only
  rw [csqrt_pos hp, Complex.ofReal_re, isSpectrum2_iff, hT]
  have hs := Real.mul_self_sqrt hp
  refine ⟨by simp, ?_⟩
  rw [Matrix.det_fin_two]
  simp only [toM_apply]
  norm_num
  rw [← Complex.ofReal_mul, hs, h2, h3]
  refine Complex.ext ?_ ?_
  · simp [h00]
    ring
  · simp [h00]
    ring

/-! ## The hypotheses are met -/

/-- The cyclic permutation: its eigenvalues are found by the routine for SU(3). -/
example : IsSpectrum3 !![0, 1, 0; 0, 0, 1; 1, 0, 0] (Eigenvalues_su3 cyclic3) := by
  rw [← toM_cyclic3]
  exact C69_su3 cyclic3_su

/-- A Hermitian matrix that is not zero. -/
example : ∃ z : ℝ × ℝ × ℝ, Eigenvalues_hermitian3 (fun i => if i = 0 then 1 else if i = 4 then -1 else 0) = some z ∧
    IsSpectrum3 !![1, 0, 0; 0, -1, 0; 0, 0, 0] (z.1, z.2.1, z.2.2) := by
  have e : toM 3 (fun i => if i = 0 then 1 else if i = 4 then -1 else 0) = !![(1 : ℂ), 0, 0; 0, -1, 0; 0, 0, 0] := by
    ext i j
    fin_cases i <;> fin_cases j <;> simp [toM_apply]
  have h := C69_hermitian3_partial (U := fun i => if i = 0 then 1 else if i = 4 then -1 else 0) ⟨by
    rw [e]
    ext i j
    fin_cases i <;> fin_cases j <;> simp, by rw [e, trace_fin_three]; simp⟩ (by
    rw [e]
    intro h
    have := congrFun (congrFun h 0) 0
    simp at this)
  rwa [e] at h

/-- A general matrix on which the routine succeeds. -/
example : ∃ z, Eigenvalues_general3 (fun i => if i = 0 then 2 else if i = 4 ∨ i = 8 then 1 else 0) = some z ∧
    IsSpectrum3 !![2, 0, 0; 0, 1, 0; 0, 0, 1] z := by
  have e : toM 3 (fun i => if i = 0 then 2 else if i = 4 ∨ i = 8 then 1 else 0) = !![(2 : ℂ), 0, 0; 0, 1, 0; 0, 0, 1] := by
    ext i j
    fin_cases i <;> fin_cases j <;> simp [toM_apply]
  obtain ⟨h1, h2⟩ := C69_general3_partial (fun i => if i = 0 then 2 else if i = 4 ∨ i = 8 then 1 else 0)
  rw [e] at h1 h2
  obtain ⟨z, hz⟩ := h2 (by rw [det_fin_three]; simp) (by
    rw [adjugate_fin_three, trace_fin_three, trace_fin_three]
    simp
    norm_num)
  exact ⟨z, hz, h1 z hz⟩

end GLU.Mat
