import Verif.Mat.InvertLemmas
import Verif.Mat.UNopsProps

/-!
# C19: inversion returns the inverse or reports failure

`none` at the outer level is the return of `GLU_FAILURE`; an entry `none` of the result is a
NaN or an infinity.  The property fails for two colours, where the closed formula never
reports failure (`C19_two_singular_fails`), hence the suffix `_partial`.
-/

namespace GLU.Mat

open Complex Matrix

/-- Three or more colours (and one): a success returns a two sided inverse made of numbers
only, a failure is reported exactly for the singular matrices.  Missing: two colours. -/
theorem C19_inverse_partial {NC : ℕ} (hNC : 0 < NC) (h2 : NC ≠ 2) (M : Arr ℂ) :
    (inverse NC M = none ↔ (toM NC M).det = 0) ∧
    (∀ v, inverse NC M = some v → ∃ X : Matrix (Fin NC) (Fin NC) ℂ,
      (∀ r c : Fin NC, v (c + r * NC) = some (X r c)) ∧
      X * toM NC M = 1 ∧ toM NC M * X = 1) := by
  unfold inverse
  rw [if_neg h2]
  rcases gauss_jordan_outcome hNC M with ⟨h, hd⟩ | ⟨v, X, h, hv, hX⟩
  · rw [h]
    exact ⟨by simp [hd], fun v hv => by cases hv⟩
  · rw [h]
    refine ⟨⟨(by intro h; cases h), fun hd => ?_⟩, fun w hw => ?_⟩
    · have := congrArg Matrix.det hX
      rw [det_mul, hd, mul_zero, det_one] at this
      exact absurd this zero_ne_one
    · obtain rfl := Option.some.inj hw
      exact ⟨X, hv, hX, mul_eq_one_comm.1 hX⟩

/-- Two colours, regular matrix: the result is the inverse. -/
theorem C19_two_partial (M : Arr ℂ) (hd : (toM 2 M).det ≠ 0) :
    ∃ v, inverse 2 M = some v ∧ ∃ X : Matrix (Fin 2) (Fin 2) ℂ,
      (∀ r c : Fin 2, v (c + r * 2) = some (X r c)) ∧ X * toM 2 M = 1 ∧ toM 2 M * X = 1 := by
  have hX : ((toM 2 M).det)⁻¹ • adjugate (toM 2 M) * toM 2 M = 1 := by
    rw [smul_mul_assoc, adjugate_mul, smul_smul, inv_mul_cancel₀ hd, one_smul]
  refine ⟨_, if_pos rfl, ((toM 2 M).det)⁻¹ • adjugate (toM 2 M), ?_, hX, mul_eq_one_comm.1 hX⟩
  intro r c
  rw [C18_det (by norm_num), CE.div_some hd, adjugate_fin_two]
  fin_cases r <;> fin_cases c <;> simp [mul_comm]

/-- Two colours, any singular matrix (say the zero matrix): success is reported and every entry
of the result is a NaN or an infinity.  The property does not hold. -/
theorem C19_two_singular_fails (M : Arr ℂ) (hd : (toM 2 M).det = 0) :
    ∃ v, inverse 2 M = some v ∧ ∀ r c : Fin 2, v (c + r * 2) = none := by
  refine ⟨_, if_pos rfl, fun r c => ?_⟩
  rw [C18_det (by norm_num), hd]
  fin_cases r <;> fin_cases c <;> simp [CE.div, CE.mul]

/-- The build with the classical adjoint: success means the inverse, and every singular matrix
is refused, for every number of colours above one. -/
theorem C19_inverse_adjoint {NC : ℕ} (hN : 1 < NC) (M adjunct array temp : Arr ℂ) :
    ((toM NC M).det = 0 → inverse_adjoint NC M adjunct array temp = none) ∧
    (∀ v, inverse_adjoint NC M adjunct array temp = some v →
      toM NC v * toM NC M = 1 ∧ toM NC M * toM NC v = 1) := by
  have hpos : 0 < (NC : ℝ) * PREC_TOL NC := by
    have : (0 : ℝ) < NC := by exact_mod_cast (by omega : 0 < NC)
    unfold PREC_TOL
    positivity
  obtain ⟨h1, h2⟩ := C18_cofactor_transpose hN adjunct M array temp
  unfold inverse_adjoint
  simp only []
  rw [h2]
  constructor
  · intro hd
    rw [hd, norm_zero, if_pos hpos]
  · intro v hv
    split at hv
    · cases hv
    · next hn =>
      have hd : (toM NC M).det ≠ 0 := fun hd => hn (by rw [hd, norm_zero]; exact hpos)
      obtain rfl := Option.some.inj hv
      have e : toM NC (fun i => (cofactor_transpose NC adjunct M array temp).1 i *
          (1 / (toM NC M).det)) = ((toM NC M).det)⁻¹ • adjugate (toM NC M) := by
        rw [← h1]
        ext r c
        simp [mul_comm]
      have hX : ((toM NC M).det)⁻¹ • adjugate (toM NC M) * toM NC M = 1 := by
        rw [smul_mul_assoc, adjugate_mul, smul_smul, inv_mul_cancel₀ hd, one_smul]
      rw [e]
      exact ⟨hX, mul_eq_one_comm.1 hX⟩

/-- The Newton refinement: the residual `1 - Z X` is squared at each pass, and the loop stops
after four passes or when the trace of `Z X` is within tolerance of that of the identity. -/
theorem C19_newton (NC : ℕ) (Z Zinv BX : Arr ℂ) :
    ∃ k ≤ 4, 1 - toM NC Z * toM NC (newton_approx_inverse NC Z Zinv BX) =
        (1 - toM NC Z * toM NC Zinv) ^ (2 ^ k) ∧
      (k = 4 ∨ |(Matrix.trace (toM NC Z * toM NC (newton_approx_inverse NC Z Zinv BX))).re - NC|
        < PREC_TOL NC) := by
  classical
  have := forN_inv (fun n (s : Arr ℂ × Bool) => ∃ k ≤ n,
      1 - toM NC Z * toM NC s.1 = (1 - toM NC Z * toM NC Zinv) ^ (2 ^ k) ∧
      (s.2 = false → k = n) ∧
      (s.2 = true → |(Matrix.trace (toM NC Z * toM NC s.1)).re - NC| < PREC_TOL NC)) (n := 4)
    (body := fun _ (s : Arr ℂ × Bool) =>
      if s.2 then s else
      let BX := multab NC Z s.1 BX
      if |(trace NC BX).re - NC| < PREC_TOL NC then (s.1, true) else
      let BX := multab_atomic_left NC BX s.1
      (mapN (NC * NC) (fun j x => 2 * x - BX j) s.1, false)) (s := (Zinv, false))
    ⟨0, le_refl _, by simp, fun _ => rfl, fun h => by cases h⟩
    (fun n hn s hs => by
      obtain ⟨k, hk, h1, h2, h3⟩ := hs
      by_cases hb : s.2 = true
      · rw [if_pos hb]
        exact ⟨k, by omega, h1, (by intro h; rw [hb] at h; cases h), h3⟩
      · rw [if_neg hb]
        have hb' : s.2 = false := by simpa using hb
        simp only []
        rw [C12_trace, C10_multab]
        split
        · next ht => exact ⟨k, by omega, h1, (by intro h; cases h), fun _ => ht⟩
        · refine ⟨k + 1, by omega, ?_, fun _ => by rw [h2 hb'], fun h => by cases h⟩
          have e : toM NC (mapN (NC * NC)
              (fun j x => 2 * x - multab_atomic_left NC (multab NC Z s.1 BX) s.1 j) s.1) =
              toM NC s.1 + toM NC s.1 - toM NC s.1 * (toM NC Z * toM NC s.1) := by
            rw [← C10_multab NC Z s.1 BX, ← C10_multab_atomic_left]
            ext r c
            have hlt : (c : ℕ) + NC * r < NC * NC := by
              have := r.2
              have := c.2
              nlinarith
            simp [mapN_apply, hlt, two_mul]
          simp only []
          rw [e, pow_succ, pow_mul, ← h1, pow_two]
          simp only [mul_sub, sub_mul, mul_add, one_mul, mul_one, Matrix.mul_assoc]
          abel)
  obtain ⟨k, hk, h1, h2, h3⟩ := this
  refine ⟨k, hk, h1, ?_⟩
  cases hb : (forN 4 (fun _ (s : Arr ℂ × Bool) =>
      if s.2 then s else
      let BX := multab NC Z s.1 BX
      if |(trace NC BX).re - NC| < PREC_TOL NC then (s.1, true) else
      let BX := multab_atomic_left NC BX s.1
      (mapN (NC * NC) (fun j x => 2 * x - BX j) s.1, false)) (Zinv, false)).2
  · exact Or.inl (h2 hb)
  · exact Or.inr (h3 hb)

/-- Non-vacuity: a regular matrix needing a row exchange, and a singular one. -/
example : ∃ v, inverse 3 (arr [0, 1, 0, 1, 0, 0, 0, 0, 2]) = some v := by
  cases h : inverse 3 (arr [0, 1, 0, 1, 0, 0, 0, 0, 2]) with
  | none =>
    have := (C19_inverse_partial (NC := 3) (by norm_num) (by norm_num) _).1.1 h
    rw [det_fin_three] at this
    simp [arr] at this
  | some v => exact ⟨v, rfl⟩

example : inverse 3 (arr [1, 2, 3, 2, 4, 6, 0, 1, I]) = none := by
  rw [(C19_inverse_partial (NC := 3) (by norm_num) (by norm_num) _).1, det_fin_three]
  simp [arr]
  ring

example : (toM 2 (arr [1, 2, 2, (4 : ℂ)])).det = 0 := by
  rw [det_fin_two]; simp [arr]; norm_num

end GLU.Mat
