import Verif.Mat.SseInvertLemmas
import Verif.Mat.InvertProps

/-!
# C113: the vectorised inversion

The property a user expects is that of C19: the inverse of every regular matrix, and a reported
failure for every singular one.  The vectorised routine looks for its pivot in the wrong array,
never exchanges two rows, and never reports a failure.
-/

namespace GLU.Mat.Sse

open Complex Matrix

/-- Three or more colours (and one): the result is made of numbers exactly when every leading
principal minor of the matrix is nonzero, and it then is the two sided inverse, the same as that
of the portable routine.  Missing: the regular matrices with a vanishing leading minor, see
`C113_regular_fails`, and the report of singular ones, see `C113_singular_fails`. -/
theorem C113_inverse_partial {NC : ℕ} (hNC : 0 < NC) (h2 : NC ≠ 2) (M : Arr ℂ) :
    ∃ v, inverse NC M = some v ∧
      ((∀ k (hk : k ≤ NC),
          ((toM NC M).submatrix (Fin.castLE hk) (Fin.castLE hk)).det ≠ 0) →
        ∃ X : Matrix (Fin NC) (Fin NC) ℂ, (∀ r c : Fin NC, v (c + r * NC) = some (X r c)) ∧
          X * toM NC M = 1 ∧ toM NC M * X = 1 ∧
          ∃ w, Mat.inverse NC M = some w ∧ ∀ r c : Fin NC, w (c + r * NC) = v (c + r * NC)) ∧
      ((∃ k, ∃ hk : k ≤ NC,
          ((toM NC M).submatrix (Fin.castLE hk) (Fin.castLE hk)).det = 0) →
        ∀ c : Fin NC, v (c + (NC - 1) * NC) = none) := by
  unfold inverse
  rw [if_neg h2]
  refine ⟨_, rfl, fun h => ?_, fun ⟨k, hk, h⟩ c => gauss_jordan_lost M hk h c c.2⟩
  obtain ⟨X, hX, hX1⟩ := gauss_jordan_regular hNC M h
  refine ⟨X, hX, hX1, mul_eq_one_comm.1 hX1, ?_⟩
  obtain ⟨p1, p2⟩ := C19_inverse_partial hNC h2 M
  have hdet : (toM NC M).det ≠ 0 := by
    intro hd
    have := congrArg Matrix.det hX1
    rw [det_mul, hd, mul_zero, det_one] at this
    exact zero_ne_one this
  cases hw : Mat.inverse NC M with
  | none => exact absurd (p1.1 hw) hdet
  | some w =>
    obtain ⟨Y, hY, hY1, hY2⟩ := p2 w hw
    refine ⟨w, rfl, fun r c => ?_⟩
    have : Y = X := by
      calc Y = (X * toM NC M) * Y := by rw [hX1, one_mul]
        _ = X := by rw [mul_assoc, hY2, mul_one]
    rw [hY, hX, this]

/-- A matrix all of whose leading minors (1, 2, 3 and 4) are nonzero. -/
example : ∀ k (hk : k ≤ 3), ((toM 3 (arr [2, 1, 0, 1, 2, 1, 0, 1, 2] : Arr ℂ)).submatrix
    (Fin.castLE hk) (Fin.castLE hk)).det ≠ 0 := by
  intro k hk
  have : k = 0 ∨ k = 1 ∨ k = 2 ∨ k = 3 := by omega
  rcases this with rfl | rfl | rfl | rfl
  · simp
  · simp [toM, arr]
  · rw [det_fin_two]; simp [toM, arr]; norm_num
  · rw [det_fin_three]; simp [toM, arr]; norm_num

/-- The routine never reports a failure, whatever the matrix and the number of colours. -/
theorem C113_singular_fails (NC : ℕ) (M : Arr ℂ) : inverse NC M ≠ none := by
  unfold inverse
  split
  · simp [Mat.inverse]
  · simp

/-- A cyclic permutation of the colours. -/
def cyclic3 : Arr ℂ := arr [0, 1, 0, 0, 0, 1, 1, 0, 0]

/-- The cyclic permutation of three colours is special unitary, hence regular; success is
reported and the last row of the result is not a number, while the portable routine returns its
inverse.  The property does not hold, and the result depends on the build. -/
theorem C113_regular_fails :
    IsSU 3 cyclic3 ∧
    (∃ v, inverse 3 cyclic3 = some v ∧ ∀ c : Fin 3, v (c + 2 * 3) = none) ∧
    ∃ w, Mat.inverse 3 cyclic3 = some w ∧ ∃ X : Matrix (Fin 3) (Fin 3) ℂ,
      (∀ r c : Fin 3, w (c + r * 3) = some (X r c)) ∧
      X * toM 3 cyclic3 = 1 := by
  have hdet : (toM 3 cyclic3).det = 1 := by
    rw [det_fin_three]; simp [toM, cyclic3, arr]
  refine ⟨mem_specialUnitaryGroup_iff.2 ⟨?_, hdet⟩, ?_, ?_⟩
  · constructor <;> ext r c <;> fin_cases r <;> fin_cases c <;>
      simp [Matrix.mul_apply, Fin.sum_univ_three, toM, cyclic3, arr, one_apply]
  · obtain ⟨v, h1, -, h3⟩ := C113_inverse_partial (NC := 3) (by norm_num) (by norm_num)
      cyclic3
    refine ⟨v, h1, h3 ⟨1, by norm_num, ?_⟩⟩
    simp [toM, cyclic3, arr]
  · obtain ⟨p1, p2⟩ := C19_inverse_partial (NC := 3) (by norm_num) (by norm_num)
      cyclic3
    cases hw : Mat.inverse 3 cyclic3 with
    | none => rw [p1.1 hw] at hdet; exact absurd hdet.symm one_ne_zero
    | some w =>
      obtain ⟨Y, hY, hY1, -⟩ := p2 w hw
      exact ⟨w, rfl, Y, hY, hY1⟩

end GLU.Mat.Sse
