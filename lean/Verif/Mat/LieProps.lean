import Verif.Mat.LieLemmas

namespace GLU.Mat

open Complex Matrix

/-- **C21**, three colours: for traceless matrices the contraction with
`i f + d` is four times the trace of the product. -/
theorem C21_three (A B C : Arr ℂ) (hA : (toM 3 A).trace = 0) (hB : (toM 3 B).trace = 0)
    (hC : (toM 3 C).trace = 0) :
    ifabc_dabc_ABC 3 A B C = some (4 * (toM 3 A * toM 3 B * toM 3 C).trace) := by
  simp only [ifabc_dabc_ABC, dTable, fTable, if_true, lie_data, Option.bind_eq_bind, Option.bind_some,
    Option.pure_def, Option.some.injEq]
  rw [fLoop3 A B C _ hA hB hC, dLoop3 A B C hA hB hC]
  ring

/-- **C21**, three colours: the symmetric table alone gives the trace with the
anticommutator. -/
theorem C21_three_d (A B C : Arr ℂ) (hA : (toM 3 A).trace = 0) (hB : (toM 3 B).trace = 0)
    (hC : (toM 3 C).trace = 0) :
    dabc_ABC 3 A B C = some (2 * ((toM 3 A * toM 3 B + toM 3 B * toM 3 A) * toM 3 C).trace) := by
  simp only [dabc_ABC, dTable, if_true, lie_data, Option.map_some, Option.some.injEq]
  rw [dLoop3 A B C hA hB hC, add_mul, trace_add]

/-- **C21**, three colours: the antisymmetric table alone gives the trace with the
commutator. -/
theorem C21_three_f (A B C : Arr ℂ) (hA : (toM 3 A).trace = 0) (hB : (toM 3 B).trace = 0)
    (hC : (toM 3 C).trace = 0) :
    ifabc_ABC 3 A B C = some (2 * ((toM 3 A * toM 3 B - toM 3 B * toM 3 A) * toM 3 C).trace) := by
  simp only [ifabc_ABC, fTable, if_true, lie_data, Option.map_some, Option.some.injEq]
  rw [fLoop3 A B C _ hA hB hC, sub_mul, trace_sub, zero_add]

/-- **C21**, two colours, what the code computes: half the trace, not four times
the trace. -/
theorem C21_two_partial (A B C : Arr ℂ) (hA : (toM 2 A).trace = 0) (hB : (toM 2 B).trace = 0)
    (hC : (toM 2 C).trace = 0) :
    ifabc_dabc_ABC 2 A B C = some (1 / 2 * (toM 2 A * toM 2 B * toM 2 C).trace) := by
  simp only [ifabc_dabc_ABC, dTable, fTable, if_true, lie_data, Option.bind_eq_bind, Option.bind_some,
    Option.pure_def, Option.some.injEq, show (2 : ℕ) ≠ 3 by decide, if_false, dLoop, List.foldl]
  exact fLoop2 A B C hA hB hC

/-- The documented value (four times the trace) is missed for two colours: the
three Pauli matrices. -/
theorem C21_two_fails : ∃ A B C : Arr ℂ, (toM 2 A).trace = 0 ∧ (toM 2 B).trace = 0 ∧
    (toM 2 C).trace = 0 ∧
    ifabc_dabc_ABC 2 A B C ≠ some (4 * (toM 2 A * toM 2 B * toM 2 C).trace) := by
  refine ⟨arr [0, 1, 1, 0], arr [0, -I, I, 0], arr [1, 0, 0, -1], ?_, ?_, ?_, ?_⟩
  · simp [Matrix.trace, Fin.sum_univ_two, toM, arr]
  · simp [Matrix.trace, Fin.sum_univ_two, toM, arr]
  · simp [Matrix.trace, Fin.sum_univ_two, toM, arr]
  · rw [C21_two_partial _ _ _ (by simp [Matrix.trace, Fin.sum_univ_two, toM, arr])
      (by simp [Matrix.trace, Fin.sum_univ_two, toM, arr])
      (by simp [Matrix.trace, Fin.sum_univ_two, toM, arr]), trace_two]
    simp only [arr, List.getD_cons_zero, List.getD_cons_succ, ne_eq, Option.some.injEq]
    intro h
    have := congrArg Complex.im h
    norm_num at this

/-- Non-vacuity: a traceless triple with a nonzero trace of the product. -/
example : ∃ A B C : Arr ℂ, (toM 3 A).trace = 0 ∧ (toM 3 B).trace = 0 ∧ (toM 3 C).trace = 0 ∧
    ifabc_dabc_ABC 3 A B C = some (4 * I) := by
  refine ⟨arr [0, 1, 0, 0, 0, 0, 0, 0, 0], arr [0, 0, 0, 0, 0, 1, 0, 0, 0],
    arr [0, 0, 0, 0, 0, 0, I, 0, 0], ?_, ?_, ?_, ?_⟩
  · simp [Matrix.trace, Fin.sum_univ_three, toM, arr]
  · simp [Matrix.trace, Fin.sum_univ_three, toM, arr]
  · simp [Matrix.trace, Fin.sum_univ_three, toM, arr]
  · rw [C21_three _ _ _ (by simp [Matrix.trace, Fin.sum_univ_three, toM, arr])
      (by simp [Matrix.trace, Fin.sum_univ_three, toM, arr])
      (by simp [Matrix.trace, Fin.sum_univ_three, toM, arr]), trace_three]
    simp [arr]

end GLU.Mat
