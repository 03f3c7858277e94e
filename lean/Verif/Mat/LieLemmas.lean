import Verif.Mat.Lie
import Verif.Mat.UNopsLemmas
import Mathlib.LinearAlgebra.Matrix.Trace
import Mathlib.Tactic.LinearCombination

namespace GLU.Mat

open Complex Matrix

theorem sqrt3_sq : ((√3 : ℝ) : ℂ) ^ 2 = 3 := by
  rw [← Complex.ofReal_pow, Real.sq_sqrt (by norm_num)]; norm_num

theorem sqrt3_four : ((√3 : ℝ) : ℂ) ^ 4 = 9 := by
  rw [show 4 = 2 * 2 by rfl, pow_mul, sqrt3_sq]; norm_num

theorem trace_three (A B C : Arr ℂ) : (toM 3 A * toM 3 B * toM 3 C).trace =
    (A 0 * B 0 + A 1 * B 3 + A 2 * B 6) * C 0 + (A 0 * B 1 + A 1 * B 4 + A 2 * B 7) * C 3 +
    (A 0 * B 2 + A 1 * B 5 + A 2 * B 8) * C 6 +
    ((A 3 * B 0 + A 4 * B 3 + A 5 * B 6) * C 1 + (A 3 * B 1 + A 4 * B 4 + A 5 * B 7) * C 4 +
    (A 3 * B 2 + A 4 * B 5 + A 5 * B 8) * C 7) +
    ((A 6 * B 0 + A 7 * B 3 + A 8 * B 6) * C 2 + (A 6 * B 1 + A 7 * B 4 + A 8 * B 7) * C 5 +
    (A 6 * B 2 + A 7 * B 5 + A 8 * B 8) * C 8) := by
  simp [Matrix.trace, Matrix.mul_apply, Fin.sum_univ_three, toM]

theorem traceless_three {A : Arr ℂ} (h : (toM 3 A).trace = 0) : A 0 = -A 4 - A 8 := by
  simp [Matrix.trace, Fin.sum_univ_three, toM] at h
  linear_combination h

set_option maxRecDepth 20000 in
set_option maxHeartbeats 1000000 in
theorem dLoop3 (A B C : Arr ℂ) (hA : (toM 3 A).trace = 0) (hB : (toM 3 B).trace = 0)
    (hC : (toM 3 C).trace = 0) : dLoop dTable3 (lie_data3 A) (lie_data3 B) (lie_data3 C) 0 =
      2 * ((toM 3 A * toM 3 B * toM 3 C).trace + (toM 3 B * toM 3 A * toM 3 C).trace) := by
  rw [trace_three, trace_three, traceless_three hA, traceless_three hB, traceless_three hC]
  simp only [dLoop, dTable3, List.foldl, lie_data3, arr, List.getD_cons_zero, List.getD_cons_succ,
    one_r3, one_twor3, traceless_three hA, traceless_three hB, traceless_three hC]
  push_cast
  generalize hs : ((√3 : ℝ) : ℂ) = s
  have h2 : s ^ 2 = 3 := hs ▸ sqrt3_sq
  have h4 : s ^ 4 = 9 := hs ▸ sqrt3_four
  ring_nf
  simp only [I_sq, h2, h4]
  ring

set_option maxRecDepth 20000 in
set_option maxHeartbeats 1000000 in
theorem fLoop3 (A B C : Arr ℂ) (r : ℂ) (hA : (toM 3 A).trace = 0) (hB : (toM 3 B).trace = 0)
    (hC : (toM 3 C).trace = 0) : fLoop fTable3 (lie_data3 A) (lie_data3 B) (lie_data3 C) r =
      r + 2 * ((toM 3 A * toM 3 B * toM 3 C).trace - (toM 3 B * toM 3 A * toM 3 C).trace) := by
  rw [trace_three, trace_three, traceless_three hA, traceless_three hB, traceless_three hC]
  simp only [fLoop, fTable3, List.foldl, lie_data3, arr, List.getD_cons_zero, List.getD_cons_succ,
    r3_two, traceless_three hA, traceless_three hB, traceless_three hC]
  push_cast
  generalize hs : ((√3 : ℝ) : ℂ) = s
  have h2 : s ^ 2 = 3 := hs ▸ sqrt3_sq
  ring_nf
  simp only [I_sq, I_pow_four, h2]
  ring

theorem trace_two (A B C : Arr ℂ) : (toM 2 A * toM 2 B * toM 2 C).trace =
    (A 0 * B 0 + A 1 * B 2) * C 0 + (A 0 * B 1 + A 1 * B 3) * C 2 +
    ((A 2 * B 0 + A 3 * B 2) * C 1 + (A 2 * B 1 + A 3 * B 3) * C 3) := by
  simp [Matrix.trace, Matrix.mul_apply, Fin.sum_univ_two, toM]

theorem traceless_two {A : Arr ℂ} (h : (toM 2 A).trace = 0) : A 3 = -A 0 := by
  simp [Matrix.trace, Fin.sum_univ_two, toM] at h
  linear_combination h

theorem fLoop2 (A B C : Arr ℂ) (hA : (toM 2 A).trace = 0) (hB : (toM 2 B).trace = 0)
    (hC : (toM 2 C).trace = 0) : fLoop fTable2 (lie_data2 A) (lie_data2 B) (lie_data2 C) 0 =
      1 / 2 * (toM 2 A * toM 2 B * toM 2 C).trace := by
  rw [trace_two, traceless_two hA, traceless_two hB, traceless_two hC]
  simp only [fLoop, fTable2, List.foldl, lie_data2, arr, List.getD_cons_zero, List.getD_cons_succ]
  push_cast
  ring_nf
  simp only [I_sq]
  ring

end GLU.Mat
