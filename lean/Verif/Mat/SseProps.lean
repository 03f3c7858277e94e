import Verif.Mat.SseLemmas

/-!
# C112: the vectorised matrix products

The products compiled when `immintrin.h` is present compute the same matrices as the portable
ones of C10 and C11, for each of the three instruction sets and each admissible unrolling
factor; the product of two adjoints is right for every number of colours, unlike the portable
one.  For `NC` above three the products `*_suNC` are the general ones.
-/

namespace GLU.Mat.Sse

open Complex Finset Matrix

/-- The macros compute the complex operations their comments claim, on every instruction set. -/
theorem C112_macros (s : ISA) (a b c : V2 ℝ) :
    st (SSE2_MUL s a b) = st a * st b ∧
    st (SSE2_MULCONJ s a b) = star (st a) * st b ∧
    st (SSE2_MUL_CONJ s a b) = st a * star (st b) ∧
    st (SSE2_MUL_CONJCONJ s a b) = star (st a) * star (st b) ∧
    st (SSE2_iMUL a) = I * st a ∧ st (SSE2_miMUL a) = - I * st a ∧
    st (SSE2_CONJ a) = star (st a) ∧ st (SSE_FLIP a) = - st a ∧
    SSE2_FMA s a b c = mm_add (mm_mul a b) c := by
  refine ⟨st_mul s a b, st_mulconj s a b, st_mul_conj s a b, st_mul_conjconj s a b, ?_, ?_,
    rfl, rfl, ?_⟩
  · apply Complex.ext <;> simp [st, SSE2_iMUL, mm_shuffle1, SSE_FLIP]
  · apply Complex.ext <;> simp [st, SSE2_miMUL, mm_shuffle1, SSE_FLIP]
  · cases s <;> rfl

/-- The product of two matrices. -/
theorem C112_multab {NC NB : ℕ} (h : Unrolls NC NB) (s : ISA) (b c a : Arr ℂ) :
    toM NC (multab s NC NB b c a) = toM NC b * toM NC c := by
  unfold multab
  split
  · next h =>
    subst h
    ext i j
    fin_cases i <;> fin_cases j <;>
      simp [multab3, stA_arr, Matrix.mul_apply, Fin.sum_univ_three, st_ldA, add_assoc]
  split
  · next h =>
    subst h
    ext i j
    fin_cases i <;> fin_cases j <;>
      simp [multab2, stA_arr, Matrix.mul_apply, Fin.sum_univ_two, st_ldA]
  · ext i j
    rw [toM_apply, stA_apply, multabN, accumulate_spec h _ _ _ _ i.2 j.2,
      zeroA_apply _ _ _ (index_lt i.2 j.2), zero_add, Matrix.mul_apply, sum_range]
    simp only [st_mul, st_ldA, toM_apply]

/-- The product of an adjoint with a matrix. -/
theorem C112_multabdag {NC NB : ℕ} (h : Unrolls NC NB) (s : ISA) (b c a : Arr ℂ) :
    toM NC (multabdag s NC NB b c a) = (toM NC b)ᴴ * toM NC c := by
  unfold multabdag
  split
  · next h =>
    subst h
    ext i j
    fin_cases i <;> fin_cases j <;>
      simp [multabdag3, stA_arr, Matrix.mul_apply, Fin.sum_univ_three, st_ldA, conj, add_assoc]
  split
  · next h =>
    subst h
    ext i j
    fin_cases i <;> fin_cases j <;>
      simp [multabdag2, stA_arr, Matrix.mul_apply, Fin.sum_univ_two, st_ldA, conj]
  · ext i j
    rw [toM_apply, stA_apply, multabdagN_spec h _ _ _ _ i.2 j.2, Matrix.mul_apply, sum_range]
    simp only [st_ldA, toM_apply, conjTranspose_apply, conj]

/-- The product of a matrix with an adjoint, whatever the scratch array holds. -/
theorem C112_multab_dag {NC NB : ℕ} (h : Unrolls NC NB) (s : ISA) (ct : Arr (V2 ℝ))
    (b c a : Arr ℂ) :
    toM NC (multab_dag s NC NB ct b c a) = toM NC b * (toM NC c)ᴴ := by
  unfold multab_dag
  split
  · next h =>
    subst h
    ext i j
    fin_cases i <;> fin_cases j <;>
      simp [multab_dag3, stA_arr, Matrix.mul_apply, Fin.sum_univ_three, st_ldA, conj, add_assoc]
  split
  · next h =>
    subst h
    ext i j
    fin_cases i <;> fin_cases j <;>
      simp [multab_dag2, stA_arr, Matrix.mul_apply, Fin.sum_univ_two, st_ldA, conj]
  · ext i j
    rw [toM_apply, stA_apply, multab_dagN, accumulate_spec h _ _ _ _ i.2 j.2,
      zeroA_apply _ _ _ (index_lt i.2 j.2), zero_add, Matrix.mul_apply, sum_range]
    refine sum_congr rfl fun m _ => ?_
    rw [transposed_spec _ _ _ m.2 j.2, st_mul_conj]
    simp only [st_ldA, toM_apply, conjTranspose_apply, conj]

/-- The product of two adjoints, for every number of colours. -/
theorem C112_multab_dagdag {NC NB : ℕ} (h : Unrolls NC NB) (s : ISA) (b c a : Arr ℂ) :
    toM NC (multab_dagdag s NC NB b c a) = (toM NC b)ᴴ * (toM NC c)ᴴ := by
  unfold multab_dagdag
  split
  · next h =>
    subst h
    ext i j
    fin_cases i <;> fin_cases j <;>
      simp [multab_dagdag3, stA_arr, Matrix.mul_apply, Fin.sum_univ_three, st_ldA, conj,
        add_assoc]
  split
  · next h =>
    subst h
    ext i j
    fin_cases i <;> fin_cases j <;>
      simp [multab_dagdag2, stA_arr, Matrix.mul_apply, Fin.sum_univ_two, st_ldA, conj]
  · ext i j
    rw [toM_apply, stA_apply, multab_dagdagN, transposeInPlace_spec _ _ i.2 j.2,
      accumulate_spec h _ _ _ _ j.2 i.2,
      zeroA_apply _ _ _ (index_lt j.2 i.2), zero_add, Matrix.mul_apply, sum_range]
    simp only [st_mul_conjconj, st_ldA, toM_apply, conjTranspose_apply, conj]

/-- The in-place left product. -/
theorem C112_multab_atomic_left (s : ISA) (NC : ℕ) (a b : Arr ℂ) :
    toM NC (multab_atomic_left s NC a b) = toM NC b * toM NC a := by
  rw [← C10_multab_atomic_left]
  unfold multab_atomic_left Mat.multab_atomic_left
  split
  · next h =>
    subst h
    ext i j
    fin_cases i <;> fin_cases j <;>
      simp [multab_atomic_left3, Mat.multab_atomic_left3, stA_apply, st_ldA, Function.update,
        add_assoc]
  split
  · next h =>
    subst h
    ext i j
    fin_cases i <;> fin_cases j <;>
      simp [multab_atomic_left2, Mat.multab_atomic_left2, stA_apply, st_ldA, Function.update]
  · refine congrArg (toM NC) ?_
    unfold multab_atomic_leftN Mat.multab_atomic_leftN
    refine (forN_sim stA (fun i w => ?_) _).trans (by rw [stA_ldA])
    refine (forN_sim stA (body' := fun m v => Function.update v (i + m * NC) (st (forN NC
      (fun m' sum => mm_add sum (SSE2_MUL s (ldA b (m' + m * NC)) (w (i + m' * NC)))) mm_setzero)))
      (fun m v => stA_update _ _ _) w).trans ?_
    refine forN_congr (fun m _ v => ?_) _
    refine congrArg (Function.update v _) ?_
    refine (forN_sim st (body' := fun m' t => t + b (m' + m * NC) * stA w (i + m' * NC))
      (fun m' v => ?_) _)
    rw [st_add, st_mul]; rfl

/-- The in-place right product. -/
theorem C112_multab_atomic_right (s : ISA) (NC : ℕ) (a b : Arr ℂ) :
    toM NC (multab_atomic_right s NC a b) = toM NC a * toM NC b := by
  rw [← C10_multab_atomic_right]
  unfold multab_atomic_right Mat.multab_atomic_right
  split
  · next h =>
    subst h
    ext i j
    fin_cases i <;> fin_cases j <;>
      simp [multab_atomic_right3, Mat.multab_atomic_right3, stA_apply, st_ldA, Function.update] <;>
      ring
  split
  · next h =>
    subst h
    ext i j
    fin_cases i <;> fin_cases j <;>
      simp [multab_atomic_right2, Mat.multab_atomic_right2, stA_apply, st_ldA, Function.update] <;>
      ring
  · refine congrArg (toM NC) ?_
    unfold multab_atomic_rightN Mat.multab_atomic_rightN
    refine (forN_sim stA (fun i w => ?_) _).trans (by rw [stA_ldA])
    refine (forN_sim stA (body' := fun m v => Function.update v (m + i * NC) (st (forN NC
      (fun m' sum => mm_add sum (SSE2_MUL s (w (m' + i * NC)) (ldA b (m + m' * NC)))) mm_setzero)))
      (fun m v => stA_update _ _ _) w).trans ?_
    refine forN_congr (fun m _ v => ?_) _
    refine congrArg (Function.update v _) ?_
    refine (forN_sim st (body' := fun m' t => t + stA w (m' + i * NC) * b (m + m' * NC))
      (fun m' v => ?_) _)
    rw [st_add, st_mul]; rfl

/-- The product tuned for special unitary operands. -/
theorem C112_multab_suNC {NC NB : ℕ} (h : Unrolls NC NB) (s : ISA) {b c : Arr ℂ}
    (hb : IsSU NC b) (hc : IsSU NC c) (a : Arr ℂ) :
    toM NC (multab_suNC s NC NB b c a) = toM NC b * toM NC c ∧
      IsSU NC (multab_suNC s NC NB b c a) := by
  have key : toM NC (multab_suNC s NC NB b c a) = toM NC b * toM NC c := by
    unfold multab_suNC
    split
    · next h =>
      subst h
      rw [multab_suNC3, stA_arr]
      refine complete3 (isSU_mul hb hc) ?_ ?_ ?_ ?_ ?_ ?_ ?_ ?_ ?_ <;>
        simp [Matrix.mul_apply, Fin.sum_univ_three, st_ldA, add_assoc]
    split
    · next h =>
      subst h
      rw [multab_suNC2, stA_arr]
      refine complete2 (isSU_mul hb hc) ?_ ?_ ?_ ?_ <;>
        simp [Matrix.mul_apply, Fin.sum_univ_two, st_ldA]
    · exact C112_multab h s b c a
  exact ⟨key, by unfold IsSU; rw [key]; exact isSU_mul hb hc⟩

/-- The left adjoint product tuned for special unitary operands. -/
theorem C112_multabdag_suNC {NC NB : ℕ} (h : Unrolls NC NB) (s : ISA) {b c : Arr ℂ}
    (hb : IsSU NC b) (hc : IsSU NC c) (a : Arr ℂ) :
    toM NC (multabdag_suNC s NC NB b c a) = (toM NC b)ᴴ * toM NC c ∧
      IsSU NC (multabdag_suNC s NC NB b c a) := by
  have key : toM NC (multabdag_suNC s NC NB b c a) = (toM NC b)ᴴ * toM NC c := by
    unfold multabdag_suNC
    split
    · next h =>
      subst h
      rw [multabdag_suNC3, stA_arr]
      refine complete3 (isSU_mul (isSU_star hb) hc) ?_ ?_ ?_ ?_ ?_ ?_ ?_ ?_ ?_ <;>
        simp [Matrix.mul_apply, Fin.sum_univ_three, st_ldA, conj, add_assoc]
    split
    · next h =>
      subst h
      rw [multabdag_suNC2, stA_arr]
      refine complete2 (isSU_mul (isSU_star hb) hc) ?_ ?_ ?_ ?_ <;>
        simp [Matrix.mul_apply, Fin.sum_univ_two, st_ldA, conj]
    · exact C112_multabdag h s b c a
  exact ⟨key, by unfold IsSU; rw [key]; exact isSU_mul (isSU_star hb) hc⟩

/-- The right adjoint product tuned for special unitary operands. -/
theorem C112_multab_dag_suNC {NC NB : ℕ} (h : Unrolls NC NB) (s : ISA) (ct : Arr (V2 ℝ))
    {b c : Arr ℂ} (hb : IsSU NC b) (hc : IsSU NC c) (a : Arr ℂ) :
    toM NC (multab_dag_suNC s NC NB ct b c a) = toM NC b * (toM NC c)ᴴ ∧
      IsSU NC (multab_dag_suNC s NC NB ct b c a) := by
  have key : toM NC (multab_dag_suNC s NC NB ct b c a) = toM NC b * (toM NC c)ᴴ := by
    unfold multab_dag_suNC
    split
    · next h =>
      subst h
      rw [multab_dag_suNC3, stA_arr]
      refine complete3 (isSU_mul hb (isSU_star hc)) ?_ ?_ ?_ ?_ ?_ ?_ ?_ ?_ ?_ <;>
        simp [Matrix.mul_apply, Fin.sum_univ_three, st_ldA, conj, add_assoc]
    split
    · next h =>
      subst h
      rw [multab_dag_suNC2, stA_arr]
      refine complete2 (isSU_mul hb (isSU_star hc)) ?_ ?_ ?_ ?_ <;>
        simp [Matrix.mul_apply, Fin.sum_univ_two, st_ldA, conj]
    · exact C112_multab_dag h s ct b c a
  exact ⟨key, by unfold IsSU; rw [key]; exact isSU_mul hb (isSU_star hc)⟩

/-- The product of two adjoints tuned for special unitary operands, for every number of
colours. -/
theorem C112_multab_dagdag_suNC {NC NB : ℕ} (h : Unrolls NC NB) (s : ISA) {b c : Arr ℂ}
    (hb : IsSU NC b) (hc : IsSU NC c) (a : Arr ℂ) :
    toM NC (multab_dagdag_suNC s NC NB b c a) = (toM NC b)ᴴ * (toM NC c)ᴴ ∧
      IsSU NC (multab_dagdag_suNC s NC NB b c a) := by
  have key : toM NC (multab_dagdag_suNC s NC NB b c a) = (toM NC b)ᴴ * (toM NC c)ᴴ := by
    unfold multab_dagdag_suNC
    split
    · next h =>
      subst h
      rw [multab_dagdag_suNC3, stA_arr]
      refine complete3 (isSU_mul (isSU_star hb) (isSU_star hc)) ?_ ?_ ?_ ?_ ?_ ?_ ?_ ?_ ?_ <;>
        simp [Matrix.mul_apply, Fin.sum_univ_three, st_ldA, conj, add_assoc]
    split
    · next h =>
      subst h
      rw [multab_dagdag_suNC2, stA_arr]
      refine complete2 (isSU_mul (isSU_star hb) (isSU_star hc)) ?_ ?_ ?_ ?_ <;>
        simp [Matrix.mul_apply, Fin.sum_univ_two, st_ldA, conj]
    · exact C112_multab_dagdag h s b c a
  exact ⟨key, by unfold IsSU; rw [key]; exact isSU_mul (isSU_star hb) (isSU_star hc)⟩

/-- The vectorised and the portable builds agree on every product of C10 that is right in both. -/
theorem C112_builds_agree {NC NB : ℕ} (h : Unrolls NC NB) (s : ISA) (ct : Arr (V2 ℝ))
    (b c a : Arr ℂ) :
    toM NC (multab s NC NB b c a) = toM NC (Mat.multab NC b c a) ∧
    toM NC (multabdag s NC NB b c a) = toM NC (Mat.multabdag NC b c a) ∧
    toM NC (multab_dag s NC NB ct b c a) = toM NC (Mat.multab_dag NC b c a) :=
  ⟨by rw [C112_multab h, C10_multab], by rw [C112_multabdag h, C10_multabdag],
    by rw [C112_multab_dag h, C10_multab_dag]⟩

/-- The builds disagree on the product of two adjoints for four and more colours. -/
theorem C112_builds_agree_dagdag_fails {NC NB : ℕ} (hN : 3 < NC) (h : Unrolls NC NB) (s : ISA) :
    ∃ b c : Arr ℂ, ∀ a, toM NC (multab_dagdag s NC NB b c a) ≠
      toM NC (Mat.multab_dagdag NC b c a) := by
  obtain ⟨b, c, hbc⟩ := C10_multab_dagdag_generic_fails hN
  exact ⟨b, c, fun a he => hbc a (by rw [← he, C112_multab_dagdag h])⟩

/-- Non-vacuity: the default factor suits every number of colours, and there are others. -/
theorem unrolls_one (NC : ℕ) : Unrolls NC 1 := by unfold Unrolls; split <;> simp

example : Unrolls 5 2 ∧ Unrolls 6 3 ∧ ¬ Unrolls 5 3 := by
  simp only [Unrolls]; decide

example : IsSU 3 suExample := suExample_su

end GLU.Mat.Sse
