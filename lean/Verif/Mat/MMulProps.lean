import Verif.Mat.MMulLemmas

/-!
# Properties C10 and C11: matrix products
-/

namespace GLU.Mat

open Complex Matrix

/-! ## C10 -/

/-- C10: `multab` is the matrix product, for every number of colours. -/
theorem C10_multab (NC : ℕ) (b c a : Arr ℂ) :
    toM NC (multab NC b c a) = toM NC b * toM NC c := by
  unfold multab
  split
  · next h =>
    subst h
    ext i j
    fin_cases i <;> fin_cases j <;> simp [multab3, Matrix.mul_apply, Fin.sum_univ_three]
  split
  · next h =>
    subst h
    ext i j
    fin_cases i <;> fin_cases j <;> simp [multab2, Matrix.mul_apply, Fin.sum_univ_two]
  · rw [multabN, toM_fillNN]
    ext i j
    simp only [mul_parts, loopSum_eq_fin, Matrix.of_apply, Matrix.mul_apply, toM_apply]
    refine Finset.sum_congr rfl fun m _ => ?_
    rw [Nat.mul_comm (m : ℕ) NC]

/-- C10: `multabdag` is the product with the first factor daggered. -/
theorem C10_multabdag (NC : ℕ) (b c a : Arr ℂ) :
    toM NC (multabdag NC b c a) = (toM NC b)ᴴ * toM NC c := by
  unfold multabdag
  split
  · next h =>
    subst h
    ext i j
    fin_cases i <;> fin_cases j <;>
      simp [multabdag3, Matrix.mul_apply, Fin.sum_univ_three, conjTranspose_apply, conj]
  split
  · next h =>
    subst h
    ext i j
    fin_cases i <;> fin_cases j <;>
      simp [multabdag2, Matrix.mul_apply, Fin.sum_univ_two, conjTranspose_apply, conj]
  · rw [multabdagN, toM_fillNN]
    ext i j
    simp only [dag_mul_parts, loopSum_eq_fin, Matrix.of_apply, Matrix.mul_apply, toM_apply,
      conjTranspose_apply]
    rfl

/-- C10: `multab_dag` is the product with the second factor daggered. -/
theorem C10_multab_dag (NC : ℕ) (b c a : Arr ℂ) :
    toM NC (multab_dag NC b c a) = toM NC b * (toM NC c)ᴴ := by
  unfold multab_dag
  split
  · next h =>
    subst h
    ext i j
    fin_cases i <;> fin_cases j <;>
      simp [multab_dag3, Matrix.mul_apply, Fin.sum_univ_three, conjTranspose_apply, conj]
  split
  · next h =>
    subst h
    ext i j
    fin_cases i <;> fin_cases j <;>
      simp [multab_dag2, Matrix.mul_apply, Fin.sum_univ_two, conjTranspose_apply, conj]
  split
  · next he =>
    have key : multab_dagNeven NC b c a = fillNN NC (fun i j => loopSum NC fun m =>
        b (m + NC * i) * conj (c (m + NC * j))) a := by
      unfold multab_dagNeven fillNN
      apply forN_congr
      intro i _ s
      funext x
      simp only [mul_dag_parts]
      have e := even_inner NC i (fun j => loopSum NC fun m =>
        b (m + NC * i) * conj (c (m + NC * j))) s (NC / 2) x
      rw [show 2 * (NC / 2) = NC by omega] at e
      rw [← e]
      refine congrFun (forN_congr (fun h _ s => ?_) s) x
      have e1 : ∀ m, NC * i + m = m + NC * i := fun m => Nat.add_comm _ _
      have e2 : ∀ m, NC * (2 * h) + m = m + NC * (2 * h) := fun m => Nat.add_comm _ _
      have e3 : ∀ m, NC * (2 * h) + (m + NC) = m + NC * (2 * h + 1) := fun m => by ring
      simp only [e1, e3, e2]
    rw [key, toM_fillNN]
    ext i j
    simp only [loopSum_eq_fin, Matrix.of_apply, Matrix.mul_apply, toM_apply, conjTranspose_apply]
    rfl
  · rw [multab_dagNodd, toM_fillNN]
    ext i j
    simp only [mul_dag_parts, loopSum_eq_fin, Matrix.of_apply, Matrix.mul_apply, toM_apply,
      conjTranspose_apply]
    rfl

/-- C10: the in-place left product. -/
theorem C10_multab_atomic_left (NC : ℕ) (a b : Arr ℂ) :
    toM NC (multab_atomic_left NC a b) = toM NC b * toM NC a := by
  unfold multab_atomic_left
  split
  · next h =>
    subst h
    ext i j
    fin_cases i <;> fin_cases j <;>
      simp [multab_atomic_left3, Matrix.mul_apply, Fin.sum_univ_three, Function.update]
  split
  · next h =>
    subst h
    ext i j
    fin_cases i <;> fin_cases j <;>
      simp [multab_atomic_left2, Matrix.mul_apply, Fin.sum_univ_two, Function.update]
  · ext i j
    simp only [toM_apply, Matrix.mul_apply]
    rw [multab_atomic_leftN, Nat.mul_comm NC (i : ℕ),
      atomic_left_cols NC a b NC le_rfl i j i.2 j.2, if_pos j.2, loopSum_eq_fin]
    simp only [Nat.mul_comm]

/-- C10: the in-place right product. -/
theorem C10_multab_atomic_right (NC : ℕ) (a b : Arr ℂ) :
    toM NC (multab_atomic_right NC a b) = toM NC a * toM NC b := by
  unfold multab_atomic_right
  split
  · next h =>
    subst h
    ext i j
    fin_cases i <;> fin_cases j <;>
      simp [multab_atomic_right3, Matrix.mul_apply, Fin.sum_univ_three, Function.update]
  split
  · next h =>
    subst h
    ext i j
    fin_cases i <;> fin_cases j <;>
      simp [multab_atomic_right2, Matrix.mul_apply, Fin.sum_univ_two, Function.update]
  · ext i j
    simp only [toM_apply, Matrix.mul_apply]
    rw [multab_atomic_rightN, Nat.mul_comm NC (i : ℕ),
      atomic_right_rows NC a b NC le_rfl i j i.2 j.2, if_pos i.2, loopSum_eq_fin]
    simp only [Nat.mul_comm]

/-- C10 for the double-dagger product holds for two and three colours only. -/
theorem C10_multab_dagdag_partial {NC : ℕ} (hN : NC = 2 ∨ NC = 3) (b c a : Arr ℂ) :
    toM NC (multab_dagdag NC b c a) = (toM NC b)ᴴ * (toM NC c)ᴴ := by
  unfold multab_dagdag
  rcases hN with rfl | rfl
  · rw [if_neg (by decide), if_pos rfl]
    ext i j
    fin_cases i <;> fin_cases j <;>
      simp [multab_dagdag2, Matrix.mul_apply, Fin.sum_univ_two, conjTranspose_apply, conj]
  · rw [if_pos rfl]
    ext i j
    fin_cases i <;> fin_cases j <;>
      simp [multab_dagdag3, Matrix.mul_apply, Fin.sum_univ_three, conjTranspose_apply, conj]

/-- What the generic double-dagger product computes: the product of the
transposes, without complex conjugation. -/
theorem C10_multab_dagdag_generic {NC : ℕ} (h2 : NC ≠ 2) (h3 : NC ≠ 3) (b c a : Arr ℂ) :
    toM NC (multab_dagdag NC b c a) = (toM NC b)ᵀ * (toM NC c)ᵀ := by
  unfold multab_dagdag
  rw [if_neg h3, if_neg h2, multab_dagdagN, toM_fillNN]
  ext i j
  simp only [loopSum_eq_fin, Matrix.of_apply, Matrix.mul_apply, toM_apply, Matrix.transpose_apply]
  rw [Finset.mul_sum, ← Finset.sum_add_distrib]
  refine Finset.sum_congr rfl fun m _ => ?_
  rw [mul_parts, Nat.add_comm, Nat.add_comm (NC * (j : ℕ))]

/-- C10 fails for the double-dagger product beyond three colours. -/
theorem C10_multab_dagdag_generic_fails {NC : ℕ} (hN : 3 < NC) :
    ∃ b c : Arr ℂ, ∀ a, toM NC (multab_dagdag NC b c a) ≠ (toM NC b)ᴴ * (toM NC c)ᴴ := by
  refine ⟨fun n => if n = 0 then I else 0, fun n => if n = 0 then 1 else 0, fun a h => ?_⟩
  rw [C10_multab_dagdag_generic (by omega) (by omega)] at h
  have h0 := congrFun (congrFun h ⟨0, by omega⟩) ⟨0, by omega⟩
  simp only [Matrix.mul_apply, Matrix.transpose_apply, conjTranspose_apply, toM_apply] at h0
  rw [Finset.sum_eq_single (⟨0, by omega⟩ : Fin NC), Finset.sum_eq_single (⟨0, by omega⟩ : Fin NC)] at h0
  · simp at h0
    have := congrArg Complex.im h0
    norm_num at this
  · intro m _ hm
    have : (m : ℕ) ≠ 0 := fun h => hm (Fin.ext h)
    have hN0 : NC ≠ 0 := by omega
    simp [this, hN0]
  · simp
  · intro m _ hm
    have : (m : ℕ) ≠ 0 := fun h => hm (Fin.ext h)
    have hN0 : NC ≠ 0 := by omega
    simp [this, hN0]
  · simp

/-! ## C11 -/

/-- C11: `multab_suNC` on special unitary operands. -/
theorem C11_multab_suNC {NC : ℕ} {b c : Arr ℂ} (hb : IsSU NC b) (hc : IsSU NC c) (a : Arr ℂ) :
    toM NC (multab_suNC NC b c a) = toM NC b * toM NC c ∧ IsSU NC (multab_suNC NC b c a) := by
  have key : toM NC (multab_suNC NC b c a) = toM NC b * toM NC c := by
    unfold multab_suNC
    split
    · next h =>
      subst h
      refine complete3 (isSU_mul hb hc) ?_ ?_ ?_ ?_ ?_ ?_ (conj_parts _ _ _ _) (conj_parts _ _ _ _)
          (conj_parts _ _ _ _) <;>
        · simp only [multab_suNC3, arr_zero, arr_succ, Matrix.mul_apply, Fin.sum_univ_three, toM_apply]
          apply Complex.ext <;> simp [creal, cimag] <;> ring
    split
    · next h =>
      subst h
      refine complete2 (isSU_mul hb hc) ?_ ?_ rfl rfl <;>
        · simp only [multab_suNC2, arr_zero, arr_succ, Matrix.mul_apply, Fin.sum_univ_two, toM_apply]
          apply Complex.ext <;> simp [creal, cimag] <;> ring
    · exact C10_multab NC b c a
  exact ⟨key, by unfold IsSU; rw [key]; exact isSU_mul hb hc⟩

/-- C11: `multabdag_suNC` on special unitary operands. -/
theorem C11_multabdag_suNC {NC : ℕ} {b c : Arr ℂ} (hb : IsSU NC b) (hc : IsSU NC c) (a : Arr ℂ) :
    toM NC (multabdag_suNC NC b c a) = (toM NC b)ᴴ * toM NC c ∧
      IsSU NC (multabdag_suNC NC b c a) := by
  have key : toM NC (multabdag_suNC NC b c a) = (toM NC b)ᴴ * toM NC c := by
    unfold multabdag_suNC
    split
    · next h =>
      subst h
      refine complete3 (isSU_mul (isSU_star hb) hc) ?_ ?_ ?_ ?_ ?_ ?_ (conj_parts _ _ _ _)
          (conj_parts _ _ _ _) (conj_parts _ _ _ _) <;>
        · simp only [multabdag_suNC3, arr_zero, arr_succ, Matrix.mul_apply, Fin.sum_univ_three,
            toM_apply, conjTranspose_apply]
          apply Complex.ext <;> simp [creal, cimag] <;> ring
    split
    · next h =>
      subst h
      refine complete2 (isSU_mul (isSU_star hb) hc) ?_ ?_ rfl rfl <;>
        · simp only [multabdag_suNC2, arr_zero, arr_succ, Matrix.mul_apply, Fin.sum_univ_two,
            toM_apply, conjTranspose_apply]
          apply Complex.ext <;> simp [creal, cimag] <;> ring
    · exact C10_multabdag NC b c a
  exact ⟨key, by unfold IsSU; rw [key]; exact isSU_mul (isSU_star hb) hc⟩

/-- C11: `multab_dag_suNC` on special unitary operands. -/
theorem C11_multab_dag_suNC {NC : ℕ} {b c : Arr ℂ} (hb : IsSU NC b) (hc : IsSU NC c) (a : Arr ℂ) :
    toM NC (multab_dag_suNC NC b c a) = toM NC b * (toM NC c)ᴴ ∧
      IsSU NC (multab_dag_suNC NC b c a) := by
  have key : toM NC (multab_dag_suNC NC b c a) = toM NC b * (toM NC c)ᴴ := by
    unfold multab_dag_suNC
    split
    · next h =>
      subst h
      refine complete3 (isSU_mul hb (isSU_star hc)) ?_ ?_ ?_ ?_ ?_ ?_ (conj_parts _ _ _ _)
          (conj_parts _ _ _ _) (conj_parts _ _ _ _) <;>
        · simp only [multab_dag_suNC3, arr_zero, arr_succ, Matrix.mul_apply, Fin.sum_univ_three,
            toM_apply, conjTranspose_apply]
          apply Complex.ext <;> simp [creal, cimag] <;> ring
    split
    · next h =>
      subst h
      refine complete2 (isSU_mul hb (isSU_star hc)) ?_ ?_ rfl rfl <;>
        · simp only [multab_dag_suNC2, arr_zero, arr_succ, Matrix.mul_apply, Fin.sum_univ_two,
            toM_apply, conjTranspose_apply]
          apply Complex.ext <;> simp [creal, cimag] <;> ring
    · exact C10_multab_dag NC b c a
  exact ⟨key, by unfold IsSU; rw [key]; exact isSU_mul hb (isSU_star hc)⟩

/-- C11: `multab_dagdag_suNC` on special unitary operands, two and three colours. -/
theorem C11_multab_dagdag_suNC_partial {NC : ℕ} (hN : NC = 2 ∨ NC = 3) {b c : Arr ℂ}
    (hb : IsSU NC b) (hc : IsSU NC c) (a : Arr ℂ) :
    toM NC (multab_dagdag_suNC NC b c a) = (toM NC b)ᴴ * (toM NC c)ᴴ ∧
      IsSU NC (multab_dagdag_suNC NC b c a) := by
  have key : toM NC (multab_dagdag_suNC NC b c a) = (toM NC b)ᴴ * (toM NC c)ᴴ := by
    unfold multab_dagdag_suNC
    rcases hN with rfl | rfl
    · rw [if_neg (by decide), if_pos rfl]
      refine complete2 (isSU_mul (isSU_star hb) (isSU_star hc)) ?_ ?_ rfl rfl <;>
        · simp only [multab_dagdag_suNC2, arr_zero, arr_succ, Matrix.mul_apply, Fin.sum_univ_two,
            toM_apply, conjTranspose_apply]
          apply Complex.ext <;> simp [creal, cimag] <;> ring
    · rw [if_pos rfl]
      refine complete3 (isSU_mul (isSU_star hb) (isSU_star hc)) ?_ ?_ ?_ ?_ ?_ ?_ (conj_parts _ _ _ _)
          (conj_parts _ _ _ _) (conj_parts _ _ _ _) <;>
        · simp only [multab_dagdag_suNC3, arr_zero, arr_succ, Matrix.mul_apply, Fin.sum_univ_three,
            toM_apply, conjTranspose_apply]
          apply Complex.ext <;> simp [creal, cimag] <;> ring
  exact ⟨key, by unfold IsSU; rw [key]; exact isSU_mul (isSU_star hb) (isSU_star hc)⟩

/-- Four special unitary colours on which the double-dagger product goes wrong. -/
noncomputable def suFour : Arr ℂ := arr [I, 0, 0, 0, 0, -I, 0, 0, 0, 0, 1, 0, 0, 0, 0, 1]

/-- The identity for four colours. -/
noncomputable def idFour : Arr ℂ := arr [1, 0, 0, 0, 0, 1, 0, 0, 0, 0, 1, 0, 0, 0, 0, 1]

/-- C11 fails for the double-dagger product with four colours. -/
theorem C11_multab_dagdag_suNC_fails : IsSU 4 suFour ∧ IsSU 4 idFour ∧
    ∀ a, toM 4 (multab_dagdag_suNC 4 suFour idFour a) ≠ (toM 4 suFour)ᴴ * (toM 4 idFour)ᴴ := by
  have hI : toM 4 idFour = 1 := by
    ext i j
    fin_cases i <;> fin_cases j <;> simp [idFour]
  have hd : toM 4 suFour = diagonal ![I, -I, 1, 1] := by
    ext i j
    fin_cases i <;> fin_cases j <;> simp [suFour]
  refine ⟨?_, ?_, fun a h => ?_⟩
  · rw [IsSU, hd, mem_specialUnitaryGroup_iff, mem_unitaryGroup_iff]
    constructor
    · rw [star_eq_conjTranspose, diagonal_conjTranspose, diagonal_mul_diagonal, ← diagonal_one]
      congr 1
      ext i
      fin_cases i <;> simp
    · rw [det_diagonal, Fin.prod_univ_four]
      simp
  · rw [IsSU, hI]
    exact one_mem _
  · have e : toM 4 (multab_dagdag_suNC 4 suFour idFour a) = (toM 4 suFour)ᵀ * (toM 4 idFour)ᵀ :=
      C10_multab_dagdag_generic (by decide) (by decide) _ _ a
    rw [e, hI, hd] at h
    simp only [transpose_one, mul_one, conjTranspose_one] at h
    have h0 := congrFun (congrFun h 0) 0
    have := congrArg Complex.im h0
    simp [conjTranspose_apply] at this
    norm_num at this

/-- A non-trivial special unitary matrix: rotation of the first two colours with a
phase. -/
noncomputable def suExample : Arr ℂ := arr [0, I, 0, I, 0, 0, 0, 0, 1]

theorem suExample_su : IsSU 3 suExample := by
  rw [IsSU, mem_specialUnitaryGroup_iff, mem_unitaryGroup_iff]
  constructor
  · ext i j
    fin_cases i <;> fin_cases j <;>
      simp [suExample, Matrix.mul_apply, Fin.sum_univ_three, Matrix.star_apply]
  · rw [det_fin_three]
    simp [suExample]

end GLU.Mat
