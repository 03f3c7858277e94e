import Verif.Mat.LULemmas

/-!
# Properties C16 and C18: completion of a truncated link; determinants and cofactors
-/

namespace GLU.Mat

open Complex Matrix

/-! ## Helpers -/

theorem completeBottom_apply {m : ℕ} (hm : 0 < m) (O array : Arr ℂ) (r c : Fin (m + 1)) :
    toM (m + 1) (completeBottom (m + 1) O array) r c =
      if r = Fin.last m then star (adjugate (toM (m + 1) O) c (Fin.last m)) else
        toM (m + 1) O r c := by
  have hsz : (m + 1) * (m + 1) - (m + 1) = (m + 1) * m := by
    rw [Nat.mul_succ, Nat.add_sub_cancel]
  have inv := forN_inv (fun k (V : Arr ℂ) => ∀ r c : Fin (m + 1), toM (m + 1) V r c =
      if r = Fin.last m ∧ (c : ℕ) < k then star (adjugate (toM (m + 1) O) c (Fin.last m)) else
        toM (m + 1) O r c) (n := m + 1)
    (body := fun t O =>
      let i := (m + 1) * (m + 1) - (m + 1) + t
      let array := packKept ((m + 1) * (m + 1) - (m + 1)) (fun j => j % (m + 1) ≠ i % (m + 1)) O array
      let mulfact : ℂ := if (m + 1) % 2 = 0 then (if i % 2 = 0 then -1 else 1)
        else (if i % 2 = 0 then 1 else -1)
      Function.update O i (conj (mulfact * LU_det_overwrite (m + 1 - 1) array))) (s := O)
    (fun r c => by rw [if_neg (by omega)])
    (fun t ht V hV r c => by
      simp only [hsz, Nat.add_sub_cancel]
      rw [toM_apply, Function.update_apply]
      have hi : ((m + 1) * m + t) % (m + 1) = t := by
        rw [Nat.mul_add_mod, Nat.mod_eq_of_lt ht]
      by_cases h : (c : ℕ) + (m + 1) * r = (m + 1) * m + t
      · obtain ⟨h1, h2⟩ := index_inj (n := m + 1) (i := r) (j := c) (j' := t) (i' := m) c.2 ht (by omega)
        have hr : r = Fin.last m := Fin.ext h1
        subst h2
        rw [if_pos h, if_pos (show r = Fin.last m ∧ (c : ℕ) < c + 1 from ⟨hr, by omega⟩), hi, LU_det_overwrite_eq hm,
          toM_packKept (Fin.last m) c _ V array]
        · have hsub : (toM (m + 1) V).submatrix (Fin.last m).succAbove c.succAbove =
              (toM (m + 1) O).submatrix (Fin.last m).succAbove c.succAbove := by
            ext a b
            rw [submatrix_apply, submatrix_apply, hV, if_neg]
            rintro ⟨h3, _⟩
            exact Fin.succAbove_ne _ _ h3
          rw [hsub, adjugate_fin_succ_eq_det_submatrix]
          have hsign : (if (m + 1) % 2 = 0 then (if ((m + 1) * m + c) % 2 = 0 then (-1 : ℂ) else 1)
              else (if ((m + 1) * m + c) % 2 = 0 then 1 else -1)) =
              (-1) ^ ((Fin.last m : ℕ) + c) := by
            have he : (m + 1) * m % 2 = 0 := by
              rcases Nat.mod_two_eq_zero_or_one m with h | h
              · rw [Nat.mul_mod, h, Nat.mul_zero]
              · rw [Nat.mul_mod, show (m + 1) % 2 = 0 by omega, Nat.zero_mul]
            rw [Fin.val_last]
            rcases Nat.mod_two_eq_zero_or_one m with h | h <;>
              rcases Nat.mod_two_eq_zero_or_one (c : ℕ) with h' | h'
            · rw [if_neg (by omega), if_pos (by omega), Even.neg_one_pow (Nat.even_iff.2 (by omega))]
            · rw [if_neg (by omega), if_neg (by omega), Odd.neg_one_pow (Nat.odd_iff.2 (by omega))]
            · rw [if_pos (by omega), if_pos (by omega), Odd.neg_one_pow (Nat.odd_iff.2 (by omega))]
            · rw [if_pos (by omega), if_neg (by omega), Even.neg_one_pow (Nat.even_iff.2 (by omega))]
          rw [hsign]
          rfl
        · intro j hj
          have : j / (m + 1) < m := Nat.div_lt_of_lt_mul hj
          simp only [decide_eq_true_eq, ne_eq, Fin.val_last]
          constructor
          · intro h; exact ⟨h, by omega⟩
          · intro h; exact h.1
        · intro a b
          have h1 : ((Fin.last m).succAbove a : ℕ) < m := by
            rw [Fin.succAbove_last]; exact a.2
          have h2 : (c.succAbove b : ℕ) < m + 1 := (c.succAbove b).2
          have h3 : (m + 1) * ((Fin.last m).succAbove a : ℕ) + (m + 1) ≤ (m + 1) * m := by
            rw [← Nat.mul_succ]; exact Nat.mul_le_mul_left _ h1
          omega
      · rw [if_neg h, show V ((c : ℕ) + (m + 1) * r) = toM (m + 1) V r c from rfl, hV]
        have hne : ¬ (r = Fin.last m ∧ (c : ℕ) = t) := by
          rintro ⟨rfl, rfl⟩
          exact h (by rw [Fin.val_last]; omega)
        by_cases h4 : r = Fin.last m ∧ (c : ℕ) < t
        · rw [if_pos h4, if_pos ⟨h4.1, by omega⟩]
        · rw [if_neg h4, if_neg (fun h5 => by
            rcases Nat.lt_succ_iff_lt_or_eq.1 h5.2 with h6 | h6
            · exact h4 ⟨h5.1, h6⟩
            · exact hne ⟨h5.1, h6⟩)])
  have := inv r c
  unfold completeBottom
  rw [this]
  by_cases hr : r = Fin.last m
  · rw [if_pos ⟨hr, c.2⟩, if_pos hr]
  · rw [if_neg (fun h => hr h.1), if_neg hr]

/-! ## C18 -/

/-- C18: elimination with pivoting returns the determinant of every matrix of every
size, singular ones included. -/
theorem C18_LU_det {N : ℕ} (hN : 0 < N) (U : Arr ℂ) : LU_det N U = (toM N U).det :=
  LU_det_overwrite_eq hN U

/-- C18: the same for the version that overwrites its argument. -/
theorem C18_LU_det_overwrite {N : ℕ} (hN : 0 < N) (U : Arr ℂ) :
    LU_det_overwrite N U = (toM N U).det := LU_det_overwrite_eq hN U

/-- C18: `det` for every number of colours. -/
theorem C18_det {NC : ℕ} (hN : 0 < NC) (U : Arr ℂ) : det NC U = (toM NC U).det := by
  unfold det
  split
  · next h =>
    subst h
    rw [Matrix.det_fin_three]
    simp [det3]
    ring
  · split
    · next h =>
      subst h
      rw [Matrix.det_fin_two]
      simp [det2]
    · exact C18_LU_det hN U

/-- C18: `cofactor_transpose` stores the adjugate and returns the determinant, for every
number of colours above one. -/
theorem C18_cofactor_transpose {NC : ℕ} (hN : 1 < NC) (a b array temp : Arr ℂ) :
    toM NC (cofactor_transpose NC a b array temp).1 = adjugate (toM NC b) ∧
    (cofactor_transpose NC a b array temp).2 = (toM NC b).det := by
  unfold cofactor_transpose
  split
  · next h =>
    subst h
    constructor
    · rw [adjugate_fin_three]
      ext i j
      fin_cases i <;> fin_cases j <;> simp [cofactor_transpose3] <;> ring
    · rw [Matrix.det_fin_three]
      simp [cofactor_transpose3]
      ring
  · split
    · next h =>
      subst h
      constructor
      · rw [adjugate_fin_two]
        ext i j
        fin_cases i <;> fin_cases j <;> simp [cofactor_transpose2]
      · rw [Matrix.det_fin_two]
        simp [cofactor_transpose2]
        ring
    · obtain ⟨m, rfl⟩ : ∃ m, NC = m + 1 := ⟨NC - 1, by omega⟩
      have inv := forN_inv (fun k (V : Arr ℂ) => ∀ r c : Fin (m + 1),
          (c : ℕ) + (m + 1) * r < k → toM (m + 1) V r c = adjugate (toM (m + 1) b) c r)
        (n := (m + 1) * (m + 1))
        (body := fun i temp =>
          let array := packKept ((m + 1) * (m + 1))
            (fun j => j % (m + 1) ≠ i % (m + 1) && j / (m + 1) ≠ i / (m + 1)) b array
          let mulfact : ℂ := if (i / (m + 1) + i % (m + 1)) % 2 = 1 then -1 else 1
          Function.update temp i (mulfact * LU_det (m + 1 - 1) array)) (s := temp)
        (fun r c h => by omega)
        (fun k hk V hV r c h => by
          simp only [Nat.add_sub_cancel]
          rw [toM_apply, Function.update_apply]
          by_cases he : (c : ℕ) + (m + 1) * r = k
          · subst he
            have e1 : ((c : ℕ) + (m + 1) * r) / (m + 1) = r := by
              rw [Nat.add_mul_div_left _ _ (by omega), Nat.div_eq_of_lt c.2, Nat.zero_add]
            have e2 : ((c : ℕ) + (m + 1) * r) % (m + 1) = c := by
              rw [Nat.add_mul_mod_self_left, Nat.mod_eq_of_lt c.2]
            rw [if_pos rfl, e1, e2, C18_LU_det (by omega), toM_packKept r c _ b array,
              adjugate_fin_succ_eq_det_submatrix]
            · congr 1
              split
              · next h => rw [Odd.neg_one_pow (Nat.odd_iff.2 h)]
              · next h => rw [Even.neg_one_pow (Nat.even_iff.2 (by omega))]
            · intro j _
              simp
            · intro x y
              exact index_lt (r.succAbove x).2 (c.succAbove y).2
          · rw [if_neg he]
            exact hV r c (by omega))
      constructor
      · unfold cofactor_transposeN
        simp only []
        rw [C63_transpose]
        ext i j
        rw [Matrix.transpose_apply]
        exact inv j i (index_lt j.2 i.2)
      · unfold cofactor_transposeN
        simp only []
        rw [forN_sum, zero_add, Finset.sum_range]
        have e := congrFun (congrFun (mul_adjugate (toM (m + 1) b)) 0) 0
        rw [Matrix.mul_apply] at e
        simp only [Matrix.smul_apply, Matrix.one_apply_eq, smul_eq_mul, mul_one] at e
        rw [← e]
        refine Finset.sum_congr rfl fun i _ => ?_
        have h := inv 0 i (index_lt (by simp) i.2)
        rw [toM_apply] at h ⊢
        simp only [Fin.val_zero, mul_zero, add_zero] at h ⊢
        rw [h]

/-- A matrix whose first pivot vanishes, so that rows are swapped: the determinant is
`-1` times the product of the swapped diagonal. -/
example : LU_det 4 (arr [0, 2, 0, 0, 1, 0, 0, 0, 0, 0, 3, 0, 0, 0, 0, 5]) = -30 := by
  rw [C18_LU_det (by norm_num)]
  simp [det_succ_row_zero, Fin.sum_univ_succ, Fin.succAbove]
  norm_num

/-! ## C16 -/

/-- C16: a special unitary link whose last row was dropped is restored, for every number
of colours above one, whatever the destination and the work array held before. -/
theorem C16_complete_top {NC : ℕ} (hN : 1 < NC) {U : Arr ℂ} (hU : IsSU NC U)
    {O uout array : Arr ℂ} (h : ∀ x < NC * NC - NC, uout x = U x) :
    toM NC (complete_top NC O uout array) = toM NC U := by
  have hcopy : ∀ x, forN (NC * NC - NC) (fun i O => Function.update O i (uout i)) O x =
      if x < NC * NC - NC then U x else O x := by
    intro x
    have := mapN_apply (NC * NC - NC) (fun i _ => uout i) O x
    unfold mapN at this
    rw [this]
    split
    · next hx => exact h x hx
    · rfl
  unfold complete_top
  simp only []
  split
  · next h3 =>
    subst h3
    apply complete3 hU <;> simp [hcopy]
  · split
    · next h2 =>
      subst h2
      apply complete2 hU <;> simp [hcopy]
    · obtain ⟨m, rfl⟩ : ∃ m, NC = m + 1 := ⟨NC - 1, by omega⟩
      have htop : ∀ r c : Fin (m + 1), r ≠ Fin.last m → toM (m + 1)
          (forN ((m + 1) * (m + 1) - (m + 1)) (fun i O => Function.update O i (uout i)) O) r c =
          toM (m + 1) U r c := by
        intro r c hr
        rw [toM_apply, hcopy, if_pos]
        · rfl
        · have h1 : (r : ℕ) < m := by
            have := r.2
            have : (r : ℕ) ≠ m := fun h => hr (Fin.ext h)
            omega
          have h3 : (m + 1) * (r : ℕ) + (m + 1) ≤ (m + 1) * m := by
            rw [← Nat.mul_succ]; exact Nat.mul_le_mul_left _ h1
          have h4 : (m + 1) * (m + 1) - (m + 1) = (m + 1) * m := by
            rw [Nat.mul_succ, Nat.add_sub_cancel]
          omega
      ext r c
      rw [completeBottom_apply (by omega)]
      by_cases hr : r = Fin.last m
      · rw [if_pos hr, hr, adjugate_fin_succ_eq_det_submatrix]
        have hsub : (toM (m + 1) (forN ((m + 1) * (m + 1) - (m + 1))
            (fun i O => Function.update O i (uout i)) O)).submatrix (Fin.last m).succAbove
            c.succAbove = (toM (m + 1) U).submatrix (Fin.last m).succAbove c.succAbove := by
          ext a b
          exact htop _ _ (Fin.succAbove_ne _ _)
        rw [hsub, ← adjugate_fin_succ_eq_det_submatrix, su_adjugate hU, conjTranspose_apply,
          star_star]
      · rw [if_neg hr, htop r c hr]

/-- Non-vacuity: a non-trivial SU(3) link restored from its first two rows. -/
example : toM 3 (complete_top 3 (arr [7, 7, 7, 7, 7, 7, 7, 7, 7]) suExample (arr [])) =
    toM 3 suExample :=
  C16_complete_top (by norm_num) suExample_su fun _ _ => rfl

end GLU.Mat
