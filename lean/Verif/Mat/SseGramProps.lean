import Verif.Mat.SseGramLemmas

/-!
# C114: the vectorised determinant and reunitarisation
-/

namespace GLU.Mat.Sse

open Complex Matrix

/-- C114: the vectorised elimination returns the determinant. -/
theorem C114_LU_det (s : ISA) {N : ℕ} (hN : 0 < N) (U : Arr ℂ) : LU_det s N U = (toM N U).det := by
  rw [← C18_LU_det_overwrite hN, ← LU_det_overwrite_eq s hN]
  rfl

/-- C114: the vectorised reunitarisation is defined exactly when the portable one is, and then
gives the same matrix. -/
theorem C114_gram_reunit (s : ISA) {NC : ℕ} (hN : 1 < NC) (U array array' : Arr ℂ) :
    (gram_reunit s NC U array).map (toM NC) = (Mat.gram_reunit NC U array').map (toM NC) := by
  unfold gram_reunit Mat.gram_reunit
  split
  · rw [gram_reunit3_eq]
  split
  · rw [gram_reunit2_eq]
  obtain ⟨m, rfl⟩ : ∃ m, NC = m + 1 := ⟨NC - 1, by omega⟩
  unfold gram_reunitN Mat.gram_reunitN
  have hrel := forN_rel (fun _ => Option.Rel (GRel (m + 1))) (n := m + 1 - 1)
    (f := fun k (o : Option (Arr (V2 ℝ))) => o.bind fun U =>
      normRow (m + 1) k (forN k (fun i U => projectRow s (m + 1) k i U) U))
    (g := fun k o => o.bind (gramStep (m + 1) k)) (s := some (ldA U))
    (t := some (fun i j => U (j + (m + 1) * i), U))
    (Option.Rel.some fun r => by
      funext c
      simp only [row, vec]
      rw [show r * (m + 1) + (c : ℕ) = c + (m + 1) * r by ring]
      exact st_ld _)
    (fun k hk a b h => by
      cases h with
      | none => exact Option.Rel.none
      | some h => exact gramStep_rel s h)
  have hinv := gram_inv (m + 1) U
  generalize forN (m + 1 - 1) (fun k (o : Option (Arr (V2 ℝ))) => o.bind fun U =>
      normRow (m + 1) k (forN k (fun i U => projectRow s (m + 1) k i U) U)) (some (ldA U)) = x at hrel ⊢
  generalize forN (m + 1 - 1) (fun k o => o.bind (gramStep (m + 1) k))
      (some (fun i j => U (j + (m + 1) * i), U)) = y at hrel hinv ⊢
  cases hrel with
  | none => rfl
  | @some X t h =>
    simp only [Option.map_some, Option.some.injEq]
    obtain ⟨-, -, h3, h4⟩ := hinv
    have hM : toM (m + 1) (stA X) = toM (m + 1) t.2 := by
      ext r c
      have := congrFun (h r) c
      rw [toM_apply, toM_apply, h4 r c c.2, show stA X (c + (m + 1) * r) = row (m + 1) X r c by
        simp only [row, stA]; rw [show (r : ℕ) * (m + 1) + (c : ℕ) = c + (m + 1) * r by ring], this]
      split
      · rfl
      · next hr => exact congrFun (h3 r (by omega)) c
    rw [completeBottom_eq s (by omega)]
    ext r c
    rw [completeBottom_apply (by omega), completeBottom_apply (by omega), hM]

/-- C114: whatever the vectorised reunitarisation returns is special unitary. -/
theorem C114_special_unitary (s : ISA) {NC : ℕ} (hN : 1 < NC) {U array V : Arr ℂ}
    (h : gram_reunit s NC U array = some V) : IsSU NC V := by
  have := C114_gram_reunit s hN U array array
  rw [h] at this
  cases hg : Mat.gram_reunit NC U array with
  | none => rw [hg] at this; simp at this
  | some W =>
    rw [hg] at this
    have e : toM NC V = toM NC W := by simpa using this
    have := C15_special_unitary hN hg
    unfold IsSU at this ⊢
    rwa [e]

/-- C114: a matrix whose leading rows (columns for three colours, as the routine reads them) are
linearly independent is accepted. -/
theorem C114_defined (s : ISA) {NC : ℕ} (hN : 1 < NC) {U : Arr ℂ} (array : Arr ℂ)
    (h : LinearIndependent ℂ (leading NC U)) : ∃ V, gram_reunit s NC U array = some V := by
  obtain ⟨W, hW⟩ := C15_defined hN array h
  have := C114_gram_reunit s hN U array array
  rw [hW] at this
  cases hg : gram_reunit s NC U array with
  | none => rw [hg] at this; simp at this
  | some V => exact ⟨V, rfl⟩

/-- C114: a special unitary matrix is left as it is. -/
theorem C114_fixes (s : ISA) {NC : ℕ} (hN : 1 < NC) {U : Arr ℂ} (array : Arr ℂ) (h : IsSU NC U) :
    ∃ V, gram_reunit s NC U array = some V ∧ toM NC V = toM NC U := by
  obtain ⟨W, hW, e⟩ := C15_fixes hN array h
  have := C114_gram_reunit s hN U array array
  rw [hW] at this
  cases hg : gram_reunit s NC U array with
  | none => rw [hg] at this; simp at this
  | some V =>
    rw [hg] at this
    exact ⟨V, rfl, by rw [← e]; simpa using this⟩

/-- Non-vacuity: a determinant that needs a row exchange. -/
example (s : ISA) : LU_det s 2 (arr [0, 2, 3 * I, 1] : Arr ℂ) = -6 * I := by
  rw [C114_LU_det s (by norm_num), det_fin_two]
  simp [toM_apply, arr]
  ring

/-- Non-vacuity: a four colour matrix far from unitary is accepted and made special unitary. -/
example (s : ISA) (array : Arr ℂ) : ∃ V, gram_reunit s 4
    (arr [2, 1, 0, 0, 0, 3 * I, 0, 0, 0, 0, 1, 0, 0, 0, 0, 0] : Arr ℂ) array = some V ∧ IsSU 4 V := by
  obtain ⟨V, hV⟩ := C114_defined s (NC := 4) (by norm_num)
    (U := arr [2, 1, 0, 0, 0, 3 * I, 0, 0, 0, 0, 1, 0, 0, 0, 0, 0]) array (by
      rw [Fintype.linearIndependent_iff]
      intro g hg
      have h0 := congrFun hg (0 : Fin 4)
      have h1 := congrFun hg (1 : Fin 4)
      have h2 := congrFun hg (2 : Fin 4)
      simp [Fin.sum_univ_three, leading, arr] at h0 h1 h2
      intro i
      fin_cases i
      · simpa using h0
      · simpa [h0] using h1
      · simpa using h2)
  exact ⟨V, hV, C114_special_unitary s (by norm_num) hV⟩

end GLU.Mat.Sse
