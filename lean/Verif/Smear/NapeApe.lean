import Verif.Smear.GivensApe
import Verif.Mat.NapeProps

/-!
# APE smearing with the n-APE projection (C109)

`GLU_definitions.h:480-486` chooses the projection with `#if (defined NC==2) || (defined NC==3)`.  `defined NC` is 1, so both
comparisons are false: unless the library is configured with `--enable-GIVENS_APE` the symbol `N_APE` is defined for every number
of colours.
-/

namespace GLU.Smear

open Complex Matrix GLU.Mat GLU.Update Finset
open scoped ComplexOrder

/-- `project_APE` with `N_APE` defined, projectors.c:50-85: the result of `nape_reunit` is not looked at. -/
noncomputable def project_NAPE (NC : ℕ) (staple link : Arr ℂ) (smear_alpha al : ℝ) : Option (Arr ℂ) :=
  (nape_reunit NC (apeSum al smear_alpha link staple)).map fun r => r.2

section mean

variable {n : Type} [Fintype n] [DecidableEq n]

theorem mean_contracts {m : ℕ} {S : ℕ → Matrix n n ℂ} (hS : ∀ k < m, (S k)ᴴ * S k = 1) :
    (1 - ((m : ℂ)⁻¹ • ∑ k ∈ range m, S k)ᴴ * ((m : ℂ)⁻¹ • ∑ k ∈ range m, S k)).PosSemidef := by
  rcases Nat.eq_zero_or_pos m with rfl | hm
  · simp only [range_zero, sum_empty, smul_zero, conjTranspose_zero, zero_mul, sub_zero]
    exact PosSemidef.one
  · have hm0 : (m : ℂ) ≠ 0 := by exact_mod_cast hm.ne'
    obtain ⟨Q, hQ⟩ : ∃ Q, Q = (m : ℂ)⁻¹ • ∑ k ∈ range m, S k := ⟨_, rfl⟩
    rw [← hQ]
    have hsum : ∑ k ∈ range m, S k = (m : ℂ) • Q := by rw [hQ, smul_smul, mul_inv_cancel₀ hm0, one_smul]
    have hsumH : ∑ k ∈ range m, (S k)ᴴ = (m : ℂ) • Qᴴ := by
      rw [← conjTranspose_sum, hsum, conjTranspose_smul, star_natCast]
    have e : 1 - Qᴴ * Q = (((m : ℝ)⁻¹ : ℝ) : ℂ) • ∑ k ∈ range m, (S k - Q)ᴴ * (S k - Q) := by
      have e1 : ∑ k ∈ range m, (S k - Q)ᴴ * (S k - Q) = (m : ℂ) • (1 - Qᴴ * Q) := by
        have e2 : ∀ k ∈ range m, (S k - Q)ᴴ * (S k - Q) = 1 - (S k)ᴴ * Q - Qᴴ * S k + Qᴴ * Q := by
          intro k hk
          rw [conjTranspose_sub, sub_mul, mul_sub, mul_sub, hS k (mem_range.1 hk)]
          abel
        rw [sum_congr rfl e2, sum_add_distrib, sum_sub_distrib, sum_sub_distrib, ← Finset.sum_mul, ← Finset.mul_sum, hsum,
          hsumH, sum_const, sum_const, card_range, smul_mul_assoc, mul_smul_comm, smul_sub, ← Nat.cast_smul_eq_nsmul ℂ, ← Nat.cast_smul_eq_nsmul ℂ]
        generalize Qᴴ * Q = Y
        module
      rw [e1, smul_smul]
      push_cast
      rw [inv_mul_cancel₀ hm0, one_smul]
    rw [e]
    refine posSemidef_real (posSemidef_sum _ fun k _ => posSemidef_conjTranspose_mul_self _) (by positivity)

/-- Bounds for a weighted sum of a unitary matrix and a contraction. -/
theorem sum_between {L Q : Matrix n n ℂ} (hL : Lᴴ * L = 1) (hQ : (1 - Qᴴ * Q).PosSemidef) {a t : ℝ} (ht : 0 ≤ t)
    (hat : t ≤ a) :
    (((a : ℂ) • L + (t : ℂ) • Q)ᴴ * ((a : ℂ) • L + (t : ℂ) • Q) - (((a - t) ^ 2 : ℝ) : ℂ) • 1).PosSemidef ∧
    ((((a + t) ^ 2 : ℝ) : ℂ) • 1 - ((a : ℂ) • L + (t : ℂ) • Q)ᴴ * ((a : ℂ) • L + (t : ℂ) • Q)).PosSemidef := by
  have ha : 0 ≤ a := le_trans ht hat
  have hV : ((a : ℂ) • L + (t : ℂ) • Q)ᴴ * ((a : ℂ) • L + (t : ℂ) • Q) =
      ((a : ℂ) * a) • 1 + ((a : ℂ) * t) • (Lᴴ * Q + Qᴴ * L) + ((t : ℂ) * t) • (Qᴴ * Q) := by
    rw [conjTranspose_add, conjTranspose_smul, conjTranspose_smul, Complex.star_def, Complex.conj_ofReal,
      Complex.conj_ofReal, add_mul, mul_add, mul_add, smul_mul_smul_comm, smul_mul_smul_comm, smul_mul_smul_comm,
      smul_mul_smul_comm, hL, smul_add, mul_comm (t : ℂ) a]
    abel
  have p1 : ((L + Q)ᴴ * (L + Q)) = 1 + (Lᴴ * Q + Qᴴ * L) + Qᴴ * Q := by
    rw [conjTranspose_add, add_mul, mul_add, mul_add, hL]
    abel
  have p2 : ((L - Q)ᴴ * (L - Q)) = 1 - (Lᴴ * Q + Qᴴ * L) + Qᴴ * Q := by
    rw [conjTranspose_sub, sub_mul, mul_sub, mul_sub, hL]
    abel
  constructor
  · have e : ((a : ℂ) • L + (t : ℂ) • Q)ᴴ * ((a : ℂ) • L + (t : ℂ) • Q) - (((a - t) ^ 2 : ℝ) : ℂ) • 1 =
        (((a * t : ℝ)) : ℂ) • ((L + Q)ᴴ * (L + Q)) + ((t * (a - t) : ℝ) : ℂ) • (1 - Qᴴ * Q) := by
      rw [hV, p1]
      generalize Lᴴ * Q + Qᴴ * L = X
      generalize Qᴴ * Q = Y
      push_cast
      module
    rw [e]
    exact (posSemidef_real (posSemidef_conjTranspose_mul_self _) (by positivity)).add
      (posSemidef_real hQ (mul_nonneg ht (by linarith)))
  · have e : (((a + t) ^ 2 : ℝ) : ℂ) • 1 - ((a : ℂ) • L + (t : ℂ) • Q)ᴴ * ((a : ℂ) • L + (t : ℂ) • Q) =
        (((a * t : ℝ)) : ℂ) • ((L - Q)ᴴ * (L - Q)) + ((t * (a + t) : ℝ) : ℂ) • (1 - Qᴴ * Q) := by
      rw [hV, p2]
      generalize Lᴴ * Q + Qᴴ * L = X
      generalize Qᴴ * Q = Y
      push_cast
      module
    rw [e]
    exact (posSemidef_real (posSemidef_conjTranspose_mul_self _) (by positivity)).add
      (posSemidef_real hQ (by positivity))

end mean

/-- C109, the APE link of the default build: for a special unitary link and `m` special unitary staples the projection succeeds
as soon as the link has more weight than the staples together, the ratio of the two extreme sizes being at most
`2^19/√(2 NC)`; the link is unitary up to the tolerance, and its determinant is a positive number. -/
theorem C109_ape_partial {NC : ℕ} (hN : 0 < NC) {staple link : Arr ℂ} {alpha al : ℝ} (hl : IsSU NC link)
    {m : ℕ} {S : ℕ → Matrix (Fin NC) (Fin NC) ℂ} (hS : ∀ k < m, S k ∈ specialUnitaryGroup (Fin NC) ℂ)
    (hs : toM NC staple = ∑ k ∈ range m, S k) (ha : 0 ≤ alpha) (hlt : m * alpha < al)
    (hr : 2 * NC * (al + m * alpha) ^ 2 ≤ 4 ^ 19 * (al - m * alpha) ^ 2) :
    ∃ W, project_NAPE NC staple link alpha al = some W ∧
      (∀ i j, ‖((toM NC W)ᴴ * toM NC W - 1) i j‖ ≤ PREC_TOL NC / 2) ∧
      (∃ d : ℝ, 0 < d ∧ (toM NC W).det = d) ∧
      ∃ (c : ℂ) (P : Matrix (Fin NC) (Fin NC) ℂ), P.PosDef ∧
        c ^ NC * ((al : ℂ) • toM NC link + (alpha : ℂ) • toM NC staple).det = 1 ∧
        toM NC W = c • (((al : ℂ) • toM NC link + (alpha : ℂ) • toM NC staple) * P) := by
  have hL : (toM NC link)ᴴ * toM NC link = 1 := mem_unitaryGroup_iff'.1 (mem_specialUnitaryGroup_iff.1 hl).1
  have hQ := mean_contracts (m := m) (S := S) fun k hk => mem_unitaryGroup_iff'.1 (mem_specialUnitaryGroup_iff.1 (hS k hk)).1
  have hV : toM NC (apeSum al alpha link staple) =
      (al : ℂ) • toM NC link + ((m * alpha : ℝ) : ℂ) • ((m : ℂ)⁻¹ • ∑ k ∈ range m, S k) := by
    rw [apeSum_toM, hs, smul_smul]
    rcases Nat.eq_zero_or_pos m with rfl | hm
    · simp
    · have hm0 : (m : ℂ) ≠ 0 := by exact_mod_cast hm.ne'
      congr 2
      push_cast
      field_simp
  obtain ⟨b1, b2⟩ := sum_between hL hQ (a := al) (t := m * alpha) (by positivity) hlt.le
  rw [← hV] at b1 b2
  obtain ⟨W, hW⟩ := C109_conditioned hN (pow_pos (sub_pos.2 hlt) 2) b1 b2 hr
  obtain ⟨h1, ⟨d, d0, d1, -⟩, c, P, h3, h4, h5⟩ := C109_projection_partial hN hW
  rw [apeSum_toM] at h3 h5
  exact ⟨W, by unfold project_NAPE; rw [hW]; rfl, h1, ⟨d, d0, d1⟩, c, P, h4, h3, h5⟩

/-- The weights 0.6 of the link and 0.4/6 of each of six staples are covered. -/
example : 2 * (3 : ℝ) * (0.6 + (6 : ℕ) * (0.4 / 6)) ^ 2 ≤ 4 ^ 19 * (0.6 - (6 : ℕ) * (0.4 / 6)) ^ 2 ∧
    ((6 : ℕ) : ℝ) * (0.4 / 6) < 0.6 := by
  norm_num

/-- C109, the APE link does not move if the staples agree with the link. -/
theorem C109_ape_still {NC : ℕ} (hN : 0 < NC) {staple link : Arr ℂ} {alpha al : ℝ} (hl : IsSU NC link) {m : ℝ}
    (hs : toM NC staple = (m : ℂ) • toM NC link) (hp : 0 < al + alpha * m) :
    ∃ W, project_NAPE NC staple link alpha al = some W ∧ toM NC W = toM NC link := by
  obtain ⟨W, h1, h2⟩ := C109_multiple hN (U := apeSum al alpha link staple) hl hp (by
    rw [apeSum_toM, hs, smul_smul, ← add_smul]
    push_cast
    rfl)
  exact ⟨W, by unfold project_NAPE; rw [h1]; rfl, h2⟩

/-- C109 does not hold for every field: with the weights 0.4 and 0.6/6 there is a special unitary link with six special unitary
staples for which the smeared link is not a number. -/
theorem C109_ape_singular : ∃ (link staple : Arr ℂ) (S : ℕ → Matrix (Fin 3) (Fin 3) ℂ), IsSU 3 link ∧
    (∀ k < 6, S k ∈ specialUnitaryGroup (Fin 3) ℂ) ∧ toM 3 staple = ∑ k ∈ range 6, S k ∧
    project_NAPE 3 staple link (0.6 / 6) 0.4 = none := by
  have su : ∀ v : Fin 3 → ℂ, (∀ i, star (v i) * v i = 1) → v 0 * v 1 * v 2 = 1 →
      diagonal v ∈ specialUnitaryGroup (Fin 3) ℂ := by
    intro v h1 h2
    rw [mem_specialUnitaryGroup_iff, mem_unitaryGroup_iff', star_eq_conjTranspose, diagonal_conjTranspose,
      diagonal_mul_diagonal, det_diagonal, Fin.prod_univ_three]
    refine ⟨?_, h2⟩
    rw [← diagonal_one]
    congr 1
    funext i
    exact h1 i
  have hl : toM 3 (fun n => if n % 4 = 0 then (1 : ℂ) else 0) = 1 := by
    ext i j
    fin_cases i <;> fin_cases j <;> simp [toM_apply]
  have hs : toM 3 (fun n => if n = 8 then (6 : ℂ) else if n % 4 = 0 then -4 else 0) = diagonal ![-4, -4, 6] := by
    ext i j
    fin_cases i <;> fin_cases j <;> simp [toM_apply, diagonal]
  refine ⟨fun n => if n % 4 = 0 then 1 else 0, fun n => if n = 8 then 6 else if n % 4 = 0 then -4 else 0,
    fun k => if k = 0 then 1 else diagonal ![-1, -1, 1], ?_, ?_, ?_, ?_⟩
  · show toM 3 _ ∈ _
    rw [hl]
    exact one_mem _
  · intro k _
    dsimp only
    split
    · exact one_mem _
    · refine su _ (fun i => ?_) (by simp)
      fin_cases i <;> simp
  · rw [hs]
    ext i j
    fin_cases i <;> fin_cases j <;> simp [sum_range_succ, diagonal, Matrix.add_apply] <;> norm_num
  · unfold project_NAPE
    rw [Option.map_eq_none_iff, ← Option.not_isSome_iff_eq_none, C109_defined (by norm_num), not_not, apeSum_toM, hl, hs]
    have : ((0.4 : ℝ) : ℂ) • (1 : Matrix (Fin 3) (Fin 3) ℂ) + ((0.6 / 6 : ℝ) : ℂ) • diagonal ![(-4 : ℂ), -4, 6] =
        diagonal ![0, 0, 1] := by
      ext i j
      fin_cases i <;> fin_cases j <;> simp [diagonal] <;> norm_num
    rw [this, det_diagonal, Fin.prod_univ_three]
    simp

end GLU.Smear
