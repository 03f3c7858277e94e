import Verif.Mat.UNopsProps
import Mathlib.Analysis.Complex.Norm

/-!
# Property C24: the unitarity check
-/

namespace GLU.Mat

open Complex Matrix

/-- First loop: `none` after all passes means that no check failed. -/
theorem check_loop (n : ℕ) (bad : ℕ → Prop) [DecidablePred bad] :
    forN n (fun i (e : Option Bool) => e <|> (if bad i then some false else none)) none =
      if ∃ i < n, bad i then some false else none := by
  induction n with
  | zero => simp [forN]
  | succ n ih =>
    rw [forN, ih]
    by_cases h : ∃ i < n, bad i
    · have h' : ∃ i < n + 1, bad i := by obtain ⟨i, h1, h2⟩ := h; exact ⟨i, by omega, h2⟩
      rw [if_pos h, if_pos h']; rfl
    · rw [if_neg h]
      by_cases h2 : bad n
      · rw [if_pos h2, if_pos ⟨n, by omega, h2⟩]; rfl
      · rw [if_neg h2, if_neg]
        · rfl
        · rintro ⟨i, h3, h4⟩
          rcases Nat.lt_succ_iff_lt_or_eq.1 h3 with h5 | rfl
          · exact h ⟨i, h5, h4⟩
          · exact h2 h4

theorem stuck_loop (n : ℕ) (f : ℕ → ℝ × Option Bool → ℝ × Option Bool) (s : ℝ × Option Bool)
    (hs : s.2.isSome) :
    (forN n (fun j s => if s.2.isSome then s else f j s) s) = s := by
  induction n with
  | zero => rfl
  | succ n ih => rw [forN, ih, if_pos hs]

theorem diag_index {NC r c : ℕ} (hr : r < NC) (hc : c < NC) :
    (c + NC * r) % (NC + 1) = 0 ↔ r = c := by
  constructor
  · intro h
    have h1 : (c + NC * r + r) % (NC + 1) = r % (NC + 1) := by
      rw [Nat.add_mod, h, Nat.zero_add, Nat.mod_mod]
    rw [show c + NC * r + r = c + (NC + 1) * r by ring, Nat.add_mul_mod_self_left,
      Nat.mod_eq_of_lt (by omega), Nat.mod_eq_of_lt (by omega)] at h1
    exact h1.symm
  · rintro rfl
    rw [show r + NC * r = (NC + 1) * r by ring]
    simp

theorem sum_normSq (NC : ℕ) (M : Matrix (Fin NC) (Fin NC) ℂ) :
    Matrix.trace (M * Mᴴ) = ((∑ i, ∑ j, normSq (M i j) : ℝ) : ℂ) := by
  simp only [Matrix.trace, Matrix.diag, Matrix.mul_apply, conjTranspose_apply, star_def,
    Complex.mul_conj]
  push_cast
  rfl

theorem frobenius_swap (NC : ℕ) (U : Matrix (Fin NC) (Fin NC) ℂ) :
    ∑ i, ∑ j, normSq ((Uᴴ * U - 1) i j) = ∑ i, ∑ j, normSq ((U * Uᴴ - 1) i j) := by
  have h1 := sum_normSq NC (Uᴴ * U - 1)
  have h2 := sum_normSq NC (U * Uᴴ - 1)
  have e : Matrix.trace ((Uᴴ * U - 1) * (Uᴴ * U - 1)ᴴ) =
      Matrix.trace ((U * Uᴴ - 1) * (U * Uᴴ - 1)ᴴ) := by
    rw [conjTranspose_sub, conjTranspose_sub, conjTranspose_mul, conjTranspose_mul,
      conjTranspose_conjTranspose, conjTranspose_one]
    simp only [mul_sub, sub_mul, mul_one, one_mul, trace_sub]
    rw [show Uᴴ * U * (Uᴴ * U) = Uᴴ * (U * Uᴴ * U) by simp only [mul_assoc],
      trace_mul_comm Uᴴ (U * Uᴴ * U), trace_mul_comm Uᴴ U]
    simp only [mul_assoc]
  rw [h1, h2] at e
  exact_mod_cast e

/-- C24, soundness: a matrix reported unitary has rows orthonormal within the tolerance,
entry by entry, and columns orthonormal within `NC` times the tolerance. -/
theorem C24_sound {NC : ℕ} {U temp : Arr ℂ} (h : is_unitary NC U temp = true) :
    (∀ i j, ‖(toM NC U * (toM NC U)ᴴ - 1) i j‖ ≤ PREC_TOL NC) ∧
    (∀ i j, ‖((toM NC U)ᴴ * toM NC U - 1) i j‖ ≤ NC * PREC_TOL NC) := by
  classical
  have htol : 0 ≤ PREC_TOL NC := by unfold PREC_TOL; positivity
  unfold is_unitary at h
  simp only [] at h
  rw [check_loop (NC * NC) (fun i => |if i % (NC + 1) = 0 then ‖multab_dag NC U U temp i‖ - 1
    else ‖multab_dag NC U U temp i‖| > PREC_TOL NC)] at h
  have hall : ¬ ∃ i < NC * NC, |if i % (NC + 1) = 0 then ‖multab_dag NC U U temp i‖ - 1
      else ‖multab_dag NC U U temp i‖| > PREC_TOL NC := by
    intro hb
    rw [if_pos hb] at h
    rw [stuck_loop NC (fun j s =>
          (forN NC (fun i vv => vv + (U (NC * i) * conj (U (NC * i + j))).re) s.1,
            if |forN NC (fun i vv => vv + (U (NC * i) * conj (U (NC * i + j))).re) s.1 - 1| / NC >
              PREC_TOL NC then some false else none)) (0, some false) rfl] at h
    rw [stuck_loop NC _ (0, some false) rfl] at h
    simp at h
  have hrow : ∀ i j, ‖(toM NC U * (toM NC U)ᴴ - 1) i j‖ ≤ PREC_TOL NC := by
    intro i j
    have hij : ¬ |if ((j : ℕ) + NC * i) % (NC + 1) = 0 then ‖multab_dag NC U U temp (j + NC * i)‖ - 1
        else ‖multab_dag NC U U temp (j + NC * i)‖| > PREC_TOL NC :=
      fun hb => hall ⟨_, index_lt i.2 j.2, hb⟩
    have ht : multab_dag NC U U temp (j + NC * i) = (toM NC U * (toM NC U)ᴴ) i j := by
      rw [← C10_multab_dag NC U U temp]; rfl
    rw [ht, not_lt] at hij
    rw [Matrix.sub_apply]
    by_cases he : i = j
    · subst he
      rw [if_pos ((diag_index i.2 i.2).2 rfl)] at hij
      rw [Matrix.one_apply_eq]
      have hr : (toM NC U * (toM NC U)ᴴ) i i = ((∑ k, normSq (toM NC U i k) : ℝ) : ℂ) := by
        rw [Matrix.mul_apply]
        simp only [conjTranspose_apply, star_def, Complex.mul_conj]
        push_cast; rfl
      have hn : 0 ≤ ∑ k, normSq (toM NC U i k) := Finset.sum_nonneg fun k _ => normSq_nonneg _
      rw [hr] at hij ⊢
      rw [Complex.norm_real, Real.norm_of_nonneg hn] at hij
      rw [← ofReal_one, ← ofReal_sub, Complex.norm_real, Real.norm_eq_abs]
      exact hij
    · have hne : ¬ ((j : ℕ) + NC * i) % (NC + 1) = 0 := fun hz =>
        he (Fin.ext ((diag_index i.2 j.2).1 hz))
      rw [if_neg hne, abs_of_nonneg (norm_nonneg _)] at hij
      rw [Matrix.one_apply_ne he, sub_zero]
      exact hij
  refine ⟨hrow, fun i j => ?_⟩
  have hsum : ∑ a, ∑ b, normSq ((toM NC U * (toM NC U)ᴴ - 1) a b) ≤ (NC * PREC_TOL NC) ^ 2 := by
    calc ∑ a, ∑ b, normSq ((toM NC U * (toM NC U)ᴴ - 1) a b)
        ≤ ∑ _a : Fin NC, ∑ _b : Fin NC, PREC_TOL NC ^ 2 := by
          refine Finset.sum_le_sum fun a _ => Finset.sum_le_sum fun b _ => ?_
          rw [normSq_eq_norm_sq]
          exact pow_le_pow_left₀ (norm_nonneg _) (hrow a b) 2
      _ = (NC * PREC_TOL NC) ^ 2 := by simp; ring
  rw [← frobenius_swap] at hsum
  have hone : normSq (((toM NC U)ᴴ * toM NC U - 1) i j) ≤ (NC * PREC_TOL NC) ^ 2 := by
    refine le_trans ?_ hsum
    refine le_trans ?_ (Finset.single_le_sum
      (f := fun a => ∑ b, normSq (((toM NC U)ᴴ * toM NC U - 1) a b))
      (fun a _ => Finset.sum_nonneg fun b _ => normSq_nonneg _) (Finset.mem_univ i))
    exact Finset.single_le_sum (f := fun b => normSq (((toM NC U)ᴴ * toM NC U - 1) i b))
      (fun b _ => normSq_nonneg _) (Finset.mem_univ j)
  rw [normSq_eq_norm_sq] at hone
  exact le_of_sq_le_sq hone (by positivity)

/-- C24, completeness: every unitary matrix is accepted. -/
theorem C24_complete {NC : ℕ} {U : Arr ℂ} (hU : toM NC U ∈ unitaryGroup (Fin NC) ℂ)
    (temp : Arr ℂ) : is_unitary NC U temp = true := by
  classical
  have htol : 0 ≤ PREC_TOL NC := by unfold PREC_TOL; positivity
  have h1 : toM NC U * (toM NC U)ᴴ = 1 := mem_unitaryGroup_iff.1 hU
  have h2 : (toM NC U)ᴴ * toM NC U = 1 := mem_unitaryGroup_iff'.1 hU
  unfold is_unitary
  simp only []
  rw [check_loop (NC * NC) (fun i => |if i % (NC + 1) = 0 then ‖multab_dag NC U U temp i‖ - 1
    else ‖multab_dag NC U U temp i‖| > PREC_TOL NC), if_neg]
  · have zero_ok : ¬ (|(1 : ℝ) - 1| / NC > PREC_TOL NC) := by
      rw [sub_self, abs_zero, zero_div]; exact not_lt.2 htol
    have col := forN_inv (fun j (s : ℝ × Option Bool) => s.2 = none ∧ s.1 = if j = 0 then 0 else 1)
      (n := NC) (body := fun j s =>
        if s.2.isSome then s else
          (forN NC (fun i vv => vv + (U (NC * i) * conj (U (NC * i + j))).re) s.1,
            if |forN NC (fun i vv => vv + (U (NC * i) * conj (U (NC * i + j))).re) s.1 - 1| / NC >
              PREC_TOL NC then some false else none)) (s := (0, none)) (by simp)
      (fun j hj s hs => by
        obtain ⟨s1, s2⟩ := hs
        have hv : forN NC (fun i vv => vv + (U (NC * i) * conj (U (NC * i + j))).re) s.1 = 1 := by
          rw [forN_sum, ← Complex.re_sum, Finset.sum_range]
          have e : ∑ i : Fin NC, U (NC * i) * conj (U (NC * i + j)) =
              ((toM NC U)ᴴ * toM NC U) ⟨j, hj⟩ ⟨0, by omega⟩ := by
            rw [Matrix.mul_apply]
            refine Finset.sum_congr rfl fun i _ => ?_
            simp only [conjTranspose_apply, toM_apply, conj]
            rw [mul_comm, Nat.zero_add, Nat.add_comm]
          rw [e, h2, s2]
          by_cases hz : j = 0
          · subst hz; simp
          · rw [Matrix.one_apply_ne (by simpa [Fin.ext_iff] using hz)]; simp [hz]
        rw [s1]
        simp only [Option.isSome_none, Bool.false_eq_true, if_false, hv, if_neg zero_ok]
        simp)
    rw [col.1]
    have row := forN_inv (fun j (s : ℝ × Option Bool) => s.2 = none ∧ s.1 = if j = 0 then 0 else 1)
      (n := NC) (body := fun j s =>
        if s.2.isSome then s else
          (forN NC (fun i vv => vv + (U i * conj (U (i + NC * j))).re) s.1,
            if |forN NC (fun i vv => vv + (U i * conj (U (i + NC * j))).re) s.1 - 1| / NC >
              PREC_TOL NC then some true else none)) (s := (0, none)) (by simp)
      (fun j hj s hs => by
        obtain ⟨s1, s2⟩ := hs
        have hv : forN NC (fun i vv => vv + (U i * conj (U (i + NC * j))).re) s.1 = 1 := by
          rw [forN_sum, ← Complex.re_sum, Finset.sum_range]
          have e : ∑ i : Fin NC, U i * conj (U (i + NC * j)) =
              (toM NC U * (toM NC U)ᴴ) ⟨0, by omega⟩ ⟨j, hj⟩ := by
            rw [Matrix.mul_apply]
            refine Finset.sum_congr rfl fun i _ => ?_
            simp only [conjTranspose_apply, toM_apply, conj]
            simp
          rw [e, h1, s2]
          by_cases hz : j = 0
          · subst hz; simp
          · rw [Matrix.one_apply_ne (by simpa [Fin.ext_iff, eq_comm] using hz)]; simp [hz]
        rw [s1]
        simp only [Option.isSome_none, Bool.false_eq_true, if_false, hv, if_neg zero_ok]
        simp)
    rw [row.1]
    rfl
  · rintro ⟨x, hx, hb⟩
    have hN : 0 < NC := by
      rcases Nat.eq_zero_or_pos NC with h | h
      · subst h; simp at hx
      · exact h
    have hr : x / NC < NC := (Nat.div_lt_iff_lt_mul hN).2 hx
    have hc : x % NC < NC := Nat.mod_lt _ hN
    have hxe : x = x % NC + NC * (x / NC) := (Nat.mod_add_div x NC).symm
    have ht : multab_dag NC U U temp x = (toM NC U * (toM NC U)ᴴ) ⟨x / NC, hr⟩ ⟨x % NC, hc⟩ := by
      rw [← C10_multab_dag NC U U temp, toM_apply, ← hxe]
    rw [ht, h1] at hb
    by_cases hd : x % (NC + 1) = 0
    · rw [if_pos hd] at hb
      rw [hxe] at hd
      have := (diag_index hr hc).1 hd
      have e : (⟨x / NC, hr⟩ : Fin NC) = ⟨x % NC, hc⟩ := Fin.ext this
      rw [e, Matrix.one_apply_eq, norm_one, sub_self, abs_zero] at hb
      linarith
    · rw [if_neg hd] at hb
      rw [hxe] at hd
      have hne : x / NC ≠ x % NC := fun h => hd ((diag_index hr hc).2 h)
      rw [Matrix.one_apply_ne (by simpa [Fin.ext_iff] using hne)] at hb
      simp only [norm_zero, abs_zero] at hb
      linarith

/-- Non-vacuity of completeness and soundness: a non-trivial unitary matrix is
accepted. -/
example : is_unitary 3 suExample (arr []) = true := by
  apply C24_complete
  rw [mem_unitaryGroup_iff]
  ext i j
  fin_cases i <;> fin_cases j <;>
    simp [suExample, Matrix.mul_apply, Fin.sum_univ_three, Matrix.star_apply]

/-- The check does reject: twice the identity is refused. -/
example : is_unitary 3 (arr [2, 0, 0, 0, 2, 0, 0, 0, 2]) (arr []) = false := by
  by_contra h
  have := (C24_sound (Bool.not_eq_false _ ▸ h)).1 0 0
  have e : (toM 3 (arr [(2 : ℂ), 0, 0, 0, 2, 0, 0, 0, 2]) *
      (toM 3 (arr [(2 : ℂ), 0, 0, 0, 2, 0, 0, 0, 2]))ᴴ - 1) 0 0 = (3 : ℂ) := by
    simp [Matrix.mul_apply, Fin.sum_univ_three, Complex.ext_iff]
    norm_num
  rw [e] at this
  norm_num [PREC_TOL] at this

end GLU.Mat
