import Verif.Update.CreutzModel
import Verif.Update.Props

/-!
# C28 for the heat bath of Creutz
-/

namespace GLU.Update

open Complex

theorem creutz_range {NORM : ℝ} (hN : 0 < NORM) {r : ℕ → ℝ} (hr : ∀ n, 0 ≤ r n ∧ r n < 1) (n : ℕ) :
    ∃ d, (Creutz (Real.exp (-2 / NORM)) NORM r n).1 = some d ∧ 0 ≤ d ∧ d ≤ 2 := by
  set xl := Real.exp (-2 / NORM) with hxl
  have hx0 : 0 < xl := Real.exp_pos _
  have hx1 : xl < 1 := by
    rw [hxl, Real.exp_lt_one_iff]
    exact div_neg_of_neg_of_pos (by norm_num) hN
  obtain ⟨h0, h1⟩ := hr (n + 1)
  have hy1 : xl ≤ xl + (1 - xl) * r (n + 1) := by nlinarith
  have hy2 : xl + (1 - xl) * r (n + 1) ≤ 1 := by nlinarith
  have hy0 : 0 < xl + (1 - xl) * r (n + 1) := by linarith
  unfold Creutz
  simp only
  rw [if_neg (not_le.2 hy0)]
  refine ⟨_, rfl, ?_, ?_⟩
  · have := Real.log_nonpos hy0.le hy2
    nlinarith
  · have hl : Real.log xl ≤ Real.log (xl + (1 - xl) * r (n + 1)) := Real.log_le_log hx0 hy1
    rw [hxl, Real.log_exp] at hl
    have := mul_le_mul_of_nonneg_right hl hN.le
    rw [div_mul_cancel₀ _ hN.ne'] at this
    linarith

theorem drawCreutz_range {NORM : ℝ} (hN : 0 < NORM) {r : ℕ → ℝ} (hr : ∀ n, 0 ≤ r n ∧ r n < 1) (n : ℕ) :
    ∃ d, (drawCreutz NORM r n).1 = some d ∧ 0 ≤ d ∧ d ≤ 2 := by
  have hw : ∀ fuel n, ∃ d, (creutzWhile (Real.exp (-2 / NORM)) NORM r fuel n).1 = some d ∧ 0 ≤ d ∧ d ≤ 2 := by
    intro fuel
    induction fuel with
    | zero => intro n; exact creutz_range hN hr n
    | succ fuel ih =>
      intro n
      unfold creutzWhile
      split
      · exact ih _
      · exact creutz_range hN hr n
  unfold drawCreutz
  simp only
  split
  · exact hw _ _
  · exact creutz_range hN hr n

/-- **C28** for a build without `USE_KP`: whatever the random numbers, also when all draws are rejected, the element that
is generated is special unitary. -/
theorem C28_creutz {NORM : ℝ} (hN : 0 < NORM) {r : ℕ → ℝ} (hr : ∀ n, 0 ≤ r n ∧ r n < 1) (n : ℕ) {s0 s1 : ℂ}
    (hs : normSq s0 + normSq s1 = 1) :
    ∃ g, generateCreutz s0 s1 NORM r n = some g ∧ normSq g.1.1 + normSq g.1.2 = 1 := by
  obtain ⟨d, hd, h0, h2⟩ := drawCreutz_range hN hr n
  unfold generateCreutz
  simp only [hd, Option.map_some]
  refine ⟨_, rfl, ?_⟩
  simp only
  rw [su2From_norm _ _ _ (hr _).1 (hr _).2.le, hs, abs_of_nonneg (by nlinarith)]
  ring

/-- The value of the trace that the `k`-th pair of random numbers proposes. -/
noncomputable def creutzA (NORM : ℝ) (r : ℕ → ℝ) (n k : ℕ) : ℝ :=
  1 + Real.log (Real.exp (-2 / NORM) + (1 - Real.exp (-2 / NORM)) * r (n + 2 * k + 1)) * NORM

theorem creutz_eq {NORM : ℝ} (hN : 0 < NORM) {r : ℕ → ℝ} (hr : ∀ n, 0 ≤ r n ∧ r n < 1) (n k : ℕ) :
    Creutz (Real.exp (-2 / NORM)) NORM r (n + 2 * k) =
      (some (1 - creutzA NORM r n k), 1 - creutzA NORM r n k ^ 2 < r (n + 2 * k) ^ 2) := by
  have hx0 : 0 < Real.exp (-2 / NORM) := Real.exp_pos _
  have hx1 : Real.exp (-2 / NORM) < 1 := by
    rw [Real.exp_lt_one_iff]
    exact div_neg_of_neg_of_pos (by norm_num) hN
  have h0 := (hr (n + 2 * k + 1)).1
  have hy0 : 0 < Real.exp (-2 / NORM) + (1 - Real.exp (-2 / NORM)) * r (n + 2 * k + 1) := by nlinarith
  unfold Creutz creutzA
  simp only
  rw [if_neg (not_le.2 hy0), sq, sq]

theorem creutzWhile_eq {NORM : ℝ} (hN : 0 < NORM) {r : ℕ → ℝ} (hr : ∀ n, 0 ≤ r n ∧ r n < 1) (n : ℕ) (fuel j k : ℕ) (hk : k ≤ fuel)
    (hrej : ∀ i < k, 1 - creutzA NORM r n (j + i) ^ 2 < r (n + 2 * (j + i)) ^ 2)
    (hacc : ¬1 - creutzA NORM r n (j + k) ^ 2 < r (n + 2 * (j + k)) ^ 2) :
    creutzWhile (Real.exp (-2 / NORM)) NORM r fuel (n + 2 * j) = (some (1 - creutzA NORM r n (j + k)), n + 2 * (j + k) + 2) := by
  induction fuel generalizing j k with
  | zero =>
    obtain rfl : k = 0 := by omega
    unfold creutzWhile
    rw [creutz_eq hN hr]
    rfl
  | succ fuel ih =>
    unfold creutzWhile
    rw [creutz_eq hN hr]
    simp only
    cases k with
    | zero => rw [if_neg (by simpa using hacc)]; rfl
    | succ k =>
      rw [if_pos (by simpa using hrej 0 (by omega))]
      have e : ∀ i, j + (i + 1) = j + 1 + i := fun i => by omega
      rw [show n + 2 * j + 2 = n + 2 * (j + 1) by ring, ih (j + 1) k (by omega)
        (fun i hi => by rw [← e]; exact hrej (i + 1) (by omega)) (by rw [← e]; exact hacc), ← e k]

/-- **C28** for a build without `USE_KP`: the element is made from the first pair of random numbers that is accepted, out of disjoint
pairs, and from two numbers for its direction that were not used before; the stream goes on behind them. -/
theorem C28_creutz_fresh {NORM : ℝ} (hN : 0 < NORM) {r : ℕ → ℝ} (hr : ∀ n, 0 ≤ r n ∧ r n < 1) (n : ℕ) (s0 s1 : ℂ) {k : ℕ}
    (hk : k ≤ NHBMAX) (hrej : ∀ i < k, 1 - creutzA NORM r n i ^ 2 < r (n + 2 * i) ^ 2)
    (hacc : r (n + 2 * k) ^ 2 ≤ 1 - creutzA NORM r n k ^ 2) :
    generateCreutz s0 s1 NORM r n =
      some (su2From (1 - creutzA NORM r n k) (r (n + 2 * k + 2)) (r (n + 2 * k + 3)) s0 s1, n + 2 * k + 4) := by
  have hd : drawCreutz NORM r n = (some (1 - creutzA NORM r n k), n + 2 * k + 2) := by
    unfold drawCreutz
    simp only
    have h0 := creutz_eq hN hr n 0
    rw [mul_zero, add_zero] at h0
    rw [h0]
    simp only
    cases k with
    | zero => rw [if_neg (by simpa using hacc)]
    | succ k =>
      rw [if_pos (by simpa using hrej 0 (by omega))]
      have := creutzWhile_eq hN hr n (NHBMAX - 1) 1 k (by omega) (fun i hi => by
        rw [add_comm 1 i]; exact hrej (i + 1) (by omega)) (by rw [add_comm 1 k]; exact not_lt.2 hacc)
      rw [add_comm 1 k] at this
      exact this
  unfold generateCreutz
  rw [hd]
  rfl

/-- A stream whose first pair is rejected and whose second one is accepted. -/
example : ∃ r : ℕ → ℝ, (∀ n, 0 ≤ r n ∧ r n < 1) ∧ 1 - creutzA 1 r 0 0 ^ 2 < r 0 ^ 2 ∧ r 2 ^ 2 ≤ 1 - creutzA 1 r 0 1 ^ 2 := by
  have hx0 : 0 < Real.exp (-2 / 1) := Real.exp_pos _
  have hx1 : Real.exp (-2 / 1) < Real.exp (-1) := Real.exp_lt_exp.2 (by norm_num)
  have hx2 : Real.exp (-1) < 1 := by rw [Real.exp_lt_one_iff]; norm_num
  set x := Real.exp (-2 / 1) with hx
  refine ⟨fun m => if m = 0 then 1 / 2 else if m = 3 then (Real.exp (-1) - x) / (1 - x) else 0, fun m => ?_, ?_, ?_⟩
  · dsimp only
    split_ifs
    · norm_num
    · refine ⟨div_nonneg (by linarith) (by linarith), ?_⟩
      rw [div_lt_one (by linarith)]
      linarith
    · norm_num
  · have : creutzA 1 (fun m => if m = 0 then 1 / 2 else if m = 3 then (Real.exp (-1) - x) / (1 - x) else 0) 0 0 = -1 := by
      unfold creutzA
      norm_num
    rw [this]
    norm_num
  · have : creutzA 1 (fun m => if m = 0 then 1 / 2 else if m = 3 then (Real.exp (-1) - x) / (1 - x) else 0) 0 1 = 0 := by
      unfold creutzA
      rw [← hx]
      norm_num
      have h1x : 1 - x ≠ 0 := by linarith
      rw [mul_div_cancel₀ _ h1x]
      simp
    rw [this]
    norm_num

/-- The draws that are all rejected with the other algorithm (`C28_fails`) give an element of the group here. -/
example : ∃ g, generateCreutz 1 0 10 (fun _ => 1 / 2) 0 = some g ∧ normSq g.1.1 + normSq g.1.2 = 1 :=
  C28_creutz (by norm_num) (fun _ => by norm_num) 0 (by simp)

end GLU.Update
