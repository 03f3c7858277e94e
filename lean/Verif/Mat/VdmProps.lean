import Verif.Mat.VdmLemmas

/-!
# C23: the Vandermonde solver

The second stage of the solver stops one step early (it never uses the first
node), so what it returns is `v₀ + t q(t)` instead of `v₀ + (t - x₀) q(t)`.
-/

namespace GLU.Mat

open Complex

/-- The value at `t` of the polynomial with coefficients `f`. -/
noncomputable def polyAt (n : ℕ) (f : Arr ℂ) (t : ℂ) : ℂ := ∑ j ∈ Finset.range n, f j * t ^ j

/-- **C23**, what the solver computes, for every number of points, all distinct
points and all values: the constant coefficient is the first value, and the
polynomial misses the value at point `i` by the first point times the remaining
polynomial `q`, which is the exact difference quotient. -/
theorem C23_solver_value {n : ℕ} (hn : 1 ≤ n) {x : Arr ℝ} (hx : Distinct n x) (v : Arr ℂ) :
    ∃ f, solvandermonde n v x = some f ∧ f 0 = v 0 ∧ ∀ i < n,
      ((x i : ℂ) - x 0) * polyAt (n - 1) (fun j => f (1 + j)) (x i) = v i - v 0 ∧
      polyAt n f (x i) = v i + x 0 * polyAt (n - 1) (fun j => f (1 + j)) (x i) := by
  obtain ⟨c, h1, h2⟩ := vdmStage1 hx v
  refine ⟨vdmExpand n x c, by rw [solvandermonde, h1]; rfl, ?_, fun i hi => ?_⟩
  · rw [(vdmExpand_spec hn x c 0).1, h2 0 (by omega)]; rfl
  have e0 : vdmExpand n x c 0 = v 0 := by rw [(vdmExpand_spec hn x c 0).1, h2 0 (by omega)]; rfl
  have hq := (vdmExpand_spec hn x c (x i)).2
  have hN := newton_interp hx v (n - 1) 0 (by omega) i (by omega)
  have hsplit : polyAt n (vdmExpand n x c) (x i) =
      v 0 + x i * polyAt (n - 1) (fun j => vdmExpand n x c (1 + j)) (x i) := by
    unfold polyAt
    obtain ⟨n', rfl⟩ : ∃ n', n = n' + 1 := ⟨n - 1, by omega⟩
    rw [Finset.sum_range_succ', Nat.add_sub_cancel, Finset.mul_sum, pow_zero, mul_one, e0, add_comm]
    congr 1
    refine Finset.sum_congr rfl fun j _ => ?_
    simp only [Nat.add_comm 1 j]; ring
  have hnest : v i = v 0 + ((x i : ℂ) - x 0) * polyAt (n - 1) (fun j => vdmExpand n x c (1 + j)) (x i) := by
    unfold polyAt
    rw [hq]
    rw [Nat.zero_add] at hN
    rw [← hN]
    split
    · next h =>
      obtain ⟨n', rfl⟩ : ∃ n', n = n' + 2 := ⟨n - 2, by omega⟩
      rw [nest_eq, newton, show n' + 2 - 1 + 1 = n' + 1 + 1 by omega, Finset.sum_range_succ',
        add_comm, Nat.add_sub_cancel]
      congr 1
      · simp [nodeW, dd]
      · rw [Finset.mul_sum]
        refine Finset.sum_congr rfl fun j hj => ?_
        have := Finset.mem_range.1 hj
        rw [h2 (1 + j) (by omega), Nat.add_comm 1 j, nodeW_succ', Nat.zero_add]
        ring
    · next h =>
      have : n = 1 := by omega
      subst this
      simp [newton, nodeW, dd]
  refine ⟨by linear_combination -hnest, ?_⟩
  rw [hsplit]
  linear_combination -hnest

/-- **C23** when the first point is zero: the solver returns the interpolating
coefficients.  Missing: a first point different from zero, see
`C23_solver_fails`. -/
theorem C23_interpolates_partial {n : ℕ} (hn : 1 ≤ n) {x : Arr ℝ} (hx : Distinct n x) (v : Arr ℂ)
    (h0 : x 0 = 0) : ∃ f, solvandermonde n v x = some f ∧ ∀ i < n, polyAt n f (x i) = v i := by
  obtain ⟨f, h1, -, h2⟩ := C23_solver_value hn hx v
  exact ⟨f, h1, fun i hi => by rw [(h2 i hi).2, h0]; simp⟩

/-- **C23** scope: with at least two distinct points the solver interpolates only
if the first point is zero or all values are equal. -/
theorem C23_interpolates_only_if {n : ℕ} (hn : 2 ≤ n) {x : Arr ℝ} (hx : Distinct n x) (v : Arr ℂ) :
    (∃ f, solvandermonde n v x = some f ∧ ∀ i < n, polyAt n f (x i) = v i) →
      x 0 = 0 ∨ ∀ i < n, v i = v 0 := by
  rintro ⟨f, h1, h2⟩
  obtain ⟨f', h1', -, h3⟩ := C23_solver_value (by omega) hx v
  rw [h1, Option.some.injEq] at h1'
  subst h1'
  by_cases h0 : x 0 = 0
  · exact Or.inl h0
  · right
    intro i hi
    obtain ⟨a, b⟩ := h3 i hi
    rw [h2 i hi] at b
    have hz : polyAt (n - 1) (fun j => f (1 + j)) (x i) = 0 := by
      have : (x 0 : ℂ) * polyAt (n - 1) (fun j => f (1 + j)) (x i) = 0 := by linear_combination -b
      rcases mul_eq_zero.1 this with h | h
      · exact absurd (by exact_mod_cast h) h0
      · exact h
    rw [hz, mul_zero] at a
    linear_combination -a

/-- **C23** fails: two points 1, 2 with values 0, 1. -/
theorem C23_solver_fails : ∃ (x : Arr ℝ) (v : Arr ℂ), Distinct 2 x ∧
    ¬ ∃ f, solvandermonde 2 v x = some f ∧ ∀ i < 2, polyAt 2 f (x i) = v i := by
  have hx : Distinct 2 (fun i : ℕ => (i : ℝ) + 1) := by
    intro i _ j _ h h'
    exact h (by exact_mod_cast add_right_cancel h')
  refine ⟨fun i => i + 1, fun i => i, hx, fun h => ?_⟩
  rcases C23_interpolates_only_if (le_refl _) hx _ h with h | h
  · norm_num at h
  · have := h 1 (by norm_num)
    norm_num at this

/-- Equal points are reported as a division by zero by the model, so the
hypothesis of distinct points is needed. -/
example : solvandermonde 2 (fun _ => 0) (fun _ => 0) = none := by
  simp [solvandermonde, forN, vdmSweep, vdmDiff]

/-- Non-vacuity: three points 0, 1, 2 with values of the square. -/
example : ∃ f, solvandermonde 3 (fun i => (i : ℂ) ^ 2) (fun i => i) = some f ∧
    ∀ i < 3, polyAt 3 f (((i : ℕ) : ℝ) : ℂ) = (i : ℂ) ^ 2 :=
  C23_interpolates_partial (by norm_num) (fun i _ j _ h h' => h (by exact_mod_cast h')) _ (by norm_num)

end GLU.Mat
