import Verif.Mat.Lie
import Verif.Mat.UNopsLemmas
import Mathlib.Tactic.LinearCombination
import Mathlib.Tactic.FieldSimp

namespace GLU.Mat

open Complex

/-- Divided differences of the values `v` on the nodes `x a, ..., x (a+m)`. -/
noncomputable def dd (x : Arr ℝ) (v : Arr ℂ) : ℕ → ℕ → ℂ
  | a, 0 => v a
  | a, m + 1 => (dd x v (a + 1) m - dd x v a m) / ((x (a + m + 1) - x a : ℝ) : ℂ)

/-- Node polynomial. -/
noncomputable def nodeW (x : Arr ℝ) (t : ℂ) (a m : ℕ) : ℂ := ∏ l ∈ Finset.range m, (t - x (a + l))

/-- Newton form. -/
noncomputable def newton (x : Arr ℝ) (v : Arr ℂ) (t : ℂ) (a m : ℕ) : ℂ :=
  ∑ j ∈ Finset.range (m + 1), dd x v a j * nodeW x t a j

theorem nodeW_succ (x : Arr ℝ) (t : ℂ) (a m : ℕ) :
    nodeW x t a (m + 1) = nodeW x t a m * (t - x (a + m)) := Finset.prod_range_succ _ _

theorem nodeW_succ' (x : Arr ℝ) (t : ℂ) (a m : ℕ) :
    nodeW x t a (m + 1) = (t - x a) * nodeW x t (a + 1) m := by
  unfold nodeW
  rw [Finset.prod_range_succ', mul_comm]
  simp only [Nat.add_zero]
  congr 1
  exact Finset.prod_congr rfl fun l _ => by rw [show a + (l + 1) = a + 1 + l by omega]

theorem newton_succ (x : Arr ℝ) (v : Arr ℂ) (t : ℂ) (a m : ℕ) :
    newton x v t a (m + 1) = newton x v t a m + dd x v a (m + 1) * nodeW x t a (m + 1) :=
  Finset.sum_range_succ _ _

/-- Distinct nodes among the first `n`. -/
def Distinct (n : ℕ) (x : Arr ℝ) : Prop := ∀ i < n, ∀ j < n, i ≠ j → x i ≠ x j

theorem dd_succ_mul {n : ℕ} {x : Arr ℝ} (hx : Distinct n x) (v : Arr ℂ) {a m : ℕ}
    (h : a + m + 1 < n) : ((x (a + m + 1) : ℂ) - x a) * dd x v a (m + 1) = dd x v (a + 1) m - dd x v a m := by
  have : ((x (a + m + 1) : ℂ) - x a) ≠ 0 := by
    have := sub_ne_zero.2 (hx (a + m + 1) h a (by omega) (by omega))
    exact_mod_cast this
  rw [dd]
  push_cast
  rw [mul_div_cancel₀ _ this]

/-- Shifting the Newton form by one node. -/
theorem newton_shift {n : ℕ} {x : Arr ℝ} (hx : Distinct n x) (v : Arr ℂ) (t : ℂ) (a m : ℕ)
    (h : a + m + 1 < n) :
    (t - x a) * (newton x v t (a + 1) m - newton x v t a m) =
      (dd x v (a + 1) m - dd x v a m) * nodeW x t a (m + 1) := by
  induction m with
  | zero => simp [newton, nodeW]; ring
  | succ m ih =>
    have ih := ih (by omega)
    have e := dd_succ_mul hx v (a := a) (m := m) (by omega)
    rw [newton_succ, newton_succ]
    rw [← e] at ih
    have w1 := nodeW_succ' x t a (m + 1)
    have w2 := nodeW_succ x t a (m + 1)
    rw [show a + (m + 1) = a + m + 1 by omega] at w2
    linear_combination ih - dd x v (a + 1) (m + 1) * w1 + dd x v a (m + 1) * w2

/-- The Newton form interpolates. -/
theorem newton_interp {n : ℕ} {x : Arr ℝ} (hx : Distinct n x) (v : Arr ℂ) (m : ℕ) :
    ∀ a, a + m < n → ∀ i ≤ m, newton x v (x (a + i)) a m = v (a + i) := by
  induction m with
  | zero =>
    intro a _ i hi
    rw [show i = 0 by omega]
    simp [newton, nodeW, dd]
  | succ m ih =>
    intro a ha i hi
    rw [newton_succ]
    rcases Nat.lt_or_ge i (m + 1) with h | h
    · have : nodeW x (x (a + i)) a (m + 1) = 0 :=
        Finset.prod_eq_zero (Finset.mem_range.2 h) (sub_self _)
      rw [this, mul_zero, add_zero]
      exact ih a (by omega) i (by omega)
    · have hi' : i = m + 1 := by omega
      subst hi'
      have s := newton_shift hx v (x (a + (m + 1))) a m (by omega)
      have hi2 := ih (a + 1) (by omega) m (le_refl _)
      rw [show a + 1 + m = a + (m + 1) by omega] at hi2
      rw [hi2] at s
      have e := dd_succ_mul hx v (a := a) (m := m) (by omega)
      rw [← e, show a + m + 1 = a + (m + 1) by omega] at s
      have hne : ((x (a + (m + 1)) : ℂ) - x a) ≠ 0 := by
        have := sub_ne_zero.2 (hx (a + (m + 1)) (by omega) a (by omega) (by omega))
        exact_mod_cast this
      have : ((x (a + (m + 1)) : ℂ) - x a) * (v (a + (m + 1)) - newton x v (x (a + (m + 1))) a m) =
          ((x (a + (m + 1)) : ℂ) - x a) * (dd x v a (m + 1) * nodeW x (x (a + (m + 1))) a (m + 1)) := by
        linear_combination s
      have := mul_left_cancel₀ hne this
      linear_combination -this

/-- First stage: sweep `k`. -/
theorem vdmSweep_spec {n : ℕ} {x : Arr ℝ} (hx : Distinct n x) (v : Arr ℂ) {k : ℕ} (hk : k < n - 1)
    {f : Arr ℂ} (hf : ∀ i < n, f i = dd x v (i - min i k) (min i k)) :
    ∃ f', vdmSweep n x k (some f) = some f' ∧
      ∀ i < n, f' i = dd x v (i - min i (k + 1)) (min i (k + 1)) := by
  have H := forN_inv (fun m (s : Option (Arr ℂ)) => ∃ f', s = some f' ∧ ∀ i < n, f' i =
      if n - 1 - m < i then dd x v (i - min i (k + 1)) (min i (k + 1)) else
        dd x v (i - min i k) (min i k)) (n := n - 1 - k)
    (body := fun m f => f.bind (vdmDiff x k (n - 1 - m))) (s := some f)
    ⟨f, rfl, fun i hi => by rw [if_neg (by omega), hf i hi]⟩ (by
      rintro m hm _ ⟨f', rfl, h⟩
      have hne := sub_ne_zero.2 (hx (n - 1 - m) (by omega) (n - 1 - m - k - 1) (by omega) (by omega))
      refine ⟨_, by rw [Option.bind_some, vdmDiff, if_neg hne], fun i hi => ?_⟩
      rw [Function.update_apply]
      by_cases e : i = n - 1 - m
      · rw [if_pos e, if_pos (by omega), ← e, h i hi, h (i - 1) (by omega), if_neg (by omega),
          if_neg (by omega), min_eq_right (by omega), min_eq_right (by omega), min_eq_right (by omega), dd]
        rw [show i - (k + 1) + 1 = i - k by omega, show i - 1 - k = i - (k + 1) by omega,
          show i - (k + 1) + k + 1 = i by omega, show i - k - 1 = i - (k + 1) by omega]
      · rw [if_neg e, h i hi]
        by_cases e2 : n - 1 - m < i
        · rw [if_pos e2, if_pos (by omega)]
        · rw [if_neg e2, if_neg (by omega)])
  obtain ⟨f', h1, h2⟩ := H
  refine ⟨f', h1, fun i hi => ?_⟩
  rw [h2 i hi]
  by_cases e : n - 1 - (n - 1 - k) < i
  · rw [if_pos e]
  · rw [if_neg e, min_eq_left (by omega), min_eq_left (by omega)]

theorem vdmStage1 {n : ℕ} {x : Arr ℝ} (hx : Distinct n x) (v : Arr ℂ) :
    ∃ f', forN (n - 1) (fun k f => vdmSweep n x k f) (some v) = some f' ∧
      ∀ i < n, f' i = dd x v 0 i := by
  have H := forN_inv (fun k (s : Option (Arr ℂ)) => ∃ f', s = some f' ∧ ∀ i < n, f' i =
      dd x v (i - min i k) (min i k)) (n := n - 1) (body := fun k f => vdmSweep n x k f) (s := some v)
    ⟨v, rfl, fun i _ => by simp [dd]⟩ (by
      rintro k hk _ ⟨f', rfl, h⟩
      exact vdmSweep_spec hx v hk h)
  obtain ⟨f', h1, h2⟩ := H
  refine ⟨f', h1, fun i hi => ?_⟩
  rw [h2 i hi, min_eq_left (by omega), Nat.sub_self]

/-- Nested (Horner) Newton form from node `k` upwards with `m` further terms. -/
noncomputable def nest (x : Arr ℝ) (c : Arr ℂ) (t : ℂ) : ℕ → ℕ → ℂ
  | k, 0 => c k
  | k, m + 1 => c k + (t - x k) * nest x c t (k + 1) m

theorem nest_eq (x : Arr ℝ) (c : Arr ℂ) (t : ℂ) (k m : ℕ) :
    nest x c t k m = ∑ j ∈ Finset.range (m + 1), c (k + j) * nodeW x t k j := by
  induction m generalizing k with
  | zero => simp [nest, nodeW]
  | succ m ih =>
    rw [nest, ih, Finset.sum_range_succ' (n := m + 1), Finset.mul_sum, add_comm]
    congr 1
    · refine Finset.sum_congr rfl fun j _ => ?_
      rw [nodeW_succ', show k + 1 + j = k + (j + 1) by omega]; ring
    · simp [nodeW]

/-- Second stage. -/
theorem vdmExpand_spec {n : ℕ} (hn : 1 ≤ n) (x : Arr ℝ) (c : Arr ℂ) (t : ℂ) :
    vdmExpand n x c 0 = c 0 ∧
    (∑ j ∈ Finset.range (n - 1), vdmExpand n x c (1 + j) * t ^ j =
      if 2 ≤ n then nest x c t 1 (n - 2) else 0) := by
  have H := forN_inv (fun m (f : Arr ℂ) => (∀ i, i < n - m → i < n - 1 ∨ m = 0 → f i = c i) ∧
      (1 ≤ m → ∑ j ∈ Finset.range m, f (n - m + j) * t ^ j = nest x c t (n - m) (m - 1)) ∧
      f (n - 1) = c (n - 1))
    (n := n - 1) (body := fun m f => forFrom (n - 1 - m) (n - 1)
      (fun i f => Function.update f i (f i - f (i + 1) * (x (n - 1 - m) : ℂ))) f) (s := c)
    ⟨fun _ _ _ => rfl, fun h => absurd h (by omega), rfl⟩ (by
      rintro m hm f ⟨h1, h2, h3⟩
      have K := forFrom_inv (fun i (g : Arr ℂ) => ∀ l, g l = if n - 1 - m ≤ l ∧ l < i then
          f l - f (l + 1) * (x (n - 1 - m) : ℂ) else f l) (lo := n - 1 - m) (hi := n - 1) (by omega)
        (body := fun i f => Function.update f i (f i - f (i + 1) * (x (n - 1 - m) : ℂ))) (s := f)
        (fun l => by rw [if_neg (by omega)]) (by
          intro i hi1 hi2 g hg l
          rw [Function.update_apply]
          by_cases e : l = i
          · subst e
            rw [if_pos rfl, hg l, hg (l + 1), if_neg (by omega), if_neg (by omega), if_pos (by omega)]
          · rw [if_neg e, hg l]
            by_cases e2 : n - 1 - m ≤ l ∧ l < i
            · rw [if_pos e2, if_pos (by omega)]
            · rw [if_neg e2, if_neg (by omega)])
      set g := forFrom (n - 1 - m) (n - 1)
        (fun i f => Function.update f i (f i - f (i + 1) * (x (n - 1 - m) : ℂ))) f with hg
      refine ⟨fun i hi hi2 => ?_, fun _ => ?_, ?_⟩
      · rw [K i, if_neg (by omega)]
        rcases Nat.eq_zero_or_pos m with h0 | h0
        · exact h1 i (by omega) (Or.inr h0)
        · exact h1 i (by omega) (Or.inl (by omega))
      · rcases Nat.eq_zero_or_pos m with h0 | h0
        · subst h0
          simp [nest, K, h3]
        · have h2 := h2 h0
          obtain ⟨m', rfl⟩ : ∃ m', m = m' + 1 := ⟨m - 1, by omega⟩
          rw [show m' + 1 + 1 - 1 = m' + 1 by omega, nest,
            show n - (m' + 1 + 1) + 1 = n - (m' + 1) by omega]
          rw [show m' + 1 - 1 = m' by omega] at h2
          rw [← h2, Finset.sum_range_succ]
          have hterm : ∀ j ∈ Finset.range (m' + 1), g (n - (m' + 1 + 1) + j) * t ^ j =
              f (n - (m' + 1 + 1) + j) * t ^ j -
                x (n - (m' + 1 + 1)) * (f (n - (m' + 1) + j) * t ^ j) := by
            intro j hj
            have := Finset.mem_range.1 hj
            rw [K, if_pos (by omega), show n - (m' + 1 + 1) + j + 1 = n - (m' + 1) + j by omega,
              show n - 1 - (m' + 1) = n - (m' + 1 + 1) by omega]
            ring
          rw [Finset.sum_congr rfl hterm, Finset.sum_sub_distrib, ← Finset.mul_sum,
            K, if_neg (by omega)]
          have hs : ∑ j ∈ Finset.range (m' + 1), f (n - (m' + 1 + 1) + j) * t ^ j +
              f (n - (m' + 1 + 1) + (m' + 1)) * t ^ (m' + 1) =
              c (n - (m' + 1 + 1)) + t * ∑ j ∈ Finset.range (m' + 1), f (n - (m' + 1) + j) * t ^ j := by
            rw [← Finset.sum_range_succ (fun j => f (n - (m' + 1 + 1) + j) * t ^ j),
              Finset.sum_range_succ', Finset.mul_sum, add_comm]
            congr 1
            · rw [Nat.add_zero, pow_zero, mul_one, h1 _ (by omega) (Or.inl (by omega))]
            · refine Finset.sum_congr rfl fun j _ => ?_
              rw [show n - (m' + 1 + 1) + (j + 1) = n - (m' + 1) + j by omega]; ring
          linear_combination hs
      · rw [K, if_neg (by omega), h3])
  obtain ⟨h1, h2, h3⟩ := H
  have hv : vdmExpand n x c = forN (n - 1) (fun m f => forFrom (n - 1 - m) (n - 1)
      (fun i f => Function.update f i (f i - f (i + 1) * (x (n - 1 - m) : ℂ))) f) c := rfl
  rw [← hv] at h1 h2 h3
  refine ⟨?_, ?_⟩
  · rcases Nat.eq_or_lt_of_le hn with h | h
    · rw [← h] at h3 ⊢; exact h3
    · exact h1 0 (by omega) (Or.inl (by omega))
  · split
    · have := h2 (by omega)
      rwa [show n - (n - 1) = 1 by omega, show n - 1 - 1 = n - 2 by omega] at this
    · rw [show n - 1 = 0 by omega]; simp

end GLU.Mat
