import Verif.Utils.SplineModel
import Verif.Mat.UNopsLemmas
import Mathlib.Algebra.Polynomial.Taylor
import Mathlib.Algebra.Polynomial.Roots
import Mathlib.Analysis.Calculus.Deriv.Mul
import Mathlib.Analysis.Calculus.Deriv.Pow
import Mathlib.Analysis.Calculus.Deriv.Add
import Mathlib.Tactic.FieldSimp
import Mathlib.Tactic.Linarith

/-!
# C53: derivatives and interpolation
-/

namespace GLU.Utils

open Polynomial

theorem quot_eq {n d : ℝ} (h : d ≠ 0) : quot n d = some (n / d) := if_neg h

theorem rule3_eq {num den a b c s₁ s₂ s₃ y : ℝ} (h : den ≠ 0) (ha : a ≠ 0) (hb : b ≠ 0) (hc : c ≠ 0) :
    rule3 num den a b c s₁ s₂ s₃ y = some (num / den + (s₁ / a + s₂ / b + s₃ / c) * y) := by
  unfold rule3
  rw [quot_eq h, quot_eq ha, quot_eq hb, quot_eq hc]; rfl

theorem rule4_eq {num den a b c d s₁ s₂ s₃ s₄ y : ℝ} (h : den ≠ 0) (ha : a ≠ 0) (hb : b ≠ 0) (hc : c ≠ 0)
    (hd : d ≠ 0) : rule4 num den a b c d s₁ s₂ s₃ s₄ y =
      some (num / den + (s₁ / a + s₂ / b + s₃ / c + s₄ / d) * y) := by
  unfold rule4
  rw [quot_eq h, quot_eq ha, quot_eq hb, quot_eq hc, quot_eq hd]; rfl

/-- The values of a polynomial of degree at most four around a point. -/
theorem eval_around (p : ℝ[X]) (h : p.natDegree ≤ 4) (t : ℝ) :
    ∃ c2 c3 c4 : ℝ, (p.natDegree ≤ 2 → c3 = 0) ∧ (p.natDegree ≤ 3 → c4 = 0) ∧ ∀ s,
      p.eval s = p.eval t + p.derivative.eval t * (s - t) + c2 * (s - t) ^ 2 + c3 * (s - t) ^ 3 +
        c4 * (s - t) ^ 4 := by
  refine ⟨(taylor t p).coeff 2, (taylor t p).coeff 3, (taylor t p).coeff 4, ?_, ?_, ?_⟩
  · intro h; exact coeff_eq_zero_of_natDegree_lt (by rw [natDegree_taylor]; omega)
  · intro h; exact coeff_eq_zero_of_natDegree_lt (by rw [natDegree_taylor]; omega)
  · intro s
    have h1 := taylor_eval_sub t p s
    rw [eval_eq_sum_range' (n := 5) (by rw [natDegree_taylor]; omega)] at h1
    simp only [Finset.sum_range_succ, Finset.sum_range_zero, taylor_coeff_zero, taylor_coeff_one] at h1
    rw [← h1]; ring

/-- The points of a grid are distinct. -/
def Distinct (x : ℕ → ℝ) (N : ℕ) : Prop := ∀ i < N, ∀ j < N, i ≠ j → x i ≠ x j

theorem Distinct.sub {x : ℕ → ℝ} {N i j : ℕ} (h : Distinct x N) (hi : i < N) (hj : j < N) (hij : i ≠ j) :
    x i - x j ≠ 0 := sub_ne_zero.2 (h i hi j hj hij)

theorem h2_first_exact {x : ℕ → ℝ} {N : ℕ} (hx : Distinct x N) (h : 3 ≤ N)
    (p : ℝ[X]) (hp : p.natDegree ≤ 2) :
    h2_first x (fun j => p.eval (x j)) = some (p.derivative.eval (x (0))) := by
  obtain ⟨c2, c3, c4, h3, h4, e⟩ := eval_around p (by omega) (x (0))
  obtain rfl := h3 hp
  obtain rfl := h4 (by omega)
  generalize p.derivative.eval _ = c1 at e ⊢
  have ha : x (2) - x (0) ≠ 0 := hx.sub (by omega) (by omega) (by omega)
  have ea := e (x (2))
  have hb : x (1) - x (0) ≠ 0 := hx.sub (by omega) (by omega) (by omega)
  have eb := e (x (1))
  have gab : x (2) - x (1) ≠ 0 := hx.sub (by omega) (by omega) (by omega)
  rw [show x (2) - x (1) = (x (2) - x (0)) - (x (1) - x (0)) by ring] at gab
  unfold h2_first
  dsimp only
  clear e h3 h4
  rw [ea, eb]
  generalize x (2) - x (0) = a at *
  generalize x (1) - x (0) = b at *
  generalize p.eval _ = c0
  have hall := mul_ne_zero (mul_ne_zero (ha) hb) gab
  refine (quot_eq ?_).trans (congrArg some ?_)
  · exact fun hz => hall (by first | (linear_combination hz) | (linear_combination -hz))
  · rw [div_eq_iff (fun hz => hall (by first | (linear_combination hz) | (linear_combination -hz)))]; ring

theorem h2_middle_exact {x : ℕ → ℝ} {N i : ℕ} (hx : Distinct x N) (h0 : 1 ≤ i) (h : i + 1 < N)
    (p : ℝ[X]) (hp : p.natDegree ≤ 2) :
    h2_middle x (fun j => p.eval (x j)) i = some (p.derivative.eval (x (i))) := by
  obtain ⟨c2, c3, c4, h3, h4, e⟩ := eval_around p (by omega) (x (i))
  obtain rfl := h3 hp
  obtain rfl := h4 (by omega)
  generalize p.derivative.eval _ = c1 at e ⊢
  have ha : x (i + 1) - x (i) ≠ 0 := hx.sub (by omega) (by omega) (by omega)
  have ea := e (x (i + 1))
  have hb : x (i) - x (i - 1) ≠ 0 := hx.sub (by omega) (by omega) (by omega)
  have eb := e (x (i - 1))
  rw [show x (i - 1) - x (i) = -(x (i) - x (i - 1)) by ring] at eb
  have gab : x (i + 1) - x (i - 1) ≠ 0 := hx.sub (by omega) (by omega) (by omega)
  rw [show x (i + 1) - x (i - 1) = (x (i + 1) - x (i)) - -(x (i) - x (i - 1)) by ring] at gab
  unfold h2_middle
  dsimp only
  clear e h3 h4
  rw [ea, eb]
  generalize x (i + 1) - x (i) = a at *
  generalize x (i) - x (i - 1) = b at *
  generalize p.eval _ = c0
  have hall := mul_ne_zero (mul_ne_zero (ha) hb) gab
  refine (quot_eq ?_).trans (congrArg some ?_)
  · exact fun hz => hall (by first | (linear_combination hz) | (linear_combination -hz))
  · rw [div_eq_iff (fun hz => hall (by first | (linear_combination hz) | (linear_combination -hz)))]; ring

theorem h2_last_exact {x : ℕ → ℝ} {N : ℕ} (hx : Distinct x N) (h : 3 ≤ N)
    (p : ℝ[X]) (hp : p.natDegree ≤ 2) :
    h2_last x (fun j => p.eval (x j)) (N - 1) = some (p.derivative.eval (x (N - 1))) := by
  obtain ⟨c2, c3, c4, h3, h4, e⟩ := eval_around p (by omega) (x (N - 1))
  obtain rfl := h3 hp
  obtain rfl := h4 (by omega)
  generalize p.derivative.eval _ = c1 at e ⊢
  have ha : x (N - 1) - x (N - 1 - 2) ≠ 0 := hx.sub (by omega) (by omega) (by omega)
  have ea := e (x (N - 1 - 2))
  rw [show x (N - 1 - 2) - x (N - 1) = -(x (N - 1) - x (N - 1 - 2)) by ring] at ea
  have hb : x (N - 1) - x (N - 1 - 1) ≠ 0 := hx.sub (by omega) (by omega) (by omega)
  have eb := e (x (N - 1 - 1))
  rw [show x (N - 1 - 1) - x (N - 1) = -(x (N - 1) - x (N - 1 - 1)) by ring] at eb
  have gab : x (N - 1 - 2) - x (N - 1 - 1) ≠ 0 := hx.sub (by omega) (by omega) (by omega)
  rw [show x (N - 1 - 2) - x (N - 1 - 1) = -(x (N - 1) - x (N - 1 - 2)) - -(x (N - 1) - x (N - 1 - 1)) by ring] at gab
  unfold h2_last
  dsimp only
  clear e h3 h4
  rw [ea, eb]
  generalize x (N - 1) - x (N - 1 - 2) = a at *
  generalize x (N - 1) - x (N - 1 - 1) = b at *
  generalize p.eval _ = c0
  have hall := mul_ne_zero (mul_ne_zero (ha) hb) gab
  refine (quot_eq ?_).trans (congrArg some ?_)
  · exact fun hz => hall (by first | (linear_combination hz) | (linear_combination -hz))
  · rw [div_eq_iff (fun hz => hall (by first | (linear_combination hz) | (linear_combination -hz)))]; ring

theorem h3_first_exact {x : ℕ → ℝ} {N : ℕ} (hx : Distinct x N) (h : 4 ≤ N)
    (p : ℝ[X]) (hp : p.natDegree ≤ 3) :
    h3_first x (fun j => p.eval (x j)) = some (p.derivative.eval (x (0))) := by
  obtain ⟨c2, c3, c4, h3, h4, e⟩ := eval_around p (by omega) (x (0))
  obtain rfl := h4 (by omega)
  generalize p.derivative.eval _ = c1 at e ⊢
  have ha : x (1) - x (0) ≠ 0 := hx.sub (by omega) (by omega) (by omega)
  have ea := e (x (1))
  have hb : x (2) - x (0) ≠ 0 := hx.sub (by omega) (by omega) (by omega)
  have eb := e (x (2))
  have hc : x (3) - x (0) ≠ 0 := hx.sub (by omega) (by omega) (by omega)
  have ec := e (x (3))
  have gab : x (1) - x (2) ≠ 0 := hx.sub (by omega) (by omega) (by omega)
  rw [show x (1) - x (2) = (x (1) - x (0)) - (x (2) - x (0)) by ring] at gab
  have gac : x (1) - x (3) ≠ 0 := hx.sub (by omega) (by omega) (by omega)
  rw [show x (1) - x (3) = (x (1) - x (0)) - (x (3) - x (0)) by ring] at gac
  have gbc : x (2) - x (3) ≠ 0 := hx.sub (by omega) (by omega) (by omega)
  rw [show x (2) - x (3) = (x (2) - x (0)) - (x (3) - x (0)) by ring] at gbc
  unfold h3_first
  dsimp only
  clear e h3 h4
  rw [ea, eb, ec]
  generalize x (1) - x (0) = a at *
  generalize x (2) - x (0) = b at *
  generalize x (3) - x (0) = c at *
  generalize p.eval _ = c0
  have hall := mul_ne_zero (mul_ne_zero (mul_ne_zero (mul_ne_zero (mul_ne_zero (ha) hb) hc) gab) gac) gbc
  refine (rule3_eq ?_ ha hb hc).trans (congrArg some ?_)
  · exact fun hz => hall (by first | (linear_combination hz) | (linear_combination -hz))
  · rw [← eq_sub_iff_add_eq, div_eq_iff (fun hz => hall (by first | (linear_combination hz) | (linear_combination -hz)))]; field_simp; ring

theorem h3_middle_exact {x : ℕ → ℝ} {N i : ℕ} (hx : Distinct x N) (h0 : 1 ≤ i) (h : i + 2 < N)
    (p : ℝ[X]) (hp : p.natDegree ≤ 3) :
    h3_middle x (fun j => p.eval (x j)) i = some (p.derivative.eval (x (i))) := by
  obtain ⟨c2, c3, c4, h3, h4, e⟩ := eval_around p (by omega) (x (i))
  obtain rfl := h4 (by omega)
  generalize p.derivative.eval _ = c1 at e ⊢
  have ha : x (i) - x (i - 1) ≠ 0 := hx.sub (by omega) (by omega) (by omega)
  have ea := e (x (i - 1))
  rw [show x (i - 1) - x (i) = -(x (i) - x (i - 1)) by ring] at ea
  have hb : x (i + 1) - x (i) ≠ 0 := hx.sub (by omega) (by omega) (by omega)
  have eb := e (x (i + 1))
  have hc : x (i + 2) - x (i) ≠ 0 := hx.sub (by omega) (by omega) (by omega)
  have ec := e (x (i + 2))
  have gab : x (i - 1) - x (i + 1) ≠ 0 := hx.sub (by omega) (by omega) (by omega)
  rw [show x (i - 1) - x (i + 1) = -(x (i) - x (i - 1)) - (x (i + 1) - x (i)) by ring] at gab
  have gac : x (i - 1) - x (i + 2) ≠ 0 := hx.sub (by omega) (by omega) (by omega)
  rw [show x (i - 1) - x (i + 2) = -(x (i) - x (i - 1)) - (x (i + 2) - x (i)) by ring] at gac
  have gbc : x (i + 1) - x (i + 2) ≠ 0 := hx.sub (by omega) (by omega) (by omega)
  rw [show x (i + 1) - x (i + 2) = (x (i + 1) - x (i)) - (x (i + 2) - x (i)) by ring] at gbc
  unfold h3_middle
  dsimp only
  clear e h3 h4
  rw [ea, eb, ec]
  generalize x (i) - x (i - 1) = a at *
  generalize x (i + 1) - x (i) = b at *
  generalize x (i + 2) - x (i) = c at *
  generalize p.eval _ = c0
  have hall := mul_ne_zero (mul_ne_zero (mul_ne_zero (mul_ne_zero (mul_ne_zero (ha) hb) hc) gab) gac) gbc
  refine (rule3_eq ?_ ha hb hc).trans (congrArg some ?_)
  · exact fun hz => hall (by first | (linear_combination hz) | (linear_combination -hz))
  · rw [← eq_sub_iff_add_eq, div_eq_iff (fun hz => hall (by first | (linear_combination hz) | (linear_combination -hz)))]; field_simp; ring

theorem h3_last_but_one_exact {x : ℕ → ℝ} {N : ℕ} (hx : Distinct x N) (h : 4 ≤ N)
    (p : ℝ[X]) (hp : p.natDegree ≤ 3) :
    h3_last_but_one x (fun j => p.eval (x j)) N = some (p.derivative.eval (x (N - 2))) := by
  obtain ⟨c2, c3, c4, h3, h4, e⟩ := eval_around p (by omega) (x (N - 2))
  obtain rfl := h4 (by omega)
  generalize p.derivative.eval _ = c1 at e ⊢
  have ha : x (N - 2) - x (N - 4) ≠ 0 := hx.sub (by omega) (by omega) (by omega)
  have ea := e (x (N - 4))
  rw [show x (N - 4) - x (N - 2) = -(x (N - 2) - x (N - 4)) by ring] at ea
  have hb : x (N - 2) - x (N - 3) ≠ 0 := hx.sub (by omega) (by omega) (by omega)
  have eb := e (x (N - 3))
  rw [show x (N - 3) - x (N - 2) = -(x (N - 2) - x (N - 3)) by ring] at eb
  have hc : x (N - 1) - x (N - 2) ≠ 0 := hx.sub (by omega) (by omega) (by omega)
  have ec := e (x (N - 1))
  have gab : x (N - 4) - x (N - 3) ≠ 0 := hx.sub (by omega) (by omega) (by omega)
  rw [show x (N - 4) - x (N - 3) = -(x (N - 2) - x (N - 4)) - -(x (N - 2) - x (N - 3)) by ring] at gab
  have gac : x (N - 4) - x (N - 1) ≠ 0 := hx.sub (by omega) (by omega) (by omega)
  rw [show x (N - 4) - x (N - 1) = -(x (N - 2) - x (N - 4)) - (x (N - 1) - x (N - 2)) by ring] at gac
  have gbc : x (N - 3) - x (N - 1) ≠ 0 := hx.sub (by omega) (by omega) (by omega)
  rw [show x (N - 3) - x (N - 1) = -(x (N - 2) - x (N - 3)) - (x (N - 1) - x (N - 2)) by ring] at gbc
  unfold h3_last_but_one
  dsimp only
  clear e h3 h4
  rw [ea, eb, ec]
  generalize x (N - 2) - x (N - 4) = a at *
  generalize x (N - 2) - x (N - 3) = b at *
  generalize x (N - 1) - x (N - 2) = c at *
  generalize p.eval _ = c0
  have hall := mul_ne_zero (mul_ne_zero (mul_ne_zero (mul_ne_zero (mul_ne_zero (ha) hb) hc) gab) gac) gbc
  refine (rule3_eq ?_ ha hb hc).trans (congrArg some ?_)
  · exact fun hz => hall (by first | (linear_combination hz) | (linear_combination -hz))
  · rw [← eq_sub_iff_add_eq, div_eq_iff (fun hz => hall (by first | (linear_combination hz) | (linear_combination -hz)))]; field_simp; ring

theorem h3_last_exact {x : ℕ → ℝ} {N : ℕ} (hx : Distinct x N) (h : 4 ≤ N)
    (p : ℝ[X]) (hp : p.natDegree ≤ 3) :
    h3_last x (fun j => p.eval (x j)) N = some (p.derivative.eval (x (N - 1))) := by
  obtain ⟨c2, c3, c4, h3, h4, e⟩ := eval_around p (by omega) (x (N - 1))
  obtain rfl := h4 (by omega)
  generalize p.derivative.eval _ = c1 at e ⊢
  have ha : x (N - 1) - x (N - 4) ≠ 0 := hx.sub (by omega) (by omega) (by omega)
  have ea := e (x (N - 4))
  rw [show x (N - 4) - x (N - 1) = -(x (N - 1) - x (N - 4)) by ring] at ea
  have hb : x (N - 1) - x (N - 3) ≠ 0 := hx.sub (by omega) (by omega) (by omega)
  have eb := e (x (N - 3))
  rw [show x (N - 3) - x (N - 1) = -(x (N - 1) - x (N - 3)) by ring] at eb
  have hc : x (N - 1) - x (N - 2) ≠ 0 := hx.sub (by omega) (by omega) (by omega)
  have ec := e (x (N - 2))
  rw [show x (N - 2) - x (N - 1) = -(x (N - 1) - x (N - 2)) by ring] at ec
  have gab : x (N - 4) - x (N - 3) ≠ 0 := hx.sub (by omega) (by omega) (by omega)
  rw [show x (N - 4) - x (N - 3) = -(x (N - 1) - x (N - 4)) - -(x (N - 1) - x (N - 3)) by ring] at gab
  have gac : x (N - 4) - x (N - 2) ≠ 0 := hx.sub (by omega) (by omega) (by omega)
  rw [show x (N - 4) - x (N - 2) = -(x (N - 1) - x (N - 4)) - -(x (N - 1) - x (N - 2)) by ring] at gac
  have gbc : x (N - 3) - x (N - 2) ≠ 0 := hx.sub (by omega) (by omega) (by omega)
  rw [show x (N - 3) - x (N - 2) = -(x (N - 1) - x (N - 3)) - -(x (N - 1) - x (N - 2)) by ring] at gbc
  unfold h3_last
  dsimp only
  clear e h3 h4
  rw [ea, eb, ec]
  generalize x (N - 1) - x (N - 4) = a at *
  generalize x (N - 1) - x (N - 3) = b at *
  generalize x (N - 1) - x (N - 2) = c at *
  generalize p.eval _ = c0
  have hall := mul_ne_zero (mul_ne_zero (mul_ne_zero (mul_ne_zero (mul_ne_zero (ha) hb) hc) gab) gac) gbc
  refine (rule3_eq ?_ ha hb hc).trans (congrArg some ?_)
  · exact fun hz => hall (by first | (linear_combination hz) | (linear_combination -hz))
  · rw [← eq_sub_iff_add_eq, div_eq_iff (fun hz => hall (by first | (linear_combination hz) | (linear_combination -hz)))]; field_simp; ring

theorem h4_first_exact {x : ℕ → ℝ} {N : ℕ} (hx : Distinct x N) (h : 5 ≤ N)
    (p : ℝ[X]) (hp : p.natDegree ≤ 4) :
    h4_first x (fun j => p.eval (x j)) = some (p.derivative.eval (x (0))) := by
  obtain ⟨c2, c3, c4, h3, h4, e⟩ := eval_around p (by omega) (x (0))
  generalize p.derivative.eval _ = c1 at e ⊢
  have ha : x (1) - x (0) ≠ 0 := hx.sub (by omega) (by omega) (by omega)
  have ea := e (x (1))
  have hb : x (2) - x (0) ≠ 0 := hx.sub (by omega) (by omega) (by omega)
  have eb := e (x (2))
  have hc : x (3) - x (0) ≠ 0 := hx.sub (by omega) (by omega) (by omega)
  have ec := e (x (3))
  have hd : x (4) - x (0) ≠ 0 := hx.sub (by omega) (by omega) (by omega)
  have ed := e (x (4))
  have gab : x (1) - x (2) ≠ 0 := hx.sub (by omega) (by omega) (by omega)
  rw [show x (1) - x (2) = (x (1) - x (0)) - (x (2) - x (0)) by ring] at gab
  have gac : x (1) - x (3) ≠ 0 := hx.sub (by omega) (by omega) (by omega)
  rw [show x (1) - x (3) = (x (1) - x (0)) - (x (3) - x (0)) by ring] at gac
  have gad : x (1) - x (4) ≠ 0 := hx.sub (by omega) (by omega) (by omega)
  rw [show x (1) - x (4) = (x (1) - x (0)) - (x (4) - x (0)) by ring] at gad
  have gbc : x (2) - x (3) ≠ 0 := hx.sub (by omega) (by omega) (by omega)
  rw [show x (2) - x (3) = (x (2) - x (0)) - (x (3) - x (0)) by ring] at gbc
  have gbd : x (2) - x (4) ≠ 0 := hx.sub (by omega) (by omega) (by omega)
  rw [show x (2) - x (4) = (x (2) - x (0)) - (x (4) - x (0)) by ring] at gbd
  have gcd : x (3) - x (4) ≠ 0 := hx.sub (by omega) (by omega) (by omega)
  rw [show x (3) - x (4) = (x (3) - x (0)) - (x (4) - x (0)) by ring] at gcd
  unfold h4_first
  dsimp only
  clear e h3 h4
  rw [ea, eb, ec, ed]
  generalize x (1) - x (0) = a at *
  generalize x (2) - x (0) = b at *
  generalize x (3) - x (0) = c at *
  generalize x (4) - x (0) = d at *
  generalize p.eval _ = c0
  have hall := mul_ne_zero (mul_ne_zero (mul_ne_zero (mul_ne_zero (mul_ne_zero (mul_ne_zero (mul_ne_zero (mul_ne_zero (mul_ne_zero (ha) hb) hc) hd) gab) gac) gad) gbc) gbd) gcd
  refine (rule4_eq ?_ ha hb hc hd).trans (congrArg some ?_)
  · exact fun hz => hall (by first | (linear_combination hz) | (linear_combination -hz))
  · rw [← eq_sub_iff_add_eq, div_eq_iff (fun hz => hall (by first | (linear_combination hz) | (linear_combination -hz)))]; field_simp; ring

theorem h4_second_exact {x : ℕ → ℝ} {N : ℕ} (hx : Distinct x N) (h : 5 ≤ N)
    (p : ℝ[X]) (hp : p.natDegree ≤ 4) :
    h4_second x (fun j => p.eval (x j)) = some (p.derivative.eval (x (1))) := by
  obtain ⟨c2, c3, c4, h3, h4, e⟩ := eval_around p (by omega) (x (1))
  generalize p.derivative.eval _ = c1 at e ⊢
  have ha : x (1) - x (0) ≠ 0 := hx.sub (by omega) (by omega) (by omega)
  have ea := e (x (0))
  rw [show x (0) - x (1) = -(x (1) - x (0)) by ring] at ea
  have hb : x (2) - x (1) ≠ 0 := hx.sub (by omega) (by omega) (by omega)
  have eb := e (x (2))
  have hc : x (3) - x (1) ≠ 0 := hx.sub (by omega) (by omega) (by omega)
  have ec := e (x (3))
  have hd : x (4) - x (1) ≠ 0 := hx.sub (by omega) (by omega) (by omega)
  have ed := e (x (4))
  have gab : x (0) - x (2) ≠ 0 := hx.sub (by omega) (by omega) (by omega)
  rw [show x (0) - x (2) = -(x (1) - x (0)) - (x (2) - x (1)) by ring] at gab
  have gac : x (0) - x (3) ≠ 0 := hx.sub (by omega) (by omega) (by omega)
  rw [show x (0) - x (3) = -(x (1) - x (0)) - (x (3) - x (1)) by ring] at gac
  have gad : x (0) - x (4) ≠ 0 := hx.sub (by omega) (by omega) (by omega)
  rw [show x (0) - x (4) = -(x (1) - x (0)) - (x (4) - x (1)) by ring] at gad
  have gbc : x (2) - x (3) ≠ 0 := hx.sub (by omega) (by omega) (by omega)
  rw [show x (2) - x (3) = (x (2) - x (1)) - (x (3) - x (1)) by ring] at gbc
  have gbd : x (2) - x (4) ≠ 0 := hx.sub (by omega) (by omega) (by omega)
  rw [show x (2) - x (4) = (x (2) - x (1)) - (x (4) - x (1)) by ring] at gbd
  have gcd : x (3) - x (4) ≠ 0 := hx.sub (by omega) (by omega) (by omega)
  rw [show x (3) - x (4) = (x (3) - x (1)) - (x (4) - x (1)) by ring] at gcd
  unfold h4_second
  dsimp only
  clear e h3 h4
  rw [ea, eb, ec, ed]
  generalize x (1) - x (0) = a at *
  generalize x (2) - x (1) = b at *
  generalize x (3) - x (1) = c at *
  generalize x (4) - x (1) = d at *
  generalize p.eval _ = c0
  have hall := mul_ne_zero (mul_ne_zero (mul_ne_zero (mul_ne_zero (mul_ne_zero (mul_ne_zero (mul_ne_zero (mul_ne_zero (mul_ne_zero (ha) hb) hc) hd) gab) gac) gad) gbc) gbd) gcd
  refine (rule4_eq ?_ ha hb hc hd).trans (congrArg some ?_)
  · exact fun hz => hall (by first | (linear_combination hz) | (linear_combination -hz))
  · rw [← eq_sub_iff_add_eq, div_eq_iff (fun hz => hall (by first | (linear_combination hz) | (linear_combination -hz)))]; field_simp; ring

theorem h4_middle_exact {x : ℕ → ℝ} {N i : ℕ} (hx : Distinct x N) (h0 : 2 ≤ i) (h : i + 2 < N)
    (p : ℝ[X]) (hp : p.natDegree ≤ 4) :
    h4_middle x (fun j => p.eval (x j)) i = some (p.derivative.eval (x (i))) := by
  obtain ⟨c2, c3, c4, h3, h4, e⟩ := eval_around p (by omega) (x (i))
  generalize p.derivative.eval _ = c1 at e ⊢
  have ha : x (i) - x (i - 2) ≠ 0 := hx.sub (by omega) (by omega) (by omega)
  have ea := e (x (i - 2))
  rw [show x (i - 2) - x (i) = -(x (i) - x (i - 2)) by ring] at ea
  have hb : x (i) - x (i - 1) ≠ 0 := hx.sub (by omega) (by omega) (by omega)
  have eb := e (x (i - 1))
  rw [show x (i - 1) - x (i) = -(x (i) - x (i - 1)) by ring] at eb
  have hc : x (i + 1) - x (i) ≠ 0 := hx.sub (by omega) (by omega) (by omega)
  have ec := e (x (i + 1))
  have hd : x (i + 2) - x (i) ≠ 0 := hx.sub (by omega) (by omega) (by omega)
  have ed := e (x (i + 2))
  have gab : x (i - 2) - x (i - 1) ≠ 0 := hx.sub (by omega) (by omega) (by omega)
  rw [show x (i - 2) - x (i - 1) = -(x (i) - x (i - 2)) - -(x (i) - x (i - 1)) by ring] at gab
  have gac : x (i - 2) - x (i + 1) ≠ 0 := hx.sub (by omega) (by omega) (by omega)
  rw [show x (i - 2) - x (i + 1) = -(x (i) - x (i - 2)) - (x (i + 1) - x (i)) by ring] at gac
  have gad : x (i - 2) - x (i + 2) ≠ 0 := hx.sub (by omega) (by omega) (by omega)
  rw [show x (i - 2) - x (i + 2) = -(x (i) - x (i - 2)) - (x (i + 2) - x (i)) by ring] at gad
  have gbc : x (i - 1) - x (i + 1) ≠ 0 := hx.sub (by omega) (by omega) (by omega)
  rw [show x (i - 1) - x (i + 1) = -(x (i) - x (i - 1)) - (x (i + 1) - x (i)) by ring] at gbc
  have gbd : x (i - 1) - x (i + 2) ≠ 0 := hx.sub (by omega) (by omega) (by omega)
  rw [show x (i - 1) - x (i + 2) = -(x (i) - x (i - 1)) - (x (i + 2) - x (i)) by ring] at gbd
  have gcd : x (i + 1) - x (i + 2) ≠ 0 := hx.sub (by omega) (by omega) (by omega)
  rw [show x (i + 1) - x (i + 2) = (x (i + 1) - x (i)) - (x (i + 2) - x (i)) by ring] at gcd
  unfold h4_middle
  dsimp only
  clear e h3 h4
  rw [ea, eb, ec, ed]
  generalize x (i) - x (i - 2) = a at *
  generalize x (i) - x (i - 1) = b at *
  generalize x (i + 1) - x (i) = c at *
  generalize x (i + 2) - x (i) = d at *
  generalize p.eval _ = c0
  have hall := mul_ne_zero (mul_ne_zero (mul_ne_zero (mul_ne_zero (mul_ne_zero (mul_ne_zero (mul_ne_zero (mul_ne_zero (mul_ne_zero (ha) hb) hc) hd) gab) gac) gad) gbc) gbd) gcd
  refine (rule4_eq ?_ ha hb hc hd).trans (congrArg some ?_)
  · exact fun hz => hall (by first | (linear_combination hz) | (linear_combination -hz))
  · rw [← eq_sub_iff_add_eq, div_eq_iff (fun hz => hall (by first | (linear_combination hz) | (linear_combination -hz)))]; field_simp; ring

theorem h4_last_but_one_exact {x : ℕ → ℝ} {N i : ℕ} (hx : Distinct x N) (h0 : 3 ≤ i) (h : i + 1 < N)
    (p : ℝ[X]) (hp : p.natDegree ≤ 4) :
    h4_last_but_one x (fun j => p.eval (x j)) i = some (p.derivative.eval (x (i))) := by
  obtain ⟨c2, c3, c4, h3, h4, e⟩ := eval_around p (by omega) (x (i))
  generalize p.derivative.eval _ = c1 at e ⊢
  have ha : x (i) - x (i - 3) ≠ 0 := hx.sub (by omega) (by omega) (by omega)
  have ea := e (x (i - 3))
  rw [show x (i - 3) - x (i) = -(x (i) - x (i - 3)) by ring] at ea
  have hb : x (i) - x (i - 2) ≠ 0 := hx.sub (by omega) (by omega) (by omega)
  have eb := e (x (i - 2))
  rw [show x (i - 2) - x (i) = -(x (i) - x (i - 2)) by ring] at eb
  have hc : x (i) - x (i - 1) ≠ 0 := hx.sub (by omega) (by omega) (by omega)
  have ec := e (x (i - 1))
  rw [show x (i - 1) - x (i) = -(x (i) - x (i - 1)) by ring] at ec
  have hd : x (i + 1) - x (i) ≠ 0 := hx.sub (by omega) (by omega) (by omega)
  have ed := e (x (i + 1))
  have gab : x (i - 3) - x (i - 2) ≠ 0 := hx.sub (by omega) (by omega) (by omega)
  rw [show x (i - 3) - x (i - 2) = -(x (i) - x (i - 3)) - -(x (i) - x (i - 2)) by ring] at gab
  have gac : x (i - 3) - x (i - 1) ≠ 0 := hx.sub (by omega) (by omega) (by omega)
  rw [show x (i - 3) - x (i - 1) = -(x (i) - x (i - 3)) - -(x (i) - x (i - 1)) by ring] at gac
  have gad : x (i - 3) - x (i + 1) ≠ 0 := hx.sub (by omega) (by omega) (by omega)
  rw [show x (i - 3) - x (i + 1) = -(x (i) - x (i - 3)) - (x (i + 1) - x (i)) by ring] at gad
  have gbc : x (i - 2) - x (i - 1) ≠ 0 := hx.sub (by omega) (by omega) (by omega)
  rw [show x (i - 2) - x (i - 1) = -(x (i) - x (i - 2)) - -(x (i) - x (i - 1)) by ring] at gbc
  have gbd : x (i - 2) - x (i + 1) ≠ 0 := hx.sub (by omega) (by omega) (by omega)
  rw [show x (i - 2) - x (i + 1) = -(x (i) - x (i - 2)) - (x (i + 1) - x (i)) by ring] at gbd
  have gcd : x (i - 1) - x (i + 1) ≠ 0 := hx.sub (by omega) (by omega) (by omega)
  rw [show x (i - 1) - x (i + 1) = -(x (i) - x (i - 1)) - (x (i + 1) - x (i)) by ring] at gcd
  unfold h4_last_but_one
  dsimp only
  clear e h3 h4
  rw [ea, eb, ec, ed]
  generalize x (i) - x (i - 3) = a at *
  generalize x (i) - x (i - 2) = b at *
  generalize x (i) - x (i - 1) = c at *
  generalize x (i + 1) - x (i) = d at *
  generalize p.eval _ = c0
  have hall := mul_ne_zero (mul_ne_zero (mul_ne_zero (mul_ne_zero (mul_ne_zero (mul_ne_zero (mul_ne_zero (mul_ne_zero (mul_ne_zero (ha) hb) hc) hd) gab) gac) gad) gbc) gbd) gcd
  refine (rule4_eq ?_ ha hb hc hd).trans (congrArg some ?_)
  · exact fun hz => hall (by first | (linear_combination hz) | (linear_combination -hz))
  · rw [← eq_sub_iff_add_eq, div_eq_iff (fun hz => hall (by first | (linear_combination hz) | (linear_combination -hz)))]; field_simp; ring

theorem h4_last_exact {x : ℕ → ℝ} {N : ℕ} (hx : Distinct x N) (h : 5 ≤ N)
    (p : ℝ[X]) (hp : p.natDegree ≤ 4) :
    h4_last x (fun j => p.eval (x j)) N = some (p.derivative.eval (x (N - 1))) := by
  obtain ⟨c2, c3, c4, h3, h4, e⟩ := eval_around p (by omega) (x (N - 1))
  generalize p.derivative.eval _ = c1 at e ⊢
  have ha : x (N - 1) - x (N - 5) ≠ 0 := hx.sub (by omega) (by omega) (by omega)
  have ea := e (x (N - 5))
  rw [show x (N - 5) - x (N - 1) = -(x (N - 1) - x (N - 5)) by ring] at ea
  have hb : x (N - 1) - x (N - 4) ≠ 0 := hx.sub (by omega) (by omega) (by omega)
  have eb := e (x (N - 4))
  rw [show x (N - 4) - x (N - 1) = -(x (N - 1) - x (N - 4)) by ring] at eb
  have hc : x (N - 1) - x (N - 3) ≠ 0 := hx.sub (by omega) (by omega) (by omega)
  have ec := e (x (N - 3))
  rw [show x (N - 3) - x (N - 1) = -(x (N - 1) - x (N - 3)) by ring] at ec
  have hd : x (N - 1) - x (N - 2) ≠ 0 := hx.sub (by omega) (by omega) (by omega)
  have ed := e (x (N - 2))
  rw [show x (N - 2) - x (N - 1) = -(x (N - 1) - x (N - 2)) by ring] at ed
  have gab : x (N - 5) - x (N - 4) ≠ 0 := hx.sub (by omega) (by omega) (by omega)
  rw [show x (N - 5) - x (N - 4) = -(x (N - 1) - x (N - 5)) - -(x (N - 1) - x (N - 4)) by ring] at gab
  have gac : x (N - 5) - x (N - 3) ≠ 0 := hx.sub (by omega) (by omega) (by omega)
  rw [show x (N - 5) - x (N - 3) = -(x (N - 1) - x (N - 5)) - -(x (N - 1) - x (N - 3)) by ring] at gac
  have gad : x (N - 5) - x (N - 2) ≠ 0 := hx.sub (by omega) (by omega) (by omega)
  rw [show x (N - 5) - x (N - 2) = -(x (N - 1) - x (N - 5)) - -(x (N - 1) - x (N - 2)) by ring] at gad
  have gbc : x (N - 4) - x (N - 3) ≠ 0 := hx.sub (by omega) (by omega) (by omega)
  rw [show x (N - 4) - x (N - 3) = -(x (N - 1) - x (N - 4)) - -(x (N - 1) - x (N - 3)) by ring] at gbc
  have gbd : x (N - 4) - x (N - 2) ≠ 0 := hx.sub (by omega) (by omega) (by omega)
  rw [show x (N - 4) - x (N - 2) = -(x (N - 1) - x (N - 4)) - -(x (N - 1) - x (N - 2)) by ring] at gbd
  have gcd : x (N - 3) - x (N - 2) ≠ 0 := hx.sub (by omega) (by omega) (by omega)
  rw [show x (N - 3) - x (N - 2) = -(x (N - 1) - x (N - 3)) - -(x (N - 1) - x (N - 2)) by ring] at gcd
  unfold h4_last
  dsimp only
  clear e h3 h4
  rw [ea, eb, ec, ed]
  generalize x (N - 1) - x (N - 5) = a at *
  generalize x (N - 1) - x (N - 4) = b at *
  generalize x (N - 1) - x (N - 3) = c at *
  generalize x (N - 1) - x (N - 2) = d at *
  generalize p.eval _ = c0
  have hall := mul_ne_zero (mul_ne_zero (mul_ne_zero (mul_ne_zero (mul_ne_zero (mul_ne_zero (mul_ne_zero (mul_ne_zero (mul_ne_zero (ha) hb) hc) hd) gab) gac) gad) gbc) gbd) gcd
  refine (rule4_eq ?_ ha hb hc hd).trans (congrArg some ?_)
  · exact fun hz => hall (by first | (linear_combination hz) | (linear_combination -hz))
  · rw [← eq_sub_iff_add_eq, div_eq_iff (fun hz => hall (by first | (linear_combination hz) | (linear_combination -hz)))]; field_simp; ring

theorem loop_update {lo hi : ℕ} (f : ℕ → Num) (der : ℕ → Num) (hle : lo ≤ hi) (j : ℕ) :
    GLU.Mat.forFrom lo hi (fun i der => Function.update der i (f i)) der j =
      if lo ≤ j ∧ j < hi then f j else der j := by
  have := GLU.Mat.forFrom_inv (fun k (s : ℕ → Num) => ∀ j, s j = if lo ≤ j ∧ j < k then f j else der j) hle
    (body := fun i der => Function.update der i (f i)) (s := der)
    (fun j => by rw [if_neg (by omega)])
    (fun i h1 h2 s hs j => by
      by_cases e : j = i
      · subst e; rw [Function.update_self, if_pos (by omega)]
      · rw [Function.update_of_ne e, hs]
        by_cases c : lo ≤ j ∧ j < i
        · rw [if_pos c, if_pos (by omega)]
        · rw [if_neg c, if_neg (by omega)])
  exact this j

/-- **C53.** On any grid of three or more distinct points, uniform or not, in any order, the derivatives
computed from the values of a polynomial are its derivatives at every point, up to degree two for three points,
three for four points and four for five or more. What was in the array before does not matter. -/
theorem C53_derivative (der : ℕ → Num) (x : ℕ → ℝ) (N : ℕ) (hN : 3 ≤ N) (hx : Distinct x N) (p : ℝ[X])
    (hp : p.natDegree ≤ min (N - 1) 4) (j : ℕ) (hj : j < N) :
    spline_derivative der x (fun i => p.eval (x i)) N j = some (p.derivative.eval (x j)) := by
  unfold spline_derivative
  by_cases h5 : N < 5
  · rw [if_pos h5]
    by_cases h3 : N = 3
    · rw [if_pos h3]
      unfold h2_derivative
      by_cases e : j = N - 1
      · rw [e, Function.update_self]; exact h2_last_exact hx hN p (by omega)
      · rw [Function.update_of_ne e, loop_update _ _ (by omega)]
        by_cases c : 1 ≤ j ∧ j < N - 1
        · rw [if_pos c]; exact h2_middle_exact hx (by omega) (by omega) p (by omega)
        · rw [if_neg c]
          obtain rfl : j = 0 := by omega
          rw [Function.update_self]; exact h2_first_exact hx hN p (by omega)
    · rw [if_neg h3, if_pos (show N = 4 by omega)]
      unfold h3_derivative
      by_cases e : j = N - 1
      · rw [e, Function.update_self]; exact h3_last_exact hx (by omega) p (by omega)
      · rw [Function.update_of_ne e]
        by_cases e : j = N - 2
        · rw [e, Function.update_self]; exact h3_last_but_one_exact hx (by omega) p (by omega)
        rw [Function.update_of_ne e, loop_update _ _ (by omega)]
        by_cases c : 1 ≤ j ∧ j < N - 2
        · rw [if_pos c]; exact h3_middle_exact hx (by omega) (by omega) p (by omega)
        · rw [if_neg c]
          obtain rfl : j = 0 := by omega
          rw [Function.update_self]; exact h3_first_exact hx (by omega) p (by omega)
  · rw [if_neg h5]
    by_cases e : j = N - 1
    · rw [e, Function.update_self]; exact h4_last_exact hx (by omega) p (by omega)
    · rw [Function.update_of_ne e]
      by_cases e : j = N - 2
      · rw [e, Function.update_self]; exact h4_last_but_one_exact hx (by omega) (by omega) p (by omega)
      rw [Function.update_of_ne e, loop_update _ _ (by omega)]
      by_cases c : 2 ≤ j ∧ j < N - 2
      · rw [if_pos c]; exact h4_middle_exact hx (by omega) (by omega) p (by omega)
      · rw [if_neg c]
        by_cases e : j = 1
        · rw [e, Function.update_self]; exact h4_second_exact hx (by omega) p (by omega)
        obtain rfl : j = 0 := by omega
        rw [Function.update_of_ne e, Function.update_self]; exact h4_first_exact hx (by omega) p (by omega)

/-- Six points on an uneven grid. -/
example : Distinct (fun i : ℕ => (i : ℝ) ^ 2) 6 := by
  intro i hi j hj h e
  have : i ^ 2 = j ^ 2 := by dsimp only at e; exact_mod_cast e
  exact h (Nat.pow_left_injective (by norm_num : 2 ≠ 0) this)

/-- **C53.** For fewer than three points the array is left as it was. -/
theorem C53_too_few (der : ℕ → Num) (x y : ℕ → ℝ) (N : ℕ) (hN : N < 3) : spline_derivative der x y N = der := by
  unfold spline_derivative
  rw [if_pos (by omega), if_neg (by omega), if_neg (by omega)]

/-- The grid increases. -/
def Increasing (x : ℕ → ℝ) (N : ℕ) : Prop := ∀ i j, i < j → j < N → x i < x j

theorem Increasing.distinct {x : ℕ → ℝ} {N : ℕ} (h : Increasing x N) : Distinct x N := by
  intro i hi j hj hij
  rcases Nat.lt_or_gt_of_ne hij with e | e
  · exact (h i j e hj).ne
  · exact (h j i e hi).ne'

/-- The binary search returns the index after the last point below the target. -/
theorem find_idx_spec (target : ℝ) (X : ℕ → ℝ) : ∀ n high low, high - low = n → low < high →
    (∀ i j, i ≤ j → j < high → X i ≤ X j) → (low = 0 ∨ X low < target) →
    low < find_idx target X high low ∧ find_idx target X high low ≤ high ∧
    (∀ i, 0 < i → i < find_idx target X high low → X i < target) ∧
    (find_idx target X high low < high → target ≤ X (find_idx target X high low)) := by
  intro n
  induction n using Nat.strong_induction_on with
  | _ n ih =>
    intro high low hn hlt hX hlow
    rw [find_idx]
    by_cases h : high - low < 2
    · rw [if_pos h]
      refine ⟨hlt, le_rfl, ?_, fun h => absurd h (lt_irrefl _)⟩
      intro i h0 hi
      rcases hlow with h | h
      · omega
      · exact lt_of_le_of_lt (hX i low (by omega) (by omega)) h
    · rw [if_neg h]
      by_cases c : X ((high + low) / 2) < target
      · rw [if_pos c]
        have := ih (high - (high + low) / 2) (by omega) high ((high + low) / 2) rfl (by omega) hX (Or.inr c)
        exact ⟨by omega, this.2.1, this.2.2.1, this.2.2.2⟩
      · rw [if_neg c]
        have := ih ((high + low) / 2 - low) (by omega) ((high + low) / 2) low rfl (by omega)
          (fun i j h1 h2 => hX i j h1 (by omega)) hlow
        refine ⟨this.1, by omega, this.2.2.1, fun _ => ?_⟩
        rcases this.2.1.lt_or_eq with h | h
        · exact this.2.2.2 h
        · rw [h]; exact not_lt.1 c

/-- For targets on the grid the search ends in the right interval. -/
theorem find_idx_interval {x : ℕ → ℝ} {N : ℕ} (hx : Increasing x N) (mu : ℝ) (hN : 2 ≤ N) (h0 : x 0 ≤ mu)
    (h1 : mu ≤ x (N - 1)) : 0 < find_idx mu x N 0 ∧ find_idx mu x N 0 < N ∧
      x (find_idx mu x N 0 - 1) ≤ mu ∧ mu ≤ x (find_idx mu x N 0) := by
  obtain ⟨a1, a2, a3, a4⟩ := find_idx_spec mu x (N - 0) N 0 rfl (by omega)
    (fun i j h1 h2 => by rcases h1.lt_or_eq with h | h; exacts [(hx i j h h2).le, h ▸ le_rfl]) (Or.inl rfl)
  have hlt : find_idx mu x N 0 < N := by
    rcases a2.lt_or_eq with h | h
    · exact h
    · have := a3 (N - 1) (by omega) (by omega)
      linarith
  refine ⟨a1, hlt, ?_, a4 hlt⟩
  by_cases e : find_idx mu x N 0 - 1 = 0
  · rw [e]; exact h0
  · exact (a3 _ (by omega) (by omega)).le

/-- **C53.** On an increasing grid with derivatives computed from the values of a polynomial of degree at most
three (two for three points), the interpolation at any position between the first and the last point is the
polynomial. -/
theorem C53_interpolation (der : ℕ → Num) (x : ℕ → ℝ) (N : ℕ) (hN : 3 ≤ N) (hx : Increasing x N) (p : ℝ[X])
    (hp : p.natDegree ≤ min (N - 1) 3) (mu : ℝ) (h0 : x 0 ≤ mu) (h1 : mu ≤ x (N - 1)) :
    cubic_eval x (fun i => p.eval (x i)) (spline_derivative der x (fun i => p.eval (x i)) N) mu N =
      some (p.eval mu) := by
  obtain ⟨a1, a2, -, -⟩ := find_idx_interval hx mu (by omega) h0 h1
  unfold cubic_eval piece
  dsimp only
  set r := find_idx mu x N 0
  rw [if_neg (by omega), C53_derivative der x N hN hx.distinct p (by omega) (r - 1) (by omega),
    C53_derivative der x N hN hx.distinct p (by omega) r a2]
  have hd : x r - x (r - 1) ≠ 0 := hx.distinct.sub a2 (by omega) (by omega)
  simp only [Option.bind_eq_bind, Option.bind_some, Option.pure_def]
  rw [quot_eq hd]
  simp only [Option.bind_some]
  congr 1
  obtain ⟨c2, c3, c4, -, h4, e⟩ := eval_around p (by omega) (x (r - 1))
  obtain rfl := h4 (by omega)
  have e' : p.derivative.eval (x r) = p.derivative.eval (x (r - 1)) + 2 * c2 * (x r - x (r - 1)) +
      3 * c3 * (x r - x (r - 1)) ^ 2 := by
    have hc : p = C (p.eval (x (r - 1))) + C (p.derivative.eval (x (r - 1))) * (X - C (x (r - 1))) +
        C c2 * (X - C (x (r - 1))) ^ 2 + C c3 * (X - C (x (r - 1))) ^ 3 := by
      apply Polynomial.funext
      intro s
      rw [e s]
      simp
    generalize p.eval (x (r - 1)) = k0 at hc
    generalize p.derivative.eval (x (r - 1)) = k1 at hc ⊢
    rw [hc]
    simp only [derivative_add, derivative_mul, derivative_C, derivative_sub, derivative_X, derivative_pow,
      eval_add, eval_mul, eval_sub, eval_X, eval_C, eval_pow, eval_zero, eval_one]
    norm_num
    ring
  rw [e', e (x r), e mu]
  generalize p.eval (x (r - 1)) = k0
  generalize p.derivative.eval (x (r - 1)) = k1
  field_simp
  ring

/-- The cubic of the interval that ends at `ref`, as a function of the position. -/
noncomputable def onInterval (q : Piece) (lo s : ℝ) : ℝ :=
  q.d + (s - lo) / q.diff * (q.c + (s - lo) / q.diff * (q.b + (s - lo) / q.diff * q.a))

theorem onInterval_deriv (q : Piece) (lo s : ℝ) : HasDerivAt (onInterval q lo)
    ((q.c + 2 * q.b * ((s - lo) / q.diff) + 3 * q.a * ((s - lo) / q.diff) ^ 2) / q.diff) s := by
  have hs : HasDerivAt (fun s => (s - lo) / q.diff) (1 / q.diff) s :=
    ((hasDerivAt_id s).sub_const lo).div_const q.diff
  have := (hs.mul ((hs.mul ((hs.mul_const q.a).const_add q.b)).const_add q.c)).const_add q.d
  refine HasDerivAt.congr_deriv this ?_
  simp only [Pi.mul_apply]
  ring

/-- **C53.** For any values and slopes, the cubic of an interval takes the given values and has the given slopes
at both ends. -/
theorem C53_hermite (x y : ℕ → ℝ) (der : ℕ → Num) (ref : ℕ) (d0 d1 : ℝ) (h0 : der (ref - 1) = some d0)
    (h1 : der ref = some d1) (hne : x (ref - 1) ≠ x ref) : ∃ q, piece x y der ref = some q ∧
      onInterval q (x (ref - 1)) (x (ref - 1)) = y (ref - 1) ∧ onInterval q (x (ref - 1)) (x ref) = y ref ∧
      HasDerivAt (onInterval q (x (ref - 1))) d0 (x (ref - 1)) ∧
      HasDerivAt (onInterval q (x (ref - 1))) d1 (x ref) := by
  have hd : x ref - x (ref - 1) ≠ 0 := sub_ne_zero.2 hne.symm
  unfold piece
  rw [h0, h1]
  refine ⟨_, rfl, ?_, ?_, ?_, ?_⟩
  · simp [onInterval]
  · simp only [onInterval]; field_simp; ring
  · convert onInterval_deriv _ _ _ using 1
    simp only [sub_self, zero_div]
    field_simp
    ring
  · convert onInterval_deriv _ _ _ using 1
    rw [div_self hd]
    field_simp
    ring

/-- **C53.** Beyond the last point the interpolation reads past the end of the arrays. -/
theorem C53_outside (x y : ℕ → ℝ) (der : ℕ → Num) (N : ℕ) (hx : Increasing x N) (hN : 2 ≤ N) (mu : ℝ)
    (h : x (N - 1) < mu) : cubic_eval x y der mu N = none := by
  obtain ⟨a1, a2, a3, a4⟩ := find_idx_spec mu x (N - 0) N 0 rfl (by omega)
    (fun i j h1 h2 => by rcases h1.lt_or_eq with h | h; exacts [(hx i j h h2).le, h ▸ le_rfl]) (Or.inl rfl)
  have : N ≤ find_idx mu x N 0 := by
    by_contra c
    have h1 := a4 (by omega)
    rcases (show find_idx mu x N 0 ≤ N - 1 by omega).lt_or_eq with e | e
    · have := hx _ _ e (by omega); linarith
    · rw [e] at h1; linarith
  unfold cubic_eval
  dsimp only
  rw [if_pos this]
  rfl

end GLU.Utils
