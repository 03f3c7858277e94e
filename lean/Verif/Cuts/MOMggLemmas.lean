import Verif.Cuts.MOMgg
import Verif.Cuts.GluonProps
import Verif.Cuts.GluonLandau
import Verif.Mat.LieProps

/-!
# Helpers for the exceptional three-gluon vertex
-/

namespace GLU.Cuts

open Complex Matrix Finset GLU.Mat GLU.Geom GLU.Field

/-! ### Specification -/

/-- `Σ p_rho / p^2 (δ_{mu nu} - p_mu p_nu / p^2) T_{mu nu rho}`, zero at zero momentum. -/
noncomputable def projected (d : ℕ) (p : ℕ → ℝ) (T : ℕ → ℕ → ℕ → ℂ) : ℂ :=
  ∑ mu ∈ range d, ∑ nu ∈ range d, ∑ rho ∈ range d,
    ((((if mu = nu then 1 else 0) - p mu * p nu / normSq d p) * (p rho / normSq d p) : ℝ) : ℂ) * T mu nu rho

/-- `Tr( F_mu G_nu Z_rho )`. -/
noncomputable def triple {N : ℕ} (F G Z : ℕ → Matrix (Fin N) (Fin N) ℂ) (mu nu rho : ℕ) : ℂ :=
  trace (F mu * G nu * Z rho)

/-- `Tr( [F_mu, G_nu] Z_rho ) / 2`: the part with the structure constants `f`. -/
noncomputable def tripleF {N : ℕ} (F G Z : ℕ → Matrix (Fin N) (Fin N) ℂ) (mu nu rho : ℕ) : ℂ :=
  trace ((F mu * G nu - G nu * F mu) * Z rho) / 2

/-! ### The contractions -/

/-- The projection with an arbitrary number in the place of `p^2`. -/
noncomputable def projectedQ (d : ℕ) (p : ℕ → ℝ) (q : ℝ) (T : ℕ → ℕ → ℕ → ℂ) : ℂ :=
  ∑ mu ∈ range d, ∑ nu ∈ range d, ∑ rho ∈ range d,
    ((((if mu = nu then 1 else 0) - p mu * p nu / q) * (p rho / q) : ℝ) : ℂ) * T mu nu rho

theorem contraction_traces_eq (NC : ℕ) (L : Latt) (A : Gauge) (x y z : ℕ) (p : ℕ → ℝ) {q : ℝ} (hq : q ≠ 0) :
    contraction_traces NC L A x y z p q = projectedQ L.ND p q
      (triple (fun mu => toM NC (A (x, mu))) (fun mu => toM NC (A (y, mu))) (fun mu => toM NC (A (z, mu)))) := by
  unfold contraction_traces projectedQ triple
  simp only [forN_sum, if_neg hq, zero_add, sum_mul, C12_trace_abc]
  refine sum_congr rfl fun mu _ => sum_congr rfl fun nu _ => sum_congr rfl fun rho _ => ?_
  by_cases h : mu = nu
  · simp only [h, ne_eq, not_true_eq_false, if_false, if_true]
    push_cast
    ring
  · simp only [h, ne_eq, not_false_eq_true, if_false, if_true]
    push_cast
    ring

theorem contraction_sums_eq (NC : ℕ) (L : Latt) (A : Gauge) (x y z : ℕ) (p : ℕ → ℝ) (q : ℝ) :
    let s := contraction_sums NC L A x y z p q
    toM NC s.1 = ∑ mu ∈ range L.ND, toM NC (A (x, mu)) * toM NC (A (y, mu)) ∧
    toM NC s.2.1 = ∑ mu ∈ range L.ND, ((p mu : ℝ) : ℂ) • toM NC (A (z, mu)) ∧
    toM NC s.2.2.1 = ∑ mu ∈ range L.ND, ((p mu : ℝ) : ℂ) • toM NC (A (x, mu)) ∧
    toM NC s.2.2.2 = ∑ mu ∈ range L.ND, ((-p mu / q : ℝ) : ℂ) • toM NC (A (y, mu)) := by
  unfold contraction_sums
  dsimp only
  refine forN_inv (fun k (s : Arr ℂ × Arr ℂ × Arr ℂ × Arr ℂ) =>
    toM NC s.1 = ∑ mu ∈ range k, toM NC (A (x, mu)) * toM NC (A (y, mu)) ∧
    toM NC s.2.1 = ∑ mu ∈ range k, ((p mu : ℝ) : ℂ) • toM NC (A (z, mu)) ∧
    toM NC s.2.2.1 = ∑ mu ∈ range k, ((p mu : ℝ) : ℂ) • toM NC (A (x, mu)) ∧
    toM NC s.2.2.2 = ∑ mu ∈ range k, ((-p mu / q : ℝ) : ℂ) • toM NC (A (y, mu))) ?_ ?_
  · simp [C63_zero_mat]
  · rintro k _ s ⟨h1, h2, h3, h4⟩
    simp only [sum_range_succ, C63_a_plus_b, C63_a_plus_Sxb, C10_multab, h1, h2, h3, h4, and_self]

theorem contraction_matrices_eq (NC : ℕ) (L : Latt) (A : Gauge) (x y z : ℕ) (p : ℕ → ℝ) (q : ℝ) :
    contraction_matrices NC L A x y z p q = projectedQ L.ND p q
      (triple (fun mu => toM NC (A (x, mu))) (fun mu => toM NC (A (y, mu))) (fun mu => toM NC (A (z, mu)))) := by
  unfold contraction_matrices
  obtain ⟨h1, h2, h3, h4⟩ := contraction_sums_eq NC L A x y z p q
  simp only [C12_trace_ab, C12_trace_abc, h1, h2, h3, h4]
  rw [trace_mul_cycle, trace_mul_cycle]
  unfold projectedQ triple
  have e1 : (∑ mu ∈ range L.ND, toM NC (A (x, mu)) * toM NC (A (y, mu))) *
      (∑ mu ∈ range L.ND, ((p mu : ℝ) : ℂ) • toM NC (A (z, mu))) =
      ∑ mu ∈ range L.ND, ∑ rho ∈ range L.ND,
        ((p rho : ℝ) : ℂ) • (toM NC (A (x, mu)) * toM NC (A (y, mu)) * toM NC (A (z, rho))) := by
    rw [sum_mul_sum]
    simp only [mul_smul_comm]
  have e2 : (∑ mu ∈ range L.ND, ((p mu : ℝ) : ℂ) • toM NC (A (x, mu))) *
      (∑ mu ∈ range L.ND, ((-p mu / q : ℝ) : ℂ) • toM NC (A (y, mu))) *
      (∑ mu ∈ range L.ND, ((p mu : ℝ) : ℂ) • toM NC (A (z, mu))) =
      ∑ mu ∈ range L.ND, ∑ nu ∈ range L.ND, ∑ rho ∈ range L.ND,
        ((p mu * (-p nu / q) * p rho : ℝ) : ℂ) • (toM NC (A (x, mu)) * toM NC (A (y, nu)) * toM NC (A (z, rho))) := by
    rw [sum_mul_sum, sum_mul]
    refine sum_congr rfl fun mu _ => ?_
    rw [sum_mul]
    refine sum_congr rfl fun nu _ => ?_
    rw [mul_sum]
    refine sum_congr rfl fun rho _ => ?_
    simp only [mul_smul_comm, smul_mul_assoc, smul_smul]
    congr 1
    push_cast
    ring
  rw [e1, e2]
  simp only [trace_sum, trace_smul, smul_eq_mul]
  rw [← sum_add_distrib, sum_div]
  refine sum_congr rfl fun mu hmu => ?_
  have e3 : ∑ rho ∈ range L.ND, ((p rho : ℝ) : ℂ) *
      trace (toM NC (A (x, mu)) * toM NC (A (y, mu)) * toM NC (A (z, rho))) =
      ∑ nu ∈ range L.ND, ∑ rho ∈ range L.ND, (if mu = nu then ((p rho : ℝ) : ℂ) else 0) *
        trace (toM NC (A (x, mu)) * toM NC (A (y, nu)) * toM NC (A (z, rho))) := by
    rw [sum_comm]
    refine sum_congr rfl fun rho _ => ?_
    simp only [ite_mul, zero_mul]
    rw [sum_ite_eq, if_pos hmu]
  rw [e3, ← sum_add_distrib, sum_div]
  refine sum_congr rfl fun nu _ => ?_
  rw [← sum_add_distrib, sum_div]
  refine sum_congr rfl fun rho _ => ?_
  rw [← add_mul, mul_div_right_comm]
  congr 1
  split <;> push_cast <;> ring

theorem projectedQ_eq {d : ℕ} {p : ℕ → ℝ} {q : ℝ} (h : q = normSq d p ∨ ∀ mu < d, p mu = 0) (T : ℕ → ℕ → ℕ → ℂ) :
    projectedQ d p q T = projected d p T := by
  rcases h with rfl | h
  · rfl
  · unfold projectedQ projected
    refine sum_congr rfl fun mu _ => sum_congr rfl fun nu _ => sum_congr rfl fun rho hr => ?_
    rw [h rho (mem_range.1 hr)]
    simp

theorem contraction_lies_eq (L : Latt) (A : Gauge) (x y z : ℕ) (p : ℕ → ℝ) (q : ℝ)
    (hx : ∀ mu < L.ND, trace (toM 3 (A (x, mu))) = 0) (hy : ∀ mu < L.ND, trace (toM 3 (A (y, mu))) = 0)
    (hz : ∀ mu < L.ND, trace (toM 3 (A (z, mu))) = 0) :
    contraction_lies 3 L A x y z p q = some (projectedQ L.ND p q
      (tripleF (fun mu => toM 3 (A (x, mu))) (fun mu => toM 3 (A (y, mu))) (fun mu => toM 3 (A (z, mu))))) := by
  unfold contraction_lies
  set g : ℕ → ℕ → ℕ → ℂ := fun mu nu rho =>
    (if mu ≠ nu then ((-p mu * p nu / q * p rho : ℝ) : ℂ) else (((1 - p mu * p nu / q) * p rho : ℝ) : ℂ)) *
      (2 * trace ((toM 3 (A (x, mu)) * toM 3 (A (y, nu)) - toM 3 (A (y, nu)) * toM 3 (A (x, mu))) * toM 3 (A (z, rho))))
    with hg
  have key : forN L.ND (fun mu (s : Option ℂ) => forN L.ND (fun nu (s : Option ℂ) =>
      forN L.ND (fun rho (s : Option ℂ) => do
        let res ← s
        let tr ← ifabc_ABC 3 (A (x, mu)) (A (y, nu)) (A (z, rho))
        return res + (if mu ≠ nu then ((-p mu * p nu / q * p rho : ℝ) : ℂ) * tr
          else (((1 - p mu * p nu / q) * p rho : ℝ) : ℂ) * tr)) s) s) (some 0) =
      some (∑ mu ∈ range L.ND, ∑ nu ∈ range L.ND, ∑ rho ∈ range L.ND, g mu nu rho) := by
    refine forN_inv (fun k (s : Option ℂ) => s = some (∑ mu ∈ range k, ∑ nu ∈ range L.ND, ∑ rho ∈ range L.ND,
      g mu nu rho)) (by simp) ?_
    rintro mu hmu s rfl
    rw [sum_range_succ]
    refine forN_inv (fun k (s : Option ℂ) => s = some (_ + ∑ nu ∈ range k, ∑ rho ∈ range L.ND, g mu nu rho))
      (by simp) ?_
    rintro nu hnu s rfl
    rw [sum_range_succ, ← add_assoc]
    refine forN_inv (fun k (s : Option ℂ) => s = some (_ + ∑ rho ∈ range k, g mu nu rho)) (by simp) ?_
    rintro rho hrho s rfl
    rw [C21_three_f _ _ _ (hx mu hmu) (hy nu hnu) (hz rho hrho), sum_range_succ, ← add_assoc]
    simp only [Option.bind_eq_bind, Option.bind_some, Option.pure_def, Option.some.injEq, hg, add_right_inj]
    split <;> rfl
  rw [key]
  simp only [Option.bind_eq_bind, Option.bind_some, Option.pure_def, Option.some.injEq]
  unfold projectedQ tripleF
  simp only [sum_div]
  refine sum_congr rfl fun mu _ => sum_congr rfl fun nu _ => sum_congr rfl fun rho _ => ?_
  rw [hg]
  by_cases h : mu = nu
  · simp only [h, ne_eq, not_true_eq_false, if_false, if_true]
    push_cast
    ring
  · simp only [h, ne_eq, not_false_eq_true, if_false, if_true]
    push_cast
    ring

end GLU.Cuts
