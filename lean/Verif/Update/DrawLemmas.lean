import Mathlib.MeasureTheory.Function.JacobianOneDim
import Mathlib.Analysis.SpecialFunctions.Gaussian.GaussianIntegral
import Mathlib.MeasureTheory.Integral.IntervalIntegral.Periodic
import Mathlib.Analysis.SpecialFunctions.Integrals.Basic
import Mathlib.Analysis.SpecialFunctions.Trigonometric.ArctanDeriv

/-!
# Integrals for the law of the heat bath draws
-/

namespace GLU.Update.Draw

open MeasureTheory Set Real ENNReal

/-- The logarithm of a uniform number. -/
theorem exp_law (g : ℝ → ℝ≥0∞) :
    ∫⁻ r in Ioo (0 : ℝ) 1, g (-log r) = ∫⁻ s in Ioi (0 : ℝ), ENNReal.ofReal (exp (-s)) * g s := by
  have himg : (fun s => exp (-s)) '' Ioi (0 : ℝ) = Ioo 0 1 := by
    ext r
    constructor
    · rintro ⟨s, hs, rfl⟩
      exact ⟨exp_pos _, by rw [exp_lt_one_iff]; simpa using hs⟩
    · rintro ⟨h0, h1⟩
      refine ⟨-log r, ?_, ?_⟩
      · simpa using log_neg h0 h1
      · simp [exp_log h0]
  rw [← himg, lintegral_image_eq_lintegral_abs_deriv_mul (f' := fun s => -exp (-s)) measurableSet_Ioi]
  · refine setLIntegral_congr_fun measurableSet_Ioi fun s _ => ?_
    simp only [log_exp, neg_neg, abs_neg, abs_of_pos (exp_pos _)]
  · intro s _
    have := ((hasDerivAt_neg s).exp).hasDerivWithinAt (s := Ioi (0 : ℝ))
    simpa using this
  · intro a _ b _ h
    simpa using h

theorem scale_law {c : ℝ} (hc : 0 < c) (h : ℝ → ℝ≥0∞) :
    ∫⁻ s in Ioi (0 : ℝ), ENNReal.ofReal (exp (-s)) * h (s * c) =
      ∫⁻ v in Ioi (0 : ℝ), ENNReal.ofReal (c⁻¹ * exp (-(v * c⁻¹))) * h v := by
  have himg : (fun v => v * c⁻¹) '' Ioi (0 : ℝ) = Ioi 0 := by
    ext r
    constructor
    · rintro ⟨s, hs, rfl⟩
      exact mul_pos hs (inv_pos.2 hc)
    · intro hr
      exact ⟨r * c, mul_pos hr hc, by simp [mul_assoc, hc.ne']⟩
  conv_lhs => rw [← himg]
  rw [lintegral_image_eq_lintegral_abs_deriv_mul (f' := fun _ => c⁻¹) measurableSet_Ioi]
  · refine setLIntegral_congr_fun measurableSet_Ioi fun s _ => ?_
    simp only [mul_assoc, inv_mul_cancel₀ hc.ne', mul_one, abs_of_pos (inv_pos.2 hc)]
    rw [← mul_assoc, ← ENNReal.ofReal_mul (inv_pos.2 hc).le]
  · intro s _
    simpa using ((hasDerivAt_id s).mul_const c⁻¹).hasDerivWithinAt (s := Ioi (0 : ℝ))
  · intro a _ b _ h
    exact mul_right_cancel₀ (inv_pos.2 hc).ne' h

theorem periodic_shift {T : ℝ} (hT : 0 < T) {f : ℝ → ℝ≥0∞} (hf : Function.Periodic f T) (s t : ℝ) :
    ∫⁻ x in Ioc s (s + T), f x = ∫⁻ x in Ioc t (t + T), f x := by
  refine (isAddFundamentalDomain_Ioc hT s).setLIntegral_eq (isAddFundamentalDomain_Ioc hT t) f ?_
  rintro ⟨g, hg⟩ x
  obtain ⟨n, rfl⟩ := AddSubgroup.mem_zmultiples_iff.1 hg
  show f (n • T + x) = f x
  rw [add_comm]
  exact hf.zsmul n x

/-- The cosine of a uniform angle. -/
theorem angle_law (F : ℝ → ℝ≥0∞) : ∫⁻ u in Ioc (0 : ℝ) 1, F (cos (2 * π * u) * cos (2 * π * u)) =
    ENNReal.ofReal (1 / π) * ∫⁻ t in Ioo (-(π / 2)) (π / 2), F (cos t * cos t) := by
  set f : ℝ → ℝ≥0∞ := fun u => F (cos (2 * π * u) * cos (2 * π * u)) with hf
  have hp : Function.Periodic f (1 / 2) := by
    intro u
    simp only [hf]
    rw [show 2 * π * (u + 1 / 2) = 2 * π * u + π by ring, cos_add_pi]
    ring_nf
  have e1 : Ioc (0 : ℝ) 1 = Ioc 0 (0 + 1 / 2) ∪ Ioc (1 / 2) (1 / 2 + 1 / 2) := by
    rw [zero_add, Ioc_union_Ioc_eq_Ioc (by norm_num) (by norm_num)]
    norm_num
  have e2 : ∫⁻ u in Ioc (0 : ℝ) 1, f u = 2 * ∫⁻ u in Ioc (-(1 / 4) : ℝ) (1 / 4), f u := by
    rw [e1, lintegral_union measurableSet_Ioc, periodic_shift (by norm_num) hp 0 (-(1 / 4)),
      periodic_shift (by norm_num) hp (1 / 2) (-(1 / 4)), two_mul]
    · norm_num
    · rw [zero_add]
      exact Ioc_disjoint_Ioc_of_le le_rfl
  have himg : (fun u => u * (2 * π)⁻¹) '' Ioo (-(π / 2)) (π / 2) = Ioo (-(1 / 4)) (1 / 4) := by
    have hpi := pi_pos
    ext r
    constructor
    · rintro ⟨s, ⟨h1, h2⟩, rfl⟩
      constructor
      · show -(1 / 4) < s * (2 * π)⁻¹
        rw [← div_eq_mul_inv, lt_div_iff₀ (by positivity)]; linarith
      · show s * (2 * π)⁻¹ < 1 / 4
        rw [← div_eq_mul_inv, div_lt_iff₀ (by positivity)]; linarith
    · rintro ⟨h1, h2⟩
      refine ⟨r * (2 * π), ⟨?_, ?_⟩, ?_⟩
      · nlinarith
      · nlinarith
      · field_simp
  rw [e2, ← restrict_Ioo_eq_restrict_Ioc, ← himg,
    lintegral_image_eq_lintegral_abs_deriv_mul (f' := fun _ => (2 * π)⁻¹) measurableSet_Ioo]
  · have hpi := pi_pos
    have e3 : ∀ t : ℝ, ENNReal.ofReal |(2 * π)⁻¹| * f (t * (2 * π)⁻¹) =
        ENNReal.ofReal ((2 * π)⁻¹) * F (cos t * cos t) := by
      intro t
      rw [abs_of_pos (by positivity)]
      simp only [hf]
      rw [show 2 * π * (t * (2 * π)⁻¹) = t by field_simp]
    simp only [e3]
    rw [lintegral_const_mul' _ _ ENNReal.ofReal_ne_top, ← mul_assoc]
    congr 1
    rw [show (2 : ℝ≥0∞) = ENNReal.ofReal 2 by simp, ← ENNReal.ofReal_mul (by norm_num)]
    congr 1
    field_simp
  · intro s _
    simpa using ((hasDerivAt_id s).mul_const (2 * π)⁻¹).hasDerivWithinAt (s := Ioo (-(π / 2)) (π / 2))
  · intro a _ b _ h
    exact mul_right_cancel₀ (inv_pos.2 (by positivity)).ne' h

theorem arctan_law (F : ℝ → ℝ≥0∞) : ∫⁻ t in Ioo (-(π / 2)) (π / 2), F (cos t * cos t) =
    ∫⁻ x : ℝ, ENNReal.ofReal (1 / (1 + x ^ 2)) * F (1 / (1 + x ^ 2)) := by
  have himg : arctan '' univ = Ioo (-(π / 2)) (π / 2) := by rw [image_univ, range_arctan]
  rw [← himg, lintegral_image_eq_lintegral_abs_deriv_mul (f' := fun x => 1 / (1 + x ^ 2)) MeasurableSet.univ]
  · rw [Measure.restrict_univ]
    refine lintegral_congr fun x => ?_
    have hx : 0 < 1 + x ^ 2 := by positivity
    rw [abs_of_pos (by positivity), cos_arctan, div_mul_div_comm, mul_self_sqrt hx.le, one_mul]
  · intro x _
    exact (hasDerivAt_arctan x).hasDerivWithinAt
  · exact arctan_injective.injOn

theorem gauss_lintegral {v : ℝ} (hv : 0 < v) : ∫⁻ x : ℝ, ENNReal.ofReal (exp (-v * x ^ 2)) = ENNReal.ofReal √(π / v) := by
  rw [← integral_gaussian v, ofReal_integral_eq_lintegral_ofReal (integrable_exp_neg_mul_sq hv)]
  exact Filter.Eventually.of_forall fun x => (exp_pos _).le

/-- Half the square of a normal number, made of two uniform numbers. -/
theorem half_law (h : ℝ → ℝ≥0∞) (hh : Measurable h) :
    ∫⁻ u in Ioc (0 : ℝ) 1, ∫⁻ r in Ioo (0 : ℝ) 1, h (-log r * (cos (2 * π * u) * cos (2 * π * u))) =
      ∫⁻ v in Ioi (0 : ℝ), ENNReal.ofReal (exp (-v) / √(π * v)) * h v := by
  have e1 : ∀ u : ℝ, ∫⁻ r in Ioo (0 : ℝ) 1, h (-log r * (cos (2 * π * u) * cos (2 * π * u))) =
      (fun c => ∫⁻ s in Ioi (0 : ℝ), ENNReal.ofReal (exp (-s)) * h (s * c)) (cos (2 * π * u) * cos (2 * π * u)) := by
    intro u
    exact exp_law fun s => h (s * (cos (2 * π * u) * cos (2 * π * u)))
  simp only [e1]
  rw [angle_law (fun c => ∫⁻ s in Ioi (0 : ℝ), ENNReal.ofReal (exp (-s)) * h (s * c)),
    arctan_law (fun c => ∫⁻ s in Ioi (0 : ℝ), ENNReal.ofReal (exp (-s)) * h (s * c))]
  have e2 : ∀ x : ℝ, ENNReal.ofReal (1 / (1 + x ^ 2)) *
      ∫⁻ s in Ioi (0 : ℝ), ENNReal.ofReal (exp (-s)) * h (s * (1 / (1 + x ^ 2))) =
      ∫⁻ v in Ioi (0 : ℝ), ENNReal.ofReal (exp (-v)) * ENNReal.ofReal (exp (-v * x ^ 2)) * h v := by
    intro x
    have hx : 0 < 1 + x ^ 2 := by positivity
    rw [scale_law (by positivity), ← lintegral_const_mul' _ _ ENNReal.ofReal_ne_top]
    refine lintegral_congr fun v => ?_
    rw [← mul_assoc, ← ENNReal.ofReal_mul (by positivity), ← ENNReal.ofReal_mul (exp_pos _).le, ← exp_add]
    congr 2
    rw [one_div, inv_inv, ← mul_assoc, inv_mul_cancel₀ hx.ne', one_mul]
    congr 1
    ring
  simp only [e2]
  rw [lintegral_lintegral_swap (by fun_prop), ← lintegral_const_mul' _ _ ENNReal.ofReal_ne_top]
  refine setLIntegral_congr_fun measurableSet_Ioi fun v (hv : 0 < v) => ?_
  have e3 : ∫⁻ x : ℝ, ENNReal.ofReal (exp (-v)) * ENNReal.ofReal (exp (-v * x ^ 2)) * h v =
      ENNReal.ofReal (exp (-v)) * ENNReal.ofReal √(π / v) * h v := by
    rw [lintegral_mul_const _ (by fun_prop), lintegral_const_mul' _ _ ENNReal.ofReal_ne_top, gauss_lintegral hv]
  rw [e3, ← mul_assoc, ← ENNReal.ofReal_mul (exp_pos _).le, ← ENNReal.ofReal_mul (by positivity)]
  congr 2
  have hpi := pi_pos
  rw [sqrt_div hpi.le, sqrt_mul hpi.le]
  have : √π ≠ 0 := (sqrt_pos.2 hpi).ne'
  have : √v ≠ 0 := (sqrt_pos.2 hv).ne'
  field_simp
  rw [sq_sqrt hpi.le]

theorem root_lintegral {w : ℝ} (hw : 0 < w) :
    ∫⁻ v in Ioo (0 : ℝ) w, ENNReal.ofReal (1 / √(π * v)) = ENNReal.ofReal (2 * √(w / π)) := by
  have hpi := pi_pos
  have e : ∀ v ∈ Ioo (0 : ℝ) w, 1 / √(π * v) = 1 / √π * v ^ (-(1 / 2) : ℝ) := by
    rintro v ⟨hv, -⟩
    rw [sqrt_mul hpi.le, rpow_neg hv.le, ← sqrt_eq_rpow]
    field_simp
  rw [setLIntegral_congr_fun measurableSet_Ioo fun v hv => by rw [e v hv], restrict_Ioo_eq_restrict_Ioc]
  have hint : IntervalIntegrable (fun v : ℝ => v ^ (-(1 / 2) : ℝ)) volume 0 w :=
    intervalIntegral.intervalIntegrable_rpow' (by norm_num)
  have hint' : IntegrableOn (fun v : ℝ => 1 / √π * v ^ (-(1 / 2) : ℝ)) (Ioc 0 w) :=
    ((intervalIntegrable_iff_integrableOn_Ioc_of_le hw.le).1 hint).const_mul _
  rw [← ofReal_integral_eq_lintegral_ofReal hint']
  · congr 1
    rw [← intervalIntegral.integral_of_le hw.le, intervalIntegral.integral_const_mul, integral_rpow (by left; norm_num)]
    rw [show (-(1 / 2) + 1 : ℝ) = 1 / 2 by norm_num, zero_rpow (by norm_num), ← sqrt_eq_rpow, sqrt_div hw.le]
    field_simp
    ring
  · refine (ae_restrict_iff' measurableSet_Ioc).2 (Filter.Eventually.of_forall ?_)
    rintro v ⟨hv, -⟩
    have := rpow_nonneg hv.le (-(1 / 2))
    positivity

/-- The sum of an exponential number and of half the square of a normal number. -/
theorem sum_law (g : ℝ → ℝ≥0∞) (hg : Measurable g) :
    ∫⁻ t in Ioi (0 : ℝ), ENNReal.ofReal (exp (-t)) *
      ∫⁻ v in Ioi (0 : ℝ), ENNReal.ofReal (exp (-v) / √(π * v)) * g (t + v) =
    ∫⁻ w in Ioi (0 : ℝ), ENNReal.ofReal (exp (-w) * (2 * √(w / π))) * g w := by
  have e1 : ∀ t : ℝ, ENNReal.ofReal (exp (-t)) *
      ∫⁻ v in Ioi (0 : ℝ), ENNReal.ofReal (exp (-v) / √(π * v)) * g (t + v) =
      ∫⁻ v in Ioi (0 : ℝ), ENNReal.ofReal (1 / √(π * v)) * (ENNReal.ofReal (exp (-(t + v))) * g (t + v)) := by
    intro t
    rw [← lintegral_const_mul' _ _ ENNReal.ofReal_ne_top]
    refine lintegral_congr fun v => ?_
    rw [← mul_assoc, ← mul_assoc, ← ENNReal.ofReal_mul (exp_pos _).le, ← ENNReal.ofReal_mul (by positivity)]
    congr 2
    rw [neg_add, exp_add]
    ring
  simp only [e1]
  rw [lintegral_lintegral_swap (by fun_prop)]
  have e2 : ∀ v : ℝ, 0 < v → ∫⁻ t in Ioi (0 : ℝ), ENNReal.ofReal (1 / √(π * v)) *
      (ENNReal.ofReal (exp (-(t + v))) * g (t + v)) =
      ∫⁻ w in Ioi (0 : ℝ), (Ioo 0 w).indicator (fun v => ENNReal.ofReal (1 / √(π * v))) v *
        (ENNReal.ofReal (exp (-w)) * g w) := by
    intro v hv
    have hmp := measurePreserving_add_right (volume : Measure ℝ) v
    have h1 : ∫⁻ t in Ioi (0 : ℝ), ENNReal.ofReal (1 / √(π * v)) *
        (ENNReal.ofReal (exp (-(t + v))) * g (t + v)) =
        ∫⁻ w in Ioi v, ENNReal.ofReal (1 / √(π * v)) * (ENNReal.ofReal (exp (-w)) * g w) := by
      have hpre : (fun x => x + v) ⁻¹' Ioi v = Ioi 0 := by ext x; simp
      rw [← hpre]
      exact hmp.setLIntegral_comp_preimage measurableSet_Ioi
        (f := fun w => ENNReal.ofReal (1 / √(π * v)) * (ENNReal.ofReal (exp (-w)) * g w)) (by fun_prop)
    rw [h1]
    have h2 : Ioi v ⊆ Ioi (0 : ℝ) := Ioi_subset_Ioi hv.le
    have h3 : ∫⁻ w in Ioi v, ENNReal.ofReal (1 / √(π * v)) * (ENNReal.ofReal (exp (-w)) * g w) =
        ∫⁻ w in Ioi (0 : ℝ), (Ioi v).indicator
          (fun w => ENNReal.ofReal (1 / √(π * v)) * (ENNReal.ofReal (exp (-w)) * g w)) w := by
      rw [setLIntegral_indicator measurableSet_Ioi, inter_eq_left.2 h2]
    rw [h3]
    refine lintegral_congr fun w => ?_
    by_cases hw : v < w
    · rw [indicator_of_mem (show w ∈ Ioi v from hw), indicator_of_mem (show v ∈ Ioo 0 w from ⟨hv, hw⟩)]
    · rw [indicator_of_notMem (show w ∉ Ioi v from hw), indicator_of_notMem (show v ∉ Ioo 0 w from fun h => hw h.2),
        zero_mul]
  rw [setLIntegral_congr_fun measurableSet_Ioi fun v hv => e2 v hv]
  rw [lintegral_lintegral_swap]
  · refine setLIntegral_congr_fun measurableSet_Ioi fun w (hw : 0 < w) => ?_
    show ∫⁻ v in Ioi (0 : ℝ), (Ioo 0 w).indicator (fun v => ENNReal.ofReal (1 / √(π * v))) v *
        (ENNReal.ofReal (exp (-w)) * g w) = _
    rw [lintegral_mul_const _ (by
      refine Measurable.indicator (by fun_prop) measurableSet_Ioo), setLIntegral_indicator measurableSet_Ioo,
      inter_eq_left.2 (show Ioo 0 w ⊆ Ioi (0 : ℝ) from fun x hx => hx.1), root_lintegral hw, ← mul_assoc,
      ← ENNReal.ofReal_mul (by positivity), mul_comm (exp _)]
  · have : MeasurableSet {p : ℝ × ℝ | 0 < p.1 ∧ p.1 < p.2} :=
      (measurableSet_lt measurable_const measurable_fst).inter (measurableSet_lt measurable_fst measurable_snd)
    have hm : Measurable fun p : ℝ × ℝ => (Ioo 0 p.2).indicator (fun v => ENNReal.ofReal (1 / √(π * v))) p.1 := by
      have : (fun p : ℝ × ℝ => (Ioo 0 p.2).indicator (fun v => ENNReal.ofReal (1 / √(π * v))) p.1) =
          {p : ℝ × ℝ | 0 < p.1 ∧ p.1 < p.2}.indicator (fun p => ENNReal.ofReal (1 / √(π * p.1))) := by
        funext p
        by_cases h : 0 < p.1 ∧ p.1 < p.2
        · rw [indicator_of_mem (show p.1 ∈ Ioo 0 p.2 from h), indicator_of_mem (show p ∈ {p : ℝ × ℝ | 0 < p.1 ∧ p.1 < p.2} from h)]
        · rw [indicator_of_notMem (show p.1 ∉ Ioo 0 p.2 from h), 
            indicator_of_notMem (show p ∉ {p : ℝ × ℝ | 0 < p.1 ∧ p.1 < p.2} from h)]
      rw [this]
      exact Measurable.indicator (by fun_prop) ‹_›
    exact (hm.mul (by fun_prop)).aemeasurable

end GLU.Update.Draw
