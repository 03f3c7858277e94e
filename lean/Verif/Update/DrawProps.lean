import Verif.Update.DrawLemmas
import Verif.Update.CreutzProps

/-!
# C129: the heat bath draws from the Boltzmann weight

The random numbers are taken as independent and uniform on `[0,1)`.
-/

namespace GLU.Update.Draw

open MeasureTheory Set Real ENNReal GLU.Mat Matrix

/-- The law of a number returned by `par_rng_dbl`, as assumed here. -/
noncomputable def unit : Measure ℝ := volume.restrict (Ico 0 1)

/-- The weight of the element `a0 + i a.sigma` of SU(2) in the action `-a0 / NORM`, with the measure of the group integrated
over the direction of `a`. -/
noncomputable def weight (NORM a0 : ℝ) : ℝ := √(1 - a0 * a0) * exp (a0 / NORM)

/-- A stream that begins with four given numbers. -/
def stream4 (x : ℝ × ℝ × ℝ × ℝ) : ℕ → ℝ
  | 0 => x.1
  | 1 => x.2.1
  | 2 => x.2.2.1
  | _ => x.2.2.2

/-- One draw of `KP` is accepted and gives an `a0` in the set. -/
def kpIn (NORM : ℝ) (A : Set ℝ) (x : ℝ × ℝ × ℝ × ℝ) : Prop :=
  ∃ d, (KP NORM (stream4 x) 0).1 = some d ∧ ¬ (KP NORM (stream4 x) 0).2 ∧ 1 - d ∈ A

/-- A stream that begins with two given numbers. -/
def stream2 (x : ℝ × ℝ) : ℕ → ℝ
  | 0 => x.1
  | _ => x.2

/-- One draw of `Creutz` is accepted and gives an `a0` in the set. -/
def creutzIn (NORM : ℝ) (A : Set ℝ) (x : ℝ × ℝ) : Prop :=
  ∃ d, (Creutz (exp (-2 / NORM)) NORM (stream2 x) 0).1 = some d ∧
    ¬ (Creutz (exp (-2 / NORM)) NORM (stream2 x) 0).2 ∧ 1 - d ∈ A

theorem accept_law {y : ℝ} (hy : y ≤ 1) : unit {x : ℝ | ¬ y < x * x} = ENNReal.ofReal √y := by
  unfold unit
  have hm : MeasurableSet {x : ℝ | ¬ y < x * x} := by
    simp only [not_lt]
    exact measurableSet_le (by fun_prop) measurable_const
  rw [Measure.restrict_apply hm]
  rcases lt_or_ge y 0 with h | h
  · rw [sqrt_eq_zero_of_nonpos h.le, ENNReal.ofReal_zero]
    have : {x : ℝ | ¬ y < x * x} ∩ Ico 0 1 = ∅ := by
      ext x
      simp only [mem_inter_iff, mem_setOf_eq, not_lt, mem_empty_iff_false, iff_false, not_and]
      intro hx
      nlinarith [mul_self_nonneg x]
    rw [this, measure_empty]
  · have hs : √y ≤ 1 := (Real.sqrt_le_sqrt hy).trans_eq Real.sqrt_one
    have h1 : Ico 0 √y ⊆ {x : ℝ | ¬ y < x * x} ∩ Ico 0 1 := by
      rintro x ⟨h0, h2⟩
      refine ⟨?_, h0, h2.trans_le hs⟩
      simp only [mem_setOf_eq, not_lt]
      have := mul_self_sqrt h
      nlinarith
    have h2 : {x : ℝ | ¬ y < x * x} ∩ Ico 0 1 ⊆ Icc 0 √y := by
      rintro x ⟨hx, h0, -⟩
      refine ⟨h0, ?_⟩
      simp only [mem_setOf_eq, not_lt] at hx
      exact le_sqrt_of_sq_le (by rw [pow_two]; exact hx)
    refine le_antisymm ((measure_mono h2).trans ?_) (le_trans ?_ (measure_mono h1))
    · rw [Real.volume_Icc, sub_zero]
    · rw [Real.volume_Ico, sub_zero]

/-- From the sum of the two numbers to `a0`. -/
theorem weight_law {N : ℝ} (hN : 0 < N) (g : ℝ → ℝ≥0∞) :
    ∫⁻ w in Ioi (0 : ℝ), ENNReal.ofReal (exp (-w) * (2 * √(w / π))) *
      (ENNReal.ofReal √(1 - 1 / 2 * (w * N)) * g (1 - w * N)) =
    ENNReal.ofReal (2 * exp (-(1 / N)) / (N * √(2 * π * N))) *
      ∫⁻ a in Ioo (-1 : ℝ) 1, ENNReal.ofReal (weight N a) * g a := by
  have himg : (fun a => (1 - a) * N⁻¹) '' Iio (1 : ℝ) = Ioi 0 := by
    ext w
    constructor
    · rintro ⟨a, ha, rfl⟩
      exact mul_pos (sub_pos.2 ha) (inv_pos.2 hN)
    · intro hw
      refine ⟨1 - w * N, ?_, ?_⟩
      · simpa using mul_pos hw hN
      · simp [mul_assoc, hN.ne']
  have hpi := pi_pos
  rw [← himg, lintegral_image_eq_lintegral_abs_deriv_mul (f' := fun _ => -N⁻¹) measurableSet_Iio]
  · rw [← lintegral_const_mul' _ _ ENNReal.ofReal_ne_top]
    have hsub : Ioo (-1 : ℝ) 1 ⊆ Iio 1 := fun x hx => hx.2
    conv_rhs => rw [← inter_eq_left.2 hsub, ← setLIntegral_indicator measurableSet_Ioo]
    refine setLIntegral_congr_fun measurableSet_Iio fun a (ha : a < 1) => ?_
    have e : 1 - (1 - a) * N⁻¹ * N = a := by
      rw [mul_assoc, inv_mul_cancel₀ hN.ne']; ring
    have e2 : 1 - 1 / 2 * ((1 - a) * N⁻¹ * N) = (1 + a) / 2 := by
      rw [mul_assoc, inv_mul_cancel₀ hN.ne']; ring
    simp only [e, e2, abs_neg, abs_of_pos (inv_pos.2 hN)]
    by_cases h : -1 < a
    · rw [indicator_of_mem (show a ∈ Ioo (-1 : ℝ) 1 from ⟨h, ha⟩)]
      simp only [← mul_assoc]
      rw [← ENNReal.ofReal_mul (by positivity), ← ENNReal.ofReal_mul (by positivity), ← ENNReal.ofReal_mul (by positivity)]
      congr 2
      unfold weight
      have h1 : 0 < 1 - a := by linarith
      have h2 : 0 < 1 + a := by linarith
      rw [show 1 - a * a = (1 - a) * (1 + a) by ring, sqrt_mul h1.le, sqrt_div h2.le,
        show (1 - a) * N⁻¹ / π = (1 - a) / (N * π) by field_simp, sqrt_div h1.le, sqrt_mul hN.le,
        show 2 * π * N = 2 * (N * π) by ring, sqrt_mul (by norm_num : (0 : ℝ) ≤ 2), sqrt_mul hN.le,
        show -((1 - a) * N⁻¹) = -(1 / N) + a / N by field_simp; ring, exp_add]
      have : √N ≠ 0 := (sqrt_pos.2 hN).ne'
      have : √π ≠ 0 := (sqrt_pos.2 hpi).ne'
      have : √2 ≠ 0 := by positivity
      field_simp
    · rw [indicator_of_notMem (show a ∉ Ioo (-1 : ℝ) 1 from fun hh => h hh.1),
        sqrt_eq_zero_of_nonpos (show (1 + a) / 2 ≤ 0 by linarith)]
      simp
  · intro a _
    have := (((hasDerivAt_const a (1 : ℝ)).sub (hasDerivAt_id a)).mul_const N⁻¹).hasDerivWithinAt (s := Iio (1 : ℝ))
    simpa using this
  · intro a _ b _ h
    have := mul_right_cancel₀ (inv_pos.2 hN).ne' h
    linarith

/-- `d` divided by the weight as a function of the numbers three to four and of the second one. -/
noncomputable def kpSum (u r2 r3 : ℝ) : ℝ := -log r2 + -log r3 * (cos (2 * π * u) * cos (2 * π * u))

theorem kpIn_iff {N : ℝ} {A : Set ℝ} (x : ℝ × ℝ × ℝ × ℝ) : kpIn N A x ↔ x.2.2.1 ≠ 0 ∧ x.2.2.2 ≠ 0 ∧
    ¬ 1 - 1 / 2 * (kpSum x.2.1 x.2.2.1 x.2.2.2 * N) < x.1 * x.1 ∧ 1 - kpSum x.2.1 x.2.2.1 x.2.2.2 * N ∈ A := by
  obtain ⟨x4, u, r2, r3⟩ := x
  unfold kpIn KP
  simp only [stream4]
  have e : -(log r2 + log r3 * cos (2 * π * u) * cos (2 * π * u)) * N = kpSum u r2 r3 * N := by
    unfold kpSum; ring
  by_cases h : r2 = 0 ∨ r3 = 0
  · rw [if_pos h]
    constructor
    · rintro ⟨d, hd, -⟩; cases hd
    · rintro ⟨h2, h3, -⟩
      rcases h with h | h
      · exact absurd h h2
      · exact absurd h h3
  · rw [if_neg h]
    rw [not_or] at h
    constructor
    · rintro ⟨d, hd, h1, h2⟩
      simp only [Option.some.injEq] at hd
      subst hd
      rw [e] at h1 h2
      exact ⟨h.1, h.2, h1, h2⟩
    · rintro ⟨-, -, h1, h2⟩
      refine ⟨_, rfl, ?_, ?_⟩
      · rw [e]; exact h1
      · rw [e]; exact h2

theorem kpSum_measurable : Measurable fun y : ℝ × ℝ × ℝ => kpSum y.1 y.2.1 y.2.2 := by
  unfold kpSum
  fun_prop

theorem kpIn_measurable {N : ℝ} {A : Set ℝ} (hA : MeasurableSet A) : MeasurableSet {x | kpIn N A x} := by
  have hs : Measurable fun x : ℝ × ℝ × ℝ × ℝ => kpSum x.2.1 x.2.2.1 x.2.2.2 :=
    kpSum_measurable.comp measurable_snd
  have e : {x | kpIn N A x} = {x : ℝ × ℝ × ℝ × ℝ | x.2.2.1 ≠ 0} ∩ ({x | x.2.2.2 ≠ 0} ∩
      ({x | ¬ 1 - 1 / 2 * (kpSum x.2.1 x.2.2.1 x.2.2.2 * N) < x.1 * x.1} ∩
        {x | 1 - kpSum x.2.1 x.2.2.1 x.2.2.2 * N ∈ A})) := by
    ext x; exact kpIn_iff x
  rw [e]
  refine MeasurableSet.inter ?_ (MeasurableSet.inter ?_ (MeasurableSet.inter ?_ ?_))
  · exact (measurableSet_eq_fun (by fun_prop) measurable_const).compl
  · exact (measurableSet_eq_fun (by fun_prop) measurable_const).compl
  · exact (measurableSet_lt (f := fun x : ℝ × ℝ × ℝ × ℝ => 1 - 1 / 2 * (kpSum x.2.1 x.2.2.1 x.2.2.2 * N))
      (g := fun x => x.1 * x.1) (by fun_prop) (by fun_prop)).compl
  · have : Measurable fun x : ℝ × ℝ × ℝ × ℝ => 1 - kpSum x.2.1 x.2.2.1 x.2.2.2 * N := by fun_prop
    exact this hA

theorem unit_Ioo : unit = volume.restrict (Ioo 0 1) := by
  unfold unit; rw [restrict_Ioo_eq_restrict_Ico]

theorem unit_Ioc : unit = volume.restrict (Ioc 0 1) := by
  rw [unit_Ioo, restrict_Ioo_eq_restrict_Ioc]

instance : IsProbabilityMeasure unit := ⟨by simp [unit]⟩

/-- The numbers of a draw give the sum of an exponential number and of half the square of a normal one. -/
theorem kpSum_law (g : ℝ → ℝ≥0∞) (hg : Measurable g) :
    ∫⁻ y : ℝ × ℝ × ℝ, g (kpSum y.1 y.2.1 y.2.2) ∂unit.prod (unit.prod unit) =
      ∫⁻ w in Ioi (0 : ℝ), ENNReal.ofReal (exp (-w) * (2 * √(w / π))) * g w := by
  have hm : Measurable fun y : ℝ × ℝ × ℝ => g (kpSum y.1 y.2.1 y.2.2) := hg.comp kpSum_measurable
  rw [lintegral_prod _ hm.aemeasurable]
  have e1 : ∀ u : ℝ, ∫⁻ y : ℝ × ℝ, g (kpSum u y.1 y.2) ∂unit.prod unit =
      ∫⁻ r2, ∫⁻ r3, g (kpSum u r2 r3) ∂unit ∂unit := by
    intro u
    rw [lintegral_prod]
    exact (hm.comp (measurable_const.prodMk measurable_id : Measurable fun y : ℝ × ℝ => (u, y))).aemeasurable
  simp only [e1]
  rw [lintegral_lintegral_swap (by
    have : Measurable fun p : (ℝ × ℝ) × ℝ => g (kpSum p.1.1 p.1.2 p.2) :=
      hm.comp (by fun_prop : Measurable fun p : (ℝ × ℝ) × ℝ => (p.1.1, p.1.2, p.2))
    exact this.lintegral_prod_right'.aemeasurable)]
  have e2 : ∀ r2 : ℝ, ∫⁻ u, ∫⁻ r3, g (kpSum u r2 r3) ∂unit ∂unit =
      (fun t => ∫⁻ v in Ioi (0 : ℝ), ENNReal.ofReal (exp (-v) / √(π * v)) * g (t + v)) (-log r2) := by
    intro r2
    have := half_law (fun v => g (-log r2 + v)) (by fun_prop)
    simp only
    rw [← this, unit_Ioc]
    refine lintegral_congr fun u => ?_
    rw [restrict_Ioo_eq_restrict_Ioc]
    rfl
  simp only [e2]
  rw [unit_Ioo, exp_law (fun t => ∫⁻ v in Ioi (0 : ℝ), ENNReal.ofReal (exp (-v) / √(π * v)) * g (t + v)), sum_law g hg]

/-- **C129**: the probability that a draw of the Kennedy-Pendleton heat bath is accepted with `a0` in a set is the integral
of the weight over the set, up to a number that does not depend on the set. -/
theorem C129_kp {N : ℝ} (hN : 0 < N) {A : Set ℝ} (hA : MeasurableSet A) :
    unit.prod (unit.prod (unit.prod unit)) {x | kpIn N A x} =
      ENNReal.ofReal (2 * exp (-(1 / N)) / (N * √(2 * π * N))) *
        ∫⁻ a in A ∩ Ioo (-1) 1, ENNReal.ofReal (weight N a) := by
  have hN' := hN
  rw [← lintegral_indicator_one (kpIn_measurable hA), lintegral_prod_symm _ (by
    exact (measurable_one.indicator (kpIn_measurable hA)).aemeasurable)]
  have key : ∀ᵐ y : ℝ × ℝ × ℝ ∂unit.prod (unit.prod unit),
      ∫⁻ x4, {x | kpIn N A x}.indicator 1 (x4, y) ∂unit =
      (fun w => ENNReal.ofReal √(1 - 1 / 2 * (w * N)) * A.indicator 1 (1 - w * N)) (kpSum y.1 y.2.1 y.2.2) := by
    have hpos : ∀ᵐ y : ℝ × ℝ × ℝ ∂unit.prod (unit.prod unit), y.2.1 ∈ Ioo (0 : ℝ) 1 ∧ y.2.2 ∈ Ioo (0 : ℝ) 1 := by
      have h0 : ∀ᵐ r ∂unit, r ∈ Ioo (0 : ℝ) 1 := by
        rw [unit_Ioo]; exact ae_restrict_mem measurableSet_Ioo
      have hq : Measure.QuasiMeasurePreserving (fun y : ℝ × ℝ × ℝ => y.2.1) (unit.prod (unit.prod unit)) unit :=
        Measure.quasiMeasurePreserving_fst.comp Measure.quasiMeasurePreserving_snd
      have hq' : Measure.QuasiMeasurePreserving (fun y : ℝ × ℝ × ℝ => y.2.2) (unit.prod (unit.prod unit)) unit :=
        Measure.quasiMeasurePreserving_snd.comp Measure.quasiMeasurePreserving_snd
      exact (hq.ae h0).and (hq'.ae h0)
    filter_upwards [hpos] with y hy
    obtain ⟨u, r2, r3⟩ := y
    obtain ⟨h2, h3⟩ := hy
    simp only at h2 h3 ⊢
    have hw : 0 ≤ kpSum u r2 r3 := by
      unfold kpSum
      have := log_nonpos h2.1.le h2.2.le
      have h' := log_nonpos h3.1.le h3.2.le
      nlinarith [mul_nonneg (neg_nonneg.2 h') (mul_self_nonneg (cos (2 * π * u)))]
    have e : ∀ x4 : ℝ, {x | kpIn N A x}.indicator (1 : ℝ × ℝ × ℝ × ℝ → ℝ≥0∞) (x4, u, r2, r3) =
        {x : ℝ | ¬ 1 - 1 / 2 * (kpSum u r2 r3 * N) < x * x}.indicator 1 x4 * A.indicator 1 (1 - kpSum u r2 r3 * N) := by
      intro x4
      by_cases ha : ¬ 1 - 1 / 2 * (kpSum u r2 r3 * N) < x4 * x4
      · rw [indicator_of_mem (show x4 ∈ {x : ℝ | ¬ 1 - 1 / 2 * (kpSum u r2 r3 * N) < x * x} from ha), Pi.one_apply, one_mul]
        by_cases hb : 1 - kpSum u r2 r3 * N ∈ A
        · rw [indicator_of_mem hb, indicator_of_mem]
          · rfl
          · exact (kpIn_iff _).2 ⟨h2.1.ne', h3.1.ne', ha, hb⟩
        · rw [indicator_of_notMem hb, indicator_of_notMem]
          intro h
          exact hb ((kpIn_iff _).1 h).2.2.2
      · rw [indicator_of_notMem (show x4 ∉ {x : ℝ | ¬ 1 - 1 / 2 * (kpSum u r2 r3 * N) < x * x} from ha), zero_mul,
          indicator_of_notMem]
        intro h
        exact ha ((kpIn_iff _).1 h).2.2.1
    simp only [e]
    have hms : MeasurableSet {x : ℝ | ¬ 1 - 1 / 2 * (kpSum u r2 r3 * N) < x * x} :=
      (measurableSet_lt measurable_const (by fun_prop : Measurable fun x : ℝ => x * x)).compl
    rw [lintegral_mul_const _ (measurable_one.indicator hms), lintegral_indicator_one hms, accept_law]
    nlinarith [mul_nonneg hw hN.le]
  rw [lintegral_congr_ae key, kpSum_law (fun w => ENNReal.ofReal √(1 - 1 / 2 * (w * N)) * A.indicator 1 (1 - w * N)) (by
    have : Measurable fun w : ℝ => A.indicator (1 : ℝ → ℝ≥0∞) (1 - w * N) :=
      (measurable_one.indicator hA).comp (by fun_prop)
    fun_prop), weight_law hN (A.indicator 1)]
  congr 1
  have : ∀ a, ENNReal.ofReal (weight N a) * A.indicator 1 a = A.indicator (fun a => ENNReal.ofReal (weight N a)) a := by
    intro a
    by_cases h : a ∈ A
    · rw [indicator_of_mem h, indicator_of_mem h, Pi.one_apply, mul_one]
    · rw [indicator_of_notMem h, indicator_of_notMem h, mul_zero]
  simp only [this]
  rw [setLIntegral_indicator hA]

/-- The weight has a positive and finite integral. -/
theorem weight_total {N : ℝ} (hN : 0 < N) : 0 < ∫⁻ a in Ioo (-1 : ℝ) 1, ENNReal.ofReal (weight N a) ∧
    ∫⁻ a in Ioo (-1 : ℝ) 1, ENNReal.ofReal (weight N a) < ⊤ := by
  constructor
  · rw [setLIntegral_pos_iff (by unfold weight; fun_prop)]
    have : Ioo (-1 : ℝ) 1 ⊆ Function.support (fun a => ENNReal.ofReal (weight N a)) ∩ Ioo (-1) 1 := by
      rintro a ⟨h1, h2⟩
      refine ⟨?_, h1, h2⟩
      rw [Function.mem_support]
      have : 0 < weight N a := mul_pos (sqrt_pos.2 (by nlinarith)) (exp_pos _)
      simpa using this
    refine lt_of_lt_of_le ?_ (measure_mono this)
    simp
  · refine lt_of_le_of_lt (setLIntegral_mono (g := fun _ => ENNReal.ofReal (exp (1 / N))) measurable_const ?_) ?_
    · rintro a ⟨h1, h2⟩
      refine ENNReal.ofReal_le_ofReal ?_
      unfold weight
      have h3 : √(1 - a * a) ≤ 1 := by
        refine (sqrt_le_sqrt (show 1 - a * a ≤ 1 by nlinarith)).trans_eq sqrt_one
      have h4 : exp (a / N) ≤ exp (1 / N) := exp_le_exp.2 (div_le_div_of_nonneg_right h2.le hN.le)
      have := mul_le_mul h3 h4 (exp_pos _).le zero_le_one
      simpa using this
    · rw [lintegral_const]
      exact ENNReal.mul_lt_top ENNReal.ofReal_lt_top (by simp)

/-- The probability of a draw with `a0` in the set, given that it is accepted. -/
noncomputable def given (N : ℝ) (A : Set ℝ) : ℝ≥0∞ :=
  (∫⁻ a in A ∩ Ioo (-1) 1, ENNReal.ofReal (weight N a)) / ∫⁻ a in Ioo (-1 : ℝ) 1, ENNReal.ofReal (weight N a)

/-- **C129**: given that it is accepted, a draw has the weight as its density, and it is accepted with a positive
probability. -/
theorem C129_given {N : ℝ} (hN : 0 < N) {A : Set ℝ} (hA : MeasurableSet A) :
    unit.prod (unit.prod (unit.prod unit)) {x | kpIn N A x} =
      unit.prod (unit.prod (unit.prod unit)) {x | kpIn N univ x} * given N A ∧
    0 < unit.prod (unit.prod (unit.prod unit)) {x | kpIn N univ x} := by
  obtain ⟨h0, h1⟩ := weight_total hN
  rw [C129_kp hN hA, C129_kp hN MeasurableSet.univ, univ_inter]
  constructor
  · unfold given
    generalize ENNReal.ofReal (2 * exp (-(1 / N)) / (N * √(2 * π * N))) = C
    rw [mul_assoc, ENNReal.mul_div_cancel h0.ne' h1.ne]
  · refine ENNReal.mul_pos ?_ h0.ne'
    have : 0 < 2 * exp (-(1 / N)) / (N * √(2 * π * N)) := by
      have := pi_pos
      positivity
    simpa using this

/-! ## The loop over the draws -/

/-- The stream of the numbers of 43 draws. -/
noncomputable def streamOf (x : Fin 43 → ℝ × ℝ × ℝ × ℝ) (n : ℕ) : ℝ :=
  if h : n / 4 < 43 then stream4 (x ⟨n / 4, h⟩) (n % 4) else 1 / 2

theorem kp_streamOf (N : ℝ) (x : Fin 43 → ℝ × ℝ × ℝ × ℝ) (j : Fin 43) :
    KP N (streamOf x) (4 * j) = KP N (stream4 (x j)) 0 := by
  have e : ∀ i < 4, streamOf x (4 * j + i) = stream4 (x j) i := by
    intro i hi
    have h1 : (4 * (j : ℕ) + i) / 4 = j := by omega
    have h2 : (4 * (j : ℕ) + i) % 4 = i := by omega
    have hj : (4 * (j : ℕ) + i) / 4 < 43 := by rw [h1]; exact j.2
    unfold streamOf
    rw [dif_pos hj, h2]
    congr 2
    exact Fin.ext h1
  have e0 : streamOf x (4 * j) = stream4 (x j) 0 := e 0 (by norm_num)
  unfold KP
  simp only [e0, e 1 (by norm_num), e 2 (by norm_num), e 3 (by norm_num), zero_add]

theorem kpWhile_first (N : ℝ) (r : ℕ → ℝ) (fuel n k : ℕ) (hk : k ≤ fuel) (hrej : ∀ j < k, (KP N r (n + 4 * j)).2)
    (hacc : ¬ (KP N r (n + 4 * k)).2) : (kpWhile N r fuel n).1 = (KP N r (n + 4 * k)).1 := by
  induction fuel generalizing n k with
  | zero =>
    obtain rfl : k = 0 := by omega
    rfl
  | succ fuel ih =>
    unfold kpWhile
    cases k with
    | zero =>
      rw [if_neg (by simpa using hacc)]
      rfl
    | succ k =>
      rw [if_pos (by simpa using hrej 0 (by omega))]
      have h1 : ∀ j < k, (KP N r (n + 4 + 4 * j)).2 := by
        intro j hj
        rw [show n + 4 + 4 * j = n + 4 * (j + 1) by ring]; exact hrej _ (by omega)
      have h2 : ¬ (KP N r (n + 4 + 4 * k)).2 := by
        rw [show n + 4 + 4 * k = n + 4 * (k + 1) by ring]; exact hacc
      rw [ih (n + 4) k (by omega) h1 h2, show n + 4 + 4 * k = n + 4 * (k + 1) by ring]

theorem drawD_first (N : ℝ) (r : ℕ → ℝ) (k : ℕ) (hk : k < 43) (hrej : ∀ j < k, (KP N r (4 * j)).2)
    (hacc : ¬ (KP N r (4 * k)).2) : (drawD N r 0).1 = (KP N r (4 * k)).1 := by
  unfold drawD
  cases k with
  | zero => rw [if_neg (by simpa using hacc)]
  | succ k =>
    rw [if_pos (by simpa using hrej 0 (by omega)), kpWhile_first N r _ (0 + 4) k (by unfold NHBMAX; omega)]
    · rw [show 0 + 4 + 4 * k = 4 * (k + 1) by ring]
    · intro j hj
      rw [show 0 + 4 + 4 * j = 4 * (j + 1) by ring]; exact hrej _ (by omega)
    · rw [show 0 + 4 + 4 * k = 4 * (k + 1) by ring]; exact hacc

/-- The draw is accepted. -/
def accepted (N : ℝ) (x : ℝ × ℝ × ℝ × ℝ) : Prop := ¬ (KP N (stream4 x) 0).2

theorem accepted_iff {N : ℝ} (x : ℝ × ℝ × ℝ × ℝ) : accepted N x ↔ kpIn N univ x := by
  unfold accepted kpIn KP
  simp only
  split
  · simp
  · simp

theorem draw_event {N : ℝ} {A : Set ℝ} (x : Fin 43 → ℝ × ℝ × ℝ × ℝ) :
    ((∃ j, accepted N (x j)) ∧ ∃ d, (drawD N (streamOf x) 0).1 = some d ∧ 1 - d ∈ A) ↔
      ∃ k : Fin 43, (∀ j < k, ¬ accepted N (x j)) ∧ kpIn N A (x k) := by
  classical
  have main : ∀ k : Fin 43, (∀ j < k, ¬ accepted N (x j)) → accepted N (x k) →
      (drawD N (streamOf x) 0).1 = (KP N (stream4 (x k)) 0).1 := by
    intro k h1 h2
    have h3 : ∀ j < (k : ℕ), (KP N (streamOf x) (4 * j)).2 := by
      intro j hj
      have := h1 ⟨j, by omega⟩ hj
      rw [accepted, not_not, ← kp_streamOf] at this
      exact this
    have h4 : ¬ (KP N (streamOf x) (4 * k)).2 := by rw [kp_streamOf]; exact h2
    rw [drawD_first N _ k k.2 h3 h4, kp_streamOf]
  constructor
  · rintro ⟨hex, d, hd, hA⟩
    obtain ⟨k, hk, hmin⟩ : ∃ k : Fin 43, accepted N (x k) ∧ ∀ j < k, ¬ accepted N (x j) := by
      obtain ⟨j, hj⟩ := hex
      let P : ℕ → Prop := fun n => ∃ h : n < 43, accepted N (x ⟨n, h⟩)
      have hP : ∃ n, P n := ⟨j, j.2, hj⟩
      obtain ⟨h, hh⟩ := Nat.find_spec hP
      exact ⟨⟨Nat.find hP, h⟩, hh, fun i hi hacc => Nat.find_min hP hi ⟨i.2, hacc⟩⟩
    refine ⟨k, hmin, d, ?_, hk, hA⟩
    rw [← main k hmin hk, hd]
  · rintro ⟨k, hmin, d, hd, hacc, hA⟩
    exact ⟨⟨k, hacc⟩, d, by rw [main k hmin hacc, hd], hA⟩

/-- **C129**, for the 43 draws the program allows itself: the probability that one of them is accepted and the number that
is used has `a0` in the set is the probability that one is accepted times the normalised integral of the weight. -/
theorem C129_draw {N : ℝ} (hN : 0 < N) {A : Set ℝ} (hA : MeasurableSet A) :
    Measure.pi (fun _ : Fin 43 => unit.prod (unit.prod (unit.prod unit)))
      {x | (∃ j, accepted N (x j)) ∧ ∃ d, (drawD N (streamOf x) 0).1 = some d ∧ 1 - d ∈ A} =
    Measure.pi (fun _ : Fin 43 => unit.prod (unit.prod (unit.prod unit))) {x | ∃ j, accepted N (x j)} * given N A := by
  set mu := unit.prod (unit.prod (unit.prod unit)) with hmu
  have box : ∀ B : Set ℝ, MeasurableSet B → Measure.pi (fun _ : Fin 43 => mu)
      {x | ∃ k : Fin 43, (∀ j < k, ¬ accepted N (x j)) ∧ kpIn N B (x k)} =
      (∑ k : Fin 43, mu {x | ¬ accepted N x} ^ (k : ℕ)) * mu {x | kpIn N B x} := by
    intro B hB
    have hacc : MeasurableSet {x | ¬ accepted N x} := by
      simp only [accepted_iff]
      exact (kpIn_measurable MeasurableSet.univ).compl
    have e : {x : Fin 43 → ℝ × ℝ × ℝ × ℝ | ∃ k : Fin 43, (∀ j < k, ¬ accepted N (x j)) ∧ kpIn N B (x k)} =
        ⋃ k : Fin 43, univ.pi fun j => if j < k then {x | ¬ accepted N x} else if j = k then {x | kpIn N B x} else univ := by
      ext x
      simp only [mem_setOf_eq, mem_iUnion, mem_univ_pi]
      refine exists_congr fun k => ⟨?_, ?_⟩
      · rintro ⟨h1, h2⟩ j
        split
        · next hj => exact h1 j hj
        · split
          · next hj => rw [hj]; exact h2
          · trivial
      · intro h
        refine ⟨fun j hj => ?_, ?_⟩
        · have := h j
          rwa [if_pos hj] at this
        · have := h k
          rwa [if_neg (lt_irrefl k), if_pos rfl] at this
    rw [e, measure_iUnion]
    · rw [tsum_fintype, Finset.sum_mul]
      refine Finset.sum_congr rfl fun k _ => ?_
      rw [Measure.pi_pi]
      have e2 : ∀ j : Fin 43, mu (if j < k then {x | ¬ accepted N x} else if j = k then {x | kpIn N B x} else univ) =
          (if j < k then mu {x | ¬ accepted N x} else 1) * (if j = k then mu {x | kpIn N B x} else 1) := by
        intro j
        by_cases h1 : j < k
        · rw [if_pos h1, if_pos h1, if_neg h1.ne, mul_one]
        · rw [if_neg h1, if_neg h1, one_mul]
          split
          · rfl
          · exact measure_univ
      rw [Finset.prod_congr rfl fun j _ => e2 j, Finset.prod_mul_distrib, Finset.prod_ite_eq' Finset.univ k,
        if_pos (Finset.mem_univ k), Finset.prod_ite, Finset.prod_const_one, mul_one, Finset.prod_const]
      congr 2
      rw [show (Finset.univ.filter fun x : Fin 43 => x < k) = Finset.Iio k from by ext; simp, Fin.card_Iio]
    · intro k l hkl
      rw [Function.onFun, Set.disjoint_left]
      intro x hx hy
      rw [mem_univ_pi] at hx hy
      have acc : ∀ z, kpIn N B z → accepted N z := fun z ⟨d, _, h, _⟩ => h
      rcases lt_or_gt_of_ne hkl with h | h
      · have h1 := hx k
        have h2 := hy k
        rw [if_neg (lt_irrefl k), if_pos rfl] at h1
        rw [if_pos h] at h2
        exact h2 (acc _ h1)
      · have h1 := hx l
        have h2 := hy l
        rw [if_pos h] at h1
        rw [if_neg (lt_irrefl l), if_pos rfl] at h2
        exact h1 (acc _ h2)
    · intro k
      refine MeasurableSet.univ_pi fun j => ?_
      split
      · exact hacc
      · split
        · exact kpIn_measurable hB
        · exact MeasurableSet.univ
  have e1 : {x : Fin 43 → ℝ × ℝ × ℝ × ℝ | (∃ j, accepted N (x j)) ∧ ∃ d, (drawD N (streamOf x) 0).1 = some d ∧ 1 - d ∈ A} =
      {x | ∃ k : Fin 43, (∀ j < k, ¬ accepted N (x j)) ∧ kpIn N A (x k)} := by
    ext x; exact draw_event x
  have e2 : {x : Fin 43 → ℝ × ℝ × ℝ × ℝ | ∃ j, accepted N (x j)} =
      {x | ∃ k : Fin 43, (∀ j < k, ¬ accepted N (x j)) ∧ kpIn N univ (x k)} := by
    ext x
    rw [mem_setOf_eq, mem_setOf_eq, ← draw_event]
    refine ⟨fun h => ⟨h, ?_⟩, fun h => h.1⟩
    classical
    obtain ⟨j, hj⟩ := h
    let P : ℕ → Prop := fun n => ∃ h : n < 43, accepted N (x ⟨n, h⟩)
    have hP : ∃ n, P n := ⟨j, j.2, hj⟩
    obtain ⟨h, hh⟩ := Nat.find_spec hP
    obtain ⟨d, hd, hr, -⟩ := (accepted_iff _).1 hh
    have := (draw_event (N := N) (A := univ) x).2 ⟨⟨Nat.find hP, h⟩,
      fun i hi hacc => Nat.find_min hP hi ⟨i.2, hacc⟩, d, hd, hr, mem_univ _⟩
    exact this.2
  rw [e1, e2, box A hA, box univ MeasurableSet.univ, (C129_given hN hA).1, mul_assoc]

end GLU.Update.Draw
