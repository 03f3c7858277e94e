import Verif.Update.DrawProps
import Verif.Update.Lemmas
import Verif.Update.LatticeModel

/-!
# C129, continued: the draws of Creutz, and the weight in terms of the action
-/

namespace GLU.Update.Draw

open MeasureTheory Set Real ENNReal GLU.Mat Matrix

theorem creutzIn_iff {N : ℝ} {A : Set ℝ} (x : ℝ × ℝ) : creutzIn N A x ↔
    0 < exp (-2 / N) + (1 - exp (-2 / N)) * x.2 ∧
    ¬ 1 - (1 + log (exp (-2 / N) + (1 - exp (-2 / N)) * x.2) * N) *
      (1 + log (exp (-2 / N) + (1 - exp (-2 / N)) * x.2) * N) < x.1 * x.1 ∧
    1 + log (exp (-2 / N) + (1 - exp (-2 / N)) * x.2) * N ∈ A := by
  obtain ⟨x4, u⟩ := x
  unfold creutzIn Creutz
  simp only [stream2]
  by_cases h : exp (-2 / N) + (1 - exp (-2 / N)) * u ≤ 0
  · rw [if_pos h]
    constructor
    · rintro ⟨d, hd, -⟩; cases hd
    · rintro ⟨h2, -⟩
      exact absurd h (not_le.2 h2)
  · rw [if_neg h]
    constructor
    · rintro ⟨d, hd, h1, h2⟩
      simp only [Option.some.injEq] at hd
      subst hd
      rw [_root_.sub_sub_cancel] at h2
      exact ⟨not_le.1 h, h1, h2⟩
    · rintro ⟨-, h1, h2⟩
      exact ⟨_, rfl, h1, by rw [_root_.sub_sub_cancel]; exact h2⟩

theorem creutzIn_measurable {N : ℝ} {A : Set ℝ} (hA : MeasurableSet A) : MeasurableSet {x | creutzIn N A x} := by
  have e : {x | creutzIn N A x} = {x : ℝ × ℝ | 0 < exp (-2 / N) + (1 - exp (-2 / N)) * x.2} ∩
      ({x | ¬ 1 - (1 + log (exp (-2 / N) + (1 - exp (-2 / N)) * x.2) * N) *
        (1 + log (exp (-2 / N) + (1 - exp (-2 / N)) * x.2) * N) < x.1 * x.1} ∩
        {x | 1 + log (exp (-2 / N) + (1 - exp (-2 / N)) * x.2) * N ∈ A}) := by
    ext x; exact creutzIn_iff x
  rw [e]
  refine MeasurableSet.inter ?_ (MeasurableSet.inter ?_ ?_)
  · exact measurableSet_lt measurable_const (by fun_prop)
  · exact (measurableSet_lt (f := fun x : ℝ × ℝ => 1 - (1 + log (exp (-2 / N) + (1 - exp (-2 / N)) * x.2) * N) *
        (1 + log (exp (-2 / N) + (1 - exp (-2 / N)) * x.2) * N))
      (g := fun x => x.1 * x.1) (by fun_prop) (by fun_prop)).compl
  · have : Measurable fun x : ℝ × ℝ => 1 + log (exp (-2 / N) + (1 - exp (-2 / N)) * x.2) * N := by fun_prop
    exact this hA

/-- From the uniform number to `a0`. -/
theorem creutz_change {N : ℝ} (hN : 0 < N) (F : ℝ → ℝ≥0∞) :
    ∫⁻ u in Ioo (0 : ℝ) 1, F (1 + log (exp (-2 / N) + (1 - exp (-2 / N)) * u) * N) =
    ∫⁻ a in Ioo (-1 : ℝ) 1, ENNReal.ofReal (exp ((a - 1) / N) / (N * (1 - exp (-2 / N)))) * F a := by
  have hx : exp (-2 / N) < 1 := by
    rw [exp_lt_one_iff]
    exact div_neg_of_neg_of_pos (by norm_num) hN
  set xl := exp (-2 / N) with hxl
  have hp : 0 < xl := exp_pos _
  have h1 : 0 < 1 - xl := by linarith
  let f : ℝ → ℝ := fun a => (exp ((a - 1) / N) - xl) / (1 - xl)
  have hinv : ∀ a, xl + (1 - xl) * f a = exp ((a - 1) / N) := by
    intro a
    show xl + (1 - xl) * ((exp ((a - 1) / N) - xl) / (1 - xl)) = _
    field_simp
    ring
  have himg : f '' Ioo (-1 : ℝ) 1 = Ioo 0 1 := by
    ext u
    constructor
    · rintro ⟨a, ⟨ha, hb⟩, rfl⟩
      have e1 : xl < exp ((a - 1) / N) := by
        rw [hxl, exp_lt_exp]
        exact div_lt_div_of_pos_right (by linarith) hN
      have e2 : exp ((a - 1) / N) < 1 := by
        rw [exp_lt_one_iff]
        exact div_neg_of_neg_of_pos (by linarith) hN
      exact ⟨div_pos (by linarith) h1, (div_lt_one h1).2 (by linarith)⟩
    · rintro ⟨h0, h2⟩
      have hy : 0 < xl + (1 - xl) * u := by positivity
      refine ⟨1 + log (xl + (1 - xl) * u) * N, ⟨?_, ?_⟩, ?_⟩
      · have : -2 / N < log (xl + (1 - xl) * u) := by
          rw [lt_log_iff_exp_lt hy, ← hxl]
          nlinarith
        rw [div_lt_iff₀ hN] at this
        linarith
      · have : log (xl + (1 - xl) * u) < 0 := log_neg hy (by nlinarith)
        nlinarith
      · show (exp ((1 + log (xl + (1 - xl) * u) * N - 1) / N) - xl) / (1 - xl) = u
        rw [show (1 + log (xl + (1 - xl) * u) * N - 1) / N = log (xl + (1 - xl) * u) by field_simp; ring, exp_log hy]
        field_simp
        ring
  rw [← himg, lintegral_image_eq_lintegral_abs_deriv_mul (f' := fun a => exp ((a - 1) / N) / (N * (1 - xl)))
    measurableSet_Ioo]
  · refine setLIntegral_congr_fun measurableSet_Ioo fun a _ => ?_
    rw [hinv, log_exp, abs_of_pos (by positivity), show 1 + (a - 1) / N * N = a by field_simp; ring]
  · intro a _
    refine HasDerivAt.hasDerivWithinAt ?_
    have := (((((hasDerivAt_id a).sub_const 1).div_const N).exp).sub_const xl).div_const (1 - xl)
    refine this.congr_deriv ?_
    simp only [id]
    field_simp
  · intro a _ b _ hab
    have e : exp ((a - 1) / N) = exp ((b - 1) / N) := by rw [← hinv, ← hinv, hab]
    have := exp_injective e
    field_simp at this
    linarith

/-- **C129** for the draws of Creutz. -/
theorem C129_creutz {N : ℝ} (hN : 0 < N) {A : Set ℝ} (hA : MeasurableSet A) :
    unit.prod unit {x | creutzIn N A x} = ENNReal.ofReal (exp (-(1 / N)) / (N * (1 - exp (-2 / N)))) *
      ∫⁻ a in A ∩ Ioo (-1) 1, ENNReal.ofReal (weight N a) := by
  have hx : exp (-2 / N) < 1 := by
    rw [exp_lt_one_iff]
    exact div_neg_of_neg_of_pos (by norm_num) hN
  have h1 : 0 < 1 - exp (-2 / N) := by linarith
  rw [← lintegral_indicator_one (creutzIn_measurable hA), lintegral_prod_symm _ (by
    exact (measurable_one.indicator (creutzIn_measurable hA)).aemeasurable)]
  have key : ∀ u ∈ Ioo (0 : ℝ) 1, ∫⁻ x4, {x | creutzIn N A x}.indicator 1 (x4, u) ∂unit =
      (fun a => ENNReal.ofReal √(1 - a * a) * A.indicator 1 a) (1 + log (exp (-2 / N) + (1 - exp (-2 / N)) * u) * N) := by
    intro u hu
    have hy : 0 < exp (-2 / N) + (1 - exp (-2 / N)) * u := by
      have := exp_pos (-2 / N)
      have := mul_pos h1 hu.1
      linarith
    set a := 1 + log (exp (-2 / N) + (1 - exp (-2 / N)) * u) * N with ha'
    have e : ∀ x4 : ℝ, {x | creutzIn N A x}.indicator (1 : ℝ × ℝ → ℝ≥0∞) (x4, u) =
        {x : ℝ | ¬ 1 - a * a < x * x}.indicator 1 x4 * A.indicator 1 a := by
      intro x4
      by_cases ha : ¬ 1 - a * a < x4 * x4
      · rw [indicator_of_mem (show x4 ∈ {x : ℝ | ¬ 1 - a * a < x * x} from ha), Pi.one_apply, one_mul]
        by_cases hb : a ∈ A
        · rw [indicator_of_mem hb, indicator_of_mem]
          · rfl
          · exact (creutzIn_iff _).2 ⟨hy, ha, hb⟩
        · rw [indicator_of_notMem hb, indicator_of_notMem]
          intro h
          exact hb ((creutzIn_iff _).1 h).2.2
      · rw [indicator_of_notMem (show x4 ∉ {x : ℝ | ¬ 1 - a * a < x * x} from ha), zero_mul, indicator_of_notMem]
        intro h
        exact ha ((creutzIn_iff _).1 h).2.1
    simp only [e]
    have hms : MeasurableSet {x : ℝ | ¬ 1 - a * a < x * x} :=
      (measurableSet_lt measurable_const (by fun_prop : Measurable fun x : ℝ => x * x)).compl
    rw [lintegral_mul_const _ (measurable_one.indicator hms), lintegral_indicator_one hms, accept_law]
    nlinarith [mul_self_nonneg a]
  have key' : ∀ᵐ u ∂unit, ∫⁻ x4, {x | creutzIn N A x}.indicator 1 (x4, u) ∂unit =
      (fun a => ENNReal.ofReal √(1 - a * a) * A.indicator 1 a) (1 + log (exp (-2 / N) + (1 - exp (-2 / N)) * u) * N) := by
    have h0 : ∀ᵐ r ∂unit, r ∈ Ioo (0 : ℝ) 1 := by
      rw [unit_Ioo]; exact ae_restrict_mem measurableSet_Ioo
    filter_upwards [h0] with u hu using key u hu
  rw [lintegral_congr_ae key', unit_Ioo, creutz_change hN (fun a => ENNReal.ofReal √(1 - a * a) * A.indicator 1 a),
    ← setLIntegral_indicator hA, ← lintegral_const_mul' _ _ ENNReal.ofReal_ne_top]
  refine lintegral_congr fun a => ?_
  by_cases h : a ∈ A
  · rw [indicator_of_mem h, indicator_of_mem h, Pi.one_apply, mul_one, ← ENNReal.ofReal_mul (by positivity),
      ← ENNReal.ofReal_mul (by positivity)]
    congr 1
    unfold weight
    rw [show (a - 1) / N = -(1 / N) + a / N by ring, exp_add]
    ring
  · rw [indicator_of_notMem h, indicator_of_notMem h, mul_zero, mul_zero, mul_zero]

/-- **C129** for the draws of Creutz: given that it is accepted, a draw has the weight as its density. -/
theorem C129_creutz_given {N : ℝ} (hN : 0 < N) {A : Set ℝ} (hA : MeasurableSet A) :
    unit.prod unit {x | creutzIn N A x} = unit.prod unit {x | creutzIn N univ x} * given N A ∧
    0 < unit.prod unit {x | creutzIn N univ x} := by
  obtain ⟨h0, h1⟩ := weight_total hN
  rw [C129_creutz hN hA, C129_creutz hN MeasurableSet.univ, univ_inter]
  constructor
  · unfold given
    generalize ENNReal.ofReal (exp (-(1 / N)) / (N * (1 - exp (-2 / N)))) = C
    rw [mul_assoc, ENNReal.mul_div_cancel h0.ne' h1.ne]
  · refine ENNReal.mul_pos ?_ h0.ne'
    have hx : exp (-2 / N) < 1 := by
      rw [exp_lt_one_iff]
      exact div_neg_of_neg_of_pos (by norm_num) hN
    have h2 : 0 < 1 - exp (-2 / N) := by linarith
    have : 0 < exp (-(1 / N)) / (N * (1 - exp (-2 / N))) := by positivity
    simpa using this

/-! ## The weight is that of the action -/

theorem from_trace {t0 t1 t2 t3 s0 s1 : ℂ} {k : ℝ} (h : normalise t0 t1 t2 t3 = some (s0, s1, k)) (d r1 r2 : ℝ) :
    ((su2From d r1 r2 s0 s1).1 * t0 + (su2From d r1 r2 s0 s1).2 * t2 + -star (su2From d r1 r2 s0 s1).2 * t1 +
      star (su2From d r1 r2 s0 s1).1 * t3).re = (1 - d) / k := by
  obtain ⟨hk, h0, h1, hn⟩ := normalise_some h
  have e0 : t0.re + t3.re = s0.re / k := by rw [h0]; simp; field_simp
  have e0' : t0.im - t3.im = s0.im / k := by rw [h0]; simp; field_simp; ring
  have e1 : t1.re - t2.re = s1.re / k := by rw [h1]; simp; field_simp
  have e1' : t1.im + t2.im = s1.im / k := by rw [h1]; simp; field_simp
  rw [Complex.normSq_apply, Complex.normSq_apply] at hn
  generalize hab : su2From d r1 r2 s0 s1 = ab
  have key : ab.1.re * s0.re - ab.1.im * s0.im - ab.2.re * s1.re - ab.2.im * s1.im = 1 - d := by
    rw [← hab]
    unfold su2From
    simp only
    linear_combination (1 - d) * hn
  have : ab.1.re * (t0.re + t3.re) - ab.1.im * (t0.im - t3.im) - ab.2.re * (t1.re - t2.re) - ab.2.im * (t1.im + t2.im) =
      (1 - d) / k := by
    rw [e0, e0', e1, e1', ← key]
    ring
  rw [← this]
  simp
  ring

/-- **C129**: the weight of a link in the action, `exp(beta/NC Re tr(U S^dagger))`, depends on the number `a0 = 1 - d` that is
drawn in a subgroup through the exponential of the weight, with the `NORM` that `hb` gives, and not on the direction of
the vector. -/
theorem C129_action {NC s : ℕ} (hN : 2 ≤ NC) (hs : s < NSU2SUBGROUPS NC) {U st : Arr ℂ} (hU : IsSU NC U) {s0 s1 : ℂ}
    {k : ℝ} (h : only_subgroup NC U st s = some (s0, s1, k)) {beta : ℝ} (hb : 0 < beta) :
    ∃ R : ℝ, ∀ d r1 r2 : ℝ,
      exp (beta / NC * (Matrix.trace (toM NC (su2_rotate NC U (su2From d r1 r2 s0 s1).1 (su2From d r1 r2 s0 s1).2 s) *
        (toM NC st)ᴴ)).re) = exp R * exp ((1 - d) / (NC / beta * k)) := by
  obtain ⟨h1, h2, h3⟩ := rowsOf_spec hN hs
  have hne : (⟨_, h1⟩ : Fin NC) ≠ ⟨_, h2⟩ := fun e => h3 (congrArg Fin.val e)
  rw [only_subgroup_eq hN hs ⟨_, h1⟩ ⟨_, h2⟩ rfl rfl] at h
  set V := toM NC U * (toM NC st)ᴴ with hV
  refine ⟨beta / NC * ((Matrix.trace V).re - (V ⟨_, h1⟩ ⟨_, h1⟩).re - (V ⟨_, h2⟩ ⟨_, h2⟩).re), fun d r1 r2 => ?_⟩
  have hk := (normalise_some h).1
  have ht := from_trace h d r1 r2
  rw [rotate_eq hN hs ⟨_, h1⟩ ⟨_, h2⟩ rfl rfl U _ _ fun _ => hU, Matrix.mul_assoc, ← hV, trace_rotated hne, ← exp_add]
  congr 1
  have hn : (0 : ℝ) < NC := by exact_mod_cast (by omega : 0 < NC)
  have e : (1 - d) / (NC / beta * k) = beta / NC * ((1 - d) / k) := by field_simp
  rw [e, ← ht, ← mul_add]
  congr 1
  simp only [Complex.add_re, sub_mul, one_mul, Complex.sub_re]
  ring

/-- The `NORM` for a link, a staple and a subgroup: the number of colours over the coupling, over the norm of the quaternion
part of the block of `U S^dagger` in the rows `p` and `q` of the subgroup. -/
noncomputable def normOf (NC : ℕ) (beta : ℝ) (p q : Fin NC) (U st : Arr ℂ) : ℝ :=
  let V := toM NC U * (toM NC st)ᴴ
  NC / beta / √(Complex.normSq (V p p + star (V q q)) + Complex.normSq (V p q - star (V q p)))

theorem normalise_scale {t0 t1 t2 t3 s0 s1 : ℂ} {k : ℝ} (h : normalise t0 t1 t2 t3 = some (s0, s1, k)) :
    k = 1 / √(Complex.normSq (t0 + star t3) + Complex.normSq (t1 - star t2)) := by
  unfold normalise at h
  simp only [] at h
  split at h
  · cases h
  · simp only [Option.some.injEq, Prod.mk.injEq] at h
    rw [← h.2.2, Complex.normSq_apply, Complex.normSq_apply]
    congr 2
    ring

/-- **C129** for the links: when `hb`, called with the inverse coupling `NC/beta`, has treated `i` subgroups and treats one
more, it draws `d` with the `NORM` for which the weight of the new link is the exponential of `a0/NORM`, up to a factor
that does not depend on what is drawn. -/
theorem C129_hb {NC : ℕ} (hN : 2 ≤ NC) {beta : ℝ} (hb : 0 < beta) {i : ℕ} (hi : i < NSU2SUBGROUPS NC) :
    ∃ p q : Fin NC, p ≠ q ∧ (((p : ℕ), (q : ℕ)) = rowPair NC i ∨ ((q : ℕ), (p : ℕ)) = rowPair NC i) ∧
    ∀ U st : Arr ℂ, IsSU NC U → ∀ V : Arr ℂ, ∃ R : ℝ, ∀ (r : ℕ → ℝ) (n : ℕ) (V' : Arr ℂ) (n' : ℕ),
      hbPart NC U st (NC / beta) r i = some (V, n) → hbPart NC U st (NC / beta) r (i + 1) = some (V', n') →
      0 < normOf NC beta p q V st ∧ ∃ d, (drawD (normOf NC beta p q V st) r n).1 = some d ∧
        exp (beta / NC * (Matrix.trace (toM NC V' * (toM NC st)ᴴ)).re) =
          exp R * exp ((1 - d) / normOf NC beta p q V st) := by
  obtain ⟨h1, h2, h3⟩ := rowsOf_spec hN hi
  have hne : (⟨_, h1⟩ : Fin NC) ≠ ⟨_, h2⟩ := fun e => h3 (congrArg Fin.val e)
  refine ⟨⟨_, h1⟩, ⟨_, h2⟩, hne, rowsOf_table hi _ _ rfl rfl, fun U st hU V => ?_⟩
  set W := toM NC V * (toM NC st)ᴴ with hW
  refine ⟨beta / NC * ((Matrix.trace W).re - (W ⟨_, h1⟩ ⟨_, h1⟩).re - (W ⟨_, h2⟩ ⟨_, h2⟩).re), fun r n V' n' hV hV' => ?_⟩
  have hV2 : NC = 2 → IsSU NC V := by
    intro h
    subst h
    have : i = 0 := by
      have : NSU2SUBGROUPS 2 = 1 := by decide
      omega
    subst this
    have : (U, 0) = (V, n) := Option.some.inj hV
    rw [show V = U from (congrArg Prod.fst this).symm]
    exact hU
  unfold hbPart at hV hV'
  rw [show ∀ (f : ℕ → Option (Arr ℂ × ℕ) → Option (Arr ℂ × ℕ)) s, forN (i + 1) f s = f i (forN i f s) from
    fun _ _ => rfl, hV, Option.bind_some] at hV'
  obtain ⟨⟨s0, s1, k⟩, hs, hg⟩ := Option.bind_eq_some_iff.1 hV'
  obtain ⟨g, hg, he⟩ := Option.map_eq_some_iff.1 hg
  obtain ⟨d, hd, rfl⟩ := Option.map_eq_some_iff.1 hg
  simp only [Prod.mk.injEq] at he hd hs
  rw [only_subgroup_eq hN hi ⟨_, h1⟩ ⟨_, h2⟩ rfl rfl, ← hW] at hs
  have hk := (normalise_some hs).1
  have hn : (0 : ℝ) < NC := by exact_mod_cast (by omega : 0 < NC)
  have hnorm : normOf NC beta ⟨_, h1⟩ ⟨_, h2⟩ V st = NC / beta * k := by
    unfold normOf
    rw [normalise_scale hs, ← hW]
    ring
  rw [hnorm]
  refine ⟨by positivity, d, hd, ?_⟩
  have ht := from_trace hs d (r (drawD (NC / beta * k) r n).2) (r ((drawD (NC / beta * k) r n).2 + 1))
  rw [← he.1, rotate_eq hN hi ⟨_, h1⟩ ⟨_, h2⟩ rfl rfl V _ _ hV2, Matrix.mul_assoc, ← hW, trace_rotated hne, ← exp_add]
  congr 1
  have e : (1 - d) / (NC / beta * k) = beta / NC * ((1 - d) / k) := by field_simp
  rw [e, ← ht, ← mul_add]
  congr 1
  simp only [Complex.add_re, sub_mul, one_mul, Complex.sub_re]
  ring

/-- `hb` is all of these passes. -/
theorem hb_all (NC : ℕ) (U st : Arr ℂ) (invbeta : ℝ) (r : ℕ → ℝ) :
    hb NC U st invbeta r 0 = hbPart NC U st invbeta r (NSU2SUBGROUPS NC) := rfl

/-! ## The direction of the vector -/

theorem angle_scale (F : ℝ → ℝ≥0∞) : ∫⁻ u in Ioo (0 : ℝ) 1, F (2 * π * u) =
    ENNReal.ofReal (1 / (2 * π)) * ∫⁻ t in Ioo (0 : ℝ) (2 * π), F t := by
  have hpi := pi_pos
  have himg : (fun t => t / (2 * π)) '' Ioo (0 : ℝ) (2 * π) = Ioo 0 1 := by
    ext u
    constructor
    · rintro ⟨t, ⟨h1, h2⟩, rfl⟩
      exact ⟨by positivity, (div_lt_one (by positivity)).2 h2⟩
    · rintro ⟨h1, h2⟩
      exact ⟨2 * π * u, ⟨by positivity, by nlinarith⟩, by field_simp⟩
  rw [← himg, lintegral_image_eq_lintegral_abs_deriv_mul (f' := fun _ => 1 / (2 * π)) measurableSet_Ioo,
    ← lintegral_const_mul' _ _ ENNReal.ofReal_ne_top]
  · refine setLIntegral_congr_fun measurableSet_Ioo fun t _ => ?_
    rw [abs_of_pos (by positivity), show 2 * π * (t / (2 * π)) = t by field_simp]
  · intro t _
    exact ((hasDerivAt_id t).div_const (2 * π)).hasDerivWithinAt
  · intro a _ b _ h
    have : a / (2 * π) = b / (2 * π) := h
    field_simp at this
    exact this

theorem polar_scale (F : ℝ → ℝ≥0∞) : ∫⁻ u in Ioo (0 : ℝ) 1, F (2 * u - 1) =
    ENNReal.ofReal (1 / 2) * ∫⁻ t in Ioo (0 : ℝ) π, ENNReal.ofReal (sin t) * F (cos t) := by
  have himg : (fun t => (1 + cos t) / 2) '' Ioo (0 : ℝ) π = Ioo 0 1 := by
    ext u
    constructor
    · rintro ⟨t, ⟨h1, h2⟩, rfl⟩
      have a1 : cos t < 1 := by
        have := strictAntiOn_cos ⟨le_refl 0, pi_pos.le⟩ ⟨h1.le, h2.le⟩ h1
        rwa [cos_zero] at this
      have a2 : -1 < cos t := by
        have := strictAntiOn_cos ⟨h1.le, h2.le⟩ ⟨pi_pos.le, le_refl π⟩ h2
        rwa [cos_pi] at this
      exact ⟨by simp only; linarith, by simp only; linarith⟩
    · rintro ⟨h1, h2⟩
      refine ⟨arccos (2 * u - 1), ⟨arccos_pos.2 (by linarith), ?_⟩, ?_⟩
      · refine lt_of_le_of_ne (arccos_le_pi _) fun h => ?_
        rw [arccos_eq_pi] at h
        linarith
      · simp only
        rw [cos_arccos (by linarith) (by linarith)]
        ring
  rw [← himg, lintegral_image_eq_lintegral_abs_deriv_mul (f' := fun t => -sin t / 2) measurableSet_Ioo,
    ← lintegral_const_mul' _ _ ENNReal.ofReal_ne_top]
  · refine setLIntegral_congr_fun measurableSet_Ioo fun t ht => ?_
    have := sin_pos_of_pos_of_lt_pi ht.1 ht.2
    rw [show -sin t / 2 = -(1 / 2 * sin t) by ring, abs_neg, abs_of_pos (by positivity),
      ENNReal.ofReal_mul (by norm_num), show 2 * ((1 + cos t) / 2) - 1 = cos t by ring, mul_assoc]
  · intro t _
    exact (((hasDerivAt_cos t).const_add 1).div_const 2).hasDerivWithinAt
  · intro a ha b hb h
    have h' : (1 + cos a) / 2 = (1 + cos b) / 2 := h
    exact injOn_cos ⟨ha.1.le, ha.2.le⟩ ⟨hb.1.le, hb.2.le⟩ (by linarith)

/-- **C129**: the vector of the element that is made from an accepted `d` has length `sqrt(1 - a0^2)` and a direction that is
uniform on the sphere. -/
theorem C129_direction {d : ℝ} (h0 : 0 ≤ d) (h2 : d ≤ 2) (g : ℂ × ℂ → ℝ≥0∞) :
    ∫⁻ r1, ∫⁻ r2, g (su2From d r1 r2 1 0) ∂unit ∂unit =
    ENNReal.ofReal (1 / (4 * π)) * ∫⁻ t in Ioo (0 : ℝ) π, ENNReal.ofReal (sin t) * ∫⁻ p in Ioo (0 : ℝ) (2 * π),
      g (⟨1 - d, √(1 - (1 - d) ^ 2) * cos t⟩,
        ⟨√(1 - (1 - d) ^ 2) * sin t * sin p, √(1 - (1 - d) ^ 2) * sin t * cos p⟩) := by
  have hpi := pi_pos
  have ha : 0 ≤ 1 - (1 - d) ^ 2 := by nlinarith
  set ρ := √(1 - (1 - d) ^ 2) with hρ
  have hρ0 : 0 ≤ ρ := sqrt_nonneg _
  have hρ2 : ρ * ρ = 1 - (1 - d) ^ 2 := mul_self_sqrt ha
  have e1 : ∀ r1 r2, su2From d r1 r2 1 0 = (⟨1 - d, ρ * (2 * r1 - 1)⟩,
      ⟨√|ρ * ρ - ρ * (2 * r1 - 1) * (ρ * (2 * r1 - 1))| * sin (2 * π * r2),
        √|ρ * ρ - ρ * (2 * r1 - 1) * (ρ * (2 * r1 - 1))| * cos (2 * π * r2)⟩) := by
    intro r1 r2
    have hh : |1 - (1 - d) * (1 - d)| = ρ * ρ := by
      rw [hρ2, ← pow_two, abs_of_nonneg ha]
    unfold su2From
    simp only [hh, sqrt_mul_self hρ0]
    simp [mul_comm]
  let G : ℝ → ℝ → ℝ≥0∞ := fun c p => g (⟨1 - d, ρ * c⟩,
      ⟨√|ρ * ρ - ρ * c * (ρ * c)| * sin p, √|ρ * ρ - ρ * c * (ρ * c)| * cos p⟩)
  have e2 : ∀ r1 r2, g (su2From d r1 r2 1 0) = G (2 * r1 - 1) (2 * π * r2) := fun r1 r2 => by rw [e1]
  simp only [e2]
  rw [unit_Ioo]
  simp only [angle_scale (G _)]
  rw [lintegral_const_mul' _ _ ENNReal.ofReal_ne_top, polar_scale (fun c => ∫⁻ t in Ioo (0 : ℝ) (2 * π), G c t),
    ← mul_assoc, ← ENNReal.ofReal_mul (by positivity), show 1 / (2 * π) * (1 / 2) = 1 / (4 * π) by field_simp; norm_num]
  congr 1
  refine setLIntegral_congr_fun measurableSet_Ioo fun t ht => ?_
  have hs := sin_pos_of_pos_of_lt_pi ht.1 ht.2
  have e3 : √|ρ * ρ - ρ * cos t * (ρ * cos t)| = ρ * sin t := by
    have : ρ * ρ - ρ * cos t * (ρ * cos t) = (ρ * sin t) * (ρ * sin t) := by
      have := sin_sq_add_cos_sq t
      linear_combination (-(ρ * ρ)) * this
    rw [this, abs_of_nonneg (mul_self_nonneg _), sqrt_mul_self (by positivity)]
  simp only [G, e3]

/-- **C129**: the new element of the subgroup is the one drawn times the inverse of the projected one. -/
theorem C129_product (d r1 r2 : ℝ) (s0 s1 : ℂ) :
    !![(su2From d r1 r2 s0 s1).1, (su2From d r1 r2 s0 s1).2; -star (su2From d r1 r2 s0 s1).2,
      star (su2From d r1 r2 s0 s1).1] =
    !![(su2From d r1 r2 1 0).1, (su2From d r1 r2 1 0).2; -star (su2From d r1 r2 1 0).2, star (su2From d r1 r2 1 0).1] *
      !![s0, s1; -star s1, star s0]ᴴ := by
  ext i j
  fin_cases i <;> fin_cases j <;> apply Complex.ext <;>
    simp [su2From, Matrix.mul_apply, Fin.sum_univ_two, conjTranspose_apply] <;> ring

/-- A projection that the theorems apply to. -/
example : IsSU 3 (arr [1, 0, 0, 0, 1, 0, 0, 0, 1]) ∧
    only_subgroup 3 (arr [1, 0, 0, 0, 1, 0, 0, 0, 1]) (arr [2, 0, 0, 0, 1, 0, 0, 0, 1]) 0 = some (1, 0, 1 / 3) := by
  constructor
  · have : toM 3 (arr [(1 : ℂ), 0, 0, 0, 1, 0, 0, 0, 1]) = 1 := by
      ext i j
      fin_cases i <;> fin_cases j <;> simp [toM, arr]
    unfold IsSU
    rw [this]
    exact one_mem _
  · simp only [only_subgroup, normalise, arr, if_true]
    have : √(9 : ℝ) = 3 := by
      rw [show (9 : ℝ) = 3 * 3 by norm_num]; exact Real.sqrt_mul_self (by norm_num)
    norm_num [this]

/-- The upper half of the interval has a positive probability. -/
example : 0 < given 1 (Ioo 0 1) := by
  unfold given
  refine ENNReal.div_pos ?_ (weight_total one_pos).2.ne
  rw [inter_eq_left.2 (Ioo_subset_Ioo_left (by norm_num))]
  refine ne_of_gt ?_
  rw [setLIntegral_pos_iff (by unfold weight; fun_prop)]
  refine lt_of_lt_of_le ?_ (measure_mono (show Ioo (0 : ℝ) 1 ⊆ _ from ?_))
  · simp
  · rintro a ⟨h1, h2⟩
    refine ⟨?_, h1, h2⟩
    rw [Function.mem_support]
    have : 0 < weight 1 a := mul_pos (sqrt_pos.2 (by nlinarith)) (exp_pos _)
    simpa using this

end GLU.Update.Draw
