import Verif.Update.HaarLemmas
import Verif.Update.DrawCreutz
import Mathlib.Analysis.SpecialFunctions.PolarCoord
import Mathlib.MeasureTheory.Measure.Lebesgue.EqHaar
import Mathlib.MeasureTheory.Measure.Lebesgue.Complex
import Mathlib.LinearAlgebra.Complex.FiniteDimensional

/-!
# The invariant measure of SU(2) in the coordinates of the heat bath
-/

namespace GLU.Update.Haar

open MeasureTheory Set ENNReal Matrix GLU.Mat GLU.Update.Draw

/-- Multiplication of a pair with an element of SU(2), as of rows. -/
def act (g : SU 2) : ℂ × ℂ →ₗ[ℝ] ℂ × ℂ where
  toFun z := (g.1 0 0 * z.1 - g.1 0 1 * star z.2, g.1 0 0 * z.2 + g.1 0 1 * star z.1)
  map_add' x y := by
    ext <;> simp <;> ring
  map_smul' c x := by
    ext <;> simp <;> ring

theorem act_mul (g h : SU 2) (z : ℂ × ℂ) : act (g * h) z = act g (act h z) := by
  have e0 : (g * h).1 0 0 = g.1 0 0 * h.1 0 0 + g.1 0 1 * h.1 1 0 := by
    show (g.1 * h.1) 0 0 = _
    simp [Matrix.mul_apply, Fin.sum_univ_two]
  have e1 : (g * h).1 0 1 = g.1 0 0 * h.1 0 1 + g.1 0 1 * h.1 1 1 := by
    show (g.1 * h.1) 0 1 = _
    simp [Matrix.mul_apply, Fin.sum_univ_two]
  rw [(su2_form h).2] at e0
  rw [(su2_form h).1] at e1
  show (_, _) = (_, _)
  simp only [act, LinearMap.coe_mk, AddHom.coe_mk, e0, e1, star_add, star_sub, star_mul', star_star, Prod.mk.injEq]
  constructor <;> ring

theorem act_one (z : ℂ × ℂ) : act 1 z = z := by
  have e0 : (1 : SU 2).1 0 0 = 1 := by simp
  have e1 : (1 : SU 2).1 0 1 = 0 := by simp
  simp only [act, LinearMap.coe_mk, AddHom.coe_mk]
  simp

/-- The square of the norm. -/
def nsq (z : ℂ × ℂ) : ℝ := Complex.normSq z.1 + Complex.normSq z.2

theorem act_norm (g : SU 2) (z : ℂ × ℂ) : nsq (act g z) = nsq z := by
  have hn := su2_norm g
  unfold nsq
  simp only [act, LinearMap.coe_mk, AddHom.coe_mk]
  generalize g.1 0 0 = a at *
  generalize g.1 0 1 = b at *
  simp only [Complex.normSq_apply] at *
  simp
  linear_combination (z.1.re * z.1.re + z.1.im * z.1.im + (z.2.re * z.2.re + z.2.im * z.2.im)) * hn

theorem nsq_zero {z : ℂ × ℂ} : z ≠ 0 ↔ nsq z ≠ 0 := by
  have h1 := Complex.normSq_nonneg z.1
  have h2 := Complex.normSq_nonneg z.2
  rw [not_iff_not]
  unfold nsq
  constructor
  · rintro rfl; simp
  · intro e
    exact Prod.ext (Complex.normSq_eq_zero.1 (by linarith)) (Complex.normSq_eq_zero.1 (by linarith))

theorem proj_act (g : SU 2) {z : ℂ × ℂ} (hz : z ≠ 0) : proj (act g z) = g * proj z := by
  have hn : Complex.normSq (act g z).1 + Complex.normSq (act g z).2 = Complex.normSq z.1 + Complex.normSq z.2 := act_norm g z
  have hz' : act g z ≠ 0 := by
    rw [nsq_zero, act_norm, ← nsq_zero]; exact hz
  unfold proj
  rw [dif_pos hz', dif_pos hz]
  apply Subtype.ext
  simp only [hn]
  show su2M _ _ = g.1 * su2M _ _
  simp only [act, LinearMap.coe_mk, AddHom.coe_mk]
  generalize ((1 / √(Complex.normSq z.1 + Complex.normSq z.2) : ℝ)) = k
  have h1 := (su2_form g).1
  have h2 := (su2_form g).2
  ext i j
  fin_cases i <;> fin_cases j <;>
    simp [su2M, Matrix.mul_apply, Fin.sum_univ_two, h1, h2] <;> ring

/-- The ball. -/
def ball : Set (ℂ × ℂ) := {z | nsq z < 1}

theorem nsq_continuous : Continuous nsq :=
  (Complex.continuous_normSq.comp continuous_fst).add (Complex.continuous_normSq.comp continuous_snd)

theorem ball_measurable : MeasurableSet ball := measurableSet_lt nsq_continuous.measurable measurable_const

theorem ball_volume : volume ball ≠ 0 ∧ volume ball ≠ ⊤ := by
  constructor
  · have ho : IsOpen ball := isOpen_lt nsq_continuous continuous_const
    exact (ho.measure_pos volume ⟨0, by simp [ball, nsq]⟩).ne'
  · have hs : ball ⊆ Metric.closedBall 0 1 := by
      intro z hz
      rw [mem_closedBall_zero_iff, Prod.norm_def, max_le_iff]
      have h : Complex.normSq z.1 + Complex.normSq z.2 < 1 := hz
      have h1 := Complex.normSq_nonneg z.1
      have h2 := Complex.normSq_nonneg z.2
      rw [Complex.normSq_eq_norm_sq] at h h1
      rw [Complex.normSq_eq_norm_sq] at h h2
      have n1 := norm_nonneg z.1
      have n2 := norm_nonneg z.2
      constructor <;> nlinarith
    exact ((measure_mono hs).trans_lt (isCompact_closedBall (0 : ℂ × ℂ) 1).measure_lt_top).ne

instance : (volume : Measure (ℂ × ℂ)).IsAddHaarMeasure :=
  inferInstanceAs ((volume : Measure ℂ).prod volume).IsAddHaarMeasure

theorem act_volume (g : SU 2) : Measure.map (act g) (volume : Measure (ℂ × ℂ)) = volume := by
  have hu : LinearMap.det (act g) ≠ 0 := by
    have e : act g ∘ₗ act g⁻¹ = LinearMap.id := by
      refine LinearMap.ext fun z => ?_
      rw [LinearMap.comp_apply, ← act_mul, mul_inv_cancel, act_one, LinearMap.id_apply]
    have := congrArg LinearMap.det e
    rw [LinearMap.det_comp, LinearMap.det_id] at this
    exact left_ne_zero_of_mul_eq_one this
  have h := Measure.map_linearMap_addHaar_eq_smul_addHaar (volume : Measure (ℂ × ℂ)) hu
  have hc : Continuous (act g) := LinearMap.continuous_of_finiteDimensional _
  have hb : Measure.map (act g) (volume : Measure (ℂ × ℂ)) ball = volume ball := by
    rw [Measure.map_apply hc.measurable ball_measurable]
    congr 1
    ext z
    show nsq (act g z) < 1 ↔ nsq z < 1
    rw [act_norm]
  rw [h] at hb ⊢
  rw [Measure.smul_apply, smul_eq_mul] at hb
  have : ENNReal.ofReal |(LinearMap.det (act g))⁻¹| = 1 := by
    have := ENNReal.mul_eq_right ball_volume.1 ball_volume.2 |>.1 hb
    exact this
  rw [this, one_smul]

theorem ball_ne : ∀ᵐ z ∂(volume : Measure (ℂ × ℂ)).restrict ball, z ≠ 0 := by
  refine ae_restrict_of_ae ?_
  rw [ae_iff]
  simp

/-- The invariant measure is that of the directions of the points in the ball. -/
theorem ball_law {F : SU 2 → ℝ≥0∞} (hF : Measurable F) :
    (∫⁻ x, F x ∂haar 2) * volume ball = ∫⁻ z in ball, F (proj z) := by
  have inv : ∀ g : SU 2, ∫⁻ z in ball, F (g * proj z) = ∫⁻ z in ball, F (proj z) := by
    intro g
    have hc : Continuous (act g) := LinearMap.continuous_of_finiteDimensional _
    have e1 : ∫⁻ z in ball, F (g * proj z) = ∫⁻ z in ball, F (proj (act g z)) := by
      refine lintegral_congr_ae ?_
      filter_upwards [ball_ne] with z hz
      rw [proj_act g hz]
    rw [e1]
    have hmp : MeasurePreserving (act g) (volume : Measure (ℂ × ℂ)) volume := ⟨hc.measurable, act_volume g⟩
    have e2 : (act g) ⁻¹' ball = ball := by
      ext z
      show nsq (act g z) < 1 ↔ nsq z < 1
      rw [act_norm]
    have := hmp.restrict_preimage ball_measurable
    rw [e2] at this
    exact this.lintegral_comp (hF.comp proj_measurable)
  have h1 : ∫⁻ g, (∫⁻ z in ball, F (g * proj z)) ∂haar 2 = ∫⁻ z in ball, F (proj z) := by
    simp only [inv, lintegral_const, measure_univ, mul_one]
  rw [← h1, lintegral_lintegral_swap]
  · simp only [haar_right 2 hF, lintegral_const, Measure.restrict_apply_univ]
  · exact (hF.comp (measurable_fst.mul (proj_measurable.comp measurable_snd))).aemeasurable

/-! ## The ball in terms of the disc and an angle -/

theorem radial (c : ℝ) (H : ℝ → ℝ≥0∞) : ∫⁻ r in Ioi (0 : ℝ), ENNReal.ofReal r * H (c + r ^ 2) =
    ENNReal.ofReal (1 / 2) * ∫⁻ t in Ioi c, H t := by
  have himg : (fun r : ℝ => c + r ^ 2) '' Ioi 0 = Ioi c := by
    ext t
    constructor
    · rintro ⟨r, hr, rfl⟩
      have : (0 : ℝ) < r := hr
      exact (lt_add_iff_pos_right c).2 (by positivity)
    · intro ht
      have : 0 < t - c := sub_pos.2 ht
      exact ⟨√(t - c), Real.sqrt_pos.2 this, by simp only [Real.sq_sqrt this.le]; ring⟩
  rw [← himg, lintegral_image_eq_lintegral_abs_deriv_mul (f' := fun r => 2 * r) measurableSet_Ioi,
    ← lintegral_const_mul' _ _ ENNReal.ofReal_ne_top]
  · refine setLIntegral_congr_fun measurableSet_Ioi fun r (hr : 0 < r) => ?_
    rw [← mul_assoc, ← ENNReal.ofReal_mul (by norm_num), abs_of_pos (by positivity)]
    congr 2
    ring
  · intro r _
    have := ((hasDerivAt_pow 2 r).const_add c).hasDerivWithinAt (s := Ioi 0)
    simpa using this
  · intro a ha b hb h
    have ha' : (0 : ℝ) < a := ha
    have hb' : (0 : ℝ) < b := hb
    have h' : c + a ^ 2 = c + b ^ 2 := h
    have : a ^ 2 = b ^ 2 := by linarith
    nlinarith [sq_nonneg (a - b)]

/-- The point of the circle. -/
noncomputable def circ (t : ℝ) : ℂ := ⟨Real.cos t, Real.sin t⟩

theorem circ_continuous : Continuous circ := by
  have : circ = fun t : ℝ => (Real.cos t : ℂ) + (Real.sin t : ℂ) * Complex.I := by
    funext t; apply Complex.ext <;> simp [circ, ← Complex.ofReal_cos, ← Complex.ofReal_sin, -Complex.ofReal_cos, -Complex.ofReal_sin]
  rw [this]; fun_prop

theorem polar_law (f : ℂ → ℝ≥0∞) (hf : Measurable f) :
    ∫⁻ z, f z = ∫⁻ t in Ioo (-Real.pi) Real.pi, ∫⁻ r in Ioi (0 : ℝ), ENNReal.ofReal r * f (r * circ t) := by
  rw [← Complex.lintegral_comp_polarCoord_symm]
  have e : ∀ p : ℝ × ℝ, Complex.polarCoord.symm p = p.1 * circ p.2 := by
    intro p
    rw [Complex.polarCoord_symm_apply]
    congr 1
    apply Complex.ext <;> simp [circ, ← Complex.ofReal_cos, ← Complex.ofReal_sin, -Complex.ofReal_cos, -Complex.ofReal_sin]
  have hm : Measurable fun p : ℝ × ℝ => ENNReal.ofReal p.1 * f (p.1 * circ p.2) := by
    have := circ_continuous
    have h2 : Measurable fun p : ℝ × ℝ => (p.1 : ℂ) * circ p.2 := by fun_prop
    exact (by fun_prop : Measurable fun p : ℝ × ℝ => ENNReal.ofReal p.1).mul (hf.comp h2)
  simp only [e, smul_eq_mul]
  show ∫⁻ p in Ioi (0 : ℝ) ×ˢ Ioo (-Real.pi) Real.pi, _ = _
  rw [Measure.volume_eq_prod, ← Measure.prod_restrict, lintegral_prod_symm _ hm.aemeasurable]

/-- The integral over the disc and the angle. -/
noncomputable def disc (F : SU 2 → ℝ≥0∞) : ℝ≥0∞ :=
  ∫⁻ w in {w : ℂ | Complex.normSq w < 1}, ∫⁻ t in Ioo (-Real.pi) Real.pi,
    F (proj (w, (√(1 - Complex.normSq w) : ℂ) * circ t))

theorem proj_smul {c : ℝ} (hc : 0 < c) (z : ℂ × ℂ) : proj ((c : ℂ) * z.1, (c : ℂ) * z.2) = proj z := by
  by_cases hz : z = 0
  · subst hz; simp; rfl
  · have hc' : (c : ℂ) ≠ 0 := by exact_mod_cast hc.ne'
    have h2 : ((c : ℂ) * z.1, (c : ℂ) * z.2) ≠ 0 := by
      intro h
      apply hz
      have h1 := congrArg Prod.fst h
      have h2 := congrArg Prod.snd h
      exact Prod.ext ((mul_eq_zero.1 h1).resolve_left hc') ((mul_eq_zero.1 h2).resolve_left hc')
    have hn : √(Complex.normSq ((c : ℂ) * z.1) + Complex.normSq ((c : ℂ) * z.2)) =
        c * √(Complex.normSq z.1 + Complex.normSq z.2) := by
      rw [Complex.normSq_mul, Complex.normSq_mul, Complex.normSq_ofReal, ← mul_add, Real.sqrt_mul (by positivity),
        Real.sqrt_mul_self hc.le]
    unfold proj
    rw [dif_pos h2, dif_pos hz]
    apply Subtype.ext
    show su2M _ _ = su2M _ _
    simp only [hn]
    congr 1 <;>
    · push_cast
      field_simp

theorem circ_norm (t : ℝ) : Complex.normSq (circ t) = 1 := by
  simp only [circ, Complex.normSq_apply]
  have := Real.sin_sq_add_cos_sq t
  linarith

theorem scale_disc {c : ℝ} (hc : 0 < c) (J : ℂ → ℝ≥0∞) (hJ : Measurable J) :
    ∫⁻ z, J z = ENNReal.ofReal (c ^ 2) * ∫⁻ w, J ((c : ℂ) * w) := by
  have h := Measure.map_addHaar_smul (volume : Measure ℂ) hc.ne'
  have e : ∫⁻ w, J ((c : ℂ) * w) = ∫⁻ z, J z ∂Measure.map (fun w : ℂ => c • w) volume := by
    rw [lintegral_map hJ (by fun_prop)]
    simp only [Complex.real_smul]
  rw [e, h, lintegral_smul_measure, Complex.finrank_real_complex, smul_eq_mul, ← mul_assoc,
    ← ENNReal.ofReal_mul (by positivity), abs_of_pos (by positivity), mul_inv_cancel₀ (by positivity), ENNReal.ofReal_one,
    one_mul]

theorem half : ∫⁻ t in Ioo (0 : ℝ) 1, ENNReal.ofReal t = ENNReal.ofReal (1 / 2) := by
  have h := radial 0 ((Iio (1 : ℝ)).indicator 1)
  have e1 : ∫⁻ t in Ioi (0 : ℝ), (Iio (1 : ℝ)).indicator 1 t = 1 := by
    rw [setLIntegral_indicator measurableSet_Iio]
    have : Iio (1 : ℝ) ∩ Ioi 0 = Ioo 0 1 := by ext; simp [and_comm]
    rw [this]
    simp
  rw [e1, mul_one] at h
  rw [← h, ← lintegral_indicator measurableSet_Ioo, ← lintegral_indicator measurableSet_Ioi]
  refine lintegral_congr fun r => ?_
  by_cases h0 : 0 < r
  · rw [indicator_of_mem (show r ∈ Ioi (0 : ℝ) from h0)]
    by_cases h1 : r < 1
    · rw [indicator_of_mem (show r ∈ Ioo (0 : ℝ) 1 from ⟨h0, h1⟩), indicator_of_mem (by
        show 0 + r ^ 2 < 1
        nlinarith)]
      simp
    · rw [indicator_of_notMem (fun h : r ∈ Ioo (0 : ℝ) 1 => h1 h.2), indicator_of_notMem (by
        show ¬ 0 + r ^ 2 < 1
        nlinarith)]
      simp
  · rw [indicator_of_notMem (fun h : r ∈ Ioo (0 : ℝ) 1 => h0 h.1), indicator_of_notMem (fun h : r ∈ Ioi (0 : ℝ) => h0 h)]

theorem ball_disc {F : SU 2 → ℝ≥0∞} (hF : Measurable F) :
    ∫⁻ z in ball, F (proj z) = ENNReal.ofReal (1 / 4) * disc F := by
  have hFp : Measurable fun z => F (proj z) := hF.comp proj_measurable
  have hcirc := circ_continuous.measurable
  have hns : Measurable Complex.normSq := Complex.continuous_normSq.measurable
  -- the integrand
  let G : ℂ → ℝ → ℝ → ℝ≥0∞ := fun z t τ =>
    if Complex.normSq z < τ ∧ τ < 1 then F (proj (z, (√(τ - Complex.normSq z) : ℂ) * circ t)) else 0
  have hG : Measurable fun y : (ℂ × ℝ) × ℝ => G y.1.1 y.2 y.1.2 := by
    refine Measurable.ite ?_ ?_ measurable_const
    · exact (measurableSet_lt (f := fun y : (ℂ × ℝ) × ℝ => Complex.normSq y.1.1) (g := fun y => y.1.2)
        (by fun_prop) (by fun_prop)).inter (measurableSet_lt (f := fun y : (ℂ × ℝ) × ℝ => y.1.2) (by fun_prop) measurable_const)
    · refine hFp.comp (f := fun y : (ℂ × ℝ) × ℝ => (y.1.1, (√(y.1.2 - Complex.normSq y.1.1) : ℂ) * circ y.2)) ?_
      fun_prop
  have s1 : ∫⁻ z in ball, F (proj z) = ∫⁻ z, ∫⁻ t in Ioo (-Real.pi) Real.pi, ENNReal.ofReal (1 / 2) * ∫⁻ τ, G z t τ := by
    rw [← lintegral_indicator ball_measurable, Measure.volume_eq_prod,
      lintegral_prod _ (hFp.indicator ball_measurable).aemeasurable]
    refine lintegral_congr fun z => ?_
    have hm : Measurable fun y => ball.indicator (fun z => F (proj z)) (z, y) :=
      (hFp.indicator ball_measurable).comp (by fun_prop)
    rw [polar_law _ hm]
    refine lintegral_congr fun t => ?_
    have hr := radial (Complex.normSq z) (fun τ => if τ < 1 then F (proj (z, (√(τ - Complex.normSq z) : ℂ) * circ t)) else 0)
    have e : ∫⁻ τ, G z t τ = ∫⁻ τ in Ioi (Complex.normSq z),
        if τ < 1 then F (proj (z, (√(τ - Complex.normSq z) : ℂ) * circ t)) else 0 := by
      rw [← lintegral_indicator measurableSet_Ioi]
      refine lintegral_congr fun τ => ?_
      by_cases h1 : Complex.normSq z < τ
      · rw [indicator_of_mem (show τ ∈ Ioi (Complex.normSq z) from h1)]
        simp only [G, h1, true_and]
      · rw [indicator_of_notMem (show τ ∉ Ioi (Complex.normSq z) from h1)]
        simp only [G, h1, false_and, if_false]
    rw [e, ← hr]
    refine setLIntegral_congr_fun measurableSet_Ioi fun r (hr : 0 < r) => ?_
    have hn : nsq (z, (r : ℂ) * circ t) = Complex.normSq z + r ^ 2 := by
      unfold nsq
      simp only [Complex.normSq_mul, Complex.normSq_ofReal, circ_norm]
      ring
    by_cases h1 : Complex.normSq z + r ^ 2 < 1
    · rw [indicator_of_mem (show (z, (r : ℂ) * circ t) ∈ ball from by rw [← hn] at h1; exact h1), if_pos h1,
        add_sub_cancel_left, Real.sqrt_sq hr.le]
    · rw [indicator_of_notMem (show (z, (r : ℂ) * circ t) ∉ ball from by rw [← hn] at h1; exact h1), if_neg h1]
  have s2 : ∫⁻ z, ∫⁻ t in Ioo (-Real.pi) Real.pi, ∫⁻ τ, G z t τ =
      ∫⁻ τ, ∫⁻ z, ∫⁻ t in Ioo (-Real.pi) Real.pi, G z t τ := by
    have a1 : ∀ z, ∫⁻ t in Ioo (-Real.pi) Real.pi, ∫⁻ τ, G z t τ = ∫⁻ τ, ∫⁻ t in Ioo (-Real.pi) Real.pi, G z t τ := by
      intro z
      refine lintegral_lintegral_swap ?_
      have : Measurable fun y : ℝ × ℝ => G z y.1 y.2 := hG.comp (f := fun y : ℝ × ℝ => ((z, y.2), y.1)) (by fun_prop)
      exact this.aemeasurable
    simp only [a1]
    refine lintegral_lintegral_swap ?_
    exact (hG.lintegral_prod_right' (ν := volume.restrict (Ioo (-Real.pi) Real.pi))).aemeasurable
  have s3 : ∀ τ, ∫⁻ z, ∫⁻ t in Ioo (-Real.pi) Real.pi, G z t τ =
      (Ioo (0 : ℝ) 1).indicator (fun τ => ENNReal.ofReal τ * disc F) τ := by
    intro τ
    by_cases hτ : τ ∈ Ioo (0 : ℝ) 1
    · rw [indicator_of_mem hτ]
      have hm : Measurable fun z => ∫⁻ t in Ioo (-Real.pi) Real.pi, G z t τ :=
        (hG.lintegral_prod_right' (ν := volume.restrict (Ioo (-Real.pi) Real.pi))).comp
          (by fun_prop : Measurable fun z : ℂ => (z, τ))
      have hs : 0 < √τ := Real.sqrt_pos.2 hτ.1
      rw [scale_disc hs _ hm, Real.sq_sqrt hτ.1.le]
      congr 1
      unfold disc
      have hset : MeasurableSet {w : ℂ | Complex.normSq w < 1} := measurableSet_lt hns measurable_const
      rw [← lintegral_indicator hset]
      refine lintegral_congr fun w => ?_
      have hn : Complex.normSq ((√τ : ℂ) * w) = τ * Complex.normSq w := by
        rw [Complex.normSq_mul, Complex.normSq_ofReal, Real.mul_self_sqrt hτ.1.le]
      by_cases hw : Complex.normSq w < 1
      · rw [indicator_of_mem (show w ∈ {w : ℂ | Complex.normSq w < 1} from hw)]
        refine lintegral_congr fun t => ?_
        simp only [G]
        rw [hn, if_pos ⟨by nlinarith [hτ.1], hτ.2⟩]
        have e : √(τ - τ * Complex.normSq w) = √τ * √(1 - Complex.normSq w) := by
          rw [← Real.sqrt_mul hτ.1.le]; congr 1; ring
        rw [e, ← proj_smul hs (w, (√(1 - Complex.normSq w) : ℂ) * circ t)]
        push_cast
        rw [mul_assoc]
      · rw [indicator_of_notMem (show w ∉ {w : ℂ | Complex.normSq w < 1} from hw)]
        simp only [G]
        have : ¬ (Complex.normSq ((√τ : ℂ) * w) < τ ∧ τ < 1) := by
          rw [hn]
          rintro ⟨h, -⟩
          have := hτ.1
          nlinarith
        simp only [this, if_false, lintegral_zero]
    · rw [indicator_of_notMem hτ]
      have : ∀ z t, G z t τ = 0 := by
        intro z t
        refine if_neg ?_
        rintro ⟨h1, h2⟩
        exact hτ ⟨(Complex.normSq_nonneg z).trans_lt h1, h2⟩
      simp only [this, lintegral_zero]
  have hhalf : ENNReal.ofReal (1 / 2) ≠ ⊤ := ENNReal.ofReal_ne_top
  rw [s1]
  simp only [lintegral_const_mul' _ _ hhalf]
  rw [s2]
  simp only [s3]
  rw [lintegral_indicator measurableSet_Ioo, lintegral_mul_const _ (by fun_prop), half, ← mul_assoc,
    ← ENNReal.ofReal_mul (by norm_num)]
  norm_num

/-! ## The coordinates of the heat bath -/

theorem angle_circ {M : ℝ → ℝ≥0∞} (hM : Function.Periodic M (2 * Real.pi)) :
    ∫⁻ r, M (Real.pi / 2 - 2 * Real.pi * r) ∂unit =
      ENNReal.ofReal (1 / (2 * Real.pi)) * ∫⁻ t in Ioo (-Real.pi) Real.pi, M t := by
  have hpi := Real.pi_pos
  rw [unit_Ioo, angle_scale (fun t => M (Real.pi / 2 - t))]
  congr 1
  have hp : Function.Periodic (fun t => M (Real.pi / 2 - t)) (2 * Real.pi) := by
    intro t
    simp only
    rw [← hM (Real.pi / 2 - (t + 2 * Real.pi))]
    congr 1
    ring
  have h1 := periodic_shift (T := 2 * Real.pi) (by positivity) hp 0 (-Real.pi / 2)
  rw [zero_add, ← restrict_Ioo_eq_restrict_Ioc, ← restrict_Ioo_eq_restrict_Ioc] at h1
  rw [h1, ← lintegral_indicator measurableSet_Ioo, ← lintegral_indicator measurableSet_Ioo,
    ← lintegral_sub_left_eq_self ((Ioo (-Real.pi) Real.pi).indicator fun t => M t) (Real.pi / 2)]
  refine lintegral_congr fun t => ?_
  by_cases ht : t ∈ Ioo (-Real.pi / 2) (-Real.pi / 2 + 2 * Real.pi)
  · rw [indicator_of_mem ht, indicator_of_mem]
    exact ⟨by linarith [ht.2], by linarith [ht.1]⟩
  · rw [indicator_of_notMem ht, indicator_of_notMem]
    intro h
    exact ht ⟨by linarith [h.2], by linarith [h.1]⟩

theorem line_scale {ρ : ℝ} (hρ : 0 < ρ) (K : ℝ → ℝ≥0∞) : ENNReal.ofReal ρ * ∫⁻ r, K (ρ * (2 * r - 1)) ∂unit =
    ENNReal.ofReal (1 / 2) * ∫⁻ y in Ioo (-ρ) ρ, K y := by
  have himg : (fun r => ρ * (2 * r - 1)) '' Ioo (0 : ℝ) 1 = Ioo (-ρ) ρ := by
    ext y
    constructor
    · rintro ⟨r, ⟨h1, h2⟩, rfl⟩
      exact ⟨by simp only; nlinarith, by simp only; nlinarith⟩
    · rintro ⟨h1, h2⟩
      refine ⟨(y / ρ + 1) / 2, ⟨?_, ?_⟩, ?_⟩
      · have : -1 < y / ρ := by rw [lt_div_iff₀ hρ]; linarith
        linarith
      · have : y / ρ < 1 := by rw [div_lt_iff₀ hρ]; linarith
        linarith
      · field_simp
        ring
  rw [unit_Ioo, ← himg, lintegral_image_eq_lintegral_abs_deriv_mul (f' := fun _ => ρ * 2) measurableSet_Ioo,
    ← lintegral_const_mul' _ _ ENNReal.ofReal_ne_top, ← lintegral_const_mul' _ _ ENNReal.ofReal_ne_top]
  · refine setLIntegral_congr_fun measurableSet_Ioo fun r _ => ?_
    rw [← mul_assoc, ← ENNReal.ofReal_mul (by norm_num), abs_of_pos (by positivity)]
    congr 2
    ring
  · intro r _
    have := ((((hasDerivAt_id r).const_mul 2).sub_const 1).const_mul ρ).hasDerivWithinAt (s := Ioo 0 1)
    simpa using this
  · intro a _ b _ h
    have h' : ρ * (2 * a - 1) = ρ * (2 * b - 1) := h
    have := mul_left_cancel₀ hρ.ne' h'
    linarith

/-- The element of SU(2) that `generate_SU2` makes of `d` and two random numbers, before the product with the projected
one. -/
noncomputable def drawn (d r1 r2 : ℝ) : SU 2 := proj (su2From d r1 r2 1 0)

theorem from_coord {a : ℝ} (ha : a ∈ Ioo (-1 : ℝ) 1) (r1 r2 : ℝ) : su2From (1 - a) r1 r2 1 0 =
    ((⟨a, √(1 - a * a) * (2 * r1 - 1)⟩ : ℂ),
      (√|1 - a * a - √(1 - a * a) * (2 * r1 - 1) * (√(1 - a * a) * (2 * r1 - 1))| : ℂ) *
        circ (Real.pi / 2 - 2 * Real.pi * r2)) := by
  have h : 0 < 1 - a * a := by nlinarith [ha.1, ha.2]
  have e : (1 : ℝ) - (1 - a) = a := by ring
  have hs := Real.mul_self_sqrt h.le
  unfold su2From
  simp only [e, abs_of_pos h]
  refine Prod.ext ?_ ?_
  · apply Complex.ext <;> simp
  · apply Complex.ext <;> simp [circ, Real.cos_pi_div_two_sub, Real.sin_pi_div_two_sub] <;> ring

theorem code_disc {F : SU 2 → ℝ≥0∞} (hF : Measurable F) :
    ∫⁻ a in Ioo (-1 : ℝ) 1, ENNReal.ofReal √(1 - a * a) * ∫⁻ r1, ∫⁻ r2, F (drawn (1 - a) r1 r2) ∂unit ∂unit =
      ENNReal.ofReal (1 / (4 * Real.pi)) * disc F := by
  have hpi := Real.pi_pos
  have hFp : Measurable fun z => F (proj z) := hF.comp proj_measurable
  have hcirc := circ_continuous.measurable
  have hns : Measurable Complex.normSq := Complex.continuous_normSq.measurable
  have hper : Function.Periodic circ (2 * Real.pi) := by
    intro t
    apply Complex.ext <;> simp [circ]
  let W : ℂ → ℝ≥0∞ := fun w => ∫⁻ t in Ioo (-Real.pi) Real.pi, F (proj (w, (√(1 - Complex.normSq w) : ℂ) * circ t))
  have hW : Measurable W := by
    have : Measurable fun y : ℂ × ℝ => F (proj (y.1, (√(1 - Complex.normSq y.1) : ℂ) * circ y.2)) := by
      refine hFp.comp (f := fun y : ℂ × ℝ => (y.1, (√(1 - Complex.normSq y.1) : ℂ) * circ y.2)) ?_
      fun_prop
    exact this.lintegral_prod_right' (ν := volume.restrict (Ioo (-Real.pi) Real.pi))
  have inner : ∀ a ∈ Ioo (-1 : ℝ) 1, ENNReal.ofReal √(1 - a * a) * ∫⁻ r1, ∫⁻ r2, F (drawn (1 - a) r1 r2) ∂unit ∂unit =
      ENNReal.ofReal (1 / (4 * Real.pi)) * ∫⁻ y in Ioo (-√(1 - a * a)) √(1 - a * a), W ⟨a, y⟩ := by
    intro a ha
    have h : 0 < 1 - a * a := by nlinarith [ha.1, ha.2]
    have hρ := Real.sqrt_pos.2 h
    have hρ2 := Real.mul_self_sqrt h.le
    have e : ∀ r1, ∫⁻ r2, F (drawn (1 - a) r1 r2) ∂unit = ENNReal.ofReal (1 / (2 * Real.pi)) *
        ∫⁻ t in Ioo (-Real.pi) Real.pi, F (proj (⟨a, √(1 - a * a) * (2 * r1 - 1)⟩,
          (√|1 - a * a - √(1 - a * a) * (2 * r1 - 1) * (√(1 - a * a) * (2 * r1 - 1))| : ℂ) * circ t)) := by
      intro r1
      unfold drawn
      simp only [from_coord ha]
      exact angle_circ (M := fun t => F (proj (⟨a, √(1 - a * a) * (2 * r1 - 1)⟩,
        (√|1 - a * a - √(1 - a * a) * (2 * r1 - 1) * (√(1 - a * a) * (2 * r1 - 1))| : ℂ) * circ t))) (fun t => by
          simp only [hper t])
    simp only [e]
    rw [lintegral_const_mul' _ _ ENNReal.ofReal_ne_top, ← mul_assoc, mul_comm (ENNReal.ofReal √(1 - a * a)), mul_assoc]
    rw [line_scale hρ (fun y => ∫⁻ t in Ioo (-Real.pi) Real.pi, F (proj (⟨a, y⟩,
          (√|1 - a * a - y * y| : ℂ) * circ t))), ← mul_assoc, ← ENNReal.ofReal_mul (by positivity),
      show 1 / (2 * Real.pi) * (1 / 2) = 1 / (4 * Real.pi) by field_simp; norm_num]
    congr 1
    refine setLIntegral_congr_fun measurableSet_Ioo fun y hy => ?_
    refine lintegral_congr fun t => ?_
    have hy2 : 0 ≤ 1 - a * a - y * y := by nlinarith [hy.1, hy.2]
    rw [abs_of_nonneg hy2, show 1 - a * a - y * y = 1 - Complex.normSq ⟨a, y⟩ by rw [Complex.normSq_mk]; ring]
  rw [setLIntegral_congr_fun measurableSet_Ioo inner, lintegral_const_mul' _ _ ENNReal.ofReal_ne_top]
  congr 1
  unfold disc
  have hset : MeasurableSet {w : ℂ | Complex.normSq w < 1} := measurableSet_lt hns measurable_const
  rw [← lintegral_indicator hset, ← (Complex.volume_preserving_equiv_real_prod.symm).lintegral_comp (hW.indicator hset),
    Measure.volume_eq_prod, lintegral_prod (fun z => {w : ℂ | Complex.normSq w < 1}.indicator W
      (Complex.measurableEquivRealProd.symm z)) ((hW.indicator hset).comp
      Complex.measurableEquivRealProd.symm.measurable).aemeasurable, ← lintegral_indicator measurableSet_Ioo]
  refine lintegral_congr fun a => ?_
  have hmem : ∀ y : ℝ, Complex.measurableEquivRealProd.symm (a, y) = ⟨a, y⟩ := fun y => rfl
  simp only [hmem]
  by_cases ha : a ∈ Ioo (-1 : ℝ) 1
  · rw [indicator_of_mem ha, ← lintegral_indicator measurableSet_Ioo]
    refine lintegral_congr fun y => ?_
    have h : 0 < 1 - a * a := by nlinarith [ha.1, ha.2]
    have hiff : y ∈ Ioo (-√(1 - a * a)) √(1 - a * a) ↔ (⟨a, y⟩ : ℂ) ∈ {w : ℂ | Complex.normSq w < 1} := by
      rw [mem_Ioo, ← abs_lt, Real.lt_sqrt (abs_nonneg y), sq_abs, mem_setOf_eq, Complex.normSq_mk]
      constructor <;> intro h <;> nlinarith
    by_cases hy : y ∈ Ioo (-√(1 - a * a)) √(1 - a * a)
    · rw [indicator_of_mem hy, indicator_of_mem (hiff.1 hy)]
    · rw [indicator_of_notMem hy, indicator_of_notMem (fun h => hy (hiff.2 h))]
  · rw [indicator_of_notMem ha]
    symm
    rw [lintegral_eq_zero_iff' (by
      exact ((hW.indicator hset).comp (Complex.measurableEquivRealProd.symm.measurable.comp
        (by fun_prop : Measurable fun y : ℝ => (a, y)))).aemeasurable)]
    refine Filter.Eventually.of_forall fun y => ?_
    refine indicator_of_notMem (fun h => ha ?_) _
    rw [mem_setOf_eq, Complex.normSq_mk] at h
    constructor <;> nlinarith [mul_self_nonneg y]

/-- The invariant measure of SU(2) in the coordinates of the heat bath. -/
theorem haar_code {F : SU 2 → ℝ≥0∞} (hF : Measurable F) :
    ∫⁻ a in Ioo (-1 : ℝ) 1, ENNReal.ofReal √(1 - a * a) * ∫⁻ r1, ∫⁻ r2, F (drawn (1 - a) r1 r2) ∂unit ∂unit =
      (∫⁻ x, F x ∂haar 2) * ∫⁻ a in Ioo (-1 : ℝ) 1, ENNReal.ofReal √(1 - a * a) := by
  have h1 := code_disc (F := fun _ => 1) measurable_const
  simp only [lintegral_const, measure_univ, mul_one] at h1
  have b1 := ball_law (F := fun _ => 1) measurable_const
  have b2 := ball_law hF
  rw [ball_disc measurable_const, lintegral_const, measure_univ, one_mul, one_mul] at b1
  rw [ball_disc hF, b1] at b2
  rw [h1, code_disc hF]
  have hq : ENNReal.ofReal (1 / 4) ≠ 0 := by simp
  have key : (∫⁻ x, F x ∂haar 2) * disc (fun _ => 1) = disc F := by
    have : ENNReal.ofReal (1 / 4) * ((∫⁻ x, F x ∂haar 2) * disc fun _ => 1) = ENNReal.ofReal (1 / 4) * disc F := by
      rw [← b2]; ring
    exact (ENNReal.mul_right_inj hq ENNReal.ofReal_ne_top).1 this
  rw [← key]
  ring

end GLU.Update.Haar
