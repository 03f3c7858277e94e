import Verif.Field.Instanton
import Verif.Mat.ExpProps
import Mathlib.Analysis.SpecialFunctions.Trigonometric.ArctanDeriv
import Mathlib.Analysis.SpecialFunctions.Trigonometric.Deriv
import Mathlib.Analysis.Calculus.Deriv.MeanValue

/-!
# Lemmas about the instanton configuration
-/

namespace GLU.Field

open Complex Matrix GLU.Mat GLU.Geom

/-! ### Angles -/

theorem atan2_arctan {s : ℝ} (hs : 0 < s) (x : ℝ) : atan2 s x = Real.pi / 2 - Real.arctan (x / s) := by
  unfold atan2
  have hq : 0 < √(1 + (x / s) ^ 2) := Real.sqrt_pos.2 (by positivity)
  have h1 := Real.arctan_lt_pi_div_two (x / s)
  have h2 := Real.neg_pi_div_two_lt_arctan (x / s)
  have hr : 0 < s * √(1 + (x / s) ^ 2) := by positivity
  have hz : (⟨x, s⟩ : ℂ) = ((s * √(1 + (x / s) ^ 2) : ℝ) : ℂ) * (cos ((Real.pi / 2 - Real.arctan (x / s) : ℝ) : ℂ) +
      sin ((Real.pi / 2 - Real.arctan (x / s) : ℝ) : ℂ) * I) := by
    rw [← ofReal_cos, ← ofReal_sin, Real.cos_pi_div_two_sub, Real.sin_pi_div_two_sub, Real.sin_arctan, Real.cos_arctan]
    apply Complex.ext
    · simp
      field_simp
    · simp
      field_simp
  rw [hz, arg_mul_cos_add_sin_mul_I hr ⟨by linarith, by linarith⟩]

theorem atan2_sub {s : ℝ} (hs : 0 < s) (y : ℝ) :
    atan2 s (s ^ 2 + y ^ 2 + y) = Real.arctan ((y + 1) / s) - Real.arctan (y / s) := by
  unfold atan2
  have hq : 0 < √(1 + (y / s) ^ 2) := Real.sqrt_pos.2 (by positivity)
  have hp : 0 < √(1 + ((y + 1) / s) ^ 2) := Real.sqrt_pos.2 (by positivity)
  have h1 := Real.arctan_lt_pi_div_two ((y + 1) / s)
  have h2 := Real.neg_pi_div_two_lt_arctan (y / s)
  have h3 : Real.arctan (y / s) < Real.arctan ((y + 1) / s) :=
    Real.arctan_strictMono (by gcongr; linarith)
  have hr : 0 < s * s * √(1 + ((y + 1) / s) ^ 2) * √(1 + (y / s) ^ 2) := by positivity
  have hz : (⟨s ^ 2 + y ^ 2 + y, s⟩ : ℂ) = ((s * s * √(1 + ((y + 1) / s) ^ 2) * √(1 + (y / s) ^ 2) : ℝ) : ℂ) *
      (cos ((Real.arctan ((y + 1) / s) - Real.arctan (y / s) : ℝ) : ℂ) +
      sin ((Real.arctan ((y + 1) / s) - Real.arctan (y / s) : ℝ) : ℂ) * I) := by
    rw [← ofReal_cos, ← ofReal_sin, Real.cos_sub, Real.sin_sub]
    simp only [Real.sin_arctan, Real.cos_arctan]
    apply Complex.ext
    · simp
      field_simp
      ring
    · simp
      field_simp
      ring
  rw [hz, arg_mul_cos_add_sin_mul_I hr ⟨by linarith, by linarith⟩]

/-! ### The angle as a function of the second argument of `atan2` -/

/-- The difference of the two terms as a function of the second argument. -/
noncomputable def angle (s0 s1 x : ℝ) : ℝ := atan2 s0 x / s0 - atan2 s1 (x + 16) / s1

theorem angle_anti {s0 s1 : ℝ} (h0 : 0 < s0) (h1 : 0 < s1) (h : s1 ^ 2 = s0 ^ 2 + 16) :
    StrictAntiOn (angle s0 s1) (Set.Ici (-1)) := by
  have hf : angle s0 s1 = fun x => (Real.pi / 2 - Real.arctan (x / s0)) / s0 -
      (Real.pi / 2 - Real.arctan ((x + 16) / s1)) / s1 := by
    funext x
    unfold angle
    rw [atan2_arctan h0, atan2_arctan h1]
  have hd : ∀ x, HasDerivAt (angle s0 s1) (-(1 / (s0 ^ 2 + x ^ 2)) + 1 / (s1 ^ 2 + (x + 16) ^ 2)) x := by
    intro x
    rw [hf]
    have e0 : HasDerivAt (fun x : ℝ => Real.arctan (x / s0)) (1 / (1 + (x / s0) ^ 2) * (1 / s0)) x :=
      ((hasDerivAt_id x).div_const s0).arctan
    have e1 : HasDerivAt (fun x : ℝ => Real.arctan ((x + 16) / s1)) (1 / (1 + ((x + 16) / s1) ^ 2) * (1 / s1)) x :=
      (((hasDerivAt_id x).add_const 16).div_const s1).arctan
    refine (((e0.const_sub (Real.pi / 2)).div_const s0).sub ((e1.const_sub (Real.pi / 2)).div_const s1)).congr_deriv ?_
    field_simp
    ring
  refine strictAntiOn_of_deriv_neg (convex_Ici _) (fun x _ => (hd x).continuousAt.continuousWithinAt) fun x hx => ?_
  rw [interior_Ici] at hx
  have hx : -1 < x := hx
  rw [(hd x).deriv]
  have : 1 / (s1 ^ 2 + (x + 16) ^ 2) < 1 / (s0 ^ 2 + x ^ 2) :=
    one_div_lt_one_div_of_lt (by positivity) (by nlinarith)
  linarith

theorem angle_pos {s0 s1 : ℝ} (h0 : 0 < s0) (h1 : 0 < s1) (h : s1 ^ 2 = s0 ^ 2 + 16) {x : ℝ} (hx : -1 ≤ x) :
    0 < angle s0 s1 x := by
  have ht : ∀ s : ℝ, 0 < s → ∀ c : ℝ, Filter.Tendsto (fun x => atan2 s (x + c) / s) Filter.atTop (nhds 0) := by
    intro s hs c
    have e1 : Filter.Tendsto (fun x : ℝ => Real.arctan ((x + c) / s)) Filter.atTop (nhds (Real.pi / 2)) :=
      (tendsto_nhds_of_tendsto_nhdsWithin Real.tendsto_arctan_atTop).comp
        ((Filter.tendsto_id.atTop_add tendsto_const_nhds).atTop_div_const hs)
    have e2 := (e1.const_sub (Real.pi / 2)).div_const s
    simp only [sub_self, zero_div] at e2
    refine e2.congr fun x => ?_
    rw [atan2_arctan hs]
  have hlim : Filter.Tendsto (angle s0 s1) Filter.atTop (nhds 0) := by
    have := (ht s0 h0 0).sub (ht s1 h1 16)
    simp only [add_zero, sub_zero] at this
    exact this
  have ha := angle_anti h0 h1 h
  have hge : ∀ z, -1 ≤ z → 0 ≤ angle s0 s1 z := by
    intro z hz
    refine le_of_tendsto hlim (Filter.eventually_atTop.2 ⟨z, fun w hw => ?_⟩)
    exact ha.antitoneOn (Set.mem_Ici.2 hz) (Set.mem_Ici.2 (hz.trans hw)) hw
  exact (hge (x + 1) (by linarith)).trans_lt (ha (Set.mem_Ici.2 hx) (Set.mem_Ici.2 (by linarith)) (by linarith))

theorem atan2_range {s : ℝ} (hs : 0 < s) (x : ℝ) : 0 < atan2 s x ∧ atan2 s x < Real.pi := by
  rw [atan2_arctan hs]
  have h1 := Real.arctan_lt_pi_div_two (x / s)
  have h2 := Real.neg_pi_div_two_lt_arctan (x / s)
  constructor <;> linarith

theorem angle_lt {s0 s1 : ℝ} (h0 : 0 < s0) (h1 : 0 < s1) (x : ℝ) : s0 * angle s0 s1 x < Real.pi := by
  have e0 := (atan2_range h0 x).2
  have e1 := div_pos (atan2_range h1 (x + 16)).1 h1
  unfold angle
  rw [mul_sub, mul_div_cancel₀ _ h0.ne']
  have := mul_pos h0 e1
  linarith

/-! ### Exponentials -/

/-- The exponential of `i t X` when `X^3 = r^2 X`. -/
theorem exp_cubic {n : ℕ} {X : Matrix (Fin n) (Fin n) ℂ} (hX : X.IsHermitian) {r : ℝ} (hr : 0 < r)
    (h3 : X * X * X = ((r : ℂ) ^ 2) • X) (t : ℝ) :
    NormedSpace.exp (I • ((t : ℂ) • X)) = (1 : ℂ) • (1 : Matrix (Fin n) (Fin n) ℂ) +
      (I * (Real.sin (t * r) / r : ℝ)) • X + (((Real.cos (t * r) - 1) / r ^ 2 : ℝ) : ℂ) • (X * X) := by
  obtain ⟨V, h1, h2, hd⟩ := herm_diag hX
  set e := hX.eigenvalues with he
  have htX : (t : ℂ) • X = V * diagonal (fun i => ((t * e i : ℝ) : ℂ)) * Vᴴ := by
    conv_lhs => rw [hd]
    rw [← smul_mul_assoc, ← mul_smul_comm, ← diagonal_smul]
    congr 3
    funext i
    simp
  have hX2 : X * X = V * diagonal (fun i => (e i : ℂ) * (e i : ℂ)) * Vᴴ := by
    have := poly_diag h1 h2 hd 0 0 1
    simpa using this
  have hc : ∀ i, e i * e i * e i = r ^ 2 * e i := by
    intro i
    have e3 : Vᴴ * (X * X * X) * V = Vᴴ * (((r : ℂ) ^ 2) • X) * V := by rw [h3]
    have l1 : Vᴴ * (X * X * X) * V = diagonal (fun i => (e i : ℂ) * (e i : ℂ) * (e i : ℂ)) := by
      rw [hX2]
      conv_lhs => rw [hd]
      calc _ = (Vᴴ * V) * diagonal (fun i => (e i : ℂ) * (e i : ℂ)) * (Vᴴ * V) * diagonal (fun i => (e i : ℂ)) * (Vᴴ * V) := by
            simp only [Matrix.mul_assoc]
        _ = _ := by rw [h2]; simp [diagonal_mul_diagonal]
    have l2 : Vᴴ * (((r : ℂ) ^ 2) • X) * V = diagonal (fun i => (r : ℂ) ^ 2 * (e i : ℂ)) := by
      conv_lhs => rw [hd]
      calc _ = ((r : ℂ) ^ 2) • ((Vᴴ * V) * diagonal (fun i => (e i : ℂ)) * (Vᴴ * V)) := by
            rw [mul_smul_comm, smul_mul_assoc]
            simp only [Matrix.mul_assoc]
        _ = _ := by
            rw [h2, Matrix.one_mul, Matrix.mul_one, ← diagonal_smul]
            congr 1
    rw [l1, l2] at e3
    have := congrFun (diagonal_injective e3) i
    exact_mod_cast this
  rw [exp_diag h1 htX, poly_diag h1 h2 hd]
  congr 3
  funext i
  have hi := hc i
  have hcase : e i = 0 ∨ e i = r ∨ e i = -r := by
    by_cases h0 : e i = 0
    · exact Or.inl h0
    · right
      have : e i * e i = r ^ 2 := mul_right_cancel₀ h0 (by linarith)
      have : (e i - r) * (e i + r) = 0 := by linarith
      rcases mul_eq_zero.1 this with h | h
      · left; linarith
      · right; linarith
  have hrc : (r : ℂ) ≠ 0 := by exact_mod_cast hr.ne'
  rcases hcase with h | h | h
  · rw [h]; simp
  · rw [h, mul_comm I, exp_mul_I]
    push_cast
    field_simp
    ring
  · rw [h, mul_comm I, exp_mul_I]
    push_cast
    rw [mul_neg, Complex.cos_neg, Complex.sin_neg]
    field_simp
    ring

end GLU.Field
