import Verif.Utils.SplineProps
import Mathlib.Topology.Algebra.Order.LiminfLimsup
import Mathlib.Topology.Order.IntermediateValue
import Mathlib.Analysis.SpecialFunctions.Trigonometric.Basic
import Mathlib.Analysis.SpecialFunctions.Complex.Arg

/-!
# C73: the scale returned by the scale setting is where the measurements cross it
-/

namespace GLU.Utils

open Polynomial

/-- The cubic `a t³ + b t² + c t + d` of an interval at `t`, relative to `mu`, for complex `t`. -/
def excess (q : Piece) (mu : ℝ) (t : ℂ) : ℂ := q.a * t ^ 3 + q.b * t ^ 2 + q.c * t + (q.d - mu)

theorem cubert_cube (z : ℂ) : cubert z ^ 3 = z := by
  have h1 : ((‖z‖ ^ (1 / 3 : ℝ) : ℝ) : ℂ) ^ 3 = (‖z‖ : ℂ) := by
    rw [← Complex.ofReal_pow, ← Real.rpow_natCast, ← Real.rpow_mul (norm_nonneg z)]
    norm_num
  have h2 : ((Real.cos (Complex.arg z / 3) : ℂ) + Complex.I * Real.sin (Complex.arg z / 3)) ^ 3 =
      Complex.exp (Complex.arg z * Complex.I) := by
    rw [show ((Real.cos (Complex.arg z / 3) : ℂ) + Complex.I * Real.sin (Complex.arg z / 3)) =
      Complex.exp ((Complex.arg z / 3 : ℝ) * Complex.I) by
        rw [Complex.exp_mul_I, Complex.ofReal_cos, Complex.ofReal_sin]; ring, ← Complex.exp_nat_mul]
    congr 1
    push_cast; ring
  unfold cubert
  rw [mul_pow, h1, h2, Complex.norm_mul_exp_arg_mul_I]

theorem csqrt_sq (v : ℝ) : csqrt v ^ 2 = v := by
  unfold csqrt
  split
  · next h => rw [← Complex.ofReal_pow, Real.sq_sqrt h]
  · next h =>
    rw [mul_pow, ← Complex.ofReal_pow, Real.sq_sqrt (by linarith), Complex.I_sq]
    push_cast; ring

theorem sqrt3_sq : ((Real.sqrt 3 : ℝ) : ℂ) ^ 2 = 3 := by
  rw [← Complex.ofReal_pow, Real.sq_sqrt (by norm_num)]; norm_num

/-- The three numbers from `A` and `B` are the roots. -/
theorem cardano (a b c A B Q R t : ℂ) (hQ : Q = (a * a - 3 * b) / 9)
    (hR : R = (a * (2 * a * a - 9 * b) + 27 * c) / 54) (h1 : A * B = Q) (h2 : A ^ 3 + B ^ 3 = -2 * R) :
    t ^ 3 + a * t ^ 2 + b * t + c = (t - ((A + B) - a / 3)) *
      (t - (-0.5 * (A + B) - a / 3 - Complex.I * (Real.sqrt 3 : ℝ) * 0.5 * (A - B))) *
      (t - (-0.5 * (A + B) - a / 3 + Complex.I * (Real.sqrt 3 : ℝ) * 0.5 * (A - B))) := by
  have h3 := sqrt3_sq
  have hI := Complex.I_sq
  generalize ((Real.sqrt 3 : ℝ) : ℂ) = w at *
  generalize Complex.I = I at *
  have hw : (I * w) ^ 2 = -3 := by rw [mul_pow, h3, hI]; ring
  generalize I * w = v at *
  have e : (t - (-0.5 * (A + B) - a / 3 - v * 0.5 * (A - B))) *
      (t - (-0.5 * (A + B) - a / 3 + v * 0.5 * (A - B))) =
      (t + a / 3) ^ 2 + (A + B) * (t + a / 3) + (A ^ 2 - A * B + B ^ 2) := by
    linear_combination -(0.25 : ℂ) * (A - B) ^ 2 * hw
  rw [mul_assoc, e]
  have hb : b = (a * a - 9 * Q) / 3 := by rw [hQ]; ring
  have hc : c = (54 * R - a * (2 * a * a - 9 * b)) / 27 := by rw [hR]; ring
  rw [hc, hb, ← h1]
  have hR' : R = -(A ^ 3 + B ^ 3) / 2 := by rw [h2]; ring
  rw [hR']
  ring

/-- The three cosines are the roots. -/
theorem viete (a b c Q R t : ℝ) (hQ : Q = (a * a - 3 * b) / 9)
    (hR : R = (a * (2 * a * a - 9 * b) + 27 * c) / 54) (hlt : R * R < Q * Q * Q) :
    t ^ 3 + a * t ^ 2 + b * t + c =
      (t - (-2 * Real.sqrt Q * Real.cos (Real.arccos (R / Real.sqrt (Q * Q * Q)) / 3) - a / 3)) *
      (t - (-2 * Real.sqrt Q * Real.cos ((Real.arccos (R / Real.sqrt (Q * Q * Q)) + 2 * Real.pi) / 3) - a / 3)) *
      (t - (-2 * Real.sqrt Q * Real.cos ((Real.arccos (R / Real.sqrt (Q * Q * Q)) - 2 * Real.pi) / 3) - a / 3)) := by
  have hQ3 : 0 < Q * Q * Q := lt_of_le_of_lt (mul_self_nonneg R) hlt
  have hQ0 : 0 < Q := by
    by_contra h
    have : Q * Q * Q ≤ 0 := mul_nonpos_of_nonneg_of_nonpos (mul_self_nonneg Q) (not_lt.1 h)
    linarith
  set s := Real.sqrt Q with hs
  have hs2 : s ^ 2 = Q := Real.sq_sqrt hQ0.le
  have hs0 : 0 < s := Real.sqrt_pos.2 hQ0
  have hs3 : Real.sqrt (Q * Q * Q) = s ^ 3 := by
    rw [show Q * Q * Q = (s ^ 3) ^ 2 by rw [← hs2]; ring]
    exact Real.sqrt_sq (by positivity)
  rw [hs3]
  have hcos : Real.cos (Real.arccos (R / s ^ 3)) = R / s ^ 3 := by
    have h6 : R ^ 2 < (s ^ 3) ^ 2 := by
      calc R ^ 2 = R * R := by ring
        _ < Q * Q * Q := hlt
        _ = (s ^ 3) ^ 2 := by rw [← hs2]; ring
    have habs := abs_lt_of_sq_lt_sq h6 (by positivity)
    have h3 : 0 < s ^ 3 := by positivity
    apply Real.cos_arccos
    · rw [le_div_iff₀ h3]; linarith [(abs_lt.1 habs).1]
    · rw [div_le_iff₀ h3]; linarith [(abs_lt.1 habs).2]
  set θ := Real.arccos (R / s ^ 3)
  have h3 := Real.cos_three_mul (θ / 3)
  rw [show 3 * (θ / 3) = θ by ring, hcos] at h3
  have e1 : Real.cos ((θ + 2 * Real.pi) / 3) = -(1 / 2) * Real.cos (θ / 3) - Real.sqrt 3 / 2 * Real.sin (θ / 3) := by
    rw [show (θ + 2 * Real.pi) / 3 = Real.pi - (Real.pi / 3 - θ / 3) by ring, Real.cos_pi_sub, Real.cos_sub,
      Real.cos_pi_div_three, Real.sin_pi_div_three]; ring
  have e2 : Real.cos ((θ - 2 * Real.pi) / 3) = -(1 / 2) * Real.cos (θ / 3) + Real.sqrt 3 / 2 * Real.sin (θ / 3) := by
    rw [show (θ - 2 * Real.pi) / 3 = (θ / 3 + Real.pi / 3) - Real.pi by ring, Real.cos_sub_pi, Real.cos_add,
      Real.cos_pi_div_three, Real.sin_pi_div_three]; ring
  rw [e1, e2]
  have hp := Real.sin_sq_add_cos_sq (θ / 3)
  generalize Real.cos (θ / 3) = C at *
  generalize Real.sin (θ / 3) = S at *
  have hw : Real.sqrt 3 ^ 2 = 3 := Real.sq_sqrt (by norm_num)
  generalize Real.sqrt 3 = w at *
  have hRs : R = s ^ 3 * (4 * C ^ 3 - 3 * C) := by rw [← h3]; field_simp
  have hb : b = (a * a - 9 * Q) / 3 := by rw [hQ]; ring
  have hc : c = (54 * R - a * (2 * a * a - 9 * b)) / 27 := by rw [hR]; ring
  rw [hc, hb, hRs, ← hs2]
  have hS : S ^ 2 = 1 - C ^ 2 := by linarith
  linear_combination ((t + a / 3 + 2 * s * C) * s ^ 2 * S ^ 2) * hw + ((t + a / 3 + 2 * s * C) * 3 * s ^ 2) * hS

/-- The three numbers computed are all the roots. -/
theorem cubic_solve_roots {NC : ℕ} (hNC : 0 < NC) (q : Piece) (mu : ℝ) (ha : PREC_TOL NC ≤ |q.a|)
    (hd : PREC_TOL NC ≤ |q.d - mu|) (hne : q.b ^ 2 ≠ 3 * q.a * q.c) :
    ∃ z0 z1 z2 : ℂ, cubic_solve NC q.a q.b q.c q.d mu = (some z0, some z1, some z2) ∧
      ∀ t, excess q mu t = q.a * ((t - z0) * (t - z1) * (t - z2)) := by
  have htol : 0 < PREC_TOL NC := by unfold PREC_TOL; positivity
  have ha0 : q.a ≠ 0 := fun h => by rw [h, abs_zero] at ha; linarith
  have hac : (q.a : ℂ) ≠ 0 := by exact_mod_cast ha0
  have hnorm : ∀ t : ℂ, excess q mu t = q.a * (t ^ 3 + (q.b / q.a : ℝ) * t ^ 2 + (q.c / q.a : ℝ) * t +
      ((q.d - mu) / q.a : ℝ)) := by
    intro t; unfold excess; push_cast; field_simp
  unfold cubic_solve
  rw [if_neg (not_lt.2 ha), if_neg (not_lt.2 hd)]
  dsimp only
  set a := q.b / q.a with hae
  set b := q.c / q.a with hbe
  set c := (q.d - mu) / q.a with hce
  have hQ0 : (a * a - 3 * b) / 9 ≠ 0 := by
    rw [hae, hbe]
    intro h
    apply hne
    field_simp at h
    linarith
  set Q := (a * a - 3 * b) / 9 with hQ
  set R := (a * (2 * a * a - 9 * b) + 27 * c) / 54 with hR
  by_cases hlt : R * R < Q * Q * Q
  · rw [if_pos hlt]
    refine ⟨_, _, _, rfl, fun t => ?_⟩
    rw [hnorm t]
    congr 1
    -- both sides are polynomials that agree on the reals
    have key := fun t : ℝ => viete a b c Q R t hQ hR hlt
    set r0 := -2 * Real.sqrt Q * Real.cos (Real.arccos (R / Real.sqrt (Q * Q * Q)) / 3) - a / 3
    set r1 := -2 * Real.sqrt Q * Real.cos ((Real.arccos (R / Real.sqrt (Q * Q * Q)) + 2 * Real.pi) / 3) - a / 3
    set r2 := -2 * Real.sqrt Q * Real.cos ((Real.arccos (R / Real.sqrt (Q * Q * Q)) - 2 * Real.pi) / 3) - a / 3
    have k0 := key 0
    have k1 := key 1
    have k2 := key (-1)
    have f0 : c = -(r0 * r1 * r2) := by linarith
    have f1 : a = -(r0 + r1 + r2) := by linarith
    have f2 : b = r0 * r1 + r0 * r2 + r1 * r2 := by linarith
    have g0 : (c : ℂ) = -(r0 * r1 * r2) := by exact_mod_cast f0
    have g1 : (a : ℂ) = -(r0 + r1 + r2) := by exact_mod_cast f1
    have g2 : (b : ℂ) = r0 * r1 + r0 * r2 + r1 * r2 := by exact_mod_cast f2
    rw [g0, g1, g2]
    ring
  · rw [if_neg hlt]
    refine ⟨_, _, _, rfl, fun t => ?_⟩
    rw [hnorm t]
    congr 1
    set s := csqrt (R * R - Q * Q * Q) with hs
    have hs2 : s ^ 2 = (R : ℂ) ^ 2 - (Q : ℂ) ^ 3 := by
      rw [hs, csqrt_sq]; push_cast; ring
    set A := -cubert ((R : ℂ) + s) with hA
    have hA3 : A ^ 3 = -((R : ℂ) + s) := by rw [hA, neg_pow, cubert_cube]; ring
    have hA0 : A ≠ 0 := by
      intro h
      rw [h] at hA3
      have hz : (R : ℂ) + s = 0 := by linear_combination hA3
      have : (Q : ℂ) ^ 3 = 0 := by linear_combination ((R : ℂ) - s) * hz + hs2
      have : (Q : ℂ) = 0 := pow_eq_zero_iff (by norm_num) |>.1 this
      exact hQ0 (by exact_mod_cast this)
    rw [if_pos hA0]
    refine cardano a b c A (Q / A) Q R t (by rw [hQ]; push_cast; rfl) (by rw [hR]; push_cast; rfl)
      (by field_simp) ?_
    have hw : (R : ℂ) + s ≠ 0 := by
      intro h; rw [h, neg_zero] at hA3; exact hA0 (pow_eq_zero_iff (by norm_num) |>.1 hA3)
    rw [div_pow, hA3]
    field_simp
    linear_combination -hs2

theorem excess_real (q : Piece) (mu : ℝ) (lo s : ℝ) (hdiff : q.diff ≠ 0) :
    excess q mu (((s - lo) / q.diff : ℝ) : ℂ) = ((onInterval q lo s - mu : ℝ) : ℂ) := by
  unfold excess onInterval
  push_cast
  ring

/-- What the test of the roots returns. -/
theorem accept_spec {lo hi diff : ℝ} (hd : diff = hi - lo) (hlt : lo < hi) (z : ℂ) :
    (accept lo hi diff (some z) = some (z.re * diff + lo) ∧ 0 < z.re ∧ z.re < 1) ∨
      (accept lo hi diff (some z) = none ∧ ¬ (0 < z.re ∧ z.re < 1)) := by
  have hpos : 0 < diff := by linarith
  unfold accept
  dsimp only
  by_cases h : 0 < z.re ∧ z.re < 1
  · left
    refine ⟨if_pos ⟨?_, ?_⟩, h⟩
    · nlinarith [mul_lt_of_lt_one_left hpos h.2]
    · have := mul_pos h.1 hpos; linarith
  · right
    refine ⟨if_neg ?_, h⟩
    rintro ⟨h1, h2⟩
    apply h
    constructor
    · by_contra c
      have := mul_nonpos_of_nonpos_of_nonneg (not_lt.1 c) hpos.le
      linarith
    · by_contra c
      have := le_mul_of_one_le_left hpos.le (not_lt.1 c)
      linarith

/-- **C73.** When the values at the two ends of the interval lie on either side of the scale and the cubic of the
interval is not degenerate, and has no non-real root whose real part lies inside of the interval, a position
inside of the interval is returned at which the cubic has the value asked for. -/
theorem solve_spline_spec {NC : ℕ} (hNC : 0 < NC) (x y : ℕ → ℝ) (der : ℕ → Num) (mu : ℝ) (r : ℕ) (hr : r ≠ 0)
    (q : Piece) (hq : piece x y der r = some q) (hx : x (r - 1) < x r) (h0 : y (r - 1) < mu) (h1 : mu < y r)
    (ha : PREC_TOL NC ≤ |q.a|) (hd : PREC_TOL NC ≤ |q.d - mu|) (hne : q.b ^ 2 ≠ 3 * q.a * q.c)
    (hz : ∀ z : ℂ, excess q mu z = 0 → z.im ≠ 0 → ¬ (0 < z.re ∧ z.re < 1)) :
    ∃ s, solve_spline NC x y der mu r = some (some s) ∧ x (r - 1) < s ∧ s < x r ∧
      onInterval q (x (r - 1)) s = mu := by
  have hdiff : q.diff = x r - x (r - 1) := by
    unfold piece at hq
    cases h1 : der (r - 1) <;> cases h2 : der r <;> rw [h1, h2] at hq <;> simp at hq
    rw [← hq]
  have hdef : ∃ d0 d1, der (r - 1) = some d0 ∧ der r = some d1 := by
    unfold piece at hq
    cases h1 : der (r - 1) <;> cases h2 : der r <;> rw [h1, h2] at hq <;> simp at hq
    exact ⟨_, _, rfl, rfl⟩
  obtain ⟨d0, d1, e0, e1⟩ := hdef
  have hpos : 0 < q.diff := by linarith
  obtain ⟨q', hq', b0, b1, -, -⟩ := C53_hermite x y der r d0 d1 e0 e1 hx.ne
  obtain rfl : q = q' := by rw [hq] at hq'; exact Option.some.inj hq'
  obtain ⟨z0, z1, z2, hZ, hfac⟩ := cubic_solve_roots hNC q mu ha hd hne
  -- a real root inside of the interval
  have hcont : Continuous (onInterval q (x (r - 1))) :=
    continuous_iff_continuousAt.2 fun s => (onInterval_deriv q (x (r - 1)) s).continuousAt
  obtain ⟨s, ⟨hs0, hs1⟩, hs⟩ := intermediate_value_Ioo hx.le hcont.continuousOn
    (show mu ∈ Set.Ioo _ _ by rw [b0, b1]; exact ⟨h0, h1⟩)
  have hroot : excess q mu (((s - x (r - 1)) / q.diff : ℝ) : ℂ) = 0 := by
    rw [excess_real q mu _ s hpos.ne', hs, sub_self]; rfl
  have hac : (q.a : ℂ) ≠ 0 := by
    intro h
    have h' : q.a = 0 := by exact_mod_cast h
    rw [h', abs_zero] at ha
    have : 0 < PREC_TOL NC := by unfold PREC_TOL; positivity
    linarith
  set τ := (s - x (r - 1)) / q.diff with hτ
  have ht0 : 0 < τ := div_pos (by linarith) hpos
  have ht1 : τ < 1 := by rw [hτ, div_lt_one hpos]; linarith
  have hone : (τ : ℂ) = z0 ∨ (τ : ℂ) = z1 ∨ (τ : ℂ) = z2 := by
    rw [hfac] at hroot
    rcases mul_eq_zero.1 hroot with h | h
    · exact absurd h hac
    rcases mul_eq_zero.1 h with h | h
    · rcases mul_eq_zero.1 h with h | h
      · exact Or.inl (sub_eq_zero.1 h)
      · exact Or.inr (Or.inl (sub_eq_zero.1 h))
    · exact Or.inr (Or.inr (sub_eq_zero.1 h))
  -- an accepted number is a root
  have good : ∀ z : ℂ, excess q mu z = 0 → 0 < z.re → z.re < 1 →
      x (r - 1) < z.re * q.diff + x (r - 1) ∧ z.re * q.diff + x (r - 1) < x r ∧
      onInterval q (x (r - 1)) (z.re * q.diff + x (r - 1)) = mu := by
    intro z hzr p0 p1
    have him : z.im = 0 := by
      by_contra h
      exact hz z hzr h ⟨p0, p1⟩
    refine ⟨by have := mul_pos p0 hpos; linarith, by nlinarith [mul_lt_of_lt_one_left hpos p1], ?_⟩
    have e : (((z.re * q.diff + x (r - 1) - x (r - 1)) / q.diff : ℝ) : ℂ) = z := by
      rw [add_sub_cancel_right, mul_div_assoc, div_self hpos.ne', mul_one]
      apply Complex.ext <;> simp [him]
    have := excess_real q mu (x (r - 1)) (z.re * q.diff + x (r - 1)) hpos.ne'
    rw [e, hzr] at this
    have t : onInterval q (x (r - 1)) (z.re * q.diff + x (r - 1)) - mu = 0 := by exact_mod_cast this.symm
    linarith
  have r0 : excess q mu z0 = 0 := by rw [hfac]; ring
  have r1 : excess q mu z1 = 0 := by rw [hfac]; ring
  have r2 : excess q mu z2 = 0 := by rw [hfac]; ring
  have hval : solve_spline NC x y der mu r = some ((accept (x (r - 1)) (x r) q.diff (some z0)).or
      ((accept (x (r - 1)) (x r) q.diff (some z1)).or (accept (x (r - 1)) (x r) q.diff (some z2)))) := by
    unfold solve_spline
    rw [if_neg hr, hq]
    simp only [Option.bind_eq_bind, Option.bind_some, Option.pure_def, hZ]
  rw [hval]
  rcases accept_spec hdiff hx z0 with ⟨e, p0, p1⟩ | ⟨e, n0⟩
  · rw [e]; exact ⟨_, rfl, good z0 r0 p0 p1⟩
  rw [e]
  rcases accept_spec hdiff hx z1 with ⟨e, p0, p1⟩ | ⟨e, n1⟩
  · rw [e]; exact ⟨_, rfl, good z1 r1 p0 p1⟩
  rw [e]
  rcases accept_spec hdiff hx z2 with ⟨e, p0, p1⟩ | ⟨e, n2⟩
  · rw [e]; exact ⟨_, rfl, good z2 r2 p0 p1⟩
  exfalso
  rcases hone with h | h | h
  · exact n0 (by rw [← h]; simpa using ⟨ht0, ht1⟩)
  · exact n1 (by rw [← h]; simpa using ⟨ht0, ht1⟩)
  · exact n2 (by rw [← h]; simpa using ⟨ht0, ht1⟩)

theorem quot_isSome (n n' d : ℝ) : (quot n d).isSome = (quot n' d).isSome := by
  unfold quot; split <;> rfl

theorem rule3_isSome (num num' den a b c s₁ s₂ s₃ y y' : ℝ) :
    (rule3 num den a b c s₁ s₂ s₃ y).isSome = (rule3 num' den a b c s₁ s₂ s₃ y').isSome := by
  have h := quot_isSome num num' den
  unfold rule3
  cases h1 : quot num den <;> cases h2 : quot num' den <;> rw [h1, h2] at h <;> simp at h <;> try rfl
  cases quot s₁ a <;> cases quot s₂ b <;> cases quot s₃ c <;> rfl

theorem rule4_isSome (num num' den a b c d s₁ s₂ s₃ s₄ y y' : ℝ) :
    (rule4 num den a b c d s₁ s₂ s₃ s₄ y).isSome = (rule4 num' den a b c d s₁ s₂ s₃ s₄ y').isSome := by
  have h := quot_isSome num num' den
  unfold rule4
  cases h1 : quot num den <;> cases h2 : quot num' den <;> rw [h1, h2] at h <;> simp at h <;> try rfl
  cases quot s₁ a <;> cases quot s₂ b <;> cases quot s₃ c <;> cases quot s₄ d <;> rfl

theorem update_isSome {d d' : ℕ → Num} (h : ∀ j, (d j).isSome = (d' j).isSome) (i : ℕ) {v v' : Num}
    (hv : v.isSome = v'.isSome) (j : ℕ) :
    (Function.update d i v j).isSome = (Function.update d' i v' j).isSome := by
  by_cases e : j = i
  · subst e; rw [Function.update_self, Function.update_self]; exact hv
  · rw [Function.update_of_ne e, Function.update_of_ne e]; exact h j

theorem loop_isSome {d d' : ℕ → Num} (h : ∀ j, (d j).isSome = (d' j).isSome) {lo hi : ℕ} (hle : lo ≤ hi)
    {f f' : ℕ → Num} (hf : ∀ j, (f j).isSome = (f' j).isSome) (j : ℕ) :
    (GLU.Mat.forFrom lo hi (fun i der => Function.update der i (f i)) d j).isSome =
      (GLU.Mat.forFrom lo hi (fun i der => Function.update der i (f' i)) d' j).isSome := by
  rw [loop_update f d hle, loop_update f' d' hle]
  split
  · exact hf j
  · exact h j

/-- Whether a derivative is usable depends on the grid only. -/
theorem spline_derivative_isSome (der : ℕ → Num) (x y y' : ℕ → ℝ) (N j : ℕ) (hN : 3 ≤ N) :
    (spline_derivative der x y N j).isSome = (spline_derivative der x y' N j).isSome := by
  unfold spline_derivative
  by_cases h5 : N < 5
  · rw [if_pos h5, if_pos h5]
    by_cases h3 : N = 3
    · rw [if_pos h3, if_pos h3]
      exact update_isSome (loop_isSome (update_isSome (fun _ => rfl) _ (quot_isSome _ _ _)) (by omega)
        (fun _ => quot_isSome _ _ _)) _ (quot_isSome _ _ _) j
    · rw [if_neg h3, if_neg h3]
      by_cases h4 : N = 4
      · rw [if_pos h4, if_pos h4]
        exact update_isSome (update_isSome (loop_isSome (update_isSome (fun _ => rfl) _
          (rule3_isSome _ _ _ _ _ _ _ _ _ _ _)) (by omega) (fun _ => rule3_isSome _ _ _ _ _ _ _ _ _ _ _)) _
          (rule3_isSome _ _ _ _ _ _ _ _ _ _ _)) _ (rule3_isSome _ _ _ _ _ _ _ _ _ _ _) j
      · rw [if_neg h4, if_neg h4]
  · rw [if_neg h5, if_neg h5]
    exact update_isSome (update_isSome (loop_isSome (update_isSome (update_isSome (fun _ => rfl) _
      (rule4_isSome _ _ _ _ _ _ _ _ _ _ _ _ _)) _ (rule4_isSome _ _ _ _ _ _ _ _ _ _ _ _ _)) (by omega)
      (fun _ => rule4_isSome _ _ _ _ _ _ _ _ _ _ _ _ _)) _ (rule4_isSome _ _ _ _ _ _ _ _ _ _ _ _ _)) _
      (rule4_isSome _ _ _ _ _ _ _ _ _ _ _ _ _) j

theorem spline_derivative_defined (der : ℕ → Num) (x y : ℕ → ℝ) (N j : ℕ) (hN : 3 ≤ N) (hx : Distinct x N)
    (hj : j < N) : ∃ v, spline_derivative der x y N j = some v := by
  rw [← Option.isSome_iff_exists, spline_derivative_isSome der x y (fun i => (0 : ℝ[X]).eval (x i)) N j hN,
    C53_derivative der x N hN hx 0 (by simp) j hj]
  rfl

/-- `i` is where the measurements cross the scale from below. -/
def Crossing (meas : ℕ → ℝ) (scale : ℝ) (i : ℕ) : Prop := 0 < i ∧ meas (i - 1) < scale ∧ scale < meas i

/-- The last crossing is found. -/
theorem change_up_spec (meas : ℕ → ℝ) (scale : ℝ) (N : ℕ) :
    (change_up meas scale N = 0 ∧ ∀ i < N, ¬ Crossing meas scale i) ∨
    (Crossing meas scale (change_up meas scale N) ∧ change_up meas scale N < N ∧
      ∀ i < N, Crossing meas scale i → i ≤ change_up meas scale N) := by
  unfold change_up
  induction N with
  | zero => left; exact ⟨rfl, fun i hi => absurd hi (by omega)⟩
  | succ n ih =>
    rw [forN]
    by_cases h : n > 0 ∧ meas n > scale ∧ meas (n - 1) < scale
    · right
      rw [if_pos h]
      exact ⟨⟨h.1, h.2.2, h.2.1⟩, by omega, fun i hi _ => by omega⟩
    · rw [if_neg h]
      have hn : ¬ Crossing meas scale n := fun c => h ⟨c.1, c.2.2, c.2.1⟩
      rcases ih with ⟨h1, h2⟩ | ⟨h1, h2, h3⟩
      · left
        refine ⟨h1, fun i hi => ?_⟩
        by_cases e : i = n
        · exact e ▸ hn
        · exact h2 i (by omega)
      · right
        refine ⟨h1, by omega, fun i hi hc => ?_⟩
        by_cases e : i = n
        · exact absurd (e ▸ hc) hn
        · exact h3 i (by omega) hc

/-- **C73.** Whatever the measurements (three or more at increasing times), if they cross the scale somewhere, and
the cubic through the last crossing is not degenerate and has no non-real root with its real part inside of the
interval, the time returned lies in the interval of the last crossing and is where the cubic that takes the
measured values and the computed slopes at both ends has the value of the scale. -/
theorem C73_scale_partial {NC : ℕ} (hNC : 0 < NC) (x meas : ℕ → ℝ) (N : ℕ) (hN : 3 ≤ N) (hx : Increasing x N)
    (scale : ℝ) (der : ℕ → Num) (hc : ∃ i < N, Crossing meas scale i) :
    ∃ (r : ℕ) (q : Piece), r < N ∧ Crossing meas scale r ∧ (∀ i < N, Crossing meas scale i → i ≤ r) ∧
      piece x meas (spline_derivative der x meas N) r = some q ∧
      (PREC_TOL NC ≤ |q.a| → PREC_TOL NC ≤ |q.d - scale| → q.b ^ 2 ≠ 3 * q.a * q.c →
        (∀ z : ℂ, excess q scale z = 0 → z.im ≠ 0 → ¬ (0 < z.re ∧ z.re < 1)) →
        ∃ s, (evaluate_scale NC der x meas N scale).1 = some (some s) ∧ x (r - 1) < s ∧ s < x r ∧
          onInterval q (x (r - 1)) s = scale) := by
  rcases change_up_spec meas scale N with ⟨-, h⟩ | ⟨h1, h2, h3⟩
  · obtain ⟨i, hi, hc⟩ := hc; exact absurd hc (h i hi)
  set r := change_up meas scale N with hr
  obtain ⟨d0, e0⟩ := spline_derivative_defined der x meas N (r - 1) hN hx.distinct (by omega)
  obtain ⟨d1, e1⟩ := spline_derivative_defined der x meas N r hN hx.distinct h2
  have hlt : x (r - 1) < x r := hx _ _ (by have := h1.1; omega) h2
  obtain ⟨q, hq, -⟩ := C53_hermite x meas _ r d0 d1 e0 e1 hlt.ne
  refine ⟨r, q, h2, h1, h3, hq, fun p1 p2 p3 p4 => ?_⟩
  have := solve_spline_spec hNC x meas (spline_derivative der x meas N) scale r
    (by have := h1.1; omega) q hq hlt h1.2.1 h1.2.2 p1 p2 p3 p4
  unfold evaluate_scale
  rw [if_neg (by omega)]
  exact this

/-- **C73.** Without a crossing the failure is reported. -/
theorem C73_no_crossing {NC : ℕ} (x meas : ℕ → ℝ) (N : ℕ) (scale : ℝ) (der : ℕ → Num)
    (hc : ∀ i < N, ¬ Crossing meas scale i) : (evaluate_scale NC der x meas N scale).1 = some none := by
  rcases change_up_spec meas scale N with ⟨h, -⟩ | ⟨h1, h2, -⟩
  · unfold evaluate_scale
    dsimp only
    rw [h]
    rfl
  · exact absurd h1 (hc _ h2)

/-- The grid of the whole numbers. -/
def whole (i : ℕ) : ℝ := i

theorem whole_increasing (N : ℕ) : Increasing whole N := fun i j h _ => by
  unfold whole; exact_mod_cast h

/-- For a cubic polynomial on the whole numbers, the coefficients of the first interval are those of the
polynomial. -/
theorem whole_piece (der : ℕ → Num) (N : ℕ) (hN : 5 ≤ N) (p1 p2 p3 : ℝ) (p : ℝ[X])
    (hp : p = C p1 * X + C p2 * X ^ 2 + C p3 * X ^ 3) :
    piece whole (fun i => p.eval (whole i)) (spline_derivative der whole (fun i => p.eval (whole i)) N) 1 =
      some ⟨p3, p2, p1, 0, 1⟩ := by
  have hdeg : p.natDegree ≤ 3 := by
    rw [hp]; compute_degree
  unfold piece
  rw [C53_derivative der whole N (by omega) (whole_increasing N).distinct p (by omega) (1 - 1) (by omega),
    C53_derivative der whole N (by omega) (whole_increasing N).distinct p (by omega) 1 (by omega)]
  simp only [Option.bind_eq_bind, Option.bind_some, Option.pure_def]
  congr 1
  rw [hp]
  simp [whole, derivative_pow]
  norm_num
  constructor <;> ring

/-- **C73.** A cubic whose quadratic coefficient vanishes relative to its inflection is not inverted: the data
`t³` at the times 0, 1, 2, 3, 4 cross 1/8 at the time 1/2, and that is also where the interpolation has this
value, but the failure "not bracketed" is reported. -/
theorem C73_inflection_fails (der : ℕ → Num) : Crossing (fun i => whole i ^ 3) (1 / 8) 1 ∧
    (evaluate_scale 3 der whole (fun i => whole i ^ 3) 5 (1 / 8)).1 = some none := by
  have hcross : Crossing (fun i => whole i ^ 3) (1 / 8) 1 := by
    refine ⟨by norm_num, ?_, ?_⟩ <;> norm_num [whole]
  refine ⟨hcross, ?_⟩
  have hup : change_up (fun i => whole i ^ 3) (1 / 8) 5 = 1 := by
    simp only [change_up, forN, whole]
    norm_num
  have hy : (fun i => whole i ^ 3) = fun i => (X ^ 3 : ℝ[X]).eval (whole i) := by
    funext i; simp
  have hp := whole_piece der 5 le_rfl 0 0 1 (X ^ 3) (by simp)
  rw [← hy] at hp
  unfold evaluate_scale
  dsimp only
  rw [if_neg (by norm_num), hup]
  unfold solve_spline
  rw [if_neg (by norm_num), hp]
  simp only [Option.bind_eq_bind, Option.bind_some, Option.pure_def]
  have hs : csqrt (-(1 / 16) * -(1 / 16) - 0 * 0 * 0) = 1 / 16 := by
    unfold csqrt
    rw [if_pos (by norm_num), show (-(1 / 16) * -(1 / 16) - 0 * 0 * 0 : ℝ) = (1 / 16) ^ 2 by norm_num,
      Real.sqrt_sq (by norm_num)]
    push_cast; rfl
  have hZ : cubic_solve 3 1 0 0 0 (1 / 8) = (some 0, some 0, some 0) := by
    unfold cubic_solve
    rw [if_neg (by norm_num [PREC_TOL]), if_neg (by norm_num [PREC_TOL])]
    dsimp only
    have e1 : ((0 : ℝ) / 1 * (0 / 1) - 3 * (0 / 1)) / 9 = 0 := by norm_num
    have e2 : ((0 : ℝ) / 1 * (2 * (0 / 1) * (0 / 1) - 9 * (0 / 1)) + 27 * ((0 - 1 / 8) / 1)) / 54 = -(1 / 16) := by
      norm_num
    rw [e1, e2, if_neg (by norm_num), hs]
    have hc : cubert (((-(1 / 16) : ℝ) : ℂ) + 1 / 16) = 0 := by
      rw [show (((-(1 / 16) : ℝ) : ℂ) + 1 / 16) = 0 by push_cast; ring]
      unfold cubert
      rw [norm_zero, Real.zero_rpow (by norm_num)]
      simp
    rw [hc]
    simp
  rw [hZ]
  have : ∀ hi, accept (whole (1 - 1)) hi 1 (some 0) = none := by
    intro hi
    unfold accept
    dsimp only
    rw [if_neg]
    simp
  rw [this]
  rfl

/-- The measurements of the second counterexample. -/
noncomputable def bend (t : ℝ) : ℝ := t ^ 3 - 3 / 2 * t ^ 2 + 73 / 108 * t

/-- **C73.** A scale may be returned at which neither the data nor the interpolation has the value: the data below
at the times 0, 1, 2, 3, 4 cross 65/648 between 0 and 1, at the time 5/6, but 1/3 is returned (the real part of a
complex root), where the value is 62/648. -/
theorem C73_complex_root_fails (der : ℕ → Num) :
    Crossing (fun i => bend (whole i)) (65 / 648) 1 ∧ bend (5 / 6) = 65 / 648 ∧
    (evaluate_scale 3 der whole (fun i => bend (whole i)) 5 (65 / 648)).1 = some (some (1 / 3)) ∧
    bend (1 / 3) = 62 / 648 := by
  refine ⟨?_, by norm_num [bend], ?_, by norm_num [bend]⟩
  · refine ⟨by norm_num, ?_, ?_⟩ <;> norm_num [whole, bend]
  have hup : change_up (fun i => bend (whole i)) (65 / 648) 5 = 1 := by
    simp only [change_up, forN, whole, bend]
    norm_num
  set p : ℝ[X] := C (73 / 108) * X + C (-3 / 2) * X ^ 2 + C 1 * X ^ 3 with hpd
  have hy : (fun i => bend (whole i)) = fun i => p.eval (whole i) := by
    funext i; simp [bend, hpd]; ring
  have hp := whole_piece der 5 le_rfl (73 / 108) (-3 / 2) 1 p hpd
  rw [← hy] at hp
  unfold evaluate_scale
  dsimp only
  rw [if_neg (by norm_num), hup]
  unfold solve_spline
  rw [if_neg (by norm_num), hp]
  simp only [Option.bind_eq_bind, Option.bind_some, Option.pure_def]
  have hs : csqrt (-(1 / 162) * -(1 / 162) - 2 / 81 * (2 / 81) * (2 / 81)) = 7 / 1458 := by
    unfold csqrt
    rw [if_pos (by norm_num), show (-(1 / 162) * -(1 / 162) - 2 / 81 * (2 / 81) * (2 / 81) : ℝ) = (7 / 1458) ^ 2
      by norm_num, Real.sqrt_sq (by norm_num)]
    push_cast; rfl
  have hcube : cubert (((-(1 / 162) : ℝ) : ℂ) + 7 / 1458) = 1 / 9 * (1 / 2 + Complex.I * (Real.sqrt 3 / 2 : ℝ)) := by
    rw [show (((-(1 / 162) : ℝ) : ℂ) + 7 / 1458) = ((-((1 / 9) ^ 3) : ℝ) : ℂ) by push_cast; norm_num]
    unfold cubert
    rw [Complex.arg_ofReal_of_neg (by norm_num), Real.cos_pi_div_three, Real.sin_pi_div_three,
      Complex.norm_real, norm_neg, Real.norm_of_nonneg (by norm_num), ← Real.rpow_natCast, ← Real.rpow_mul (by norm_num)]
    norm_num
  have hZ : ∃ z1 z2 z0, cubic_solve 3 1 (-3 / 2) (73 / 108) 0 (65 / 648) = (some z0, some z1, some z2) ∧
      z0.re = 1 / 3 := by
    unfold cubic_solve
    rw [if_neg (by norm_num [PREC_TOL]), if_neg (by norm_num [PREC_TOL])]
    dsimp only
    have e1 : ((-3 / 2 : ℝ) / 1 * (-3 / 2 / 1) - 3 * (73 / 108 / 1)) / 9 = 2 / 81 := by norm_num
    have e2 : ((-3 / 2 : ℝ) / 1 * (2 * (-3 / 2 / 1) * (-3 / 2 / 1) - 9 * (73 / 108 / 1)) +
        27 * ((0 - 65 / 648) / 1)) / 54 = -(1 / 162) := by norm_num
    rw [e1, e2, if_neg (by norm_num), hs, hcube]
    set A : ℂ := -(1 / 9 * (1 / 2 + Complex.I * (Real.sqrt 3 / 2 : ℝ))) with hA
    have hAB : A * (2 / 9 * -(1 / 2 - Complex.I * (Real.sqrt 3 / 2 : ℝ))) = ((2 / 81 : ℝ) : ℂ) := by
      rw [hA]
      push_cast
      linear_combination (-(1 / 162 : ℂ) * (Real.sqrt 3 : ℝ) ^ 2) * Complex.I_sq + (1 / 162 : ℂ) * sqrt3_sq
    have hA0 : A ≠ 0 := by
      intro h; rw [h, zero_mul] at hAB
      have : (2 / 81 : ℝ) = 0 := by exact_mod_cast hAB.symm
      norm_num at this
    have hB : ((2 / 81 : ℝ) : ℂ) / A = 2 / 9 * -(1 / 2 - Complex.I * (Real.sqrt 3 / 2 : ℝ)) := by
      rw [div_eq_iff hA0, mul_comm, hAB]
    rw [if_pos hA0, hB]
    refine ⟨_, _, _, rfl, ?_⟩
    rw [hA]
    simp
    norm_num
  obtain ⟨z1, z2, z0, hZ, hre⟩ := hZ
  rw [hZ]
  have : accept (whole (1 - 1)) (whole 1) 1 (some z0) = some (1 / 3) := by
    unfold accept
    dsimp only
    rw [hre, if_pos (by norm_num [whole])]
    norm_num [whole]
  rw [this]
  rfl

/-- **C73.** A measurement that equals the scale exactly hides the crossing. -/
theorem C73_equal_fails (der : ℕ → Num) :
    (evaluate_scale 3 der whole whole 5 2).1 = some none := by
  apply C73_no_crossing
  rintro i hi ⟨h0, h1, h2⟩
  unfold whole at h1 h2
  have a1 : i - 1 < 2 := by exact_mod_cast h1
  have a2 : 2 < i := by exact_mod_cast h2
  omega

/-- **C73.** The scale setting does not use the last measurement: a crossing in the last interval is reported as
not bracketed, whatever the other measurements. -/
theorem C73_last_fails (NC : ℕ) (time GT : ℕ → ℝ) (count : ℕ) (T_0 : ℝ)
    (hc : ∀ i < count, ¬ Crossing GT T_0 i) : scaleset_t0 NC time GT count T_0 = some none := by
  unfold scaleset_t0
  split
  · exact C73_no_crossing time GT count T_0 _ hc
  · rfl

/-- Five measurements that cross in the last interval. -/
example : Crossing whole 3.5 4 ∧ scaleset_t0 3 whole whole 4 3.5 = some none := by
  refine ⟨⟨by norm_num, by norm_num [whole], by norm_num [whole]⟩, C73_last_fails 3 _ _ 4 _ ?_⟩
  rintro i hi ⟨h0, h1, h2⟩
  unfold whole at h2
  have : (3 : ℝ) < i := by linarith
  have : 3 < i := by exact_mod_cast this
  omega

/-- **C73.** With two usable measurements a crossing is solved with slopes that were never computed. -/
theorem C73_two_fails (NC : ℕ) (time GT : ℕ → ℝ) (T_0 : ℝ) (h : Crossing GT T_0 1) :
    scaleset_t0 NC time GT 2 T_0 = none := by
  unfold scaleset_t0 evaluate_scale
  rw [if_pos (by norm_num)]
  dsimp only
  rw [if_neg (by norm_num), C53_too_few _ _ _ 2 (by norm_num)]
  have : change_up GT T_0 2 = 1 := by
    simp only [change_up, forN]
    rw [if_pos ⟨by norm_num, h.2.2, h.2.1⟩]
  rw [this]
  rfl

example : Crossing whole 0.5 1 := ⟨by norm_num, by norm_num [whole], by norm_num [whole]⟩

/-- The data `t³ + t` at the times 0, 1, 2, 3, 4 and the scale 5/8 meet all hypotheses of `C73_scale_partial`. -/
example (der : ℕ → Num) : Increasing whole 5 ∧ Crossing (fun i => whole i + whole i ^ 3) (5 / 8) 1 ∧
    piece whole (fun i => whole i + whole i ^ 3)
      (spline_derivative der whole (fun i => whole i + whole i ^ 3) 5) 1 = some ⟨1, 0, 1, 0, 1⟩ ∧
    PREC_TOL 3 ≤ |(1 : ℝ)| ∧ PREC_TOL 3 ≤ |(0 - 5 / 8 : ℝ)| ∧ (0 : ℝ) ^ 2 ≠ 3 * 1 * 1 ∧
    ∀ z : ℂ, excess ⟨1, 0, 1, 0, 1⟩ (5 / 8) z = 0 → z.im ≠ 0 → ¬ (0 < z.re ∧ z.re < 1) := by
  refine ⟨whole_increasing 5, ⟨by norm_num, by norm_num [whole], by norm_num [whole]⟩, ?_, ?_, ?_, by norm_num, ?_⟩
  · have := whole_piece der 5 le_rfl 1 0 1 (X + X ^ 3) (by simp)
    simpa using this
  · norm_num [PREC_TOL]
  · rw [abs_of_neg (by norm_num)]; norm_num [PREC_TOL]
  · intro z hz him h
    have e : (z - 1 / 2) * (z ^ 2 + z / 2 + 5 / 4) = 0 := by
      unfold excess at hz
      push_cast at hz
      linear_combination hz
    rcases mul_eq_zero.1 e with e | e
    · rw [sub_eq_zero.1 e] at him
      norm_num at him
    · have := congrArg Complex.im e
      simp [pow_two] at this
      have : z.im * (2 * z.re + 1 / 2) = 0 := by linarith
      rcases mul_eq_zero.1 this with e | e
      · exact him e
      · linarith [h.1]

end GLU.Utils
