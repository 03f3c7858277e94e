import Verif.Smear.FlowProps
import Mathlib.Analysis.Real.Pi.Bounds

/-!
# C68: fields on which the hypotheses of the theorems hold and the force is not zero

Two colours, two dimensions: the links of the first direction are `exp( i θ σ3 )`, those of the second
`i σ1`. The force is `-2 sin( 2 θ ) σ3` on the first, zero on the second, and smearing moves `θ`.
-/

namespace GLU.Smear

open GLU.Geom GLU.Sched GLU.Mat GLU.Field Complex Matrix

/-- `c σ3`. -/
noncomputable def sig3 (c : ℝ) : Matrix (Fin 2) (Fin 2) ℂ := diagonal ![(c : ℂ), -(c : ℂ)]

/-- The field with angle `θ`. -/
noncomputable def twist (θ : ℝ) : MField 2 := fun _ mu =>
  if mu = 0 then diagonal ![Complex.exp (θ * I), Complex.exp (-(θ * I))] else !![0, I; I, 0]

/-- The same field as the code stores it. -/
noncomputable def twistArr (θ : ℝ) : Gauge := fun l =>
  if l.2 = 0 then arr [Complex.exp (θ * I), 0, 0, Complex.exp (-(θ * I))] else arr [0, I, I, 0]

theorem mfield_twist (θ : ℝ) : mfield 2 (twistArr θ) = twist θ := by
  funext i mu
  unfold mfield twistArr twist
  dsimp only
  split_ifs
  · ext i j; fin_cases i <;> fin_cases j <;> simp [arr]
  · ext i j; fin_cases i <;> fin_cases j <;> simp [arr]

theorem conj_exp_I (θ : ℝ) : star (Complex.exp (θ * I)) = Complex.exp (-(θ * I)) := by
  rw [Complex.star_def, ← Complex.exp_conj]; simp

theorem conj_exp_neg_I (θ : ℝ) : star (Complex.exp (-(θ * I))) = Complex.exp (θ * I) := by
  rw [Complex.star_def, ← Complex.exp_conj]; simp

theorem su_twist (θ : ℝ) (L : Latt) : SUField 2 L (twistArr θ) := by
  intro i _ mu _
  unfold IsSU
  have h := congrFun (congrFun (mfield_twist θ) i) mu
  unfold mfield at h
  rw [h, mem_specialUnitaryGroup_iff, mem_unitaryGroup_iff]
  unfold twist
  split_ifs
  · constructor
    · ext i j
      fin_cases i <;> fin_cases j <;>
        simp [Matrix.mul_apply, Fin.sum_univ_two, star_apply, diagonal, ← Complex.exp_conj, ← Complex.exp_add]
    · simp [det_fin_two, ← Complex.exp_add]
  · constructor
    · ext i j
      fin_cases i <;> fin_cases j <;> simp [Matrix.mul_apply, Fin.sum_univ_two, star_apply]
    · simp [det_fin_two]

theorem diag2 (a b : ℂ) : diagonal ![a, b] = !![a, 0; 0, b] := by
  ext i j
  fin_cases i <;> fin_cases j <;> simp [diagonal]

theorem herm2_of (a b c d : ℂ) : (!![a, b; c, d])ᴴ = !![star a, star c; star b, star d] := by
  ext i j
  fin_cases i <;> fin_cases j <;> simp

theorem twist_staple0 {z w : ℂ} (hz : star z = w) (hw : star w = z) :
    (!![0, I; I, 0] * diagonal ![z, w] * !![0, I; I, 0]ᴴ + !![0, I; I, 0]ᴴ * diagonal ![z, w] * !![0, I; I, 0]) *
      (diagonal ![z, w])ᴴ = diagonal ![2 * (w * w), 2 * (z * z)] := by
  have hI : star I = -I := by simp
  simp only [diag2, herm2_of, hz, hw, hI, star_zero, Matrix.mul_fin_two]
  ext i j
  fin_cases i <;> fin_cases j <;> simp
  · linear_combination (-2 * w * w) * I_mul_I
  · linear_combination (-2 * z * z) * I_mul_I

theorem twist_staple1 {z w : ℂ} (hz : star z = w) (hw : star w = z) :
    (diagonal ![z, w] * !![0, I; I, 0] * (diagonal ![z, w])ᴴ + (diagonal ![z, w])ᴴ * !![0, I; I, 0] * diagonal ![z, w]) *
      !![0, I; I, 0]ᴴ = diagonal ![z * z + w * w, z * z + w * w] := by
  have hI : star I = -I := by simp
  simp only [diag2, herm2_of, hz, hw, hI, star_zero, Matrix.mul_fin_two]
  ext i j
  fin_cases i <;> fin_cases j <;> simp
  · linear_combination (-z * z - w * w) * I_mul_I
  · linear_combination (-z * z - w * w) * I_mul_I

theorem force_twist (θ : ℝ) {L : Latt} (hd : L.ND = 2) (i : ℕ) {mu : ℕ} (hmu : mu < 2) :
    force L L.ND (twist θ) i mu = if mu = 0 then sig3 (-2 * Real.sin (2 * θ)) else 0 := by
  have hs : ((Real.sin (2 * θ) : ℝ) : ℂ) = (Complex.exp (-(θ * I)) * Complex.exp (-(θ * I)) -
      Complex.exp (θ * I) * Complex.exp (θ * I)) * I / 2 := by
    rw [Complex.ofReal_sin, Complex.sin, ← Complex.exp_add, ← Complex.exp_add]
    push_cast
    ring_nf
  have hz := conj_exp_I θ
  have hw := conj_exp_neg_I θ
  rw [hd]
  unfold force
  have h01 : mu = 0 ∨ mu = 1 := by omega
  rcases h01 with rfl | rfl
  · rw [if_pos rfl]
    have he : (Finset.range 2).erase 0 = {1} := by decide
    have h : stapleM L 2 (twist θ) i 0 * (twist θ i 0)ᴴ = diagonal ![2 * (Complex.exp (-(θ * I)) *
        Complex.exp (-(θ * I))), 2 * (Complex.exp (θ * I) * Complex.exp (θ * I))] := by
      unfold stapleM
      rw [he, Finset.sum_singleton]
      unfold twist
      simp only [if_pos, if_neg (one_ne_zero), ite_true]
      exact twist_staple0 hz hw
    rw [h]
    unfold lieHerm sig3
    rw [Complex.ofReal_mul, hs]
    generalize Complex.exp (θ * I) = z at *
    generalize Complex.exp (-(θ * I)) = w at *
    rw [Complex.star_def] at hz hw
    have h2 : (starRingEnd ℂ) 2 = 2 := Complex.conj_ofReal 2
    ext i j
    fin_cases i <;> fin_cases j <;>
      simp [diagonal, hz, hw, h2, Matrix.trace, Fin.sum_univ_two] <;> ring
  · rw [if_neg one_ne_zero]
    have he : (Finset.range 2).erase 1 = {0} := by decide
    have h : stapleM L 2 (twist θ) i 1 * (twist θ i 1)ᴴ = diagonal ![Complex.exp (θ * I) * Complex.exp (θ * I) +
        Complex.exp (-(θ * I)) * Complex.exp (-(θ * I)), Complex.exp (θ * I) * Complex.exp (θ * I) +
        Complex.exp (-(θ * I)) * Complex.exp (-(θ * I))] := by
      unfold stapleM
      rw [he, Finset.sum_singleton]
      unfold twist
      simp only [if_pos, if_neg (one_ne_zero), ite_true]
      exact twist_staple1 hz hw
    rw [h]
    refine lieHerm_of_herm ?_
    generalize Complex.exp (θ * I) = z at *
    generalize Complex.exp (-(θ * I)) = w at *
    rw [Complex.star_def] at hz hw
    ext i j
    fin_cases i <;> fin_cases j <;> simp [diagonal, hz, hw] <;> ring

theorem exp_sig3 (c : ℝ) : NormedSpace.exp (I • sig3 c) = diagonal ![Complex.exp (c * I), Complex.exp (-(c * I))] := by
  have h : I • sig3 c = diagonal ![c * I, -(c * I)] := by
    unfold sig3
    ext i j
    fin_cases i <;> fin_cases j <;> simp [diagonal] <;> ring
  rw [h, Matrix.exp_diagonal]
  congr 1
  funext k
  rw [Pi.exp_def]
  fin_cases k <;> simp [Complex.exp_eq_exp_ℂ]

theorem update_twist (θ c : ℝ) {A : MField 2} {i mu : ℕ} (hmu : mu < 2)
    (hA : A i mu = if mu = 0 then sig3 c else 0) : expUpdate 2 A (twist θ) i mu = twist (θ + c) i mu := by
  unfold expUpdate
  rw [if_pos hmu, hA]
  unfold twist
  split_ifs
  · rw [exp_sig3, diagonal_mul_diagonal]
    congr 1
    funext k
    fin_cases k <;> simp [← Complex.exp_add] <;> ring_nf
  · rw [smul_zero, NormedSpace.exp_zero, one_mul]

theorem sig3_exact {c : ℝ} (h : 1 / 10 ^ 4 ≤ |c|) : ExpExact 2 (sig3 c) := by
  have hA : (sig3 c).IsHermitian := by
    unfold sig3
    ext i j
    fin_cases i <;> fin_cases j <;> simp [diagonal]
  have hT : Matrix.trace (sig3 c) = 0 := by simp [sig3, Matrix.trace, Fin.sum_univ_two]
  refine expExact_two hA hT fun i j hij => ?_
  have := separated_two hA hT (abs_nonneg c) (by
    rw [abs_mul_abs_self]
    unfold sig3
    rw [diag2, Matrix.mul_fin_two]
    ext i j
    fin_cases i <;> fin_cases j <;> simp) i j hij
  linarith

theorem sig3_smul (a c : ℝ) : (a : ℂ) • sig3 c = sig3 (a * c) := by
  unfold sig3
  ext i j
  fin_cases i <;> fin_cases j <;> simp [diagonal]

theorem sig3_add (a c : ℝ) : sig3 a + sig3 c = sig3 (a + c) := by
  unfold sig3
  ext i j
  fin_cases i <;> fin_cases j <;> simp [diagonal] <;> ring

theorem sig3_sub (a c : ℝ) : sig3 a - sig3 c = sig3 (a - c) := by
  unfold sig3
  ext i j
  fin_cases i <;> fin_cases j <;> simp [diagonal] <;> ring

/-- What smearing does to the angle. -/
theorem stout_twist (θ α : ℝ) {L : Latt} (hd : L.ND = 2) :
    Agree L (stoutSmear L L.ND α (twist θ)) (twist (θ + α * (-2 * Real.sin (2 * θ)))) := by
  intro i hi mu hmu
  unfold stoutSmear
  have hm : mu < 2 := by omega
  have := update_twist (A := fun i mu => (α : ℂ) • force L L.ND (twist θ) i mu) θ
    (α * (-2 * Real.sin (2 * θ))) (i := i) hm (by

      rw [force_twist θ hd i hm]
      split_ifs
      · rw [sig3_smul]
      · rw [smul_zero])
  rw [hd] at this ⊢
  exact this

/-- Smearing twice: on this field both iterations meet the hypothesis of `C68_smear4D_partial` and
each moves the links. -/
example : ∃ (L : Latt) (U : Gauge) (α : ℝ), Valid L ∧ SUField 2 L U ∧
    (∀ k < 2, ∀ i < volume L, ∀ mu < L.ND,
      ExpExact 2 ((α : ℂ) • force L L.ND ((stoutSmear L L.ND α)^[k] (mfield 2 U)) i mu)) ∧
    (∀ k < 2, ∃ i < volume L, ∃ mu < L.ND, force L L.ND ((stoutSmear L L.ND α)^[k] (mfield 2 U)) i mu ≠ 0) := by
  have hL : Valid ⟨2, fun mu => mu + 2⟩ := ⟨by norm_num, by norm_num, by norm_num [Finset.prod_range_succ]⟩
  have hV : 0 < volume ⟨2, fun mu => mu + 2⟩ := by rw [volume_eq _ hL.nd]; exact hL.radix_pos _ (le_refl _)
  have hne : ∀ {c : ℝ}, c ≠ 0 → sig3 c ≠ 0 := fun hc h => by
    have := congrFun (congrFun h 0) 0
    simp [sig3, diagonal] at this
    exact hc this
  -- the first angle is a quarter turn of the double angle, the second a sixth
  have hs1 : Real.sin (2 * (Real.pi / 4)) = 1 := by
    rw [show 2 * (Real.pi / 4) = Real.pi / 2 by ring, Real.sin_pi_div_two]
  have hs2 : Real.sin (2 * (Real.pi / 12)) = 1 / 2 := by
    rw [show 2 * (Real.pi / 12) = Real.pi / 6 by ring, Real.sin_pi_div_six]
  have hpi := Real.pi_gt_three
  have h1 : Agree (⟨2, fun mu => mu + 2⟩ : Latt) (stoutSmear ⟨2, fun mu => mu + 2⟩ 2 (Real.pi / 12)
      (twist (Real.pi / 4))) (twist (Real.pi / 12)) := by
    have := stout_twist (Real.pi / 4) (Real.pi / 12) (L := ⟨2, fun mu => mu + 2⟩) rfl
    rw [hs1, show Real.pi / 4 + Real.pi / 12 * (-2 * 1) = Real.pi / 12 by ring] at this
    exact this
  have hf0 : ∀ i mu, mu < 2 → force ⟨2, fun mu => mu + 2⟩ 2 (twist (Real.pi / 4)) i mu =
      if mu = 0 then sig3 (-2) else 0 := fun i mu hmu => by
    have := force_twist (Real.pi / 4) (L := ⟨2, fun mu => mu + 2⟩) rfl i hmu
    rw [hs1, mul_one] at this
    exact this
  have hf1 : ∀ i < volume ⟨2, fun mu => mu + 2⟩, ∀ mu, mu < 2 → force ⟨2, fun mu => mu + 2⟩ 2
      (stoutSmear ⟨2, fun mu => mu + 2⟩ 2 (Real.pi / 12) (twist (Real.pi / 4))) i mu =
      if mu = 0 then sig3 (-1) else 0 := fun i hi mu hmu => by
    have := force_twist (Real.pi / 12) (L := ⟨2, fun mu => mu + 2⟩) rfl i hmu
    rw [hs2, show (-2 : ℝ) * (1 / 2) = -1 by norm_num] at this
    rw [force_congr hL h1 hi hmu (le_refl _)]
    exact this
  have hx : ∀ c : ℝ, 1 ≤ |c| → ∀ mu : ℕ, ExpExact 2 (((Real.pi / 12 : ℝ) : ℂ) • if mu = 0 then sig3 c else 0) := by
    intro c hc mu
    split_ifs
    · rw [sig3_smul]
      refine sig3_exact ?_
      rw [abs_mul, abs_of_pos (by positivity)]
      nlinarith
    · rw [smul_zero]; exact expExact_two_zero
  refine ⟨⟨2, fun mu => mu + 2⟩, twistArr (Real.pi / 4), Real.pi / 12, hL, su_twist _ _, ?_, ?_⟩
  · intro k hk i hi mu hmu
    rw [mfield_twist]
    have h01 : k = 0 ∨ k = 1 := by omega
    rcases h01 with rfl | rfl
    · rw [Function.iterate_zero_apply, hf0 i mu hmu]
      exact hx _ (by norm_num) mu
    · rw [Function.iterate_one, hf1 i hi mu hmu]
      exact hx _ (by norm_num) mu
  · intro k hk
    refine ⟨0, hV, 0, by norm_num, ?_⟩
    rw [mfield_twist]
    have h01 : k = 0 ∨ k = 1 := by omega
    rcases h01 with rfl | rfl
    · rw [Function.iterate_zero_apply, hf0 0 0 (by norm_num), if_pos rfl]
      exact hne (by norm_num)
    · rw [Function.iterate_one, hf1 0 hV 0 (by norm_num), if_pos rfl]
      exact hne (by norm_num)

/-- A flow step: the hypothesis of `C68_flow_step_partial` holds for all three substeps, and the
force is not zero. -/
example : ∃ (L : Latt) (U : Gauge) (dt : ℝ), Valid L ∧ SUField 2 L U ∧ FlowExact 2 L dt (mfield 2 U) ∧
    ∃ i < volume L, ∃ mu < L.ND, force L L.ND (mfield 2 U) i mu ≠ 0 := by
  have hL : Valid ⟨2, fun mu => mu + 2⟩ := ⟨by norm_num, by norm_num, by norm_num [Finset.prod_range_succ]⟩
  have hV : 0 < volume ⟨2, fun mu => mu + 2⟩ := by rw [volume_eq _ hL.nd]; exact hL.radix_pos _ (le_refl _)
  have hq := quarter_close
  have hq1 : 0.24 < quarter := by unfold quarter; norm_num
  have hq2 : quarter < 0.26 := by unfold quarter; norm_num
  have hpi := Real.pi_gt_three
  have hq0 : quarter ≠ 0 := by linarith
  set L : Latt := ⟨2, fun mu => mu + 2⟩ with hLd
  have hnd : L.ND = 2 := rfl
  clear_value L
  -- the first substep brings the angle to zero
  set dt : ℝ := Real.pi / (8 * quarter) with hdt
  have hdt1 : 1 ≤ dt := by
    rw [hdt, le_div_iff₀ (by linarith)]; linarith
  have hdq : dt * quarter = Real.pi / 8 := by rw [hdt]; field_simp
  set θ2 : ℝ := dt * (17 / 18) with hθ2
  have hs1 : Real.sin (2 * (Real.pi / 4)) = 1 := by
    rw [show 2 * (Real.pi / 4) = Real.pi / 2 by ring, Real.sin_pi_div_two]
  have hf0 : ∀ i mu, mu < 2 → force L L.ND (twist (Real.pi / 4)) i mu = if mu = 0 then sig3 (-2) else 0 :=
    fun i mu hmu => by rw [force_twist (Real.pi / 4) hnd i hmu, hs1, mul_one]
  have hf1 : ∀ i mu, mu < 2 → force L L.ND (twist 0) i mu = if mu = 0 then sig3 0 else 0 :=
    fun i mu hmu => by rw [force_twist 0 hnd i hmu, mul_zero, Real.sin_zero, mul_zero]
  have hA0 : ∀ i mu, mu < 2 → (flowArgs L quarter dt (twist (Real.pi / 4))).1 i mu =
      if mu = 0 then sig3 (-(Real.pi / 4)) else 0 := fun i mu hmu => by
    show ((dt : ℂ) * (quarter : ℂ)) • force L L.ND (twist (Real.pi / 4)) i mu = _
    rw [hf0 i mu hmu, ← Complex.ofReal_mul, hdq]
    split_ifs
    · rw [sig3_smul]; ring_nf
    · rw [smul_zero]
  have hW1 : Agree L (expUpdate L.ND (flowArgs L quarter dt (twist (Real.pi / 4))).1 (twist (Real.pi / 4))) (twist 0) :=
    fun i hi mu hmu => by
      rw [hnd] at hmu ⊢
      rw [update_twist _ _ hmu (hA0 i mu hmu), add_neg_cancel]
  have hA1 : ∀ i < volume L, ∀ mu, mu < 2 → (flowArgs L quarter dt (twist (Real.pi / 4))).2.1 i mu =
      if mu = 0 then sig3 θ2 else 0 := fun i hi mu hmu => by
    show (dt : ℂ) • ((8 / 9 : ℂ) • force L L.ND (expUpdate L.ND (flowArgs L quarter dt (twist (Real.pi / 4))).1
      (twist (Real.pi / 4))) i mu - (17 / 36 : ℂ) • force L L.ND (twist (Real.pi / 4)) i mu) = _
    rw [force_congr hL hW1 hi (by omega) (le_refl _), hf0 i mu hmu, hf1 i mu hmu,
      show (8 / 9 : ℂ) = ((8 / 9 : ℝ) : ℂ) by push_cast; rfl, show (17 / 36 : ℂ) = ((17 / 36 : ℝ) : ℂ) by push_cast; rfl]
    split_ifs
    · rw [sig3_smul, sig3_smul, sig3_sub, sig3_smul, hθ2]; ring_nf
    · simp
  have hW2 : Agree L (expUpdate L.ND (flowArgs L quarter dt (twist (Real.pi / 4))).2.1
      (expUpdate L.ND (flowArgs L quarter dt (twist (Real.pi / 4))).1 (twist (Real.pi / 4)))) (twist θ2) :=
    fun i hi mu hmu => by
      have := update_twist (A := (flowArgs L quarter dt (twist (Real.pi / 4))).2.1) 0 θ2 (i := i) (mu := mu) (by omega)
        (hA1 i hi mu (by omega))
      rw [zero_add] at this
      rw [← this]
      have h1 := hW1 i hi mu hmu
      have hm : mu < 2 := by omega
      unfold expUpdate at h1 ⊢
      rw [if_pos hmu] at h1 ⊢
      rw [if_pos hmu, if_pos hm, h1]
  have hA2 : ∀ i < volume L, ∀ mu, mu < 2 → (flowArgs L quarter dt (twist (Real.pi / 4))).2.2 i mu =
      if mu = 0 then sig3 (-(dt * (3 / 2 * Real.sin (2 * θ2) + 17 / 18))) else 0 := fun i hi mu hmu => by
    show (dt : ℂ) • ((3 / 4 : ℂ) • force L L.ND (expUpdate L.ND (flowArgs L quarter dt (twist (Real.pi / 4))).2.1
      (expUpdate L.ND (flowArgs L quarter dt (twist (Real.pi / 4))).1 (twist (Real.pi / 4)))) i mu -
      (8 / 9 : ℂ) • force L L.ND (expUpdate L.ND (flowArgs L quarter dt (twist (Real.pi / 4))).1
      (twist (Real.pi / 4))) i mu + (17 / 36 : ℂ) • force L L.ND (twist (Real.pi / 4)) i mu) = _
    rw [force_congr hL hW2 hi (by omega) (le_refl _), force_congr hL hW1 hi (by omega) (le_refl _), hf0 i mu hmu,
      hf1 i mu hmu, force_twist θ2 hnd i hmu, show (3 / 4 : ℂ) = ((3 / 4 : ℝ) : ℂ) by push_cast; rfl,
      show (8 / 9 : ℂ) = ((8 / 9 : ℝ) : ℂ) by push_cast; rfl, show (17 / 36 : ℂ) = ((17 / 36 : ℝ) : ℂ) by push_cast; rfl]
    split_ifs
    · rw [sig3_smul, sig3_smul, sig3_smul, sig3_sub, sig3_add, sig3_smul]; ring_nf
    · simp
  have hsin : 0 ≤ Real.sin (2 * θ2) := by
    refine Real.sin_nonneg_of_nonneg_of_le_pi (by rw [hθ2]; linarith) ?_
    have : dt * 0.24 ≤ dt * quarter := by nlinarith
    rw [hdq] at this
    rw [hθ2]
    linarith
  have hx : ∀ (c : ℝ) (mu : ℕ), 1 / 10 ^ 4 ≤ |c| → ExpExact 2 (if mu = 0 then sig3 c else 0) := by
    intro c mu hc
    split_ifs
    · exact sig3_exact hc
    · exact expExact_two_zero
  refine ⟨L, twistArr (Real.pi / 4), dt, hL, su_twist _ _, ?_, 0, hV, 0, by omega, ?_⟩
  · rw [mfield_twist]
    intro i hi mu hmu
    rw [hnd] at hmu
    rw [hA0 i mu hmu, hA1 i hi mu hmu, hA2 i hi mu hmu]
    refine ⟨hx _ _ ?_, hx _ _ ?_, hx _ _ ?_⟩
    · rw [abs_neg, abs_of_pos (by positivity)]; linarith
    · rw [hθ2, abs_of_pos (by positivity)]; linarith
    · rw [abs_neg, abs_of_pos (by positivity)]
      nlinarith
  · rw [mfield_twist, hf0 0 0 (by norm_num), if_pos rfl]
    intro h
    have := congrFun (congrFun h 0) 0
    simp [sig3, diagonal] at this

end GLU.Smear
