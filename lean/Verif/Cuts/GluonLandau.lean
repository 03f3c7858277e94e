import Verif.Cuts.GluonProps

/-!
# Gluon propagators: positivity and the Landau gauge (C91)
-/

namespace GLU.Cuts

open Complex Finset Matrix GLU.Mat GLU.Geom GLU.Field

/-! ### Squares -/

/-- `Re Tr( M M^dagger )` is the sum of the squared moduli of the elements. -/
theorem re_trace_sq {N : ℕ} (M : Matrix (Fin N) (Fin N) ℂ) :
    (trace (M * Mᴴ)).re = ∑ a, ∑ b, ‖M a b‖ ^ 2 := by
  simp only [Matrix.trace, diag_apply, mul_apply, conjTranspose_apply, re_sum]
  refine sum_congr rfl fun a _ => sum_congr rfl fun b _ => ?_
  rw [Complex.star_def, mul_conj, ofReal_re, Complex.normSq_eq_norm_sq]

/-- `Σ p_mu p_nu Re Tr( F_mu F_nu^dagger )` is the square of `Σ p_mu F_mu`. -/
theorem corr_sq {N d : ℕ} (p : ℕ → ℝ) (F : ℕ → Matrix (Fin N) (Fin N) ℂ) :
    ∑ mu ∈ range d, ∑ nu ∈ range d, p mu * p nu * corr F mu nu =
      (trace ((∑ mu ∈ range d, (p mu : ℂ) • F mu) * (∑ mu ∈ range d, (p mu : ℂ) • F mu)ᴴ)).re := by
  rw [conjTranspose_sum, Matrix.sum_mul, trace_sum, re_sum]
  refine sum_congr rfl fun mu _ => ?_
  rw [Matrix.mul_sum, trace_sum, re_sum]
  refine sum_congr rfl fun nu _ => ?_
  rw [conjTranspose_smul, Matrix.smul_mul, Matrix.mul_smul, trace_smul, trace_smul, smul_eq_mul, smul_eq_mul,
    Complex.star_def, conj_ofReal, re_ofReal_mul, re_ofReal_mul]
  unfold corr
  ring

theorem cauchy {N d : ℕ} (p : ℕ → ℝ) (F : ℕ → Matrix (Fin N) (Fin N) ℂ) :
    (trace ((∑ mu ∈ range d, (p mu : ℂ) • F mu) * (∑ mu ∈ range d, (p mu : ℂ) • F mu)ᴴ)).re ≤
      normSq d p * ∑ mu ∈ range d, corr F mu mu := by
  have hc : ∑ mu ∈ range d, corr F mu mu = ∑ a, ∑ b, ∑ mu ∈ range d, ‖F mu a b‖ ^ 2 := by
    have : ∀ a : Fin N, ∑ b : Fin N, ∑ mu ∈ range d, ‖F mu a b‖ ^ 2 = ∑ mu ∈ range d, ∑ b : Fin N, ‖F mu a b‖ ^ 2 :=
      fun a => sum_comm
    simp only [this]
    rw [sum_comm]
    exact sum_congr rfl fun mu _ => re_trace_sq (F mu)
  rw [hc, re_trace_sq, mul_sum]
  refine sum_le_sum fun a _ => ?_
  rw [mul_sum]
  refine sum_le_sum fun b _ => ?_
  rw [Matrix.sum_apply]
  calc ‖∑ mu ∈ range d, ((p mu : ℂ) • F mu) a b‖ ^ 2
      ≤ (∑ mu ∈ range d, |p mu| * ‖F mu a b‖) ^ 2 := by
        refine pow_le_pow_left₀ (norm_nonneg _) ((norm_sum_le _ _).trans (le_of_eq ?_)) 2
        refine sum_congr rfl fun mu _ => ?_
        rw [Matrix.smul_apply, smul_eq_mul, norm_mul, norm_real, Real.norm_eq_abs]
    _ ≤ (∑ mu ∈ range d, |p mu| ^ 2) * ∑ mu ∈ range d, ‖F mu a b‖ ^ 2 := sum_mul_sq_le_sq_mul_sq _ _ _
    _ = _ := by unfold normSq; simp only [sq_abs]

theorem delta_sum {N d : ℕ} (c : ℝ) (p : ℕ → ℝ) (F : ℕ → Matrix (Fin N) (Fin N) ℂ) :
    ∑ mu ∈ range d, ∑ nu ∈ range d, ((if mu = nu then 1 else 0) - p mu * p nu / c) * corr F mu nu =
      ∑ mu ∈ range d, corr F mu mu -
        (trace ((∑ mu ∈ range d, (p mu : ℂ) • F mu) * (∑ mu ∈ range d, (p mu : ℂ) • F mu)ᴴ)).re / c := by
  rw [← corr_sq, sum_div, ← sum_sub_distrib]
  refine sum_congr rfl fun mu hmu => ?_
  rw [sum_div]
  simp only [sub_mul, sum_sub_distrib, ite_mul, one_mul, zero_mul]
  rw [sum_ite_eq, if_pos hmu]
  congr 1
  exact sum_congr rfl fun nu _ => by ring

theorem long_sum {N d : ℕ} (c : ℝ) (p : ℕ → ℝ) (F : ℕ → Matrix (Fin N) (Fin N) ℂ) :
    ∑ mu ∈ range d, ∑ nu ∈ range d, p mu * p nu / c * corr F mu nu =
        (trace ((∑ mu ∈ range d, (p mu : ℂ) • F mu) * (∑ mu ∈ range d, (p mu : ℂ) • F mu)ᴴ)).re / c := by
  rw [← corr_sq, sum_div]
  refine sum_congr rfl fun mu _ => ?_
  rw [sum_div]
  exact sum_congr rfl fun nu _ => by ring

theorem corr_self_nonneg {N : ℕ} (F : ℕ → Matrix (Fin N) (Fin N) ℂ) (mu : ℕ) : 0 ≤ corr F mu mu := by
  unfold corr
  rw [re_trace_sq]
  positivity

/-- The projections of any field at any site: both are non-negative and they add up to the whole. -/
theorem project_nonneg {NC : ℕ} {tol : ℝ} (h0 : 0 < tol) (h1 : tol ≤ 1) (sinMom : Bool) (L : Latt) (A : Gauge)
    (posit : ℕ) :
    0 ≤ (project_trans_long NC tol sinMom L A posit).1 ∧ 0 ≤ (project_trans_long NC tol sinMom L A posit).2 ∧
    (project_trans_long NC tol sinMom L A posit).1 + (project_trans_long NC tol sinMom L A posit).2 =
      ∑ mu ∈ range L.ND, (trace (toM NC (A (posit, mu)) * (toM NC (A (posit, mu)))ᴴ)).re := by
  rw [project_eq]
  dsimp only
  rw [delta_sum, long_sum]
  have hsum : acc (fun mu => psq_mom sinMom L posit mu * psq_mom sinMom L posit mu) L.ND =
      normSq L.ND (psq_mom sinMom L posit) := by
    rw [acc_eq]; exact sum_congr rfl fun mu _ => (sq _).symm
  have hpos : 0 < psq_calc tol sinMom L posit ∧ normSq L.ND (psq_mom sinMom L posit) ≤ psq_calc tol sinMom L posit := by
    unfold psq_calc
    simp only [hsum]
    split
    · exact ⟨one_pos, by linarith⟩
    · exact ⟨by linarith, le_rfl⟩
  set F : ℕ → Matrix (Fin NC) (Fin NC) ℂ := fun mu => toM NC (A (posit, mu))
  have hc := cauchy (d := L.ND) (psq_mom sinMom L posit) F
  have hS : 0 ≤ ∑ mu ∈ range L.ND, corr F mu mu := sum_nonneg fun mu _ => corr_self_nonneg F mu
  have hB : 0 ≤ (trace ((∑ mu ∈ range L.ND, (psq_mom sinMom L posit mu : ℂ) • F mu) *
      (∑ mu ∈ range L.ND, (psq_mom sinMom L posit mu : ℂ) • F mu)ᴴ)).re := by rw [re_trace_sq]; positivity
  refine ⟨?_, div_nonneg hB hpos.1.le, ?_⟩
  · rw [sub_nonneg, div_le_iff₀ hpos.1, mul_comm]
    exact hc.trans (mul_le_mul_of_nonneg_right hpos.2 hS)
  · rw [sub_add_cancel]; rfl

/-- C91: whatever the lattice, the field and the list, every number written is non-negative. -/
theorem C91_nonneg {NC : ℕ} (hN : 2 ≤ NC) {tol : ℝ} (h0 : 0 < tol) (h1 : tol ≤ 1) (sinMom : Bool) {L : Latt}
    (hL : Valid L) (A : Gauge) (list : List Vec) (hl : list ≠ []) (junk : ℕ → ℝ × ℝ) :
    ∃ D, compute_gluon_prop NC tol sinMom L A list junk = some D ∧
      ∀ k < list.length, 0 ≤ (D k).1 ∧ 0 ≤ (D k).2 := by
  have hlen := List.length_pos_iff.2 hl
  have hlt : list.length / 2 < list.length := by omega
  unfold compute_gluon_prop
  dsimp only
  rw [List.getElem?_eq_getElem hlt]
  dsimp only
  refine ⟨_, rfl, ?_⟩
  have hNC : (0 : ℝ) ≤ NC * NC - 1 := by
    have : (2 : ℝ) ≤ NC := by exact_mod_cast hN
    nlinarith
  have hND : (0 : ℝ) ≤ L.ND - 1 := by
    have : (2 : ℝ) ≤ L.ND := by exact_mod_cast hL.nd
    linarith
  have hp := project_nonneg (NC := NC) h0 h1 sinMom L A
  have hfirst : ∀ k (h : k < list.length), 0 ≤ (project_trans_long NC tol sinMom L A (list[k]).idx).1 *
        (2 / ((NC * NC - 1) * (L.ND - 1) * volume L)) ∧
      0 ≤ (project_trans_long NC tol sinMom L A (list[k]).idx).2 * (2 / ((NC * NC - 1) * volume L)) := fun k h =>
    ⟨mul_nonneg (hp _).1 (by positivity), mul_nonneg (hp _).2.1 (by positivity)⟩
  intro k h
  rcases lt_trichotomy k (list.length / 2) with h2 | h2 | h2
  · rw [if_neg (by omega), Function.update_of_ne (by omega), List.getElem?_eq_getElem h]
    dsimp only
    rw [if_pos h2]
    exact hfirst k h
  · subst h2
    rw [if_neg (by omega), Function.update_self]
    exact ⟨mul_nonneg (hp _).1 (by positivity), mul_nonneg (hp _).2.1 (by positivity)⟩
  · rw [if_pos ⟨by omega, h⟩, Function.update_of_ne (by omega), List.getElem?_eq_getElem (by omega)]
    dsimp only
    rw [if_pos (by omega)]
    exact hfirst _ (by omega)

/-! ### Landau gauge -/

/-- The lattice Landau condition: the backward divergence vanishes at every site. -/
def Landau {N : ℕ} (L : Latt) (A : ℕ → ℕ → Matrix (Fin N) (Fin N) ℂ) : Prop :=
  ∀ x < volume L, ∑ mu ∈ range L.ND, (A x mu - A (back L x mu) mu) = 0

theorem sum_neighbor_gen {M : Type*} [AddCommMonoid M] {L : Latt} (hL : Valid L) {nu : ℕ} (hnu : nu < L.ND)
    (f : ℕ → M) : ∑ i ∈ range (volume L), f (neighbor L i nu) = ∑ i ∈ range (volume L), f i := by
  refine sum_bij (fun i _ => neighbor L i nu) ?_ ?_ ?_ ?_
  · intro i _; exact mem_range.2 (neighbor_lt hL i hnu)
  · intro a ha b hb hab
    rw [← (C02_inverse hL (mem_range.1 ha) hnu).1, ← (C02_inverse hL (mem_range.1 hb) hnu).1]
    exact congrArg (fun x => back L x nu) hab
  · intro b hb
    exact ⟨back L b nu, mem_range.2 (back_lt hL b hnu), (C02_inverse hL (mem_range.1 hb) hnu).2⟩
  · intro i _; rfl

/-- The plane wave `exp( ± i p x )`. -/
noncomputable def wave (L : Latt) (sign : ℝ) (n : ℕ → ℤ) (x : ℕ) : ℂ :=
  exp (((sign * ∑ nu ∈ range L.ND, momentum L n nu * (coord L L.ND x nu : ℝ) : ℝ) : ℂ) * I)

theorem fieldFT_wave {N : ℕ} (L : Latt) (sign : ℝ) (A : ℕ → ℕ → Matrix (Fin N) (Fin N) ℂ) (n : ℕ → ℤ) {mu : ℕ}
    (hmu : mu < L.ND) : fieldFT L sign A n mu = exp (((sign * (momentum L n mu / 2) : ℝ) : ℂ) * I) •
      ∑ x ∈ range (volume L), wave L sign n x • A x mu := by
  unfold fieldFT wave
  rw [smul_sum]
  refine sum_congr rfl fun x _ => ?_
  rw [smul_smul, ← Complex.exp_add, ← add_mul, ← ofReal_add, ← mul_add]
  congr 5
  simp only [mul_add, sum_add_distrib, mul_ite, mul_zero]
  rw [sum_ite_eq' (range L.ND) mu, if_pos (mem_range.2 hmu)]
  ring

theorem wave_neighbor {L : Latt} (hL : Valid L) {sign : ℝ} (hs : sign = 1 ∨ sign = -1) (n : ℕ → ℤ) (x : ℕ) {mu : ℕ}
    (hmu : mu < L.ND) : wave L sign n (neighbor L x mu) =
      wave L sign n x * exp (((sign * momentum L n mu : ℝ) : ℂ) * I) := by
  obtain ⟨c, hc⟩ : ∃ c : ℤ, (coord L L.ND (neighbor L x mu) mu : ℤ) = coord L L.ND x mu + 1 - L.dims mu * c := by
    rw [coord_neighbor hL x hmu hmu, if_pos rfl]
    exact ⟨((coord L L.ND x mu : ℤ) + 1) / L.dims mu, by rw [Int.emod_def]⟩
  have hpos : (L.dims mu : ℝ) ≠ 0 := by
    have := hL.pos mu hmu; positivity
  have hsum : ∑ nu ∈ range L.ND, momentum L n nu * (coord L L.ND (neighbor L x mu) nu : ℝ) =
      ∑ nu ∈ range L.ND, momentum L n nu * (coord L L.ND x nu : ℝ) + momentum L n mu +
        2 * Real.pi * ((-(n mu * c) : ℤ) : ℝ) := by
    rw [add_assoc, ← sub_eq_iff_eq_add', ← sum_sub_distrib, sum_eq_single mu]
    · have : (coord L L.ND (neighbor L x mu) mu : ℝ) = coord L L.ND x mu + 1 - L.dims mu * c := by exact_mod_cast hc
      rw [this]
      unfold momentum
      push_cast
      field_simp
      ring
    · intro nu hnu hne
      have h1 := coord_neighbor hL x hmu (mem_range.1 hnu)
      rw [if_neg hne] at h1
      have h2 : coord L L.ND (neighbor L x mu) nu = coord L L.ND x nu := by exact_mod_cast h1
      rw [h2, sub_self]
    · intro h; exact absurd (mem_range.2 hmu) h
  unfold wave
  rw [hsum, ← Complex.exp_add]
  generalize (-(n mu * c) : ℤ) = z
  have h3 : ((sign * (∑ nu ∈ range L.ND, momentum L n nu * (coord L L.ND x nu : ℝ) + momentum L n mu +
      2 * Real.pi * (z : ℝ)) : ℝ) : ℂ) * I =
      (((sign * ∑ nu ∈ range L.ND, momentum L n nu * (coord L L.ND x nu : ℝ) : ℝ) : ℂ) * I +
        ((sign * momentum L n mu : ℝ) : ℂ) * I) + (sign : ℂ) * (2 * Real.pi) * z * I := by
    push_cast; ring
  rw [h3, Complex.exp_add _ ((sign : ℂ) * (2 * Real.pi) * z * I)]
  have : exp ((sign : ℂ) * (2 * Real.pi) * z * I) = 1 := by
    rw [Complex.exp_eq_one_iff]
    rcases hs with rfl | rfl
    · exact ⟨z, by push_cast; ring⟩
    · exact ⟨-z, by push_cast; ring⟩
  rw [this, mul_one]

/-- The divergence in momentum space. -/
theorem divergence_FT {N : ℕ} {L : Latt} (hL : Valid L) {sign : ℝ} (hs : sign = 1 ∨ sign = -1)
    (A : ℕ → ℕ → Matrix (Fin N) (Fin N) ℂ) (n : ℕ → ℤ) {mu : ℕ} (hmu : mu < L.ND) :
    ((sign : ℂ) * I * (latMom true L n mu : ℂ)) • fieldFT L sign A n mu =
      ∑ x ∈ range (volume L), wave L sign n x • (A (back L x mu) mu - A x mu) := by
  rw [fieldFT_wave L sign A n hmu, smul_smul]
  have hE : (sign : ℂ) * I * (latMom true L n mu : ℂ) * exp (((sign * (momentum L n mu / 2) : ℝ) : ℂ) * I) =
      exp (((sign * momentum L n mu : ℝ) : ℂ) * I) - 1 := by
    have h1 : ((sign * momentum L n mu : ℝ) : ℂ) * I = ((sign * (momentum L n mu / 2) : ℝ) : ℂ) * I +
        ((sign * (momentum L n mu / 2) : ℝ) : ℂ) * I := by push_cast; ring
    have h2 : (latMom true L n mu : ℂ) = 2 * Complex.sin ((momentum L n mu / 2 : ℝ) : ℂ) := by
      unfold latMom; rw [if_pos rfl]; push_cast; rfl
    rw [h1, Complex.exp_add, h2]
    generalize (momentum L n mu / 2 : ℝ) = t
    have hcs := Complex.sin_sq_add_cos_sq (t : ℂ)
    rcases hs with rfl | rfl
    · rw [one_mul, ofReal_one, exp_mul_I]
      linear_combination (Complex.sin (t : ℂ) ^ 2) * Complex.I_sq - hcs
    · have : ((-1 * t : ℝ) : ℂ) = -(t : ℂ) := by push_cast; ring
      rw [this, exp_mul_I, Complex.cos_neg, Complex.sin_neg]
      push_cast
      linear_combination (Complex.sin (t : ℂ) ^ 2) * Complex.I_sq - hcs
  rw [hE, sub_smul, one_smul, smul_sum]
  simp only [smul_sub, sum_sub_distrib]
  congr 1
  rw [← sum_neighbor_gen hL hmu (fun x => wave L sign n x • A (back L x mu) mu)]
  refine sum_congr rfl fun x hx => ?_
  rw [(C02_inverse hL (mem_range.1 hx) hmu).1, wave_neighbor hL hs n x hmu, smul_smul, mul_comm]

/-- In Landau gauge the momentum-space field is transverse to `2 sin( p / 2 )`. -/
theorem landau_FT {N : ℕ} {L : Latt} (hL : Valid L) {sign : ℝ} (hs : sign = 1 ∨ sign = -1)
    {A : ℕ → ℕ → Matrix (Fin N) (Fin N) ℂ} (hA : Landau L A) (n : ℕ → ℤ) :
    ∑ mu ∈ range L.ND, (latMom true L n mu : ℂ) • fieldFT L sign A n mu = 0 := by
  have h1 : ((sign : ℂ) * I) • ∑ mu ∈ range L.ND, (latMom true L n mu : ℂ) • fieldFT L sign A n mu = 0 := by
    rw [smul_sum]
    have : ∀ mu ∈ range L.ND, ((sign : ℂ) * I) • (latMom true L n mu : ℂ) • fieldFT L sign A n mu =
        ∑ x ∈ range (volume L), wave L sign n x • (A (back L x mu) mu - A x mu) := fun mu hmu => by
      rw [smul_smul, divergence_FT hL hs A n (mem_range.1 hmu)]
    rw [sum_congr rfl this, sum_comm]
    refine sum_eq_zero fun x hx => ?_
    rw [← smul_sum]
    have h2 := hA x (mem_range.1 hx)
    have h3 : ∑ mu ∈ range L.ND, (A (back L x mu) mu - A x mu) = 0 := by
      rw [← neg_eq_zero, ← sum_neg_distrib]
      simpa only [neg_sub] using h2
    rw [h3, smul_zero]
  have hne : (sign : ℂ) * I ≠ 0 := by
    rcases hs with rfl | rfl <;> simp
  exact (smul_eq_zero.1 h1).resolve_left hne

/-- C91: with the momentum `2 sin( p / 2 )`, a field in Landau gauge has no longitudinal part and its transverse
part is the whole propagator. -/
theorem C91_landau {N : ℕ} {L : Latt} (hL : Valid L) {sign : ℝ} (hs : sign = 1 ∨ sign = -1)
    {A : ℕ → ℕ → Matrix (Fin N) (Fin N) ℂ} (hA : Landau L A) (n : ℕ → ℤ) :
    (propagators true L sign A n).2 = 0 ∧
    transverse L.ND (latMom true L n) (fieldFT L sign A n) =
      ∑ mu ∈ range L.ND, (trace (fieldFT L sign A n mu * (fieldFT L sign A n mu)ᴴ)).re := by
  have h := landau_FT hL hs hA n
  unfold propagators transverse longitudinal
  dsimp only
  rw [delta_sum, long_sum, h]
  constructor
  · simp
  · simp [corr]

end GLU.Cuts
