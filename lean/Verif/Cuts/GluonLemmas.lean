import Verif.Cuts.Gluon
import Verif.Cuts.CutProps
import Verif.Field.TopoLemmas
import Verif.Field.Lemmas
import Verif.Mat.UNopsProps

/-!
# Gluon propagators: the specification and lemmas (C91)
-/

namespace GLU.Cuts

open Complex Finset Matrix GLU.Mat GLU.Geom GLU.Field

/-! ### Specification -/

/-- The momentum `2 pi n_mu / L_mu`. -/
noncomputable def momentum (L : Latt) (n : ℕ → ℤ) (mu : ℕ) : ℝ := 2 * Real.pi * n mu / L.dims mu

/-- The momentum entering the projectors: `2 sin( p / 2 )` or `p`. -/
noncomputable def latMom (sinMom : Bool) (L : Latt) (n : ℕ → ℤ) (mu : ℕ) : ℝ :=
  if sinMom then 2 * Real.sin (momentum L n mu / 2) else momentum L n mu

/-- The Fourier transform of a field that lives on the middle of its link:
`Σ_x exp( ± i p (x + mu/2) ) A_mu( x )`. -/
noncomputable def fieldFT {N : ℕ} (L : Latt) (sign : ℝ) (A : ℕ → ℕ → Matrix (Fin N) (Fin N) ℂ) (n : ℕ → ℤ) (mu : ℕ) :
    Matrix (Fin N) (Fin N) ℂ :=
  ∑ x ∈ range (volume L), exp (((sign * ∑ nu ∈ range L.ND,
    momentum L n nu * ((coord L L.ND x nu : ℝ) + if nu = mu then 1 / 2 else 0) : ℝ) : ℂ) * I) • A x mu

/-- `Re Tr( F_mu F_nu^dagger )`. -/
noncomputable def corr {N : ℕ} (F : ℕ → Matrix (Fin N) (Fin N) ℂ) (mu nu : ℕ) : ℝ :=
  (trace (F mu * (F nu)ᴴ)).re

/-- `p^2`. -/
noncomputable def normSq (d : ℕ) (p : ℕ → ℝ) : ℝ := ∑ mu ∈ range d, p mu ^ 2

/-- `Σ (δ_{mu nu} - p_mu p_nu / p^2) Re Tr( F_mu F_nu^dagger )`; at zero momentum the second term is left out. -/
noncomputable def transverse {N : ℕ} (d : ℕ) (p : ℕ → ℝ) (F : ℕ → Matrix (Fin N) (Fin N) ℂ) : ℝ :=
  ∑ mu ∈ range d, ∑ nu ∈ range d, ((if mu = nu then 1 else 0) - p mu * p nu / normSq d p) * corr F mu nu

/-- `Σ p_mu p_nu / p^2 Re Tr( F_mu F_nu^dagger )`; zero at zero momentum. -/
noncomputable def longitudinal {N : ℕ} (d : ℕ) (p : ℕ → ℝ) (F : ℕ → Matrix (Fin N) (Fin N) ℂ) : ℝ :=
  ∑ mu ∈ range d, ∑ nu ∈ range d, p mu * p nu / normSq d p * corr F mu nu

/-! ### The transform and the half-link factor -/

theorem exp_cache_eq (L : Latt) {sign : ℝ} (hs : sign = 1 ∨ sign = -1) (n : ℕ → ℤ) (mu : ℕ) :
    exp_cache L sign n mu = exp (((sign * (momentum L n mu / 2) : ℝ) : ℂ) * I) := by
  unfold exp_cache
  have hc : (0.5 * n mu * twiddle L mu : ℝ) = momentum L n mu / 2 := by
    unfold twiddle momentum; ring
  simp only [hc]
  generalize momentum L n mu / 2 = t
  rw [exp_mul_I]
  rcases hs with rfl | rfl
  · push_cast; ring_nf
  · push_cast; simp only [neg_mul, one_mul, Complex.cos_neg, Complex.sin_neg]; ring_nf

theorem landau_notin (NC : ℕ) (L : Latt) (sign : ℝ) (D : ℕ) (list : List Vec) (A : Gauge) (l : ℕ × ℕ) (j : ℕ)
    (h : ∀ v ∈ list, v.idx ≠ l.1) : correct_pspace_landau NC L sign list D A l j = A l j := by
  unfold correct_pspace_landau
  induction list generalizing A with
  | nil => rfl
  | cons w t ih =>
    rw [List.foldl_cons, ih _ fun v hv => h v (by simp [hv])]
    unfold landauEntry
    rw [if_neg]
    rintro ⟨h1, -⟩
    exact h w (by simp) h1.symm

theorem landau_mem (NC : ℕ) (L : Latt) (sign : ℝ) {D : ℕ} {list : List Vec} (A : Gauge)
    (hp : list.Pairwise fun v w => v.idx ≠ w.idx) {v : Vec} (hv : v ∈ list) {mu j : ℕ} (hmu : mu < D)
    (hj : j < NC * NC) :
    correct_pspace_landau NC L sign list D A (v.idx, mu) j = A (v.idx, mu) j * exp_cache L sign v.MOM mu := by
  induction list generalizing A with
  | nil => simp at hv
  | cons w t ih =>
    rw [List.pairwise_cons] at hp
    have hstep : correct_pspace_landau NC L sign (w :: t) D A =
        correct_pspace_landau NC L sign t D (landauEntry NC L sign D A w) := rfl
    rw [hstep]
    rcases List.mem_cons.1 hv with rfl | hv'
    · rw [landau_notin NC L sign D t _ _ _ fun u hu => (hp.1 u hu).symm]
      unfold landauEntry
      rw [if_pos ⟨rfl, hmu, hj⟩]
    · rw [ih _ hp.2 hv']
      unfold landauEntry
      rw [if_neg]
      rintro ⟨h1, -⟩
      exact hp.1 v hv' h1.symm

theorem exp_phase {L : Latt} (hL : Valid L) {sign : ℝ} (hs : sign = 1 ∨ sign = -1) (x : ℕ) {k : ℕ} {n : ℕ → ℤ}
    (hd : ∀ mu < L.ND, (L.dims mu : ℤ) ∣ (coord L L.ND k mu : ℤ) - n mu) :
    exp (((sign * (2 * Real.pi * phase L x k) : ℝ) : ℂ) * I) =
      exp (((sign * ∑ nu ∈ range L.ND, momentum L n nu * (coord L L.ND x nu : ℝ) : ℝ) : ℂ) * I) := by
  choose! c hc using hd
  have h1 : (sign * (2 * Real.pi * phase L x k) : ℝ) = sign * ∑ nu ∈ range L.ND,
      momentum L n nu * (coord L L.ND x nu : ℝ) + sign * (2 * Real.pi) *
        ((∑ nu ∈ range L.ND, (coord L L.ND x nu : ℤ) * c nu : ℤ) : ℝ) := by
    unfold phase
    rw [mul_assoc sign, ← mul_add]
    congr 1
    push_cast
    rw [mul_sum, mul_sum, ← sum_add_distrib]
    refine sum_congr rfl fun nu hnu => ?_
    have hpos : (L.dims nu : ℝ) ≠ 0 := by
      have := hL.pos nu (mem_range.1 hnu); positivity
    have h2 : (coord L L.ND k nu : ℝ) = n nu + L.dims nu * c nu := by
      have := hc nu (mem_range.1 hnu)
      have h3 : (coord L L.ND k nu : ℤ) = n nu + L.dims nu * c nu := by omega
      exact_mod_cast h3
    rw [h2]
    unfold momentum
    field_simp
  rw [h1]
  generalize (∑ nu ∈ range L.ND, (coord L L.ND x nu : ℤ) * c nu : ℤ) = z
  push_cast
  rw [add_mul, Complex.exp_add]
  have : exp ((sign : ℂ) * (2 * Real.pi) * z * I) = 1 := by
    rw [Complex.exp_eq_one_iff]
    rcases hs with rfl | rfl
    · exact ⟨z, by push_cast; ring⟩
    · exact ⟨-z, by push_cast; ring⟩
  rw [this, mul_one]

theorem field_eq {NC : ℕ} {L : Latt} (hL : Valid L) {sign : ℝ} (hs : sign = 1 ∨ sign = -1) (log : Arr ℂ → Arr ℂ)
    (A : Gauge) {list : List Vec} (hp : list.Pairwise fun v w => v.idx ≠ w.idx) {v : Vec} (hv : v ∈ list)
    (hi : v.idx < volume L) (hd : ∀ mu < L.ND, (L.dims mu : ℤ) ∣ (coord L L.ND v.idx mu : ℤ) - v.MOM mu)
    {mu : ℕ} (hmu : mu < L.ND) :
    toM NC (correct_pspace_landau NC L sign list L.ND (mom_gauge NC L sign log A) (v.idx, mu)) =
      fieldFT L sign (fun x nu => toM NC (log (A (x, nu)))) v.MOM mu := by
  ext a b
  rw [toM_apply, landau_mem NC L sign _ hp hv hmu (index_lt a.2 b.2), exp_cache_eq L hs]
  unfold mom_gauge fieldFT
  rw [if_pos ⟨hi, hmu, index_lt a.2 b.2⟩, small_plan_eq hL, sum_mul, Matrix.sum_apply]
  refine sum_congr rfl fun x _ => ?_
  dsimp only
  rw [exp_phase hL hs x hd, Matrix.smul_apply, toM_apply, smul_eq_mul, mul_assoc, ← Complex.exp_add, mul_comm]
  congr 2
  rw [← add_mul, ← ofReal_add, ← mul_add]
  congr 3
  simp only [mul_add, sum_add_distrib, mul_ite, mul_zero]
  rw [sum_ite_eq' (range L.ND) mu, if_pos (mem_range.2 hmu)]
  ring

/-! ### The projection -/

theorem project_eq (NC : ℕ) (tol : ℝ) (sinMom : Bool) (L : Latt) (A : Gauge) (posit : ℕ) :
    project_trans_long NC tol sinMom L A posit =
      (∑ mu ∈ range L.ND, ∑ nu ∈ range L.ND, ((if mu = nu then 1 else 0) - psq_mom sinMom L posit mu *
          psq_mom sinMom L posit nu / psq_calc tol sinMom L posit) * corr (fun mu => toM NC (A (posit, mu))) mu nu,
       ∑ mu ∈ range L.ND, ∑ nu ∈ range L.ND, psq_mom sinMom L posit mu *
          psq_mom sinMom L posit nu / psq_calc tol sinMom L posit * corr (fun mu => toM NC (A (posit, mu))) mu nu) := by
  unfold project_trans_long
  simp only [forN_sum2, C12_trace_ab_dag, zero_add]
  refine Prod.ext ?_ ?_ <;> dsimp only
  · refine sum_congr rfl fun mu _ => sum_congr rfl fun nu _ => ?_
    unfold corr
    by_cases h : mu = nu
    · simp only [h, ne_eq, not_true_eq_false, if_false, if_true]; ring
    · simp only [h, ne_eq, not_false_eq_true, if_false, if_true]; ring
  · refine sum_congr rfl fun mu _ => sum_congr rfl fun nu _ => ?_
    unfold corr
    ring

/-! ### Reflection -/

theorem momentum_neg (L : Latt) (n : ℕ → ℤ) (mu : ℕ) : momentum L (fun nu => -n nu) mu = -momentum L n mu := by
  unfold momentum; push_cast; ring

theorem latMom_neg (sinMom : Bool) (L : Latt) (n : ℕ → ℤ) (mu : ℕ) :
    latMom sinMom L (fun nu => -n nu) mu = -latMom sinMom L n mu := by
  unfold latMom
  rw [momentum_neg]
  split
  · rw [neg_div, Real.sin_neg]; ring
  · rfl

theorem fieldFT_neg {N : ℕ} (L : Latt) (sign : ℝ) {A : ℕ → ℕ → Matrix (Fin N) (Fin N) ℂ} (n : ℕ → ℤ) (mu : ℕ)
    (hA : ∀ x < volume L, (A x mu)ᴴ = A x mu) :
    fieldFT L sign A (fun nu => -n nu) mu = (fieldFT L sign A n mu)ᴴ := by
  unfold fieldFT
  rw [conjTranspose_sum]
  refine sum_congr rfl fun x hx => ?_
  rw [conjTranspose_smul, hA x (mem_range.1 hx)]
  congr 1
  simp only [momentum_neg, neg_mul, sum_neg_distrib, mul_neg]
  rw [Complex.star_def, ← Complex.exp_conj]
  congr 1
  rw [map_mul, conj_I, conj_ofReal]
  push_cast; ring

theorem fieldFT_congr {N : ℕ} (L : Latt) (sign : ℝ) (A : ℕ → ℕ → Matrix (Fin N) (Fin N) ℂ) {n n' : ℕ → ℤ}
    (h : ∀ nu < L.ND, n nu = n' nu) (mu : ℕ) : fieldFT L sign A n mu = fieldFT L sign A n' mu := by
  unfold fieldFT
  refine sum_congr rfl fun x _ => ?_
  have : ∑ nu ∈ range L.ND, momentum L n nu * ((coord L L.ND x nu : ℝ) + if nu = mu then 1 / 2 else 0) =
      ∑ nu ∈ range L.ND, momentum L n' nu * ((coord L L.ND x nu : ℝ) + if nu = mu then 1 / 2 else 0) :=
    sum_congr rfl fun nu hnu => by unfold momentum; rw [h nu (mem_range.1 hnu)]
  rw [this]

theorem latMom_congr (sinMom : Bool) (L : Latt) {n n' : ℕ → ℤ} {mu : ℕ} (h : n mu = n' mu) :
    latMom sinMom L n mu = latMom sinMom L n' mu := by
  unfold latMom momentum; rw [h]

theorem corr_star {N : ℕ} (F : ℕ → Matrix (Fin N) (Fin N) ℂ) (mu nu : ℕ) :
    corr (fun mu => (F mu)ᴴ) mu nu = corr F mu nu := by
  unfold corr
  rw [conjTranspose_conjTranspose, Matrix.trace_mul_comm, ← re_trace_star, conjTranspose_mul,
    conjTranspose_conjTranspose]

theorem trans_congr {N d : ℕ} {p p' : ℕ → ℝ} {F F' : ℕ → Matrix (Fin N) (Fin N) ℂ}
    (hp : ∀ mu < d, ∀ nu < d, p mu * p nu = p' mu * p' nu)
    (hF : ∀ mu < d, ∀ nu < d, corr F mu nu = corr F' mu nu) :
    transverse d p F = transverse d p' F' ∧ longitudinal d p F = longitudinal d p' F' := by
  have hn : normSq d p = normSq d p' := by
    unfold normSq
    exact sum_congr rfl fun mu hmu => by rw [sq, sq, hp mu (mem_range.1 hmu) mu (mem_range.1 hmu)]
  unfold transverse longitudinal
  rw [hn]
  constructor <;> refine sum_congr rfl fun mu hmu => sum_congr rfl fun nu hnu => ?_ <;>
    rw [hp mu (mem_range.1 hmu) nu (mem_range.1 hnu), hF mu (mem_range.1 hmu) nu (mem_range.1 hnu)]

/-! ### The momentum of a listed site -/

/-- On even extents the projectors are given the momentum of the list. -/
theorem momconv_eq {L : Latt} (hL : Valid L) (he : EvenDims L L.ND) {v : Vec} (hz : InZone L L.ND v.MOM)
    (hd : ∀ mu < L.ND, (L.dims mu : ℤ) ∣ (coord L L.ND v.idx mu : ℤ) - v.MOM mu) {mu : ℕ} (hmu : mu < L.ND) :
    TwoPI_mpipi_momconv L v.idx L.ND mu = v.MOM mu := by
  obtain ⟨h1, h2, h3⟩ := C03_momconv_even_partial hL (Or.inl rfl) he v.idx hmu
  obtain ⟨z1, z2⟩ := hz mu hmu
  have h4 := hd mu hmu
  have h5 : (L.dims mu : ℤ) ∣ TwoPI_mpipi_momconv L v.idx L.ND mu - v.MOM mu := by
    have := dvd_add h1 h4
    rwa [sub_add_sub_cancel] at this
  obtain ⟨e, he'⟩ := he mu hmu
  have hpos := hL.pos mu hmu
  generalize TwoPI_mpipi_momconv L v.idx L.ND mu = t at *
  have h6 : |t - v.MOM mu| < L.dims mu := by rw [abs_lt]; constructor <;> omega
  have := Int.eq_zero_of_abs_lt_dvd h5 h6
  omega

theorem psq_mom_eq {L : Latt} (hL : Valid L) (he : EvenDims L L.ND) (sinMom : Bool) {v : Vec}
    (hz : InZone L L.ND v.MOM)
    (hd : ∀ mu < L.ND, (L.dims mu : ℤ) ∣ (coord L L.ND v.idx mu : ℤ) - v.MOM mu) {mu : ℕ} (hmu : mu < L.ND) :
    psq_mom sinMom L v.idx mu = latMom sinMom L v.MOM mu := by
  unfold psq_mom latMom
  simp only [momconv_eq hL he hz hd hmu]
  have : (v.MOM mu : ℝ) * twiddle L mu = momentum L v.MOM mu := by unfold twiddle momentum; ring
  rw [this]
  congr 2
  ring_nf

end GLU.Cuts
