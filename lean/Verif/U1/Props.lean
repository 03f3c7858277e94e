import Verif.U1.Lemmas

/-!
# Theorems about the multiplication of a gauge field by a quenched U(1) field

C96: opposite momenta hold conjugate numbers, so that nothing is lost when the imaginary part of the transform is thrown
away; no field without spatial momentum; links are multiplied by the phase of their angle.
-/

namespace GLU.U1

open Complex Finset Matrix GLU.Mat GLU.Geom GLU.Field

/-- The factor that the random number of a momentum is multiplied by: nothing for a purely temporal momentum, otherwise the
inverse of the length of the lattice momentum. -/
noncomputable def weight (L : Latt) (i : ℕ) : ℝ := if NoSpatial L i then 0 else 1 / Real.sqrt (latticeSq L i)

/-- **C96**, the fields in momentum space of a four-dimensional lattice of even extents, whatever numbers the generator hands
out: no element outside the arrays is touched; momenta that add up to zero hold conjugate numbers; a momentum that is its own
opposite holds the real part of its random number and of any other pair the first holds its random number, both times the
weight.  (Other numbers of dimensions: `C96_three_dimensions`; odd extents: `C96_odd_extent`.) -/
theorem C96_momenta_partial {L : Latt} (hL : Valid L) (h4 : L.ND = 4) (he : EvenDims L L.ND) (rnd : Fields) :
    ∃ f, periodic_dft L (psq L) rnd = some f ∧ ∀ mu < L.ND, ∀ i < volume L, ∀ b < volume L, Opposite L i b →
      f mu b = star (f mu i) ∧ (i = b → f mu i = ((weight L i * (rnd mu i).re : ℝ) : ℂ)) ∧
      (i < b → f mu i = (weight L i : ℂ) * rnd mu i) := by
  obtain ⟨f, hf, hs⟩ := periodic_spec hL h4 he (psq L) rnd
  refine ⟨f, hf, fun mu hmu i hi b hb ho => ?_⟩
  obtain ⟨h1, h2⟩ := conjugate_spec hL he i
  have ec : conjugate_site L i = b := opposite_unique hL h1 hb h2 ho
  have ec' : conjugate_site L b = i := by rw [← ec]; exact conj_invol hL he hi
  have hw : ∀ j, psq L j = weight L j := fun j => psq_eq hL j
  rw [hs mu hmu b hb, hs mu hmu i hi, ec, ec']
  unfold filled randomFields
  refine ⟨?_, fun h => ?_, fun h => ?_⟩
  · rcases Nat.lt_trichotomy i b with h | h | h
    · rw [if_neg (by omega), if_neg (by omega), if_neg (by omega), if_pos h]
    · subst h
      rw [if_pos rfl]
      exact (conj_ofReal _).symm
    · rw [if_neg (by omega), if_pos h, if_neg (by omega), if_neg (by omega), star_star]
  · rw [if_pos h, hw, re_ofReal_mul]
  · rw [if_neg (by omega), if_pos h, hw]

/-- **C96**, the fields in configuration space of a four-dimensional lattice of even extents: the call succeeds, and the
fields it leaves are, times the square root of the volume, the full transform of fields in momentum space that satisfy
`C96_momenta_partial`; no imaginary part has been dropped.  On every time slice each component adds up to zero. -/
theorem C96_fields_partial (NC : ℕ) {L : Latt} (hL : Valid L) (h4 : L.ND = 4) (he : EvenDims L L.ND) (alpha charge : ℝ)
    (rnd : Fields) (lat : Gauge) :
    ∃ A lat' f, suNC_cross_u1 NC L alpha charge rnd lat = some (A, lat') ∧ periodic_dft L (psq L) rnd = some f ∧
      (∀ mu < L.ND, ∀ x < volume L, (Real.sqrt (volume L) : ℂ) * A mu x =
        ∑ k ∈ range (volume L), f mu k * exp (((-(2 * Real.pi * ∑ nu ∈ range L.ND,
          (coord L L.ND k nu : ℝ) * (coord L L.ND x nu : ℝ) / (L.dims nu : ℝ)) : ℝ) : ℂ) * I)) ∧
      ∀ mu < L.ND, ∀ t, ∑ x ∈ range (volume L), (if coord L L.ND x (L.ND - 1) = t then A mu x else 0) = 0 := by
  obtain ⟨f, hf, hs⟩ := C96_momenta_partial hL h4 he rnd
  refine ⟨_, _, f, by unfold suNC_cross_u1; rw [hf, Option.map_some], hf, ?_⟩
  have hV : (0 : ℝ) < volume L := by exact_mod_cast volume_pos hL
  have hsq : Real.sqrt (volume L) ≠ 0 := (Real.sqrt_pos.2 hV).ne'
  have hreal : ∀ mu < L.ND, ∀ x, (small_plan L (-1) (f mu) x).im = 0 := by
    intro mu hmu x
    refine transform_real hL (conjugate_site L) (fun k _ => conjugate_spec hL he k) (f mu) (fun k hk => ?_) x
    exact (hs mu hmu k hk _ (conjugate_spec hL he k).1 (conjugate_spec hL he k).2).1
  have hA : ∀ mu < L.ND, ∀ x < volume L,
      (u1ify NC L alpha charge f lat).1 mu x = small_plan L (-1) (f mu) x / (Real.sqrt (volume L) : ℂ) := by
    intro mu hmu x hx
    rw [(u1ify_eq alpha charge f lat hmu hx).1, ofReal_mul, ofReal_div, ofReal_one, mul_one_div]
    congr 1
    exact Complex.ext (by simp) (by simp [hreal mu hmu x])
  refine ⟨fun mu hmu x hx => ?_, fun mu hmu t => ?_⟩
  · rw [hA mu hmu x hx, mul_div_cancel₀ _ (by exact_mod_cast hsq), small_plan_eq hL]
    refine sum_congr rfl fun k _ => ?_
    unfold phase
    rw [neg_one_mul]
  · have e : ∀ x ∈ range (volume L), (if coord L L.ND x (L.ND - 1) = t then (u1ify NC L alpha charge f lat).1 mu x else 0) =
        (if coord L L.ND x (L.ND - 1) = t then small_plan L (-1) (f mu) x else 0) / (Real.sqrt (volume L) : ℂ) := by
      intro x hx
      split_ifs
      · exact hA mu hmu x (mem_range.1 hx)
      · rw [zero_div]
    rw [sum_congr rfl e, ← sum_div, slice_zero hL (f mu) _ t, zero_div]
    intro k hk hn
    obtain ⟨h1, h2⟩ := conjugate_spec hL he k
    have hw : weight L k = 0 := if_pos hn
    rcases Nat.lt_trichotomy k (conjugate_site L k) with h | h | h
    · rw [(hs mu hmu k hk _ h1 h2).2.2 h, hw, ofReal_zero, zero_mul]
    · rw [(hs mu hmu k hk _ h1 h2).2.1 h, hw, zero_mul, ofReal_zero]
    · have hn' : weight L (conjugate_site L k) = 0 := by
        refine if_pos fun nu hnu => ?_
        have h3 := h2 nu (by omega)
        rw [hn nu hnu, Nat.zero_add] at h3
        have h5 := coord_lt L hL.pos L.ND (conjugate_site L k) (mu := nu) (by omega)
        exact Nat.eq_zero_of_dvd_of_lt h3 h5
      have h6 := hs mu hmu _ h1 k hk (opposite_symm h2)
      rw [h6.1, h6.2.2 h, hn', ofReal_zero, zero_mul, star_zero]

/-- **C96**, the links, on every lattice on which the call gets that far: the field holds real numbers, each link is its old
value times the phase of its angle `e * charge * A`, with `e^2 = 4 pi alpha`, a unitary link stays unitary and its determinant
is multiplied by the `NC`-th power of the phase. -/
theorem C96_links {NC : ℕ} {L : Latt} {alpha charge : ℝ} (ha : 0 ≤ alpha) {rnd A : Fields} {lat lat' : Gauge}
    (h : suNC_cross_u1 NC L alpha charge rnd lat = some (A, lat')) :
    ∃ e : ℝ, 0 ≤ e ∧ e ^ 2 = 4 * Real.pi * alpha ∧ ∀ mu < L.ND, ∀ x < volume L, (A mu x).im = 0 ∧
      link NC lat' x mu = exp ((e * charge * (A mu x).re : ℝ) * I) • link NC lat x mu ∧
      (link NC lat x mu ∈ unitaryGroup (Fin NC) ℂ → link NC lat' x mu ∈ unitaryGroup (Fin NC) ℂ) ∧
      (link NC lat' x mu).det = exp ((NC * (e * charge * (A mu x).re) : ℝ) * I) * (link NC lat x mu).det := by
  have hp : 0 ≤ 4 * Real.pi * alpha := by have := Real.pi_pos; positivity
  refine ⟨elementary alpha, Real.sqrt_nonneg _, Real.sq_sqrt hp, fun mu hmu x hx => ?_⟩
  obtain ⟨f, -, hf⟩ := Option.map_eq_some_iff.1 h
  obtain ⟨h1, h2⟩ := u1ify_eq (NC := NC) alpha charge f lat hmu hx
  rw [hf] at h1 h2
  dsimp only at h1 h2
  have hl : link NC lat' x mu = exp ((elementary alpha * charge * (A mu x).re : ℝ) * I) • link NC lat x mu := by
    ext i j
    unfold link
    rw [Matrix.smul_apply, toM_apply, toM_apply, h2, mapN_apply, if_pos (index_lt i.2 j.2), smul_eq_mul, mul_comm]
    congr 1
    rw [exp_mul_I, ← ofReal_cos, ← ofReal_sin, show elementary alpha * charge * (A mu x).re = (A mu x).re * elementary alpha * charge by ring]
    ring
  have hu : star (exp ((elementary alpha * charge * (A mu x).re : ℝ) * I)) * exp ((elementary alpha * charge * (A mu x).re : ℝ) * I) = 1 := by
    rw [show star (exp ((elementary alpha * charge * (A mu x).re : ℝ) * I)) = (starRingEnd ℂ) _ from rfl, ← exp_conj, ← exp_add, map_mul,
      conj_ofReal, conj_I]
    simp
  refine ⟨by rw [h1, ofReal_im], hl, fun hU => ?_, ?_⟩
  · rw [mem_unitaryGroup_iff'] at hU ⊢
    rw [hl, star_smul, smul_mul_smul_comm, hU, hu, one_smul]
  · rw [hl, det_smul, Fintype.card_fin, ← exp_nat_mul]
    congr 2
    push_cast
    ring

/-- **C96**, loops: the product of the links around an elementary square picks up the phase of the curl of the U(1) field. -/
theorem C96_squares {NC : ℕ} {L : Latt} (hL : Valid L) {alpha charge : ℝ} (ha : 0 ≤ alpha) {rnd A : Fields} {lat lat' : Gauge}
    (h : suNC_cross_u1 NC L alpha charge rnd lat = some (A, lat')) :
    ∃ e : ℝ, 0 ≤ e ∧ e ^ 2 = 4 * Real.pi * alpha ∧ ∀ x < volume L, ∀ mu < L.ND, ∀ nu < L.ND,
      square NC L lat' x mu nu = exp ((e * charge * curl L (angles A) x mu nu : ℝ) * I) • square NC L lat x mu nu := by
  obtain ⟨e, h0, h1, h2⟩ := C96_links ha h
  refine ⟨e, h0, h1, fun x hx mu hmu nu hnu => ?_⟩
  unfold square
  rw [(h2 mu hmu x hx).2.1, (h2 nu hnu _ (neighbor_lt hL x hmu)).2.1, (h2 mu hmu _ (neighbor_lt hL x hnu)).2.1, (h2 nu hnu x hx).2.1,
    conjTranspose_smul, conjTranspose_smul]
  simp only [smul_mul_smul_comm]
  congr 1
  have hc : ∀ a : ℝ, star (exp ((a : ℂ) * I)) = exp (((-a : ℝ) : ℂ) * I) := by
    intro a
    rw [show star (exp ((a : ℂ) * I)) = (starRingEnd ℂ) _ from rfl, ← exp_conj, map_mul, conj_ofReal, conj_I]
    push_cast
    congr 1
    ring
  rw [hc, hc, ← exp_add, ← exp_add, ← exp_add]
  congr 1
  unfold curl angles
  push_cast
  ring

/-- A four-dimensional lattice of even extents and a field on it: the hypotheses of the theorems are met, and there are
momenta that are their own opposite, others that are not, and some without a spatial part. -/
example : Valid L4468 ∧ L4468.ND = 4 ∧ EvenDims L4468 L4468.ND ∧ Opposite L4468 0 0 ∧ Opposite L4468 1 3 ∧
    ¬ NoSpatial L4468 1 ∧ NoSpatial L4468 96 := by
  refine ⟨valid_L4468, rfl, ?_, by decide, by decide, by decide, by decide⟩
  intro mu hmu
  show 2 ∣ (if mu = 2 then 6 else if mu = 3 then 8 else 4)
  split_ifs <;> decide

/-! ## Negations -/

/-- **C96**, odd extents: as soon as one extent is odd an element outside the arrays is written. -/
theorem C96_odd_extent {L : Latt} (hL : Valid L) (hN : L.ND ≤ 2 ^ 31) {nu : ℕ} (hnu : nu < L.ND) (ho : ¬ 2 ∣ L.dims nu) (p : ℕ → ℝ) (rnd : Fields) :
    periodic_dft L p rnd = none := by
  have hnd := hL.nd
  have key : ∀ mu < L.ND, temp2pi L (fun mu => -mom_pipi L 0 L.ND mu) L.ND mu = if 2 ∣ L.dims mu then 0 else -1 := by
    intro mu hmu
    have hpos := hL.pos mu hmu
    unfold temp2pi
    rw [if_pos (by omega)]
    simp only [mom_pipi_eq L hmu, Nat.zero_div, Nat.zero_mod]
    split_ifs <;> push_cast at * <;> omega
  have hsite : conjugate_site L 0 = wrap64 (-∑ mu ∈ range L.ND, (if 2 ∣ L.dims mu then 0 else (radix L.dims mu : ℤ))) := by
    unfold conjugate_site get_site_2piBZ
    rw [gen_site_eq L (by omega)]
    congr 1
    unfold lexIndex
    rw [← sum_neg_distrib]
    refine sum_congr rfl fun mu hmu => ?_
    rw [key mu (mem_range.1 hmu)]
    split_ifs <;> ring
  set s : ℤ := ∑ mu ∈ range L.ND, (if 2 ∣ L.dims mu then 0 else (radix L.dims mu : ℤ)) with hs
  have hbig : volume L ≤ conjugate_site L 0 ∧ conjugate_site L 0 ≠ 0 := by
    have hlow : 1 ≤ s := by
      have h1 : (if 2 ∣ L.dims nu then 0 else (radix L.dims nu : ℤ)) ≤ s :=
        single_le_sum (f := fun mu => if 2 ∣ L.dims mu then (0 : ℤ) else (radix L.dims mu : ℤ))
          (fun mu _ => by split_ifs <;> positivity) (mem_range.2 hnu)
      rw [if_neg ho] at h1
      have := hL.radix_pos nu hnu.le
      omega
    have hhigh : s < 2 ^ 63 := by
      have h1 : s ≤ ∑ _mu ∈ range L.ND, (2 ^ 31 : ℤ) := by
        refine sum_le_sum fun mu hmu => ?_
        have := hL.radix_lt (mem_range.1 hmu).le
        split_ifs
        · positivity
        · exact_mod_cast this.le
      rw [sum_const, card_range, nsmul_eq_mul] at h1
      have h2 : (L.ND : ℤ) ≤ 2 ^ 31 := by exact_mod_cast hN
      nlinarith
    have hv : volume L < 2 ^ 31 := by
      rw [volume_eq L hnd]; exact hL.small
    have hc : ((conjugate_site L 0 : ℕ) : ℤ) = 2 ^ 64 - s := by
      rw [hsite, wrap64_cast]
      omega
    omega
  have hstep : fillLoop L (randomFields L p rnd) 1 = none := by
    rw [fillLoop, fillLoop, Option.bind_some]
    unfold fillStep
    dsimp only
    rw [if_neg (by omega), if_neg (by omega), if_neg (by omega)]
  unfold periodic_dft
  have hall : ∀ n, fillLoop L (randomFields L p rnd) (n + 1) = none := by
    intro n
    induction n with
    | zero => exact hstep
    | succ n ih => rw [fillLoop, ih, Option.bind_none]
  exact hall _

/-- The lattice with three directions of extent 4. -/
def L444 : Latt := ⟨3, fun _ => 4⟩

theorem valid_L444 : Valid L444 := ⟨by decide, fun _ _ => by show 0 < 4; decide, by decide⟩

/-- **C96**, three dimensions: the loop that pairs the momenta ends too early.  When the generator hands out `i` for one
momentum and zero otherwise, that momentum and its opposite do not hold conjugate numbers, and the imaginary part that is
dropped from the transform is not zero. -/
theorem C96_three_dimensions : ∃ f, periodic_dft L444 (psq L444) (fun _ i => if i = 17 then I else 0) = some f ∧
    Opposite L444 17 51 ∧ f 0 51 ≠ star (f 0 17) ∧ (small_plan L444 (-1) (f 0) 0).im ≠ 0 := by
  have he : EvenDims L444 L444.ND := fun mu _ => ⟨2, rfl⟩
  obtain ⟨f, hf, hs⟩ := fillLoop_spec valid_L444 he (randomFields L444 (psq L444) fun _ i => if i = 17 then I else 0) 11 (by decide)
  have hz : compute_zeropoint L444 + 1 = 11 := by decide
  have hp : 0 < psq L444 17 := by
    rw [psq_eq valid_L444, if_neg (by decide)]
    have := latticeSq_pos valid_L444 (i := 17) (by decide)
    positivity
  have h17 : f 0 17 = (psq L444 17 : ℂ) * I := by
    rw [hs 0 (by decide) 17 (by decide), if_neg (by decide)]
    unfold randomFields
    beta_reduce
    rw [if_pos rfl]
  have hne : ∀ k < volume L444, k ≠ 17 → f 0 k = 0 := by
    intro k hk hk'
    rw [hs 0 (by decide) k hk]
    have hc : min k (conjugate_site L444 k) < 11 → conjugate_site L444 k ≠ 17 := by
      intro h hc
      have : k = 51 := by
        rw [← conj_invol valid_L444 he hk, hc]; decide
      subst this
      revert h; decide
    split_ifs with h
    · unfold filled randomFields
      beta_reduce
      rw [if_neg hk', if_neg (hc h)]
      simp
    · unfold randomFields
      beta_reduce
      rw [if_neg hk', mul_zero]
  refine ⟨f, by unfold periodic_dft; rw [hz]; exact hf, by decide, ?_, ?_⟩
  · rw [hne 51 (by decide) (by decide), h17]
    intro h
    have := congrArg im h
    simp at this
    exact hp.ne' this
  · rw [small_plan_eq valid_L444, sum_eq_single_of_mem 17 (by decide) (fun k hk hk' => by rw [hne k (mem_range.1 hk) hk', zero_mul]), h17]
    have : phase L444 17 0 = 0 := by
      unfold phase
      refine sum_eq_zero fun mu hmu => ?_
      rw [show coord L444 L444.ND 0 mu = 0 by rw [coord_eq L444 (mem_range.1 hmu)]; simp]
      simp
    rw [this]
    simp
    exact hp.ne'

theorem zeroLoop_eq (L : Latt) (m c : ℕ) (he : ∀ mu ≤ m, 2 ∣ L.dims mu) :
    L.dims 0 * zeroLoop L m c = 2 * (∑ mu ∈ range m, L.dims (mu + 1) / 2 * radix L.dims (mu + 1)) + c * radix L.dims (m + 1) := by
  induction m generalizing c with
  | zero => simp [zeroLoop, radix, mul_comm]
  | succ m ih =>
    obtain ⟨g, hg⟩ := he (m + 1) le_rfl
    have e : radix L.dims (m + 2) = radix L.dims (m + 1) * L.dims (m + 1) := prod_range_succ _ _
    rw [zeroLoop, ih _ fun mu h => he mu (by omega), sum_range_succ, e, hg, Nat.mul_div_cancel_left _ (by omega)]
    ring

theorem zeroLoop_even (L : Latt) (m c : ℕ) (hc : 2 ∣ c) (he : ∀ mu ≤ m, 2 ∣ L.dims mu) : 2 ∣ zeroLoop L m c := by
  induction m generalizing c with
  | zero => exact hc
  | succ m ih => exact ih _ ((he (m + 1) le_rfl).mul_right _) fun mu h => he mu (by omega)

/-- **C96** fails in every number of dimensions other than four: up to half an extent the bound of the loop over the
momenta is smaller by the factor `dims 0` than the index of the momentum with all components `π`, at which half of the
lattice is passed. -/
theorem C96_bound_short {L : Latt} (hL : Valid L) (h4 : L.ND ≠ 4) (he : EvenDims L L.ND) :
    L.dims 0 * compute_zeropoint L + L.dims 0 / 2 = piSite L.dims L.ND := by
  have hnd := hL.nd
  unfold compute_zeropoint
  rw [if_neg h4]
  obtain ⟨m, hm⟩ : ∃ m, L.ND = m + 2 := ⟨L.ND - 2, by omega⟩
  have h1 := zeroLoop_eq L m (L.dims (m + 1)) fun mu h => he mu (by omega)
  have h2 := zeroLoop_even L m (L.dims (m + 1)) (he _ (by omega)) fun mu h => he mu (by omega)
  obtain ⟨k, hk⟩ := h2
  obtain ⟨g, hg⟩ := he (m + 1) (by omega)
  rw [hm, show m + 2 - 2 = m by omega, show m + 2 - 1 = m + 1 by omega]
  unfold piSite
  rw [sum_range_succ', sum_range_succ]
  rw [hk, hg] at h1
  rw [hk, hg, Nat.mul_div_cancel_left _ (by omega), Nat.mul_div_cancel_left _ (by omega)]
  simp only [radix, prod_range_zero, mul_one] at h1 ⊢
  nlinarith

end GLU.U1
