import Verif.Gfix.AccelLemmas
import Verif.Gfix.FADefined

/-!
# C132: Fourier acceleration
-/

namespace GLU.Gfix

open Complex Matrix Finset GLU.Mat GLU.Geom GLU.Field

/-- The lattice of one time slice. -/
def sliceLatt (L : Latt) : Latt := ⟨L.ND - 1, L.dims⟩

theorem slice_valid {L : Latt} (hL : Valid L) (h3 : 3 ≤ L.ND) : Valid (sliceLatt L) := by
  refine ⟨show 2 ≤ L.ND - 1 by omega, fun mu (hmu : mu < L.ND - 1) => hL.pos mu (by omega), ?_⟩
  refine lt_of_le_of_lt ?_ hL.small
  obtain ⟨n, hn⟩ : ∃ n, L.ND = n + 1 := ⟨L.ND - 1, by omega⟩
  show ∏ mu ∈ range (L.ND - 1), L.dims mu ≤ _
  rw [hn, Nat.add_sub_cancel, prod_range_succ]
  exact Nat.le_mul_of_pos_right _ (hL.pos n (by omega))

theorem slice_volume {L : Latt} (h3 : 3 ≤ L.ND) (hL : Valid L) : volume (sliceLatt L) = lcu L := by
  rw [volume_eq _ (slice_valid hL h3).nd, lcu_eq L hL.nd]
  rfl

theorem slice_p_sq (L : Latt) (i : ℕ) : gen_p_sq (sliceLatt L) i (sliceLatt L).ND = gen_p_sq L i (L.ND - 1) := by
  have e : ∀ mu, subvol (sliceLatt L) (L.ND - 1) mu = subvol L (L.ND - 1) mu := by
    intro mu
    induction mu with
    | zero => rfl
    | succ mu ih => unfold subvol; rw [ih]; rfl
  have h : ∀ mu, coord (sliceLatt L) (L.ND - 1) i mu = coord L (L.ND - 1) i mu := by
    intro mu
    unfold coord
    rw [e]
    rfl
  have hk : kcosLoop (sliceLatt L) i (L.ND - 1) = kcosLoop L i (L.ND - 1) := by
    rw [kcosLoop_eq, kcosLoop_eq]
    exact sum_congr rfl fun mu _ => by rw [h]; rfl
  show gen_p_sq (sliceLatt L) i (L.ND - 1) = _
  unfold gen_p_sq
  rw [hk]

theorem helmholtz_congr {L : Latt} (hL : Valid L) {u v : ℕ → ℂ} (h : ∀ y < volume L, u y = v y) {x : ℕ}
    (hx : x < volume L) : helmholtz L u x = helmholtz L v x := by
  unfold helmholtz
  rw [h x hx, sum_congr rfl fun y hy => h y (mem_range.1 hy)]
  congr 1
  exact sum_congr rfl fun nu hnu => by
    rw [h _ (neighbor_lt hL x (mem_range.1 hnu)), h _ (back_lt hL x (mem_range.1 hnu))]

/-- **C132**: the accelerated planes are the solution of the lattice Poisson equation. The mean, which the Laplacian does not
see, is multiplied by `4 ND`. -/
theorem C132_poisson {NC : ℕ} {L : Latt} (hL : Valid L) (inp : Planes) {mu : ℕ} (hmu : mu < TRUE_HERM NC) {x : ℕ}
    (hx : x < volume L) :
    let u := FOURIER_ACCELERATE3 NC L inp mu
    ∑ nu ∈ range L.ND, (2 * u x - u (neighbor L x nu) - u (back L x nu)) + (∑ y ∈ range (volume L), u y) / (volume L : ℂ) =
      4 * (L.ND : ℂ) * inp mu x := by
  intro u
  have hu : ∀ y < volume L, u y = filter L (fun k => 4 * (L.ND : ℝ) / volume L / gen_p_sq L k L.ND) (inp mu) y := fun y hy =>
    if_pos ⟨hmu, hy⟩
  have h := filter_poisson hL (4 * (L.ND : ℝ) / volume L) (inp mu) hx
  have hV : (volume L : ℝ) ≠ 0 := by exact_mod_cast (volume_pos hL).ne'
  rw [div_mul_cancel₀ _ hV] at h
  push_cast at h
  rw [← h]
  exact (helmholtz_congr hL hu hx)

/-- **C132**: the same for a time slice in the Coulomb gauge, with the Laplacian of the slice. -/
theorem C132_slice {NC : ℕ} {L : Latt} (hL : Valid L) (h3 : 3 ≤ L.ND) (inp : Planes) {mu : ℕ} (hmu : mu < TRUE_HERM NC)
    {x : ℕ} (hx : x < lcu L) :
    let u := FOURIER_ACCELERATE2 NC L inp mu
    ∑ nu ∈ range (L.ND - 1), (2 * u x - u (neighbor (sliceLatt L) x nu) - u (back (sliceLatt L) x nu)) +
        (∑ y ∈ range (lcu L), u y) / (lcu L : ℂ) =
      4 * ((L.ND : ℂ) - 1) * inp mu x := by
  intro u
  have hS := slice_valid hL h3
  have hv := slice_volume h3 hL
  have hu : ∀ y < volume (sliceLatt L), u y =
      filter (sliceLatt L) (fun k => 4 * ((L.ND : ℝ) - 1) / lcu L / gen_p_sq (sliceLatt L) k (sliceLatt L).ND) (inp mu) y := by
    intro y hy
    rw [hv] at hy
    simp only [slice_p_sq]
    exact if_pos ⟨hmu, hy⟩
  have h := filter_poisson hS (4 * ((L.ND : ℝ) - 1) / lcu L) (inp mu) (x := x) (by rw [hv]; exact hx)
  have hV : (lcu L : ℝ) ≠ 0 := by
    have := (volume_pos hS).ne'
    rw [hv] at this
    exact_mod_cast this
  rw [hv, div_mul_cancel₀ _ hV] at h
  push_cast at h
  rw [← h]
  rw [← helmholtz_congr hS hu (by rw [hv]; exact hx)]
  unfold helmholtz
  rw [hv]
  rfl

/-! ## The equation has one solution -/

theorem wave_coeff {L : Latt} (hL : Valid L) {g : ℕ → ℂ} (h : ∀ x < volume L, ∑ k ∈ range (volume L), g k * wave L k x = 0)
    {j : ℕ} (hj : j < volume L) : g j = 0 := by
  have hV : (volume L : ℂ) ≠ 0 := by exact_mod_cast (volume_pos hL).ne'
  have h1 : ∑ x ∈ range (volume L), (∑ k ∈ range (volume L), g k * wave L k x) * star (wave L j x) = 0 :=
    sum_eq_zero fun x hx => by rw [h x (mem_range.1 hx), zero_mul]
  simp only [sum_mul] at h1
  rw [sum_comm, sum_eq_single_of_mem j (mem_range.2 hj)] at h1
  · have h2 := sum_wave hL hj hj
    rw [if_pos rfl] at h2
    have h3 : ∑ x ∈ range (volume L), g j * wave L j x * star (wave L j x) = g j * volume L := by
      rw [← h2, mul_sum]
      exact sum_congr rfl fun x _ => by rw [wave_comm L x j]; ring
    rw [h3] at h1
    exact (mul_eq_zero.1 h1).resolve_right hV
  · intro k hk hne
    have h2 := sum_wave hL (mem_range.1 hk) hj
    rw [if_neg (Ne.symm hne)] at h2
    rw [show (0 : ℂ) = g k * 0 by ring, ← h2, mul_sum]
    exact sum_congr rfl fun x _ => by rw [wave_comm L x j, wave_comm L x k]; ring

theorem helmholtz_zero {L : Latt} (hL : Valid L) {u : ℕ → ℂ} (h : ∀ x < volume L, helmholtz L u x = 0) {x : ℕ}
    (hx : x < volume L) : u x = 0 := by
  have hV : (volume L : ℂ) ≠ 0 := by exact_mod_cast (volume_pos hL).ne'
  have e : ∀ y < volume L, u y = ∑ k ∈ range (volume L), (small_plan L (-1) u k / volume L) * wave L k y := by
    intro y hy
    rw [← mul_right_inj' hV, ← inversion hL u hy, mul_sum]
    exact sum_congr rfl fun k _ => by field_simp
  have h1 : ∀ y < volume L, ∑ k ∈ range (volume L),
      (small_plan L (-1) u k / volume L * (gen_p_sq L k L.ND : ℂ)) * wave L k y = 0 := by
    intro y hy
    rw [← h y hy, helmholtz_congr hL e hy, helmholtz_sum]
    refine sum_congr rfl fun k hk => ?_
    rw [helmholtz_wave hL (mem_range.1 hk)]
    ring
  rw [e x hx]
  refine sum_eq_zero fun k hk => ?_
  have hp : (gen_p_sq L k L.ND : ℂ) ≠ 0 := by exact_mod_cast (gen_p_sq_pos hL (mem_range.1 hk)).ne'
  rw [(mul_eq_zero.1 (wave_coeff hL h1 (mem_range.1 hk))).resolve_right hp, zero_mul]

/-- **C132**: the Poisson equation has no other solution, so it says what the acceleration does to every plane. -/
theorem C132_unique {L : Latt} (hL : Valid L) {u v : ℕ → ℂ}
    (h : ∀ x < volume L,
      ∑ nu ∈ range L.ND, (2 * u x - u (neighbor L x nu) - u (back L x nu)) + (∑ y ∈ range (volume L), u y) / (volume L : ℂ) =
      ∑ nu ∈ range L.ND, (2 * v x - v (neighbor L x nu) - v (back L x nu)) + (∑ y ∈ range (volume L), v y) / (volume L : ℂ))
    {x : ℕ} (hx : x < volume L) : u x = v x := by
  refine sub_eq_zero.1 (helmholtz_zero hL (u := fun x => u x - v x) (fun x hx => ?_) hx)
  have := h x hx
  rw [← sub_eq_zero] at this
  rw [← this]
  show ∑ nu ∈ range L.ND, (2 * (u x - v x) - (u (neighbor L x nu) - v (neighbor L x nu)) - (u (back L x nu) - v (back L x nu))) +
    (∑ y ∈ range (volume L), (u y - v y)) / (volume L : ℂ) = _
  rw [sum_sub_distrib (fun y => u y), sub_div, add_sub_add_comm, ← sum_sub_distrib]
  congr 1
  exact sum_congr rfl fun nu _ => by ring

/-! ## Real and positive -/

theorem filter_real {L : Latt} (hL : Valid L) (c : ℝ) {f : ℕ → ℂ} (hf : ∀ y < volume L, star (f y) = f y) {x : ℕ}
    (hx : x < volume L) : star (filter L (fun k => c / gen_p_sq L k L.ND) f x) = filter L (fun k => c / gen_p_sq L k L.ND) f x := by
  refine C132_unique hL (u := fun x => star (filter L (fun k => c / gen_p_sq L k L.ND) f x)) (fun x hx => ?_) hx
  have h := filter_poisson hL c f hx
  have h' := congrArg star h
  rw [star_mul', hf x hx, ← starRingEnd_apply ((_ : ℝ) : ℂ), conj_ofReal, ← h] at h'
  refine Eq.trans ?_ h'
  unfold helmholtz
  simp only [← starRingEnd_apply, map_add, map_sum, map_sub, map_mul, map_div₀, map_natCast, map_ofNat]

/-- The filter is a convolution with real numbers. -/
theorem filter_kernel {L : Latt} (hL : Valid L) (c : ℝ) :
    ∃ G : ℕ → ℕ → ℝ, ∀ (f : ℕ → ℂ), ∀ x < volume L, filter L (fun k => c / gen_p_sq L k L.ND) f x =
      ∑ y ∈ range (volume L), (G x y : ℂ) * f y := by
  refine ⟨fun x y => (filter L (fun k => c / gen_p_sq L k L.ND) (fun z => if z = y then 1 else 0) x).re, fun f x hx => ?_⟩
  have hr : ∀ y, ((filter L (fun k => c / gen_p_sq L k L.ND) (fun z => if z = y then 1 else 0) x).re : ℂ) =
      filter L (fun k => c / gen_p_sq L k L.ND) (fun z => if z = y then 1 else 0) x := fun y =>
    Complex.conj_eq_iff_re.1 (filter_real hL c (fun z _ => by split <;> simp) hx)
  simp only [hr]
  have hd : ∀ y < volume L, ∀ k, small_plan L (-1) (fun z => if z = y then 1 else 0) k = star (wave L k y) := by
    intro y hy k
    rw [forward_eq hL, sum_eq_single_of_mem y (mem_range.2 hy)]
    · rw [if_pos rfl, one_mul]
    · intro z _ hne
      rw [if_neg hne, zero_mul]
  rw [sum_congr rfl fun y hy => by
    rw [filter_eq hL, sum_congr rfl fun k _ => by rw [hd y (mem_range.1 hy)]], filter_eq hL]
  simp only [forward_eq hL, sum_mul]
  rw [sum_comm]
  exact sum_congr rfl fun y _ => sum_congr rfl fun k _ => by ring

theorem filter_parseval {L : Latt} (hL : Valid L) (w : ℕ → ℝ) (f : ℕ → ℂ) :
    ∑ x ∈ range (volume L), star (f x) * filter L w f x =
      ((∑ k ∈ range (volume L), w k * normSq (small_plan L (-1) f k) : ℝ) : ℂ) := by
  simp only [filter_eq hL, mul_sum]
  rw [sum_comm]
  push_cast
  refine sum_congr rfl fun k _ => ?_
  rw [← mul_conj, starRingEnd_apply]
  nth_rewrite 3 [forward_eq hL]
  rw [star_sum, mul_sum, mul_sum]
  refine sum_congr rfl fun x _ => ?_
  rw [star_mul', star_star]
  ring

theorem filter_pos {L : Latt} (hL : Valid L) {c : ℝ} (hc : 0 < c) (f : ℕ → ℂ) :
    0 ≤ (∑ x ∈ range (volume L), star (f x) * filter L (fun k => c / gen_p_sq L k L.ND) f x).re ∧
    ((∑ x ∈ range (volume L), star (f x) * filter L (fun k => c / gen_p_sq L k L.ND) f x).re = 0 →
      ∀ x < volume L, f x = 0) := by
  have hw : ∀ k ∈ range (volume L), 0 < c / gen_p_sq L k L.ND := fun k hk =>
    div_pos hc (gen_p_sq_pos hL (mem_range.1 hk))
  have hn : ∀ k ∈ range (volume L), 0 ≤ c / gen_p_sq L k L.ND * normSq (small_plan L (-1) f k) := fun k hk =>
    mul_nonneg (hw k hk).le (normSq_nonneg _)
  rw [filter_parseval hL, ofReal_re]
  refine ⟨sum_nonneg hn, fun h x hx => ?_⟩
  have hV : (volume L : ℂ) ≠ 0 := by exact_mod_cast (volume_pos hL).ne'
  rw [sum_eq_zero_iff_of_nonneg hn] at h
  have := inversion hL f hx
  rw [sum_eq_zero fun k hk => by
    rw [normSq_eq_zero.1 ((mul_eq_zero.1 (h k hk)).resolve_left (hw k hk).ne'), zero_mul]] at this
  exact (mul_eq_zero.1 this.symm).resolve_left hV

/-! ## The step -/

theorem packedPos_lt {NC r c : ℕ} (hr : r < NC - 1) (hrc : r ≤ c) (hc : c < NC) : packedPos NC r c < HERMSIZE NC := by
  unfold packedPos HERMSIZE
  obtain ⟨m, rfl⟩ : ∃ m, NC = r + (m + 2) := ⟨NC - r - 2, by omega⟩
  obtain ⟨d, rfl⟩ : ∃ d, c = r + d := ⟨c - r, by omega⟩
  have h1 : r * (r - 1) / 2 * 2 = r * (r - 1) := Nat.div_mul_cancel (Nat.even_mul_pred_self r).two_dvd
  have h2 : (r + (m + 2)) * (r + (m + 2) + 1) / 2 * 2 = (r + (m + 2)) * (r + (m + 2) + 1) :=
    Nat.div_mul_cancel (Nat.even_mul_succ_self _).two_dvd
  have h3 : r * (r - 1) + r = r * r := by cases r <;> simp; ring
  generalize r * (r - 1) / 2 = t at *
  generalize (r + (m + 2)) * (r + (m + 2) + 1) / 2 = T at *
  have h4 : r * (r + (m + 2)) = r * r + r * m + 2 * r := by ring
  have h5 : (r + (m + 2)) * (r + (m + 2) + 1) = r * r + 2 * (r * m) + m * m + 5 * r + 5 * m + 6 := by ring
  have h6 : 0 ≤ r * m := Nat.zero_le _
  generalize r * m = p at *
  generalize r * r = q at *
  have h7 : 0 ≤ m * m := Nat.zero_le _
  generalize m * m = o at *
  rw [h4]
  omega

theorem re_comb (s : Finset ℕ) (G : ℕ → ℝ) (z : ℕ → ℂ) : (∑ y ∈ s, (G y : ℂ) * z y).re = ∑ y ∈ s, G y * (z y).re := by
  rw [re_sum]; exact sum_congr rfl fun y _ => re_ofReal_mul _ _

theorem im_comb (s : Finset ℕ) (G : ℕ → ℝ) (z : ℕ → ℂ) : (∑ y ∈ s, (G y : ℂ) * z y).im = ∑ y ∈ s, G y * (z y).im := by
  rw [im_sum]; exact sum_congr rfl fun y _ => im_ofReal_mul _ _

theorem upper_comb {NC : ℕ} (hN : 2 ≤ NC) (s : Finset ℕ) (G : ℕ → ℝ) {u : ℕ → ℂ} {f : ℕ → ℕ → ℂ}
    (h : ∀ mu < TRUE_HERM NC, u mu = ∑ y ∈ s, (G y : ℂ) * f mu y) {r c : ℕ} (hr : r < NC - 1) (hrc : r ≤ c) (hc : c < NC) :
    upper NC u r c = ∑ y ∈ s, (G y : ℂ) * upper NC (fun mu => f mu y) r c := by
  unfold upper
  unfold TRUE_HERM at h
  by_cases h3 : NC = 3
  · subst h3
    simp only [if_true, HERMSIZE] at h ⊢
    have h0 := h 0 (by norm_num)
    split
    · split
      · rw [h0, im_comb]
        push_cast
        rw [mul_sum]
        exact sum_congr rfl fun y _ => by ring
      · rw [h0, re_comb]
        push_cast
        rw [mul_sum]
        exact sum_congr rfl fun y _ => by ring
    · split
      · exact h c (by omega)
      · exact h 3 (by norm_num)
  · rw [if_neg h3] at h
    simp only [if_neg h3]
    by_cases h2 : NC = 2
    · subst h2
      simp only [if_true, HERMSIZE] at h ⊢
      split
      · rw [h 0 (by norm_num), im_comb]
        push_cast
        rw [mul_sum]
        exact sum_congr rfl fun y _ => by ring
      · exact h 1 (by norm_num)
    · simp only [if_neg h2]
      exact h _ (packedPos_lt hr hrc hc)

theorem direction_comb {NC : ℕ} (hN : 2 ≤ NC) (s : Finset ℕ) (G : ℕ → ℝ) {u : ℕ → ℂ} {f : ℕ → ℕ → ℂ}
    (h : ∀ mu < TRUE_HERM NC, u mu = ∑ y ∈ s, (G y : ℂ) * f mu y) :
    direction NC u = ∑ y ∈ s, (G y : ℂ) • direction NC fun mu => f mu y := by
  ext r c
  rw [Matrix.sum_apply]
  simp only [Matrix.smul_apply, smul_eq_mul]
  have hr := r.2
  have hc := c.2
  unfold direction
  split
  · exact upper_comb hN s G h (by omega) (by omega) hc
  · split
    · rw [upper_comb hN s G h (by omega) (by omega) hr, star_sum, ← sum_neg_distrib]
      refine sum_congr rfl fun y _ => ?_
      rw [star_mul', ← starRingEnd_apply ((G y : ℝ) : ℂ), conj_ofReal]
      ring
    · split
      · exact upper_comb hN s G h (by omega) le_rfl hr
      · rw [sum_congr rfl fun k hk => upper_comb hN s G h (mem_range.1 hk) le_rfl (by have := mem_range.1 hk; omega), sum_comm,
          ← sum_neg_distrib]
        exact sum_congr rfl fun y _ => by rw [mul_neg, mul_sum]

theorem accel_eq {NC : ℕ} {L : Latt} (inp : Planes) {mu : ℕ} (hmu : mu < TRUE_HERM NC) {x : ℕ} (hx : x < volume L) :
    FOURIER_ACCELERATE3 NC L inp mu x = filter L (fun k => 4 * (L.ND : ℝ) / volume L / gen_p_sq L k L.ND) (inp mu) x :=
  if_pos ⟨hmu, hx⟩

/-- **C132**: the accelerated step points uphill: the slope of the functional at the start is not negative, and it is zero
only where the functional is stationary under every gauge transformation. -/
theorem C132_uphill {NC : ℕ} (hN : 2 ≤ NC) (hN' : NC ≤ 18) {L : Latt} (hL : Valid L) (scratch : Arr ℂ) (red : Red)
    {lat : Gauge} (hU : SUField NC L lat) :
    ∃ (path : ℝ → Gauge) (slope : ℝ),
      (∀ t, egauge_Landau NC L scratch (FOURIER_ACCELERATE3 NC L (FA_deriv NC L scratch red lat).2) t lat = some (path t)) ∧
      (∀ i < volume L, ∀ mu < L.ND, link NC (path 0) i mu = link NC lat i mu) ∧
      HasDerivAt (fun t => linkSum NC (path t) (range (volume L)) L.ND) slope 0 ∧ 0 ≤ slope ∧
      (slope = 0 ↔ Critical NC L lat L.ND) := by
  have hc : (0 : ℝ) < 4 * (L.ND : ℝ) / volume L := by
    have h1 : (0 : ℝ) < L.ND := by exact_mod_cast (show 0 < L.ND by have := hL.nd; omega)
    have h2 : (0 : ℝ) < volume L := by exact_mod_cast volume_pos hL
    positivity
  obtain ⟨G, hG⟩ := filter_kernel hL (4 * (L.ND : ℝ) / volume L)
  set inp := (FA_deriv NC L scratch red lat).2 with hinp
  set D : ℕ → Matrix (Fin NC) (Fin NC) ℂ := fun i => divergence NC L lat i L.ND with hD
  have hu : ∀ x < volume L, ∀ mu < TRUE_HERM NC, FOURIER_ACCELERATE3 NC L inp mu x =
      ∑ y ∈ range (volume L), (G x y : ℂ) * inp mu y := fun x hx mu hmu => by
    rw [accel_eq inp hmu hx, hG _ x hx]
  have hdir : ∀ y < volume L, direction NC (fun mu => inp mu y) = I • D y := fun y hy =>
    direction_deriv hN hL scratch hU hy
  have hdiv := fun i => divergence_herm (NC := NC) L lat i L.ND
  obtain ⟨path, h1, h2, h3⟩ := C82_slope (A := fun x => ∑ y ∈ range (volume L), (G x y : ℂ) • D y) hN hN' hL scratch
    (inp := FOURIER_ACCELERATE3 NC L inp) hU (fun x hx h4 r hr => by
      show (FOURIER_ACCELERATE3 NC L inp (packedPos NC r r) x).re = 0
      rw [hu x hx _ (by
        unfold TRUE_HERM
        rw [if_neg (by omega)]
        exact packedPos_lt hr le_rfl (by omega)), re_comb]
      refine sum_eq_zero fun y hy => ?_
      have : (inp (packedPos NC r r) y).re = 0 :=
        derivPlanes_imag hN hL scratch hU (mem_range.1 hy) h4 r hr
      rw [this, mul_zero]) (fun x hx => by
      rw [direction_comb hN (range (volume L)) (G x) (f := inp) (fun mu hmu => hu x hx mu hmu), smul_sum]
      refine sum_congr rfl fun y hy => ?_
      rw [hdir y (mem_range.1 hy), smul_comm])
  have hslope : (∑ x ∈ range (volume L), ((∑ y ∈ range (volume L), (G x y : ℂ) • D y) * D x).trace.re) =
      ∑ a, ∑ b, (∑ x ∈ range (volume L), star (D x a b) *
        filter L (fun k => 4 * (L.ND : ℝ) / volume L / gen_p_sq L k L.ND) (fun y => D y a b) x).re := by
    simp only [re_sum]
    have e : ∀ x ∈ range (volume L), ((∑ y ∈ range (volume L), (G x y : ℂ) • D y) * D x).trace.re =
        ∑ a, ∑ b, (star (D x a b) *
          filter L (fun k => 4 * (L.ND : ℝ) / volume L / gen_p_sq L k L.ND) (fun y => D y a b) x).re := by
      intro x hx
      unfold Matrix.trace
      rw [re_sum]
      refine sum_congr rfl fun a _ => ?_
      rw [diag_apply, Matrix.mul_apply, re_sum]
      refine sum_congr rfl fun b _ => ?_
      rw [hG _ x (mem_range.1 hx), Matrix.sum_apply, show star (D x a b) = D x b a from (hdiv x).1.apply b a]
      simp only [Matrix.smul_apply, smul_eq_mul]
      rw [mul_comm]
    rw [sum_congr rfl e, sum_comm]
    refine sum_congr rfl fun a _ => ?_
    rw [sum_comm]
  have hcrit : Critical NC L lat L.ND ↔ ∀ x < volume L, D x = 0 := by
    rw [← (C80_zero hN hL scratch hU le_rfl).2.1, C80_theta hN hL scratch hU le_rfl]
    have hc' : (4 / (NC * volume L) : ℝ) ≠ 0 := by
      have : (0 : ℝ) < NC := by exact_mod_cast (show 0 < NC by omega)
      have : (0 : ℝ) < volume L := by exact_mod_cast volume_pos hL
      positivity
    rw [Option.some_inj, mul_eq_zero, or_iff_right hc',
      sum_eq_zero_iff_of_nonneg fun i _ => herm_sq_nonneg (hdiv i).1]
    exact ⟨fun h x hx => (herm_sq_zero (hdiv x).1).1 (h x (mem_range.2 hx)),
      fun h x hx => (herm_sq_zero (hdiv x).1).2 (h x (mem_range.1 hx))⟩
  have hpos : ∀ a b, 0 ≤ (∑ x ∈ range (volume L), star (D x a b) *
        filter L (fun k => 4 * (L.ND : ℝ) / volume L / gen_p_sq L k L.ND) (fun y => D y a b) x).re := fun a b =>
    (filter_pos hL hc fun y => D y a b).1
  refine ⟨path, _, h1, h2, h3, ?_, ?_⟩
  · rw [hslope]
    exact sum_nonneg fun a _ => sum_nonneg fun b _ => hpos a b
  · rw [hslope, hcrit, sum_eq_zero_iff_of_nonneg fun a _ => sum_nonneg fun b _ => hpos a b]
    constructor
    · intro h x hx
      ext a b
      have := h a (mem_univ a)
      rw [sum_eq_zero_iff_of_nonneg fun b _ => hpos a b] at this
      exact (filter_pos hL hc fun y => D y a b).2 (this b (mem_univ b)) x hx
    · intro h a _
      refine sum_eq_zero fun b _ => ?_
      rw [sum_eq_zero fun x hx => by rw [h x (mem_range.1 hx)]; simp]
      rfl

/-- **C132**: so a short enough accelerated step raises the functional of every field that is not stationary. -/
theorem C132_raises {NC : ℕ} (hN : 2 ≤ NC) (hN' : NC ≤ 18) {L : Latt} (hL : Valid L) (scratch : Arr ℂ) (red : Red)
    {lat : Gauge} (hU : SUField NC L lat) (hc : ¬ Critical NC L lat L.ND) :
    ∃ e > 0, ∀ t, 0 < t → t < e → ∃ lat',
      egauge_Landau NC L scratch (FOURIER_ACCELERATE3 NC L (FA_deriv NC L scratch red lat).2) t lat = some lat' ∧
      linkSum NC lat (range (volume L)) L.ND < linkSum NC lat' (range (volume L)) L.ND := by
  obtain ⟨path, s, h1, h2, h3, h4, h6⟩ := C132_uphill hN hN' hL scratch red hU
  have hs : 0 < s := lt_of_le_of_ne h4 fun h => hc (h6.1 h.symm)
  have h7 := (hasDerivAt_iff_tendsto_slope.1 h3).eventually (lt_mem_nhds hs)
  rw [eventually_nhdsWithin_iff, Metric.eventually_nhds_iff] at h7
  obtain ⟨e, he, h7⟩ := h7
  refine ⟨e, he, fun t ht hte => ⟨_, h1 t, ?_⟩⟩
  have h8 := h7 (y := t) (by rw [Real.dist_eq, sub_zero, abs_of_pos ht]; exact hte) ht.ne'
  rw [slope_def_field, sub_zero] at h8
  have h9 : linkSum NC (path 0) (range (volume L)) L.ND = linkSum NC lat (range (volume L)) L.ND := by
    unfold linkSum
    exact sum_congr rfl fun i hi => sum_congr rfl fun mu hmu => by rw [h2 i (mem_range.1 hi) mu (mem_range.1 hmu)]
  rw [h9] at h8
  have := (div_pos_iff_of_pos_right ht).1 h8
  linarith

/-- The acceleration does not turn a direction into zero. -/
theorem accel_faithful {NC : ℕ} (hN : 2 ≤ NC) {L : Latt} (hL : Valid L) : Faithful NC L (FOURIER_ACCELERATE3 NC L) := by
  intro inp h x hx
  obtain ⟨G, hG⟩ := filter_kernel hL (4 * (L.ND : ℝ) / volume L)
  have hc : (0 : ℝ) < 4 * (L.ND : ℝ) / volume L * volume L := by
    have h1 : (0 : ℝ) < L.ND := by exact_mod_cast (show 0 < L.ND by have := hL.nd; omega)
    have h2 : (0 : ℝ) < volume L := by exact_mod_cast volume_pos hL
    positivity
  ext a b
  have h0 : ∀ y < volume L, filter L (fun k => 4 * (L.ND : ℝ) / volume L / gen_p_sq L k L.ND)
      (fun z => direction NC (fun mu => inp mu z) a b) y = 0 := by
    intro y hy
    have h1 := h y hy
    rw [direction_comb hN (range (volume L)) (G y) (f := inp)
      (fun mu hmu => by rw [accel_eq inp hmu hy, hG _ y hy])] at h1
    have h2 := congrFun (congrFun h1 a) b
    rw [Matrix.sum_apply] at h2
    rw [hG _ y hy]
    simpa only [Matrix.smul_apply, smul_eq_mul, Matrix.zero_apply] using h2
  have h1 := filter_poisson hL (4 * (L.ND : ℝ) / volume L) (fun z => direction NC (fun mu => inp mu z) a b) hx
  rw [helmholtz_congr hL (v := fun _ => 0) h0 hx] at h1
  have h2 : helmholtz L (fun _ => 0) x = 0 := by simp [helmholtz]
  rw [h2] at h1
  exact (mul_eq_zero.1 h1.symm).resolve_left (by exact_mod_cast hc.ne')

/-- **C132**: two and three colours: a run of the accelerated conjugate gradient started at a field that is not stationary
never divides by zero. -/
theorem C132_facg_defined {P : FaParams} (hN : P.NC = 2 ∨ P.NC = 3) (hL : Valid P.L)
    (hacc : P.accel = FOURIER_ACCELERATE3 P.NC P.L) {acc : ℝ} (ha : 0 ≤ acc) (max_iters : ℕ) {red : Red} (hr : 0 ≤ red 3)
    {lat : Gauge} (hU : SUField P.NC P.L lat) (hc : ¬ Critical P.NC P.L lat P.L.ND) :
    ∃ r, steep_Landau_FACG P acc max_iters red lat = some r :=
  facg_defined hN hL (by rw [hacc]; exact accel_faithful (by omega) hL) ha max_iters hr hU hc

/-- A field that is not stationary, in which one link differs from one: the accelerated conjugate gradient is defined. -/
example : ∃ r, steep_Landau_FACG ⟨2, L2345, fun _ => 0, FOURIER_ACCELERATE3 2 L2345, 5e-11, 0.08⟩ 0 10 (fun _ => 0) spike =
    some r :=
  C132_facg_defined (.inl rfl) valid_L2345 rfl le_rfl 10 le_rfl (spike_su _) spike_not_critical

/-- Its functional is raised by short accelerated steps. -/
example := C132_raises (by norm_num) (by norm_num) valid_L2345 (fun _ => 0) (fun _ => 0) (spike_su L2345) spike_not_critical

/-- A plane with the value one at the first site of the lattice of extents 2, 3, 4 and 5. -/
example := C132_poisson (NC := 3) valid_L2345 (fun _ i => if i = 0 then 1 else 0) (mu := 0) (by decide) (x := 0) (by decide)

example := C132_slice (NC := 3) valid_L2345 (by decide) (fun _ i => if i = 0 then 1 else 0) (mu := 3) (by decide) (x := 7)
  (by decide)

end GLU.Gfix
