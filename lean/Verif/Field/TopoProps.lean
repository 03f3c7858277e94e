import Verif.Field.TopoLemmas
import Verif.Field.LinksProps
import Verif.Field.ChargeThreads
import Mathlib.Analysis.Real.Pi.Bounds

/-!
# C86: the topological charge correlator
-/

namespace GLU.Field

open Complex Finset GLU.Mat GLU.Geom

/-! ## Specification -/

/-- The charge density is real. -/
def RealDensity (L : Latt) (q : ℕ → ℂ) : Prop := ∀ i < volume L, (q i).im = 0

/-- The correlator of a density at the separation given by the coordinates of the site `r`. -/
noncomputable def chargeCorr (L : Latt) (q : ℕ → ℂ) (r : ℕ) : ℝ :=
  ∑ x ∈ range (volume L), ∑ y ∈ range (volume L), if Shifted L r y x then (q x).re * (q y).re else 0

/-- The sum of a density over the sites with coordinate `t` in the direction `dir`. -/
noncomputable def sliceCharge (L : Latt) (q : ℕ → ℂ) (dir t : ℕ) : ℝ :=
  ∑ x ∈ range (volume L), if coord L L.ND x dir = t then (q x).re else 0

/-- The sum of a density over all sites. -/
noncomputable def totalCharge (L : Latt) (q : ℕ → ℂ) : ℝ := ∑ x ∈ range (volume L), (q x).re

/-! ## Geometry -/

/-- For every `y` and `r` there is exactly one site `x` that is `y` moved by `r`. -/
theorem spacing_shifted {L : Latt} (hL : Valid L) (r y : ℕ) :
    compute_spacing L (fun mu => (coord L L.ND r mu : ℤ)) y L.ND < volume L ∧
      ∀ x < volume L, Shifted L r y x ↔ x = compute_spacing L (fun mu => (coord L L.ND r mu : ℤ)) y L.ND := by
  have h31 : ∀ mu < L.ND, (coord L L.ND r mu : ℤ) < 2 ^ 31 := by
    intro mu hmu
    have h1 := coord_lt L hL.pos L.ND r hmu
    have h2 : L.dims mu ≤ radix L.dims L.ND := Nat.le_of_dvd (hL.radix_pos _ le_rfl)
      (Dvd.dvd.trans (Dvd.intro_left _ rfl) (dvd_radix L.dims hmu))
    have h3 := hL.radix_lt (le_refl L.ND)
    have : coord L L.ND r mu < 2 ^ 31 := by omega
    exact_mod_cast this
  obtain ⟨h1, h2⟩ := C04_translation_partial hL (DIMS := L.ND) (Or.inl rfl) (fun mu => (coord L L.ND r mu : ℤ)) y
    (fun mu hmu => ⟨by have := Int.natCast_nonneg (coord L L.ND r mu); have := Int.natCast_nonneg (L.dims mu); omega, h31 mu hmu⟩)
  have hv : compute_spacing L (fun mu => (coord L L.ND r mu : ℤ)) y L.ND < volume L := by
    rw [volume_eq L hL.nd]; exact h1
  refine ⟨hv, fun x hx => ⟨fun h => site_ext hL hx hv fun mu hmu => ?_, fun h mu hmu => ?_⟩⟩
  · have a := h2 mu hmu
    rw [h mu hmu]
    exact_mod_cast a.symm
  · have a := h2 mu hmu
    rw [h]
    exact_mod_cast a

/-- The site `x - y`. -/
theorem separation {L : Latt} (hL : Valid L) {x y : ℕ} (hx : x < volume L) (hy : y < volume L) :
    ∃ r < volume L, Shifted L r y x ∧ ∀ r' < volume L, Shifted L r' y x → r' = r := by
  have hlt : ∀ mu < L.ND, (coord L L.ND x mu + L.dims mu - coord L L.ND y mu) % L.dims mu < L.dims mu :=
    fun mu hmu => Nat.mod_lt _ (hL.pos mu hmu)
  have hin : InRange L fun mu => (((coord L L.ND x mu + L.dims mu - coord L L.ND y mu) % L.dims mu : ℕ) : ℤ) :=
    fun mu hmu => ⟨Int.natCast_nonneg _, Int.ofNat_lt.2 (hlt mu hmu)⟩
  have h1 := gen_site_lt hL hin
  have hz := fun mu hmu => coord_gen_site hL hin (mu := mu) hmu
  set r := gen_site L fun mu => (((coord L L.ND x mu + L.dims mu - coord L L.ND y mu) % L.dims mu : ℕ) : ℤ) with hr
  have hc : ∀ mu < L.ND, coord L L.ND r mu = (coord L L.ND x mu + L.dims mu - coord L L.ND y mu) % L.dims mu := by
    intro mu hmu
    exact Int.ofNat_inj.1 (hz mu hmu)
  refine ⟨r, h1, fun mu hmu => ?_, fun r' hr' h => site_ext hL hr' h1 fun mu hmu => ?_⟩
  · have a := coord_lt L hL.pos L.ND x hmu
    have b := coord_lt L hL.pos L.ND y hmu
    rw [hc mu hmu, Nat.add_mod_mod, show coord L L.ND y mu + (coord L L.ND x mu + L.dims mu - coord L L.ND y mu) =
      coord L L.ND x mu + L.dims mu by omega, Nat.add_mod_right, Nat.mod_eq_of_lt a]
  · have a := coord_lt L hL.pos L.ND r' hmu
    have b := coord_lt L hL.pos L.ND y hmu
    rw [hc mu hmu, h mu hmu]
    have e : (coord L L.ND y mu + coord L L.ND r' mu) % L.dims mu =
        if coord L L.ND y mu + coord L L.ND r' mu < L.dims mu then coord L L.ND y mu + coord L L.ND r' mu
        else coord L L.ND y mu + coord L L.ND r' mu - L.dims mu := by
      split
      · next h => exact Nat.mod_eq_of_lt h
      · next h => rw [Nat.mod_eq_sub_mod (by omega), Nat.mod_eq_of_lt (by omega)]
    rw [e]
    split
    · rw [show coord L L.ND y mu + coord L L.ND r' mu + L.dims mu - coord L L.ND y mu = coord L L.ND r' mu + L.dims mu by omega,
        Nat.add_mod_right, Nat.mod_eq_of_lt a]
    · rw [show coord L L.ND y mu + coord L L.ND r' mu - L.dims mu + L.dims mu - coord L L.ND y mu = coord L L.ND r' mu by omega,
        Nat.mod_eq_of_lt a]

theorem coord_last {L : Latt} (hL : Valid L) {t i : ℕ} (ht : t < L.dims (L.ND - 1)) (hi : i < lcu L) :
    coord L L.ND (lcu L * t + i) (L.ND - 1) = t := by
  have hnd := hL.nd
  rw [coord_eq L (by omega), ← lcu_eq L hnd, Nat.mul_add_div (by omega), Nat.div_eq_of_lt hi, Nat.add_zero, Nat.mod_eq_of_lt ht]

/-- A sum over a time slice. -/
theorem sum_time {L : Latt} (hL : Valid L) {t : ℕ} (ht : t < L.dims (L.ND - 1)) (f : ℕ → ℝ) :
    ∑ i ∈ range (lcu L), f (lcu L * t + i) = ∑ r ∈ range (volume L), if coord L L.ND r (L.ND - 1) = t then f r else 0 := by
  unfold volume
  rw [sum_range_mul, sum_eq_single_of_mem t (mem_range.2 ht)]
  · exact sum_congr rfl fun i hi => by rw [if_pos (coord_last hL ht (mem_range.1 hi))]
  · intro c hc hne
    exact sum_eq_zero fun i hi => by rw [if_neg (by rw [coord_last hL (mem_range.1 hc) (mem_range.1 hi)]; exact hne)]

/-! ## Theorems -/

/-- **C86**, the correlator of a build without FFTW: for every separation the sum over all pairs of sites of that separation. -/
theorem C86_direct {L : Latt} (hL : Valid L) {q : ℕ → ℂ} (hq : RealDensity L q) (idx : ℕ) :
    (compute_Qcorr false L q).1 idx = NORM ^ 2 * chargeCorr L q idx := by
  show qcorr_direct L q idx = _
  unfold qcorr_direct chargeCorr NORMSQ
  rw [forN_sum, zero_add, mul_comm, pow_two, sum_comm]
  congr 1
  refine sum_congr rfl fun y hy => ?_
  obtain ⟨h1, h2⟩ := spacing_shifted hL idx y
  rw [sum_eq_single_of_mem _ (mem_range.2 h1)]
  · rw [if_pos ((h2 _ h1).2 rfl), mul_re, hq y (mem_range.1 hy), zero_mul, sub_zero, mul_comm]
  · intro x hx hne
    exact if_neg fun h => hne ((h2 x (mem_range.1 hx)).1 h)

/-- **C86**, where the density comes from: for two and three colours in four dimensions the density computed from a field of
special unitary links is real. -/
theorem C86_real {NC : ℕ} (hN : NC = 2 ∨ NC = 3) {L : Latt} (hL : Valid L) (h4 : L.ND = 4) (df : FmunuDef) {lat : Gauge}
    (hU : SUField NC L lat) {q : ℕ → ℂ} (h : ∀ i < volume L, compute_Gmunu_array NC L df lat i = some (q i)) :
    RealDensity L q := by
  intro i hi
  have e := h i hi
  rw [C76_density_site_partial hN hL h4 df hU hi] at e
  rw [← Option.some.inj e, ofReal_im]

/-- What is left in the array of a build with FFTW: the correlator, for every separation. -/
theorem fft_corr {L : Latt} (hL : Valid L) {q : ℕ → ℂ} (hq : RealDensity L q) (r : ℕ) :
    qcorr_fft L q r = ((NORM ^ 2 * chargeCorr L q r : ℝ) : ℂ) := by
  have hV : (volume L : ℂ) ≠ 0 := by
    have := volume_pos hL
    exact_mod_cast this.ne'
  unfold qcorr_fft
  rw [convolution hL]
  unfold chargeCorr NORMSQ
  push_cast
  rw [div_mul_cancel₀ _ hV, pow_two]
  congr 1
  refine sum_congr rfl fun x hx => sum_congr rfl fun y hy => ?_
  split
  · apply Complex.ext
    · simp [hq x (mem_range.1 hx)]
    · simp [hq x (mem_range.1 hx), hq y (mem_range.1 hy)]
  · simp

/-- **C86**, the correlator of a build with FFTW is the same. -/
theorem C86_fft {L : Latt} (hL : Valid L) {q : ℕ → ℂ} (hq : RealDensity L q) (idx : ℕ) :
    (compute_Qcorr true L q).1 idx = NORM ^ 2 * chargeCorr L q idx := by
  show (qcorr_fft L q idx).re = _
  rw [fft_corr hL hq, ofReal_re]

/-- **C86**, what the correlator must be consistent with: at separation zero it is the printed sum of squares, it is nowhere
larger, and its sum over all separations is the printed square of the charge. -/
theorem C86_consistent {L : Latt} (hL : Valid L) {q : ℕ → ℂ} (hq : RealDensity L q) (fft : Bool) :
    (printedQ L q).1 = NORM * totalCharge L q ∧
    (compute_Qcorr fft L q).1 0 = (printedQ L q).2.2 ∧
    (∀ r < volume L, |(compute_Qcorr fft L q).1 r| ≤ (compute_Qcorr fft L q).1 0) ∧
    ∑ r ∈ range (volume L), (compute_Qcorr fft L q).1 r = (printedQ L q).2.1 := by
  have e : ∀ r, (compute_Qcorr fft L q).1 r = NORM ^ 2 * chargeCorr L q r := fun r => by
    cases fft
    · exact C86_direct hL hq r
    · exact C86_fft hL hq r
  have hV := volume_pos hL
  have c0 : ∀ mu, coord L L.ND 0 mu = 0 := fun mu => by unfold coord; simp
  have z : chargeCorr L q 0 = ∑ x ∈ range (volume L), (q x).re * (q x).re := by
    unfold chargeCorr
    refine sum_congr rfl fun x hx => ?_
    have hs : ∀ y ∈ range (volume L), (if Shifted L 0 y x then (q x).re * (q y).re else 0) =
        if x = y then (q x).re * (q y).re else 0 := by
      intro y hy
      refine if_congr ⟨fun h => site_ext hL (mem_range.1 hx) (mem_range.1 hy) fun mu hmu => ?_, fun h mu hmu => ?_⟩ rfl rfl
      · rw [h mu hmu, c0, Nat.add_zero, Nat.mod_eq_of_lt (coord_lt L hL.pos _ _ hmu)]
      · rw [h, c0, Nat.add_zero, Nat.mod_eq_of_lt (coord_lt L hL.pos _ _ hmu)]
    rw [sum_congr rfl hs, sum_ite_eq, if_pos hx]
  have p := forN_sum2 (volume L) (fun i => (q i).re) (fun i => (q i * q i).re) (0, 0)
  have p1 : (printedQ L q).1 = NORM * totalCharge L q := by
    unfold printedQ totalCharge
    dsimp only
    rw [p]
    dsimp only
    rw [zero_add, mul_comm]
  have p2 : (printedQ L q).2.1 = NORM ^ 2 * totalCharge L q ^ 2 := by
    unfold printedQ totalCharge NORMSQ
    dsimp only
    rw [p]
    dsimp only
    rw [zero_add]
    ring
  have p3 : (printedQ L q).2.2 = NORM ^ 2 * ∑ x ∈ range (volume L), (q x).re * (q x).re := by
    unfold printedQ NORMSQ
    dsimp only
    rw [p]
    dsimp only
    rw [zero_add, mul_comm, pow_two]
    congr 1
    exact sum_congr rfl fun x hx => by rw [mul_re, hq x (mem_range.1 hx), zero_mul, sub_zero]
  have one_sum : ∀ (r : ℕ) (f : ℕ → ℝ), ∑ x ∈ range (volume L), ∑ y ∈ range (volume L), (if Shifted L r y x then f y else 0) =
      ∑ y ∈ range (volume L), f y := by
    intro r f
    rw [sum_comm]
    refine sum_congr rfl fun y _ => ?_
    obtain ⟨h1, h2⟩ := spacing_shifted hL r y
    rw [sum_eq_single_of_mem _ (mem_range.2 h1), if_pos ((h2 _ h1).2 rfl)]
    intro x hx hne
    exact if_neg fun h => hne ((h2 x (mem_range.1 hx)).1 h)
  refine ⟨p1, by rw [e, z, p3], fun r hr => ?_, ?_⟩
  · rw [e, e, z, abs_mul, abs_of_nonneg (sq_nonneg NORM)]
    refine mul_le_mul_of_nonneg_left ?_ (sq_nonneg NORM)
    have b1 : |chargeCorr L q r| ≤ ∑ x ∈ range (volume L), ∑ y ∈ range (volume L),
        (if Shifted L r y x then ((q x).re * (q x).re + (q y).re * (q y).re) / 2 else 0) := by
      unfold chargeCorr
      refine (abs_sum_le_sum_abs _ _).trans (sum_le_sum fun x _ => (abs_sum_le_sum_abs _ _).trans (sum_le_sum fun y _ => ?_))
      split
      · rw [abs_le]
        constructor
        · nlinarith [mul_self_nonneg ((q x).re + (q y).re)]
        · nlinarith [mul_self_nonneg ((q x).re - (q y).re)]
      · simp
    have b2 : ∑ x ∈ range (volume L), ∑ y ∈ range (volume L),
        (if Shifted L r y x then ((q x).re * (q x).re + (q y).re * (q y).re) / 2 else 0) =
        ∑ x ∈ range (volume L), (q x).re * (q x).re := by
      have h1 := one_sum r (fun y => (q y).re * (q y).re / 2)
      have h2 : ∑ x ∈ range (volume L), ∑ y ∈ range (volume L), (if Shifted L r y x then (q x).re * (q x).re / 2 else 0) =
          ∑ x ∈ range (volume L), (q x).re * (q x).re / 2 := by
        refine sum_congr rfl fun x hx => ?_
        -- the site that is moved to `x`
        obtain ⟨y0, hy0, hs, hu⟩ : ∃ y0 < volume L, Shifted L r y0 x ∧ ∀ y < volume L, Shifted L r y x → y = y0 := by
          obtain ⟨y0, hy0, hs, hu⟩ := separation hL (mem_range.1 hx) hr
          have sw : ∀ a b, Shifted L a b x ↔ Shifted L b a x := fun a b => by
            unfold Shifted
            exact forall_congr' fun mu => forall_congr' fun _ => by rw [Nat.add_comm]
          exact ⟨y0, hy0, (sw _ _).1 hs, fun y hy h => hu y hy ((sw _ _).1 h)⟩
        rw [sum_eq_single_of_mem y0 (mem_range.2 hy0), if_pos hs]
        intro y hy hne
        exact if_neg fun h => hne (hu y (mem_range.1 hy) h)
      have h3 : ∀ x y, (if Shifted L r y x then ((q x).re * (q x).re + (q y).re * (q y).re) / 2 else 0) =
          (if Shifted L r y x then (q x).re * (q x).re / 2 else 0) + (if Shifted L r y x then (q y).re * (q y).re / 2 else 0) := by
        intro x y
        split
        · ring
        · ring
      simp only [h3, sum_add_distrib]
      rw [h1, h2, ← sum_add_distrib]
      exact sum_congr rfl fun x _ => by ring
    exact b1.trans b2.le
  · rw [sum_congr rfl fun r _ => e r, ← mul_sum, p2]
    congr 1
    unfold chargeCorr totalCharge
    rw [sum_comm, pow_two, sum_mul_sum]
    refine sum_congr rfl fun x hx => ?_
    rw [sum_comm]
    refine sum_congr rfl fun y hy => ?_
    obtain ⟨r, hr, hs, hu⟩ := separation hL (mem_range.1 hx) (mem_range.1 hy)
    rw [sum_eq_single_of_mem r (mem_range.2 hr), if_pos hs]
    intro r' hr' hne
    exact if_neg fun h => hne (hu r' (mem_range.1 hr') h)

/-- **C86**, the temporal correlator of a build with FFTW: the correlator of the charges of the time slices. -/
theorem C86_temporal {L : Latt} (hL : Valid L) {q : ℕ → ℂ} (hq : RealDensity L q) {t : ℕ} (ht : t < L.dims (L.ND - 1)) :
    (compute_Qcorr true L q).2 t = NORM ^ 2 * ∑ s ∈ range (L.dims (L.ND - 1)),
      sliceCharge L q (L.ND - 1) ((s + t) % L.dims (L.ND - 1)) * sliceCharge L q (L.ND - 1) s := by
  have hnd := hL.nd
  show temporal_correlator L (qcorr_fft L q) t = _
  unfold temporal_correlator
  rw [forN_sum, zero_add, sum_time hL ht (fun r => (qcorr_fft L q r).re)]
  have e1 : ∀ r ∈ range (volume L), (if coord L L.ND r (L.ND - 1) = t then (qcorr_fft L q r).re else 0) =
      NORM ^ 2 * ∑ x ∈ range (volume L), ∑ y ∈ range (volume L),
        if Shifted L r y x then (if coord L L.ND r (L.ND - 1) = t then (q x).re * (q y).re else 0) else 0 := by
    intro r _
    rw [fft_corr hL hq, ofReal_re]
    unfold chargeCorr
    split
    · rfl
    · simp
  rw [sum_congr rfl e1, ← mul_sum]
  congr 1
  have e2 : ∑ r ∈ range (volume L), ∑ x ∈ range (volume L), ∑ y ∈ range (volume L),
      (if Shifted L r y x then (if coord L L.ND r (L.ND - 1) = t then (q x).re * (q y).re else 0) else 0) =
      ∑ x ∈ range (volume L), ∑ y ∈ range (volume L),
        if coord L L.ND x (L.ND - 1) = (coord L L.ND y (L.ND - 1) + t) % L.dims (L.ND - 1) then (q x).re * (q y).re else 0 := by
    rw [sum_comm]
    refine sum_congr rfl fun x hx => ?_
    rw [sum_comm]
    refine sum_congr rfl fun y hy => ?_
    obtain ⟨r, hr, hs, hu⟩ := separation hL (mem_range.1 hx) (mem_range.1 hy)
    rw [sum_eq_single_of_mem r (mem_range.2 hr), if_pos hs]
    · refine if_congr ?_ rfl rfl
      have h1 := hs (L.ND - 1) (by omega)
      have h2 := coord_lt L hL.pos L.ND r (show L.ND - 1 < L.ND by omega)
      rw [h1]
      constructor
      · intro h; rw [h]
      · intro h
        have h' : coord L L.ND r (L.ND - 1) % L.dims (L.ND - 1) = t % L.dims (L.ND - 1) :=
          Nat.ModEq.add_left_cancel' _ (h : (_ + _) ≡ (_ + _) [MOD _])
        rwa [Nat.mod_eq_of_lt h2, Nat.mod_eq_of_lt ht] at h'
    · intro r' hr' hne
      exact if_neg fun h => hne (hu r' (mem_range.1 hr') h)
  rw [e2]
  have e3 : ∀ s, sliceCharge L q (L.ND - 1) ((s + t) % L.dims (L.ND - 1)) * sliceCharge L q (L.ND - 1) s =
      ∑ x ∈ range (volume L), ∑ y ∈ range (volume L), if coord L L.ND y (L.ND - 1) = s then
        (if coord L L.ND x (L.ND - 1) = (s + t) % L.dims (L.ND - 1) then (q x).re * (q y).re else 0) else 0 := by
    intro s
    unfold sliceCharge
    rw [sum_mul_sum]
    refine sum_congr rfl fun x _ => sum_congr rfl fun y _ => ?_
    split
    · split <;> simp
    · simp
  rw [sum_congr rfl fun s _ => e3 s]
  symm
  rw [sum_comm]
  refine sum_congr rfl fun x _ => ?_
  rw [sum_comm]
  refine sum_congr rfl fun y _ => ?_
  rw [sum_ite_eq, if_pos (mem_range.2 (coord_lt L hL.pos L.ND y (by omega)))]

/-- C86, the temporal correlator of a build without FFTW is not a correlator: it is the charge of the slice without its
normalisation. -/
theorem C86_temporal_partial {L : Latt} (hL : Valid L) (q : ℕ → ℂ) {t : ℕ} (ht : t < L.dims (L.ND - 1)) :
    (compute_Qcorr false L q).2 t = sliceCharge L q (L.ND - 1) t := by
  show temporal_correlator L q t = _
  unfold temporal_correlator sliceCharge
  rw [forN_sum, zero_add, sum_time hL ht (fun r => (q r).re)]

theorem slice_const {L : Latt} (hL : Valid L) {t : ℕ} (ht : t < L.dims (L.ND - 1)) :
    sliceCharge L (fun _ => 1) (L.ND - 1) t = lcu L := by
  unfold sliceCharge
  rw [← sum_time hL ht (fun _ => (1 : ℂ).re)]
  simp

/-- C86 fails for the temporal correlator: for the density that is one everywhere the builds with and without FFTW write different
numbers for the same time, on every lattice of less than 100000 sites. -/
theorem C86_temporal_fails {L : Latt} (hL : Valid L) (hs : volume L < 10 ^ 5) : RealDensity L (fun _ => 1) ∧
    ∀ t < L.dims (L.ND - 1), (compute_Qcorr true L fun _ => 1).2 t < (compute_Qcorr false L fun _ => 1).2 t := by
  have hq : RealDensity L (fun _ => 1) := fun i _ => by simp
  have hnd := hL.nd
  have hT := hL.pos (L.ND - 1) (by omega)
  have hp : 0 < lcu L := by rw [lcu_eq L hL.nd]; exact hL.radix_pos _ (by omega)
  refine ⟨hq, fun t ht => ?_⟩
  rw [C86_temporal_partial hL _ ht, C86_temporal hL hq ht, slice_const hL ht,
    sum_congr rfl fun s h => by rw [slice_const hL (mem_range.1 h), slice_const hL (Nat.mod_lt _ hT)], sum_const, card_range,
    nsmul_eq_mul]
  have h1 : (volume L : ℝ) < 10 ^ 5 := by exact_mod_cast hs
  have h2 : (1 : ℝ) ≤ lcu L := by exact_mod_cast hp
  have h3 : (L.dims (L.ND - 1) : ℝ) * ((lcu L : ℝ) * lcu L) = (volume L : ℝ) * lcu L := by
    unfold volume; push_cast; ring
  rw [h3]
  have h4 : (volume L : ℝ) * lcu L ≤ 10 ^ 5 * lcu L := mul_le_mul_of_nonneg_right h1.le (by linarith)
  unfold NORM
  nlinarith

/-- The hypothesis of `C86_temporal_fails` is met by the `2 x 3 x 4 x 5` lattice. -/
example : volume L2345 < 10 ^ 5 := by decide

/-- **C86**, the normalisation is `-1/(64 π²)` to twenty decimals. -/
theorem C86_norm : |NORM - -1 / (64 * Real.pi ^ 2)| < 1 / 10 ^ 20 := by
  have h1 := Real.pi_gt_d20
  have h2 := Real.pi_lt_d20
  have hp := Real.pi_pos
  have hd : (0 : ℝ) < 64 * Real.pi ^ 2 := by positivity
  have lo : (0.001583143494411527678811 : ℝ) - 1 / 10 ^ 20 < 1 / (64 * Real.pi ^ 2) := by
    rw [lt_div_iff₀ hd]
    nlinarith
  have hi : 1 / (64 * Real.pi ^ 2) < (0.001583143494411527678811 : ℝ) + 1 / 10 ^ 20 := by
    rw [div_lt_iff₀ hd]
    nlinarith
  unfold NORM
  rw [neg_div, sub_neg_eq_add, abs_lt]
  constructor <;> linarith

end GLU.Field
