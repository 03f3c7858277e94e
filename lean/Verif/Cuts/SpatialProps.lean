import Verif.Cuts.Spatial
import Verif.Cuts.MOMggProps
import Verif.Cuts.ConfigLemmas

/-!
# Instantaneous gluon propagators (C94)
-/

namespace GLU.Cuts

open Complex Matrix Finset GLU.Mat GLU.Geom GLU.Field

/-- The Fourier transform over the time slice `t`: `Σ exp( ± i p x ) A_mu( x )`, over the sites at the time `t`. -/
noncomputable def sliceFT {N : ℕ} (L : Latt) (sign : ℝ) (A : ℕ → ℕ → Matrix (Fin N) (Fin N) ℂ) (t : ℕ) (n : ℕ → ℤ)
    (mu : ℕ) : Matrix (Fin N) (Fin N) ℂ :=
  ∑ x ∈ range (volume L), if coord L L.ND x (L.ND - 1) = t then
    exp (((sign * ∑ nu ∈ range (L.ND - 1), momentum L n nu * (coord L L.ND x nu : ℝ) : ℝ) : ℂ) * I) • A x mu else 0

/-- The equal-time propagator of the direction `mu`: `Σ_t Re Tr( F_t,mu( n ) F_t,mu( -n ) )`. -/
noncomputable def equalTime {N : ℕ} (L : Latt) (sign : ℝ) (A : ℕ → ℕ → Matrix (Fin N) (Fin N) ℂ) (n : ℕ → ℤ)
    (mu : ℕ) : ℝ :=
  ∑ t ∈ range (L.dims (L.ND - 1)), (trace (sliceFT L sign A t n mu * sliceFT L sign A t (fun nu => -n nu) mu)).re

/-- The spatial and the temporal propagator, per colour, site and transverse polarisation of the slice (all spatial
polarisations at zero momentum). -/
noncomputable def instantaneous {N : ℕ} (L : Latt) (sign : ℝ) (A : ℕ → ℕ → Matrix (Fin N) (Fin N) ℂ) (n : ℕ → ℤ) :
    ℝ × ℝ :=
  open Classical in
  let pol : ℝ := if ∀ mu < L.ND - 1, n mu = 0 then L.ND - 1 else if L.ND = 2 then 1 else L.ND - 2
  let norm : ℝ := 2 / (((N : ℝ) ^ 2 - 1) * pol * volume L)
  (norm * ∑ mu ∈ range (L.ND - 1), equalTime L sign A n mu, norm * equalTime L sign A n (L.ND - 1))

theorem slice_coord {L : Latt} (hL : Valid L) (t i : ℕ) {mu : ℕ} (hmu : mu < L.ND - 1) :
    coord L L.ND (lcu L * t + i) mu = coord L (L.ND - 1) i mu := by
  rw [coord_eq L (by omega), coord_eq L hmu, lcu_eq L hL.nd]
  have hr : 0 < radix L.dims mu := radix_pos hL.pos mu (by omega)
  obtain ⟨c, hc⟩ : radix L.dims mu * L.dims mu ∣ radix L.dims (L.ND - 1) := dvd_radix L.dims hmu
  rw [hc, mul_assoc, mul_assoc, Nat.mul_add_div hr, Nat.mul_add_mod]

theorem exp_phase_slice {L : Latt} (hL : Valid L) {sign : ℝ} (hs : sign = 1 ∨ sign = -1) {D : ℕ} (hD : D ≤ L.ND)
    (x k : ℕ → ℕ) {n : ℕ → ℤ} (hd : ∀ mu < D, (L.dims mu : ℤ) ∣ (k mu : ℤ) - n mu) :
    exp (((sign * (2 * Real.pi * ∑ mu ∈ range D, (x mu : ℝ) * (k mu : ℝ) / (L.dims mu : ℝ)) : ℝ) : ℂ) * I) =
      exp (((sign * ∑ nu ∈ range D, momentum L n nu * (x nu : ℝ) : ℝ) : ℂ) * I) := by
  choose! c hc using hd
  have h1 : (sign * (2 * Real.pi * ∑ mu ∈ range D, (x mu : ℝ) * (k mu : ℝ) / (L.dims mu : ℝ)) : ℝ) =
      sign * ∑ nu ∈ range D, momentum L n nu * (x nu : ℝ) + sign * (2 * Real.pi) *
        ((∑ nu ∈ range D, (x nu : ℤ) * c nu : ℤ) : ℝ) := by
    rw [mul_assoc sign, ← mul_add]
    congr 1
    push_cast
    rw [mul_sum, mul_sum, ← sum_add_distrib]
    refine sum_congr rfl fun nu hnu => ?_
    have hpos : (L.dims nu : ℝ) ≠ 0 := by
      have := hL.pos nu (by have := mem_range.1 hnu; omega); positivity
    have h2 : (k nu : ℝ) = n nu + L.dims nu * c nu := by
      have := hc nu (mem_range.1 hnu)
      have h3 : (k nu : ℤ) = n nu + L.dims nu * c nu := by omega
      exact_mod_cast h3
    rw [h2]
    unfold momentum
    field_simp
  rw [h1]
  generalize (∑ nu ∈ range D, (x nu : ℤ) * c nu : ℤ) = z
  push_cast
  rw [add_mul, Complex.exp_add]
  have : exp ((sign : ℂ) * (2 * Real.pi) * z * I) = 1 := by
    rw [Complex.exp_eq_one_iff]
    rcases hs with rfl | rfl
    · exact ⟨z, by push_cast; ring⟩
    · exact ⟨-z, by push_cast; ring⟩
  rw [this, mul_one]

theorem fftw_slice (L : Latt) (D : ℕ) (sign : ℝ) (f : ℕ → ℂ) (k : ℕ) :
    fftw D (fun mu => L.dims (D - 1 - mu)) sign f k = ∑ x ∈ range (radix L.dims D), f x *
      exp (((sign * (2 * Real.pi * ∑ mu ∈ range D, (coord L D x mu : ℝ) * (coord L D k mu : ℝ) /
        (L.dims mu : ℝ)) : ℝ) : ℂ) * I) := by
  unfold fftw
  rw [prod_range_reflect (fun s => L.dims s)]
  refine sum_congr rfl fun x _ => ?_
  have hp : ∑ s ∈ range D, ((x / rowStride D (fun mu => L.dims (D - 1 - mu)) s % L.dims (D - 1 - s) : ℕ) : ℝ) *
      ((k / rowStride D (fun mu => L.dims (D - 1 - mu)) s % L.dims (D - 1 - s) : ℕ) : ℝ) / (L.dims (D - 1 - s) : ℝ) =
      ∑ mu ∈ range D, (coord L D x mu : ℝ) * (coord L D k mu : ℝ) / (L.dims mu : ℝ) := ?_
  · rw [hp]
  rw [← sum_range_reflect (fun mu => (coord L D x mu : ℝ) * (coord L D k mu : ℝ) / (L.dims mu : ℝ))]
  refine sum_congr rfl fun s hs => ?_
  rw [mem_range] at hs
  rw [rowStride_eq ⟨D, L.dims⟩ hs, coord_eq L (show D - 1 - s < D by omega), coord_eq L (show D - 1 - s < D by omega)]

/-- The transform of a slice at a listed momentum. -/
theorem slice_eq {NC : ℕ} {L : Latt} (hL : Valid L) {sign : ℝ} (hs : sign = 1 ∨ sign = -1) (log : Arr ℂ → Arr ℂ)
    (A : Gauge) {k : ℕ} {n : ℕ → ℤ} (hi : k < lcu L)
    (hd : ∀ mu < L.ND - 1, (L.dims mu : ℤ) ∣ (coord L (L.ND - 1) k mu : ℤ) - n mu)
    {t : ℕ} (ht : t < L.dims (L.ND - 1)) {mu : ℕ} (hmu : mu < L.ND) :
    toM NC (mom_gauge_spatial NC L sign log A (lcu L * t + k, mu)) =
      sliceFT L sign (fun x nu => toM NC (log (A (x, nu)))) t n mu := by
  have hlt : lcu L * t + k < volume L := by
    unfold volume
    calc lcu L * t + k < lcu L * t + lcu L := by omega
      _ = lcu L * (t + 1) := by ring
      _ ≤ _ := Nat.mul_le_mul_left _ ht
  unfold sliceFT
  rw [← sum_time_gen hL ht fun x => exp (((sign * ∑ nu ∈ range (L.ND - 1), momentum L n nu *
    (coord L L.ND x nu : ℝ) : ℝ) : ℂ) * I) • toM NC (log (A (x, mu)))]
  ext a b
  rw [toM_apply]
  unfold mom_gauge_spatial
  rw [if_pos ⟨hlt, hmu, index_lt a.2 b.2⟩]
  dsimp only
  rw [Nat.mul_add_div (by omega), Nat.div_eq_of_lt hi, add_zero, Nat.mul_add_mod, Nat.mod_eq_of_lt hi, fftw_slice,
    ← lcu_eq L hL.nd, Matrix.sum_apply]
  refine sum_congr rfl fun x _ => ?_
  rw [exp_phase_slice hL hs (by omega) _ _ hd, Matrix.smul_apply, toM_apply, smul_eq_mul, mul_comm]
  congr 5
  exact sum_congr rfl fun nu hnu => by rw [slice_coord hL t x (mem_range.1 hnu)]

theorem landau_above (NC : ℕ) (L : Latt) (sign : ℝ) {D : ℕ} (list : List Vec) (A : Gauge) (l : ℕ × ℕ) (j : ℕ)
    (h : D ≤ l.2) : correct_pspace_landau NC L sign list D A l j = A l j := by
  unfold correct_pspace_landau
  induction list generalizing A with
  | nil => rfl
  | cons w t ih =>
    rw [List.foldl_cons, ih]
    unfold landauEntry
    rw [if_neg (by omega)]

/-- The corrected field of a slice: the transform times a phase that is one for the opposite momentum times its
partner. -/
theorem slice_trace {NC : ℕ} {L : Latt} (hL : Valid L) {sign : ℝ} (hs : sign = 1 ∨ sign = -1) (log : Arr ℂ → Arr ℂ)
    (A : Gauge) {list : List Vec} (hp : list.Pairwise fun v w => v.idx ≠ w.idx)
    (hget : ∀ v ∈ list, v.idx < lcu L ∧ ∀ mu < L.ND - 1, (L.dims mu : ℤ) ∣ (coord L (L.ND - 1) v.idx mu : ℤ) - v.MOM mu)
    {v w : Vec} (hv : v ∈ list) (hw : w ∈ list) (hvw : ∀ mu < L.ND - 1, w.MOM mu = -v.MOM mu)
    {t : ℕ} (ht : t < L.dims (L.ND - 1)) {mu : ℕ} (hmu : mu < L.ND) :
    let B := correct_pspace_landau NC L sign list (L.ND - 1) (mom_gauge_spatial NC L sign log A)
    trace_ab NC (B (lcu L * t + v.idx, mu)) (B (lcu L * t + w.idx, mu)) =
      trace (sliceFT L sign (fun x nu => toM NC (log (A (x, nu)))) t v.MOM mu *
        sliceFT L sign (fun x nu => toM NC (log (A (x, nu)))) t (fun nu => -v.MOM nu) mu) := by
  intro B
  have hw2 : sliceFT L sign (fun x nu => toM NC (log (A (x, nu)))) t (fun nu => -v.MOM nu) mu =
      toM NC (mom_gauge_spatial NC L sign log A (lcu L * t + w.idx, mu)) := by
    rw [slice_eq hL hs log A (hget w hw).1 (n := fun nu => -v.MOM nu) _ ht hmu]
    intro nu hnu
    rw [← hvw nu hnu]
    exact (hget w hw).2 nu hnu
  rw [hw2, ← slice_eq hL hs log A (hget v hv).1 (hget v hv).2 ht hmu, C12_trace_ab]
  have hout : ∀ u ∈ list, t ≠ 0 ∨ mu = L.ND - 1 → toM NC (B (lcu L * t + u.idx, mu)) =
      toM NC (mom_gauge_spatial NC L sign log A (lcu L * t + u.idx, mu)) := by
    intro u hu h
    ext a b
    rw [toM_apply, toM_apply]
    rcases h with h | h
    · refine landau_notin NC L sign (L.ND - 1) list _ _ _ fun z hz he => ?_
      have h1 := (hget z hz).1
      have h2 : lcu L ≤ lcu L * t := Nat.le_mul_of_pos_right _ (by omega)
      dsimp only at he
      omega
    · exact landau_above NC L sign list _ _ _ (by dsimp only; omega)
  have hin : ∀ u ∈ list, mu < L.ND - 1 → toM NC (B (lcu L * 0 + u.idx, mu)) =
      exp (((sign * (momentum L u.MOM mu / 2) : ℝ) : ℂ) * I) •
        toM NC (mom_gauge_spatial NC L sign log A (lcu L * 0 + u.idx, mu)) := by
    intro u hu h
    ext a b
    rw [toM_apply, Matrix.smul_apply, toM_apply, mul_zero, zero_add, show B = correct_pspace_landau NC L sign list
      (L.ND - 1) (mom_gauge_spatial NC L sign log A) from rfl,
      landau_mem NC L sign _ hp hu h (index_lt a.2 b.2), exp_cache_eq L hs, smul_eq_mul, mul_comm]
  by_cases h : t ≠ 0 ∨ mu = L.ND - 1
  · rw [hout v hv h, hout w hw h]
  · push Not at h
    obtain ⟨rfl, h2⟩ := h
    rw [hin v hv (by omega), hin w hw (by omega), smul_mul_smul_comm, ← Complex.exp_add]
    have : momentum L w.MOM mu = -momentum L v.MOM mu := by
      unfold momentum
      rw [hvw mu (by omega)]
      push_cast
      ring
    rw [this, ← add_mul, ← ofReal_add, ← mul_add, neg_div, add_neg_cancel, mul_zero, ofReal_zero, zero_mul, Complex.exp_zero,
      one_smul]

theorem spatial_core {NC : ℕ} {L : Latt} (hL : Valid L) {sign : ℝ} (hs : sign = 1 ∨ sign = -1)
    (log : Arr ℂ → Arr ℂ) (U : Gauge) (list : List Vec) (hodd : list.length % 2 = 1)
    (hzero : ∀ k (h : k < list.length), (∀ mu < L.ND - 1, (list[k]).MOM mu = 0) ↔ k = list.length / 2)
    (hrefl : ∀ k (h : k < list.length), ∀ mu < L.ND - 1,
      (list[list.length - 1 - k]'(by omega)).MOM mu = -(list[k]).MOM mu)
    (hpw : list.Pairwise fun v w => v.idx ≠ w.idx)
    (hget : ∀ v ∈ list, v.idx < lcu L ∧
      ∀ mu < L.ND - 1, (L.dims mu : ℤ) ∣ (coord L (L.ND - 1) v.idx mu : ℤ) - v.MOM mu) :
    ((List.range list.length).mapM fun i => do
      let v ← list[i]?
      let w ← list[list.length - i - 1]?
      return spatialEntry NC L (correct_pspace_landau NC L sign list (L.ND - 1) (mom_gauge_spatial NC L sign log U))
        (i == (list.length - 1) / 2) v.idx w.idx) =
    some (list.map fun v => instantaneous L sign (fun x mu => toM NC (log (U (x, mu)))) v.MOM) := by
  have hnd := hL.nd
  rw [mapM_range (g := fun i => if hi : i < list.length then
      instantaneous L sign (fun x mu => toM NC (log (U (x, mu)))) (list[i]).MOM else (0, 0))]
  · rw [map_range_get list fun v => instantaneous L sign (fun x mu => toM NC (log (U (x, mu)))) v.MOM]
    intro i hi
    rw [dif_pos hi]
  intro i hi
  have hj : list.length - i - 1 < list.length := by omega
  rw [List.getElem?_eq_getElem hi, List.getElem?_eq_getElem hj, dif_pos hi]
  simp only [Option.bind_eq_bind, Option.bind_some, Option.pure_def, Option.some.injEq]
  have htr := fun {t : ℕ} (ht : t < L.dims (L.ND - 1)) {mu : ℕ} (hmu : mu < L.ND) =>
    slice_trace (NC := NC) hL hs log U hpw hget (List.getElem_mem hi) (List.getElem_mem hj) (fun nu hnu => by
      have := hrefl i hi nu hnu
      simp only [Nat.sub_right_comm _ i 1]
      exact this) ht hmu
  dsimp only at htr
  unfold spatialEntry
  dsimp only
  simp only [forN_sum]
  rw [forN_sum2]
  generalize hB : correct_pspace_landau NC L sign list (L.ND - 1) (mom_gauge_spatial NC L sign log U) = B at *
  have e1 : ∑ t ∈ range (L.dims (L.ND - 1)), ∑ mu ∈ range (L.ND - 1),
      (trace_ab NC (B (lcu L * t + (list[i]).idx, mu)) (B (lcu L * t + (list[list.length - i - 1]).idx, mu))).re =
      ∑ mu ∈ range (L.ND - 1), equalTime L sign (fun x mu => toM NC (log (U (x, mu)))) (list[i]).MOM mu := by
    rw [sum_comm]
    refine sum_congr rfl fun mu hmu => ?_
    exact sum_congr rfl fun t ht => by
      rw [htr (mem_range.1 ht) (by have := mem_range.1 hmu; omega)]
  have e2 : ∑ t ∈ range (L.dims (L.ND - 1)), (trace_ab NC (B (lcu L * t + (list[i]).idx, L.ND - 1))
      (B (lcu L * t + (list[list.length - i - 1]).idx, L.ND - 1))).re =
      equalTime L sign (fun x mu => toM NC (log (U (x, mu)))) (list[i]).MOM (L.ND - 1) :=
    sum_congr rfl fun t ht => by rw [htr (mem_range.1 ht) (by omega)]
  rw [e1, e2, zero_add, zero_add]
  unfold instantaneous
  dsimp only
  rw [if_pos (show 1 < L.ND by omega)]
  by_cases h : i = list.length / 2
  · rw [if_pos (by simp; omega), if_pos ((hzero i hi).2 h), mul_comm _ (2 / _), mul_comm _ (2 / _), sq]
  · rw [if_neg (by simp; omega), if_neg fun hh => h ((hzero i hi).1 hh)]
    by_cases h2 : L.ND = 2
    · rw [if_neg (by omega), if_pos h2, mul_one, mul_comm _ (2 / _), mul_comm _ (2 / _), sq]
    · rw [if_pos (by omega), if_neg h2, mul_comm _ (2 / _), mul_comm _ (2 / _), sq]

/-- C94: on every lattice, for a cut that is even, keeps the zero momentum and no momentum at the edge of the zone, the
measurement writes the two equal-time propagators at the momenta of the list, in the order of the list. -/
theorem C94_instantaneous_partial {NC : ℕ} {L : Latt} (hL : Valid L) {sign : ℝ} (hs : sign = 1 ∨ sign = -1)
    (log : Arr ℂ → Arr ℂ) (U : Gauge) {keep : (ℕ → ℤ) → Bool} (hk : Local (L.ND - 1) keep)
    (heven : ∀ n, keep (fun mu => -n mu) = keep n)
    (hb : ∀ n, keep n = true → InZone L (L.ND - 1) n → ∀ mu < L.ND - 1, 2 * n mu ≠ -(L.dims mu : ℤ))
    (h0 : keep (fun _ => 0) = true) :
    cuts_spatial NC L sign log keep U = some ((get_mom_veclist L keep (L.ND - 1)).map fun v =>
      instantaneous L sign (fun x mu => toM NC (log (U (x, mu)))) v.MOM) := by
  have hnd := hL.nd
  have hD : SliceDims L (L.ND - 1) := Or.inr (by omega)
  obtain ⟨hodd, hzero⟩ := zero_middle_gen hL hD hk heven hb h0
  have hrefl := C59_reflect hL hD keep hk heven hb
  have hlist := C59_list hL hD keep hk
  have hpw := hlist.2.2.imp (S := fun v w : Vec => v.idx ≠ w.idx) fun h => h.1
  have hget : ∀ v ∈ get_mom_veclist L keep (L.ND - 1), v.idx < lcu L ∧
      ∀ mu < L.ND - 1, (L.dims mu : ℤ) ∣ (coord L (L.ND - 1) v.idx mu : ℤ) - v.MOM mu := by
    intro v hv
    obtain ⟨-, -, h3, h4⟩ := hlist.2.1 v hv
    exact ⟨by rw [lcu_eq L hnd]; exact h3, h4⟩
  unfold cuts_spatial compute_veclist
  simp only [Bool.false_eq_true, if_false]
  rw [if_neg (by omega)]
  dsimp only
  exact spatial_core hL hs log U _ hodd hzero hrefl hpw hget

/-! ### Positivity, and the sum over the energy -/

theorem sliceFT_neg {N : ℕ} (L : Latt) (sign : ℝ) {A : ℕ → ℕ → Matrix (Fin N) (Fin N) ℂ} (t : ℕ) (n : ℕ → ℤ) (mu : ℕ)
    (hA : ∀ x < volume L, (A x mu)ᴴ = A x mu) :
    sliceFT L sign A t (fun nu => -n nu) mu = (sliceFT L sign A t n mu)ᴴ := by
  unfold sliceFT
  rw [conjTranspose_sum]
  refine sum_congr rfl fun x hx => ?_
  split
  · rw [conjTranspose_smul, hA x (mem_range.1 hx)]
    congr 1
    rw [Complex.star_def, ← Complex.exp_conj]
    congr 1
    simp only [map_mul, conj_I, conj_ofReal, momentum_neg, neg_mul, sum_neg_distrib, mul_neg, ofReal_neg]
  · rw [conjTranspose_zero]

/-- C94: for a hermitian field every number is non-negative. -/
theorem C94_nonneg {N : ℕ} (hN : 2 ≤ N) {L : Latt} (hL : Valid L) (sign : ℝ) {A : ℕ → ℕ → Matrix (Fin N) (Fin N) ℂ}
    (hA : ∀ x < volume L, ∀ mu < L.ND, (A x mu)ᴴ = A x mu) (n : ℕ → ℤ) :
    0 ≤ (instantaneous L sign A n).1 ∧ 0 ≤ (instantaneous L sign A n).2 := by
  have hnd := hL.nd
  have h1 : ∀ mu < L.ND, 0 ≤ equalTime L sign A n mu := by
    intro mu hmu
    refine sum_nonneg fun t _ => ?_
    rw [sliceFT_neg L sign t n mu fun x hx => hA x hx mu hmu, re_trace_sq]
    positivity
  have hnorm : ∀ pol : ℝ, 0 ≤ pol → 0 ≤ 2 / (((N : ℝ) ^ 2 - 1) * pol * volume L) := by
    intro pol hpol
    have : (1 : ℝ) ≤ (N : ℝ) ^ 2 := one_le_pow₀ (by exact_mod_cast (by omega : 1 ≤ N))
    have h3 : 0 ≤ (N : ℝ) ^ 2 - 1 := by linarith
    positivity
  have hpol : ∀ p : Prop, ∀ _ : Decidable p, (0 : ℝ) ≤ if p then (L.ND : ℝ) - 1 else if L.ND = 2 then 1 else L.ND - 2 := by
    intro p _
    have h2 : (2 : ℝ) ≤ L.ND := by exact_mod_cast hnd
    split
    · linarith
    · split
      · exact zero_le_one
      · linarith
  unfold instantaneous
  exact ⟨mul_nonneg (hnorm _ (hpol _ _)) (sum_nonneg fun mu hmu => h1 mu (by have := mem_range.1 hmu; omega)),
    mul_nonneg (hnorm _ (hpol _ _)) (h1 _ (by omega))⟩

/-- The transform over the lattice from those over the slices. -/
theorem fieldFT_slices {N : ℕ} {L : Latt} (hL : Valid L) (sign : ℝ) (A : ℕ → ℕ → Matrix (Fin N) (Fin N) ℂ) (n : ℕ → ℤ)
    (k : ℕ) {mu : ℕ} (hmu : mu < L.ND) :
    fieldFT L sign A (fun nu => if nu = L.ND - 1 then k else n nu) mu =
      exp (((sign * (momentum L (fun nu => if nu = L.ND - 1 then (k : ℤ) else n nu) mu / 2) : ℝ) : ℂ) * I) •
      ∑ t ∈ range (L.dims (L.ND - 1)),
        exp (((sign * (2 * Real.pi * k / L.dims (L.ND - 1) * t) : ℝ) : ℂ) * I) • sliceFT L sign A t n mu := by
  have hnd := hL.nd
  rw [fieldFT_wave L sign A _ hmu]
  congr 1
  unfold sliceFT
  simp only [smul_sum, smul_ite, smul_zero]
  rw [sum_comm]
  refine sum_congr rfl fun x _ => ?_
  rw [sum_ite_eq, if_pos (mem_range.2 (coord_lt L hL.pos L.ND x (by omega))), smul_smul, ← Complex.exp_add]
  unfold wave
  congr 2
  rw [← add_mul, ← ofReal_add, ← mul_add]
  congr 3
  obtain ⟨d, hd⟩ : ∃ d, L.ND = d + 1 := ⟨L.ND - 1, by omega⟩
  rw [hd, sum_range_succ, Nat.add_sub_cancel, add_comm]
  congr 1
  · unfold momentum
    dsimp only
    rw [if_pos rfl]
    push_cast
    ring
  · refine sum_congr rfl fun nu hnu => ?_
    unfold momentum
    dsimp only
    rw [if_neg (by have := mem_range.1 hnu; omega)]

/-- C94: the sum over the energies of the propagator on the whole lattice is the extent in time times the equal-time
propagator. -/
theorem C94_energy_sum {N : ℕ} {L : Latt} (hL : Valid L) {sign : ℝ} (hs : sign = 1 ∨ sign = -1)
    {A : ℕ → ℕ → Matrix (Fin N) (Fin N) ℂ} (hA : ∀ x < volume L, ∀ mu < L.ND, (A x mu)ᴴ = A x mu) (n : ℕ → ℤ)
    {mu : ℕ} (hmu : mu < L.ND) :
    ∑ k ∈ range (L.dims (L.ND - 1)), (trace (fieldFT L sign A (fun nu => if nu = L.ND - 1 then (k : ℤ) else n nu) mu *
      (fieldFT L sign A (fun nu => if nu = L.ND - 1 then (k : ℤ) else n nu) mu)ᴴ)).re =
    L.dims (L.ND - 1) * equalTime L sign A n mu := by
  have hpos := hL.pos (L.ND - 1) (by have := hL.nd; omega)
  unfold equalTime
  have e1 : ∀ t, sliceFT L sign A t (fun nu => -n nu) mu = (sliceFT L sign A t n mu)ᴴ := fun t =>
    sliceFT_neg L sign t n mu fun x hx => hA x hx mu hmu
  simp only [e1]
  set T := L.dims (L.ND - 1) with hT
  have hunit : ∀ r : ℝ, exp ((r : ℂ) * I) * star (exp ((r : ℂ) * I)) = 1 := by
    intro r
    rw [Complex.star_def, ← Complex.exp_conj, map_mul, conj_I, conj_ofReal, ← Complex.exp_add, mul_neg, add_neg_cancel,
      Complex.exp_zero]
  have e2 : ∀ k : ℕ, trace (fieldFT L sign A (fun nu => if nu = L.ND - 1 then (k : ℤ) else n nu) mu *
      (fieldFT L sign A (fun nu => if nu = L.ND - 1 then (k : ℤ) else n nu) mu)ᴴ) =
      ∑ t ∈ range T, ∑ t' ∈ range T, exp (((2 * Real.pi * ((k : ℝ) * ((if sign = 1 then (t : ℤ) - t' else t' - t : ℤ) : ℝ)
        / (T : ℝ)) : ℝ) : ℂ) * I) * trace (sliceFT L sign A t n mu * (sliceFT L sign A t' n mu)ᴴ) := by
    intro k
    rw [fieldFT_slices hL sign A n k hmu, conjTranspose_smul, smul_mul_smul_comm, hunit, one_smul, conjTranspose_sum,
      sum_mul_sum, trace_sum]
    refine sum_congr rfl fun t _ => ?_
    rw [trace_sum]
    refine sum_congr rfl fun t' _ => ?_
    rw [conjTranspose_smul, smul_mul_smul_comm, trace_smul, smul_eq_mul]
    congr 1
    rw [Complex.star_def, ← Complex.exp_conj, map_mul, conj_I, conj_ofReal, ← Complex.exp_add]
    congr 1
    rcases hs with rfl | rfl
    · rw [if_pos rfl]
      push_cast
      ring
    · rw [if_neg (by norm_num)]
      push_cast
      ring
  rw [← re_sum]
  have e3 : ∑ k ∈ range T, trace (fieldFT L sign A (fun nu => if nu = L.ND - 1 then (k : ℤ) else n nu) mu *
      (fieldFT L sign A (fun nu => if nu = L.ND - 1 then (k : ℤ) else n nu) mu)ᴴ) =
      ∑ t ∈ range T, (T : ℂ) * trace (sliceFT L sign A t n mu * (sliceFT L sign A t n mu)ᴴ) := by
    rw [sum_congr rfl fun k _ => e2 k, sum_comm]
    refine sum_congr rfl fun t ht => ?_
    rw [sum_comm]
    have : ∀ t' ∈ range T, ∑ k ∈ range T, exp (((2 * Real.pi * ((k : ℝ) * ((if sign = 1 then (t : ℤ) - t' else t' - t : ℤ) : ℝ)
        / (T : ℝ)) : ℝ) : ℂ) * I) * trace (sliceFT L sign A t n mu * (sliceFT L sign A t' n mu)ᴴ) =
        if t' = t then (T : ℂ) * trace (sliceFT L sign A t n mu * (sliceFT L sign A t n mu)ᴴ) else 0 := by
      intro t' ht'
      rw [← sum_mul, sum_roots hpos]
      have h1 := mem_range.1 ht
      have h2 := mem_range.1 ht'
      by_cases h : t' = t
      · subst h
        rw [if_pos (by split <;> simp), if_pos rfl]
      · rw [if_neg, if_neg h, zero_mul]
        intro hd
        have hd2 : (T : ℤ) ∣ (t : ℤ) - t' := by
          split at hd
          · exact hd
          · rw [← neg_sub]; exact hd.neg_right
        have := Int.eq_zero_of_abs_lt_dvd hd2 (by rw [abs_lt]; omega)
        omega
    rw [sum_congr rfl this, sum_ite_eq', if_pos ht]
  rw [e3, re_sum, mul_sum]
  refine sum_congr rfl fun t _ => ?_
  rw [← ofReal_natCast, re_ofReal_mul]

/-- The hypotheses of `C94_instantaneous_partial` are met on a lattice with odd extents, by the cut that keeps the
momenta with all components at most one. -/
example : ∃ keep : (ℕ → ℤ) → Bool, Valid L2345 ∧ Local (L2345.ND - 1) keep ∧ (∀ n, keep (fun mu => -n mu) = keep n) ∧
    (∀ n, keep n = true → InZone L2345 (L2345.ND - 1) n → ∀ mu < L2345.ND - 1, 2 * n mu ≠ -(L2345.dims mu : ℤ)) ∧
    keep (fun _ => 0) = true ∧ (get_mom_veclist L2345 keep 3).length = 9 := by
  refine ⟨fun n => decide (n 0 = 0 ∧ n 1 * n 1 ≤ 1 ∧ n 2 * n 2 ≤ 1), valid_L2345, ?_, ?_, ?_, by decide, by decide +kernel⟩
  · intro n n' h
    dsimp only
    rw [h 0 (by decide), h 1 (by decide), h 2 (by decide)]
  · intro n
    simp
  · intro n hn _ mu hmu
    have h3 : mu < 3 := hmu
    simp only [decide_eq_true_eq] at hn
    obtain ⟨h0, h1, h2⟩ := hn
    interval_cases mu
    · rw [h0]; decide
    · rw [show L2345.dims 1 = 3 from rfl]; intro h; omega
    · rw [show L2345.dims 2 = 4 from rfl]; intro h
      have : n 2 = -2 := by omega
      rw [this] at h2
      omega

end GLU.Cuts
