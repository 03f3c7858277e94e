import Verif.Field.Topo
import Verif.Field.Props
import Mathlib.Analysis.SpecialFunctions.Complex.Log
import Mathlib.Algebra.Field.GeomSum

/-!
# Lemmas for the charge correlators: sums over sites, the Fourier transform
-/

namespace GLU.Field

open Complex Finset GLU.Mat GLU.Geom

/-! ## Sums over the sites -/

theorem sum_range_mul {M : Type*} [AddCommMonoid M] (a b : ℕ) (g : ℕ → M) :
    ∑ i ∈ range (a * b), g i = ∑ c ∈ range b, ∑ j ∈ range a, g (a * c + j) := by
  induction b with
  | zero => simp
  | succ b ih => rw [Nat.mul_succ, sum_range_add, ih, sum_range_succ]

/-- A sum over a mixed-radix range of a product over the digits is the product of the sums. -/
theorem sum_digits (d : ℕ → ℕ) (f : ℕ → ℕ → ℂ) (n : ℕ) (hd : ∀ mu < n, 0 < d mu) :
    ∑ i ∈ range (radix d n), ∏ mu ∈ range n, f mu (i / radix d mu % d mu) = ∏ mu ∈ range n, ∑ c ∈ range (d mu), f mu c := by
  induction n with
  | zero => simp [radix]
  | succ n ih =>
    have ih := ih fun mu hmu => hd mu (by omega)
    have hp := radix_pos (d := d) (n := n) (fun mu hmu => hd mu (by omega))
    rw [radix_succ, sum_range_mul, prod_range_succ, ← ih, mul_comm, sum_mul]
    refine sum_congr rfl fun c hc => ?_
    rw [mem_range] at hc
    rw [mul_sum]
    refine sum_congr rfl fun j hj => ?_
    rw [mem_range] at hj
    rw [prod_range_succ, mul_comm]
    congr 1
    · rw [Nat.mul_add_div (hp n le_rfl), Nat.div_eq_of_lt hj, Nat.add_zero, Nat.mod_eq_of_lt hc]
    · refine prod_congr rfl fun mu hmu => ?_
      rw [mem_range] at hmu
      congr 1
      obtain ⟨e, he⟩ := dvd_radix d hmu
      rw [he, Nat.mul_assoc, Nat.mul_assoc, Nat.mul_add_div (hp mu hmu.le), Nat.mul_add_mod]

theorem sum_coords {L : Latt} (hL : Valid L) (f : ℕ → ℕ → ℂ) :
    ∑ i ∈ range (volume L), ∏ mu ∈ range L.ND, f mu (coord L L.ND i mu) = ∏ mu ∈ range L.ND, ∑ c ∈ range (L.dims mu), f mu c := by
  rw [volume_eq L hL.nd, ← sum_digits L.dims f L.ND hL.pos]
  exact sum_congr rfl fun i _ => prod_congr rfl fun mu hmu => by rw [coord_eq L (mem_range.1 hmu)]

/-- Sites with the same coordinates are the same. -/
theorem site_ext {L : Latt} (hL : Valid L) {x y : ℕ} (hx : x < volume L) (hy : y < volume L)
    (h : ∀ mu < L.ND, coord L L.ND x mu = coord L L.ND y mu) : x = y := by
  have hnd := hL.nd
  rw [← gen_site_coord hL hx, ← gen_site_coord hL hy]
  exact gen_site_congr (by omega) fun mu hmu => by rw [h mu hmu]

/-! ## Roots of unity -/

theorem sum_roots {n : ℕ} (hn : 0 < n) (d : ℤ) :
    ∑ c ∈ range n, exp (((2 * Real.pi * ((c : ℝ) * (d : ℝ) / (n : ℝ)) : ℝ) : ℂ) * I) = if (n : ℤ) ∣ d then (n : ℂ) else 0 := by
  have hn' : (n : ℂ) ≠ 0 := by exact_mod_cast hn.ne'
  set w : ℂ := exp (2 * Real.pi * I * ((d : ℂ) / n)) with hw
  have e : ∀ c : ℕ, exp (((2 * Real.pi * ((c : ℝ) * (d : ℝ) / (n : ℝ)) : ℝ) : ℂ) * I) = w ^ c := by
    intro c
    rw [hw, ← Complex.exp_nat_mul]
    congr 1
    push_cast
    ring
  rw [sum_congr rfl fun c _ => e c]
  have wn : w ^ n = 1 := by
    rw [hw, ← Complex.exp_nat_mul, Complex.exp_eq_one_iff]
    exact ⟨d, by field_simp⟩
  by_cases h : (n : ℤ) ∣ d
  · rw [if_pos h]
    obtain ⟨k, rfl⟩ := h
    have : w = 1 := by
      rw [hw, Complex.exp_eq_one_iff]
      exact ⟨k, by push_cast; field_simp⟩
    rw [this]
    simp
  · rw [if_neg h]
    have w1 : w ≠ 1 := by
      intro h1
      rw [hw, Complex.exp_eq_one_iff] at h1
      obtain ⟨k, hk⟩ := h1
      apply h
      refine ⟨k, ?_⟩
      have h2 : (2 * Real.pi * I : ℂ) ≠ 0 := by
        simp [Real.pi_ne_zero]
      have h3 : (d : ℂ) / n = k := by
        apply mul_left_cancel₀ h2
        rw [hk]; ring
      have h4 : (d : ℂ) = n * k := by rw [← h3]; field_simp
      exact_mod_cast h4
    rw [geom_sum_eq w1, wn, sub_self, zero_div]

/-! ## The transform on the lattice -/

/-- `Σ_mu x_mu k_mu / L_mu`. -/
noncomputable def phase (L : Latt) (x k : ℕ) : ℝ :=
  ∑ mu ∈ range L.ND, (coord L L.ND x mu : ℝ) * (coord L L.ND k mu : ℝ) / (L.dims mu : ℝ)

theorem phase_comm (L : Latt) (x k : ℕ) : phase L x k = phase L k x := by
  unfold phase
  exact sum_congr rfl fun mu _ => by rw [mul_comm (coord L L.ND x mu : ℝ)]

theorem rowStride_eq (L : Latt) {s : ℕ} (hs : s < L.ND) :
    rowStride L.ND (fun mu => L.dims (L.ND - 1 - mu)) s = radix L.dims (L.ND - 1 - s) := by
  unfold rowStride radix
  rw [prod_Ico_eq_prod_range, ← prod_range_reflect, show L.ND - (s + 1) = L.ND - 1 - s by omega]
  refine prod_congr rfl fun k hk => ?_
  rw [mem_range] at hk
  congr 1
  omega

theorem small_plan_eq {L : Latt} (hL : Valid L) (sign : ℝ) (f : ℕ → ℂ) (k : ℕ) :
    small_plan L sign f k = ∑ x ∈ range (volume L), f x * exp (((sign * (2 * Real.pi * phase L x k) : ℝ) : ℂ) * I) := by
  unfold small_plan fftw
  have hv : ∏ s ∈ range L.ND, L.dims (L.ND - 1 - s) = volume L := by
    rw [prod_range_reflect, volume_eq L hL.nd]; rfl
  rw [hv]
  refine sum_congr rfl fun x _ => ?_
  have hp : ∑ s ∈ range L.ND, ((x / rowStride L.ND (fun mu => L.dims (L.ND - 1 - mu)) s % L.dims (L.ND - 1 - s) : ℕ) : ℝ) *
      ((k / rowStride L.ND (fun mu => L.dims (L.ND - 1 - mu)) s % L.dims (L.ND - 1 - s) : ℕ) : ℝ) / (L.dims (L.ND - 1 - s) : ℝ) =
      phase L x k := ?_
  · rw [hp]
  unfold phase
  rw [← sum_range_reflect (fun mu => (coord L L.ND x mu : ℝ) * (coord L L.ND k mu : ℝ) / (L.dims mu : ℝ))]
  refine sum_congr rfl fun s hs => ?_
  rw [mem_range] at hs
  rw [rowStride_eq L hs, coord_eq L (show L.ND - 1 - s < L.ND by omega), coord_eq L (show L.ND - 1 - s < L.ND by omega)]

/-- `x` is `y` moved by the coordinates of the site `r`, with periodic boundaries. -/
def Shifted (L : Latt) (r y x : ℕ) : Prop :=
  ∀ mu < L.ND, coord L L.ND x mu = (coord L L.ND y mu + coord L L.ND r mu) % L.dims mu

instance (L : Latt) (r y x : ℕ) : Decidable (Shifted L r y x) := inferInstanceAs (Decidable (∀ mu < L.ND, _))

theorem shifted_iff {L : Latt} (hL : Valid L) (r y x : ℕ) : Shifted L r y x ↔
    ∀ mu ∈ range L.ND, (L.dims mu : ℤ) ∣ ((coord L L.ND y mu : ℤ) + coord L L.ND r mu - coord L L.ND x mu) := by
  unfold Shifted
  refine ⟨fun h mu hmu => ?_, fun h mu hmu => ?_⟩
  · rw [mem_range] at hmu
    rw [h mu hmu]
    push_cast
    exact Int.dvd_self_sub_emod
  · have h1 := h mu (mem_range.2 hmu)
    have h2 := coord_lt L hL.pos L.ND x hmu
    have h4 : (coord L L.ND x mu : ℤ) % L.dims mu = ((coord L L.ND y mu : ℤ) + coord L L.ND r mu) % L.dims mu :=
      Int.modEq_iff_dvd.2 h1
    rw [Int.emod_eq_of_lt (by positivity) (by exact_mod_cast h2)] at h4
    exact_mod_cast h4

/-- Orthogonality of the phases. -/
theorem sum_phase {L : Latt} (hL : Valid L) (x y r : ℕ) :
    ∑ k ∈ range (volume L), exp (((2 * Real.pi * (phase L k y + phase L k r - phase L k x) : ℝ) : ℂ) * I) =
      if Shifted L r y x then (volume L : ℂ) else 0 := by
  have e : ∀ k, exp (((2 * Real.pi * (phase L k y + phase L k r - phase L k x) : ℝ) : ℂ) * I) =
      ∏ mu ∈ range L.ND, exp (((2 * Real.pi * ((coord L L.ND k mu : ℝ) *
        (((coord L L.ND y mu : ℤ) + coord L L.ND r mu - coord L L.ND x mu : ℤ) : ℝ) / (L.dims mu : ℝ)) : ℝ) : ℂ) * I) := by
    intro k
    rw [← Complex.exp_sum, ← sum_mul, ← ofReal_sum, ← mul_sum]
    congr 4
    unfold phase
    rw [← sum_add_distrib, ← sum_sub_distrib]
    refine sum_congr rfl fun mu _ => ?_
    push_cast
    ring
  rw [sum_congr rfl fun k _ => e k]
  rw [sum_coords hL (fun mu c => exp (((2 * Real.pi * ((c : ℝ) *
        (((coord L L.ND y mu : ℤ) + coord L L.ND r mu - coord L L.ND x mu : ℤ) : ℝ) / (L.dims mu : ℝ)) : ℝ) : ℂ) * I))]
  rw [prod_congr rfl fun mu hmu => sum_roots (hL.pos mu (mem_range.1 hmu)) _]
  by_cases h : Shifted L r y x
  · rw [if_pos h, prod_congr rfl fun mu hmu => if_pos ((shifted_iff hL r y x).1 h mu hmu), volume_eq L hL.nd]
    unfold radix
    push_cast
    rfl
  · rw [if_neg h]
    rw [shifted_iff hL] at h
    obtain ⟨mu, hmu, hn⟩ : ∃ mu ∈ range L.ND,
        ¬ (L.dims mu : ℤ) ∣ ((coord L L.ND y mu : ℤ) + coord L L.ND r mu - coord L L.ND x mu) := by
      by_contra hc
      exact h fun mu hmu => by_contra fun hn => hc ⟨mu, hmu, hn⟩
    exact prod_eq_zero hmu (if_neg hn)

/-- The two transforms of `F F*`. -/
theorem convolution {L : Latt} (hL : Valid L) (q : ℕ → ℂ) (c : ℂ) (r : ℕ) :
    small_plan L 1 (fun i => small_plan L (-1) q i * (star (small_plan L (-1) q i) * c)) r =
      c * volume L * ∑ x ∈ range (volume L), ∑ y ∈ range (volume L), if Shifted L r y x then q x * star (q y) else 0 := by
  rw [small_plan_eq hL]
  have e : ∀ k ∈ range (volume L), small_plan L (-1) q k * (star (small_plan L (-1) q k) * c) *
      exp (((1 * (2 * Real.pi * phase L k r) : ℝ) : ℂ) * I) =
      ∑ x ∈ range (volume L), ∑ y ∈ range (volume L), c * (q x * star (q y)) *
        exp (((2 * Real.pi * (phase L k y + phase L k r - phase L k x) : ℝ) : ℂ) * I) := by
    intro k _
    rw [small_plan_eq hL, star_sum, sum_mul, sum_mul]
    refine sum_congr rfl fun x _ => ?_
    rw [sum_mul, mul_sum, sum_mul]
    refine sum_congr rfl fun y _ => ?_
    rw [star_mul', Complex.star_def, ← Complex.exp_conj, map_mul, conj_ofReal, conj_I]
    rw [show (((2 * Real.pi * (phase L k y + phase L k r - phase L k x) : ℝ) : ℂ) * I) =
        (((-1 * (2 * Real.pi * phase L x k) : ℝ) : ℂ) * I) + (((-1 * (2 * Real.pi * phase L y k) : ℝ) : ℂ) * -I) +
          ((1 * (2 * Real.pi * phase L k r) : ℝ) : ℂ) * I by
      rw [phase_comm L x k, phase_comm L y k]; push_cast; ring, Complex.exp_add, Complex.exp_add]
    ring
  rw [sum_congr rfl e, sum_comm, mul_sum]
  refine sum_congr rfl fun x _ => ?_
  rw [sum_comm, mul_sum]
  refine sum_congr rfl fun y _ => ?_
  rw [← mul_sum, sum_phase hL]
  split
  · ring
  · ring

end GLU.Field
