import Verif.Cuts.ConfigGluon
import Verif.Cuts.GluonLandau
import Verif.Field.TopoProps

/-!
# The gluon correlator in configuration space: specification and lemmas (C92)
-/

namespace GLU.Cuts

open Complex Finset Matrix GLU.Mat GLU.Geom GLU.Field

/-! ### Specification -/

/-- The sum of the field over the sites with time `tau`. -/
noncomputable def sliceField {N : ℕ} (L : Latt) (A : ℕ → ℕ → Matrix (Fin N) (Fin N) ℂ) (mu tau : ℕ) :
    Matrix (Fin N) (Fin N) ℂ :=
  ∑ x ∈ range (volume L), if coord L L.ND x (L.ND - 1) = tau then A x mu else 0

/-- The sum over the first `d` directions and all times of the trace of two sums at distance `t`. -/
noncomputable def sliceCorr {N : ℕ} (L : Latt) (A : ℕ → ℕ → Matrix (Fin N) (Fin N) ℂ) (d t : ℕ) : ℝ :=
  ∑ mu ∈ range d, ∑ tau ∈ range (L.dims (L.ND - 1)),
    (trace (sliceField L A mu tau * sliceField L A mu ((tau + t) % L.dims (L.ND - 1)))).re

/-- The site has all its spatial coordinates divisible by `spacing`. -/
def Sparse (L : Latt) (spacing x : ℕ) : Prop := ∀ mu < L.ND - 1, spacing ∣ coord L L.ND x mu

instance (L : Latt) (spacing x : ℕ) : Decidable (Sparse L spacing x) := inferInstanceAs (Decidable (∀ mu < L.ND - 1, _))

/-- The sum of the field over the sparse sites with time `tau`. -/
noncomputable def sparseField {N : ℕ} (L : Latt) (A : ℕ → ℕ → Matrix (Fin N) (Fin N) ℂ) (spacing mu tau : ℕ) :
    Matrix (Fin N) (Fin N) ℂ :=
  ∑ x ∈ range (volume L), if coord L L.ND x (L.ND - 1) = tau ∧ Sparse L spacing x then A x mu else 0

/-- The sum over the spatial directions and all times of the trace of a sparse sum and a full sum at distance `t`. -/
noncomputable def sparseCorr {N : ℕ} (L : Latt) (A : ℕ → ℕ → Matrix (Fin N) (Fin N) ℂ) (spacing t : ℕ) : ℝ :=
  ∑ mu ∈ range (L.ND - 1), ∑ tau ∈ range (L.dims (L.ND - 1)),
    (trace (sparseField L A spacing mu tau * sliceField L A mu ((tau + t) % L.dims (L.ND - 1)))).re

/-! ### Sums over time slices -/

theorem sum_time_gen {M : Type*} [AddCommMonoid M] {L : Latt} (hL : Valid L) {t : ℕ} (ht : t < L.dims (L.ND - 1))
    (f : ℕ → M) :
    ∑ i ∈ range (lcu L), f (lcu L * t + i) =
      ∑ r ∈ range (volume L), if coord L L.ND r (L.ND - 1) = t then f r else 0 := by
  unfold volume
  rw [sum_range_mul, sum_eq_single_of_mem t (mem_range.2 ht)]
  · exact sum_congr rfl fun i hi => by rw [if_pos (coord_last hL ht (mem_range.1 hi))]
  · intro c hc hne
    exact sum_eq_zero fun i hi => by rw [if_neg (by rw [coord_last hL (mem_range.1 hc) (mem_range.1 hi)]; exact hne)]

theorem sliceField_eq {N : ℕ} {L : Latt} (hL : Valid L) (A : ℕ → ℕ → Matrix (Fin N) (Fin N) ℂ) (mu : ℕ) {tau : ℕ}
    (ht : tau < L.dims (L.ND - 1)) : sliceField L A mu tau = ∑ i ∈ range (lcu L), A (lcu L * tau + i) mu :=
  (sum_time_gen hL ht fun x => A x mu).symm

theorem sliceField_herm {N : ℕ} {L : Latt} {A : ℕ → ℕ → Matrix (Fin N) (Fin N) ℂ} {mu : ℕ}
    (hA : ∀ x < volume L, (A x mu)ᴴ = A x mu) (tau : ℕ) : (sliceField L A mu tau)ᴴ = sliceField L A mu tau := by
  unfold sliceField
  rw [conjTranspose_sum]
  refine sum_congr rfl fun x hx => ?_
  split
  · exact hA x (mem_range.1 hx)
  · exact conjTranspose_zero

/-! ### The convolution -/

theorem star_plan (L : Latt) (sign : ℝ) (q : ℕ → ℂ) (k : ℕ) :
    star (small_plan L sign q k) = small_plan L (-sign) (fun x => star (q x)) k := by
  unfold small_plan fftw
  rw [star_sum]
  refine sum_congr rfl fun j _ => ?_
  rw [star_mul', Complex.star_def, ← Complex.exp_conj, map_mul, conj_I, conj_ofReal]
  congr 2
  push_cast
  ring

theorem plan_sum (L : Latt) (sign : ℝ) {ι : Type*} (s : Finset ι) (f : ι → ℕ → ℂ) (k : ℕ) :
    small_plan L sign (fun x => ∑ i ∈ s, f i x) k = ∑ i ∈ s, small_plan L sign (f i) k := by
  unfold small_plan fftw
  rw [sum_comm]
  exact sum_congr rfl fun j _ => by rw [sum_mul]

theorem plan_congr {L : Latt} (hL : Valid L) (sign : ℝ) {f g : ℕ → ℂ} (h : ∀ x < volume L, f x = g x) (k : ℕ) :
    small_plan L sign f k = small_plan L sign g k := by
  rw [small_plan_eq hL, small_plan_eq hL]
  exact sum_congr rfl fun x hx => by rw [h x (mem_range.1 hx)]

theorem autocorr {L : Latt} (hL : Valid L) {sign : ℝ} (hs : sign = 1 ∨ sign = -1) (q : ℕ → ℂ) (r : ℕ) :
    small_plan L (-sign) (fun k => small_plan L sign q k * star (small_plan L sign q k)) r =
      volume L * ∑ x ∈ range (volume L), ∑ y ∈ range (volume L), if Shifted L r y x then q x * star (q y) else 0 := by
  have base : ∀ q : ℕ → ℂ, small_plan L 1 (fun k => small_plan L (-1) q k * star (small_plan L (-1) q k)) r =
      volume L * ∑ x ∈ range (volume L), ∑ y ∈ range (volume L), if Shifted L r y x then q x * star (q y) else 0 := by
    intro q
    have := convolution hL q 1 r
    simpa only [mul_one, one_mul] using this
  rcases hs with rfl | rfl
  · have h1 := congrArg star (base fun x => star (q x))
    rw [star_plan] at h1
    have h2 : ∀ k, small_plan L (-1) (fun x => star (q x)) k = star (small_plan L 1 q k) := fun k => by rw [star_plan]
    simp only [h2, star_mul', star_star] at h1
    rw [h1, Complex.star_def, conj_natCast, map_sum]
    congr 1
    refine sum_congr rfl fun x _ => ?_
    rw [map_sum]
    refine sum_congr rfl fun y _ => ?_
    split
    · rw [map_mul, ← Complex.star_def, star_star]
    · simp
  · rw [neg_neg]; exact base q

/-- Two sites have exactly one separation, and its time is the difference of the times. -/
theorem sum_separation {L : Latt} (hL : Valid L) {t x y : ℕ} (ht : t < L.dims (L.ND - 1)) (hx : x < volume L)
    (hy : y < volume L) (z : ℂ) :
    ∑ r ∈ range (volume L), (if coord L L.ND r (L.ND - 1) = t then (if Shifted L r y x then z else 0) else 0) =
      if coord L L.ND x (L.ND - 1) = (coord L L.ND y (L.ND - 1) + t) % L.dims (L.ND - 1) then z else 0 := by
  obtain ⟨r0, h0, hs, huniq⟩ := separation hL hx hy
  have hnd := hL.nd
  have hlast : L.ND - 1 < L.ND := by omega
  rw [sum_eq_single_of_mem r0 (mem_range.2 h0), if_pos hs]
  · refine if_congr ?_ rfl rfl
    have h1 := hs (L.ND - 1) hlast
    have h2 := coord_lt L hL.pos L.ND r0 hlast
    have h3 := coord_lt L hL.pos L.ND y hlast
    rw [h1]
    constructor
    · intro h; rw [h]
    · intro h
      have h4 : coord L L.ND r0 (L.ND - 1) ≡ t [MOD L.dims (L.ND - 1)] := Nat.ModEq.add_left_cancel' _ h
      exact Nat.ModEq.eq_of_lt_of_lt h4 h2 ht
  · intro r hr hne
    rw [if_neg fun h => hne (huniq r (mem_range.1 hr) h)]
    simp

/-- The pairs of sites at time distance `t` as a sum over slices. -/
theorem pair_slices {N : ℕ} {L : Latt} (hL : Valid L) (A : ℕ → ℕ → Matrix (Fin N) (Fin N) ℂ) (mu : ℕ) {t : ℕ} :
    ∑ x ∈ range (volume L), ∑ y ∈ range (volume L),
      (if coord L L.ND x (L.ND - 1) = (coord L L.ND y (L.ND - 1) + t) % L.dims (L.ND - 1) then
        (trace (A x mu * (A y mu)ᴴ)).re else 0) =
    ∑ tau ∈ range (L.dims (L.ND - 1)),
      (trace (sliceField L A mu ((tau + t) % L.dims (L.ND - 1)) * (sliceField L A mu tau)ᴴ)).re := by
  have hnd := hL.nd
  have hlast : L.ND - 1 < L.ND := by omega
  have h1 : ∀ tau, (trace (sliceField L A mu ((tau + t) % L.dims (L.ND - 1)) * (sliceField L A mu tau)ᴴ)).re =
      ∑ x ∈ range (volume L), ∑ y ∈ range (volume L), if coord L L.ND y (L.ND - 1) = tau then
        (if coord L L.ND x (L.ND - 1) = (coord L L.ND y (L.ND - 1) + t) % L.dims (L.ND - 1) then
        (trace (A x mu * (A y mu)ᴴ)).re else 0) else 0 := by
    intro tau
    unfold sliceField
    rw [Matrix.sum_mul, trace_sum, re_sum]
    refine sum_congr rfl fun x _ => ?_
    rw [conjTranspose_sum, Matrix.mul_sum, trace_sum, re_sum]
    refine sum_congr rfl fun y _ => ?_
    by_cases hy : coord L L.ND y (L.ND - 1) = tau
    · rw [if_pos hy, if_pos hy, hy]
      split <;> simp
    · rw [if_neg hy, if_neg hy]; simp
  simp only [h1]
  conv_rhs => rw [sum_comm]
  refine sum_congr rfl fun x _ => ?_
  conv_rhs => rw [sum_comm]
  refine sum_congr rfl fun y _ => ?_
  rw [sum_ite_eq, if_pos (mem_range.2 (coord_lt L hL.pos L.ND y hlast))]

/-! ### Symmetry -/

theorem sliceCorr_symm {N : ℕ} {L : Latt} (hL : Valid L) (A : ℕ → ℕ → Matrix (Fin N) (Fin N) ℂ) (d : ℕ) {t : ℕ}
    (ht : t ≤ L.dims (L.ND - 1)) : sliceCorr L A d (L.dims (L.ND - 1) - t) = sliceCorr L A d t := by
  have hnd := hL.nd
  have hpos := hL.pos (L.ND - 1) (by omega)
  unfold sliceCorr
  refine sum_congr rfl fun mu _ => ?_
  generalize L.dims (L.ND - 1) = T at *
  refine sum_bij (fun tau _ => (tau + (T - t)) % T) ?_ ?_ ?_ ?_
  · intro tau _; exact mem_range.2 (Nat.mod_lt _ hpos)
  · intro a ha b hb hab
    have h : a + (T - t) ≡ b + (T - t) [MOD T] := hab
    exact Nat.ModEq.eq_of_lt_of_lt (Nat.ModEq.add_right_cancel' _ h) (mem_range.1 ha) (mem_range.1 hb)
  · intro b hb
    refine ⟨(b + t) % T, mem_range.2 (Nat.mod_lt _ hpos), ?_⟩
    rw [Nat.mod_add_mod, show b + t + (T - t) = b + T by omega, Nat.add_mod_right, Nat.mod_eq_of_lt (mem_range.1 hb)]
  · intro tau htau
    have h : ((tau + (T - t)) % T + t) % T = tau := by
      rw [Nat.mod_add_mod, show tau + (T - t) + t = tau + T by omega, Nat.add_mod_right,
        Nat.mod_eq_of_lt (mem_range.1 htau)]
    rw [h, Matrix.trace_mul_comm]

end GLU.Cuts
