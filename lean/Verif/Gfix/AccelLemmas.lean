import Verif.Gfix.Accel
import Verif.U1.Lemmas

/-!
# Lemmas on Fourier acceleration
-/

namespace GLU.Gfix

open Complex Finset GLU.Mat GLU.Geom GLU.Field

/-- The plane wave `k` at the site `x`. -/
noncomputable def wave (L : Latt) (k x : ℕ) : ℂ := exp (((2 * Real.pi * phase L k x : ℝ) : ℂ) * I)

theorem wave_comm (L : Latt) (k x : ℕ) : wave L k x = wave L x k := by
  unfold wave; rw [phase_comm]

theorem coord_zero (L : Latt) (D mu : ℕ) : coord L D 0 mu = 0 := by
  unfold coord; split <;> simp

theorem phase_zero (L : Latt) (k : ℕ) : phase L k 0 = 0 := by
  unfold phase
  exact sum_eq_zero fun mu _ => by rw [coord_zero]; simp

theorem wave_zero (L : Latt) (x : ℕ) : wave L 0 x = 1 := by
  rw [wave_comm]
  unfold wave
  rw [phase_zero]
  simp

theorem shifted_zero {L : Latt} (hL : Valid L) {r x : ℕ} (hr : r < volume L) (hx : x < volume L) :
    Shifted L r 0 x ↔ x = r := by
  constructor
  · intro h
    refine Field.site_ext hL hx hr fun mu hmu => ?_
    rw [h mu hmu, coord_zero, Nat.zero_add, Nat.mod_eq_of_lt (coord_lt L hL.pos L.ND r hmu)]
  · rintro rfl mu hmu
    rw [coord_zero, Nat.zero_add, Nat.mod_eq_of_lt (coord_lt L hL.pos L.ND x hmu)]

/-- Orthogonality of the waves. -/
theorem sum_wave {L : Latt} (hL : Valid L) {x r : ℕ} (hr : r < volume L) (hx : x < volume L) :
    ∑ k ∈ range (volume L), wave L k r * star (wave L k x) = if x = r then (volume L : ℂ) else 0 := by
  have h := sum_phase hL x 0 r
  rw [if_congr (shifted_zero hL hr hx) rfl rfl] at h
  rw [← h]
  refine sum_congr rfl fun k _ => ?_
  unfold wave
  rw [phase_zero, ← starRingEnd_apply, ← Complex.exp_conj, ← Complex.exp_add]
  congr 1
  simp only [map_mul, conj_ofReal, conj_I]
  push_cast
  ring

theorem sum_wave_site {L : Latt} (hL : Valid L) {k : ℕ} (hk : k < volume L) :
    ∑ x ∈ range (volume L), wave L k x = if k = 0 then (volume L : ℂ) else 0 := by
  have h := sum_wave hL (x := 0) hk (volume_pos hL)
  rw [if_congr (show (0 = k) ↔ k = 0 from eq_comm) rfl rfl] at h
  rw [← h]
  refine sum_congr rfl fun x _ => ?_
  rw [wave_comm L k x, wave_comm L x 0, wave_zero]
  simp

/-- A step in the direction `mu` multiplies a wave by a phase. -/
theorem wave_step {L : Latt} (k : ℕ) {x y mu : ℕ} (hmu : mu < L.ND) (hd : 0 < L.dims mu) (s z : ℤ)
    (hm : (coord L L.ND y mu : ℤ) = coord L L.ND x mu + s - L.dims mu * z)
    (ho : ∀ nu < L.ND, nu ≠ mu → coord L L.ND y nu = coord L L.ND x nu) :
    wave L k y = wave L k x * exp ((((s : ℝ) * ((coord L L.ND k mu : ℝ) * U1.twiddle L mu) : ℝ) : ℂ) * I) := by
  have hd' : (L.dims mu : ℝ) ≠ 0 := by exact_mod_cast hd.ne'
  have hp : phase L k y = phase L k x + (coord L L.ND k mu : ℝ) * s / L.dims mu - ((coord L L.ND k mu * z : ℤ) : ℝ) := by
    unfold phase
    rw [← add_sum_erase _ _ (mem_range.2 hmu), ← add_sum_erase (range L.ND)
      (fun nu => (coord L L.ND k nu : ℝ) * (coord L L.ND x nu : ℝ) / (L.dims nu : ℝ)) (mem_range.2 hmu)]
    have e : ∑ nu ∈ (range L.ND).erase mu, (coord L L.ND k nu : ℝ) * (coord L L.ND y nu : ℝ) / (L.dims nu : ℝ) =
        ∑ nu ∈ (range L.ND).erase mu, (coord L L.ND k nu : ℝ) * (coord L L.ND x nu : ℝ) / (L.dims nu : ℝ) :=
      sum_congr rfl fun nu hnu => by
        obtain ⟨h1, h2⟩ := mem_erase.1 hnu
        rw [ho nu (mem_range.1 h2) h1]
    have hm' : (coord L L.ND y mu : ℝ) = coord L L.ND x mu + s - L.dims mu * z := by exact_mod_cast hm
    rw [e, hm']
    push_cast
    field_simp
    ring
  unfold wave
  rw [← Complex.exp_add, hp, Complex.exp_eq_exp_iff_exists_int]
  refine ⟨-(coord L L.ND k mu * z), ?_⟩
  unfold U1.twiddle
  push_cast
  ring

theorem wave_neighbor {L : Latt} (hL : Valid L) (k x : ℕ) {mu : ℕ} (hmu : mu < L.ND) :
    wave L k (neighbor L x mu) = wave L k x * exp ((((coord L L.ND k mu : ℝ) * U1.twiddle L mu : ℝ) : ℂ) * I) := by
  have h := wave_step (L := L) k (x := x) (y := neighbor L x mu) hmu (hL.pos mu hmu) 1
    (((coord L L.ND x mu : ℤ) + 1) / L.dims mu) (by
      rw [coord_neighbor hL x hmu hmu, if_pos rfl, Int.emod_def]) (fun nu hnu hne => by
      have := coord_neighbor hL x hmu hnu
      rw [if_neg hne] at this
      exact_mod_cast this)
  rw [h]
  push_cast
  rw [one_mul]

theorem wave_back {L : Latt} (hL : Valid L) (k x : ℕ) {mu : ℕ} (hmu : mu < L.ND) :
    wave L k (back L x mu) = wave L k x * exp (((-((coord L L.ND k mu : ℝ) * U1.twiddle L mu) : ℝ) : ℂ) * I) := by
  have h := wave_step (L := L) k (x := x) (y := back L x mu) hmu (hL.pos mu hmu) (-1)
    (((coord L L.ND x mu : ℤ) - 1) / L.dims mu) (by
      rw [coord_back hL x hmu hmu, if_pos rfl, Int.emod_def]; ring) (fun nu hnu hne => by
      have := coord_back hL x hmu hnu
      rw [if_neg hne] at this
      exact_mod_cast this)
  rw [h]
  push_cast
  rw [neg_one_mul]

theorem wave_second {L : Latt} (hL : Valid L) (k x : ℕ) {mu : ℕ} (hmu : mu < L.ND) :
    2 * wave L k x - wave L k (neighbor L x mu) - wave L k (back L x mu) =
      ((2 - 2 * Real.cos ((coord L L.ND k mu : ℝ) * U1.twiddle L mu) : ℝ) : ℂ) * wave L k x := by
  rw [wave_neighbor hL k x hmu, wave_back hL k x hmu]
  generalize (coord L L.ND k mu : ℝ) * U1.twiddle L mu = t
  have := Complex.two_cos t
  push_cast
  push_cast at this
  rw [sub_mul, mul_assoc, ← mul_assoc (2 : ℂ) (Complex.cos _), this]
  ring

/-- The lattice Laplacian with the opposite sign, plus the mean. -/
noncomputable def helmholtz (L : Latt) (u : ℕ → ℂ) (x : ℕ) : ℂ :=
  ∑ mu ∈ range L.ND, (2 * u x - u (neighbor L x mu) - u (back L x mu)) +
    (∑ y ∈ range (volume L), u y) / (volume L : ℂ)

theorem kcosLoop_eq (L : Latt) (i D : ℕ) :
    kcosLoop L i D = ∑ mu ∈ range D, Real.cos ((coord L D i mu : ℝ) * U1.twiddle L mu) := by
  unfold kcosLoop
  generalize hg : (fun mu => Real.cos ((coord L D i mu : ℝ) * U1.twiddle L mu)) = g
  have : ∀ n, forN n (fun mu kcos => kcos + Real.cos ((coord L D i mu : ℝ) * U1.twiddle L mu)) (0 : ℝ) =
      ∑ mu ∈ range n, g mu := by
    intro n
    induction n with
    | zero => rfl
    | succ n ih => rw [forN, ih, sum_range_succ, ← hg]
  exact this D

theorem latticeSq_pos' {L : Latt} (hL : Valid L) {k : ℕ} (hk : k < volume L) (h0 : k ≠ 0) : 0 < U1.latticeSq L k := by
  have : ∃ mu < L.ND, coord L L.ND k mu ≠ 0 := by
    by_contra hc
    push Not at hc
    exact h0 (Field.site_ext hL hk (volume_pos hL) fun mu hmu => by rw [hc mu hmu, coord_zero])
  obtain ⟨mu, hmu, h0⟩ := this
  have hlt := coord_lt L hL.pos L.ND k hmu
  refine sum_pos' (fun nu _ => sq_nonneg _) ⟨mu, mem_range.2 hmu, ?_⟩
  have h1 : 0 < Real.sin (Real.pi * (coord L L.ND k mu : ℝ) / (L.dims mu : ℝ)) := by
    have hp : (0 : ℝ) < coord L L.ND k mu := by exact_mod_cast Nat.pos_of_ne_zero h0
    have hq : (0 : ℝ) < L.dims mu := by exact_mod_cast hL.pos mu hmu
    have hr : (coord L L.ND k mu : ℝ) < L.dims mu := by exact_mod_cast hlt
    refine Real.sin_pos_of_pos_of_lt_pi (by have := Real.pi_pos; positivity) ?_
    rw [div_lt_iff₀ hq]
    exact mul_lt_mul_of_pos_left hr Real.pi_pos
  positivity

/-- What the code calls the square of the momentum. -/
theorem gen_p_sq_eq {L : Latt} (hL : Valid L) {k : ℕ} (hk : k < volume L) :
    gen_p_sq L k L.ND = U1.latticeSq L k + if k = 0 then 1 else 0 := by
  have e := U1.latticeSq_eq L k
  unfold gen_p_sq
  rw [kcosLoop_eq]
  by_cases h : k = 0
  · subst h
    have h0 : ∑ mu ∈ range L.ND, Real.cos ((coord L L.ND 0 mu : ℝ) * U1.twiddle L mu) = L.ND := by
      simp [coord_zero]
    rw [if_pos h0, e, h0, if_pos rfl]
    ring
  · have hp := latticeSq_pos' hL hk h
    rw [if_neg h, if_neg (fun hc => by rw [hc, sub_self, mul_zero] at e; linarith), e, add_zero]

theorem gen_p_sq_pos {L : Latt} (hL : Valid L) {k : ℕ} (hk : k < volume L) : 0 < gen_p_sq L k L.ND := by
  rw [gen_p_sq_eq hL hk]
  by_cases h : k = 0
  · rw [if_pos h]
    have : 0 ≤ U1.latticeSq L k := sum_nonneg fun _ _ => sq_nonneg _
    linarith
  · rw [if_neg h, add_zero]
    exact latticeSq_pos' hL hk h

theorem helmholtz_wave {L : Latt} (hL : Valid L) {k : ℕ} (hk : k < volume L) (x : ℕ) :
    helmholtz L (wave L k) x = (gen_p_sq L k L.ND : ℂ) * wave L k x := by
  have hV : (volume L : ℂ) ≠ 0 := by exact_mod_cast (volume_pos hL).ne'
  unfold helmholtz
  rw [sum_congr rfl fun mu hmu => wave_second hL k x (mem_range.1 hmu), ← sum_mul, sum_wave_site hL hk, gen_p_sq_eq hL hk,
    U1.latticeSq_eq]
  have e : (∑ mu ∈ range L.ND, ((2 - 2 * Real.cos ((coord L L.ND k mu : ℝ) * U1.twiddle L mu) : ℝ) : ℂ)) =
      ((2 * ((L.ND : ℝ) - ∑ mu ∈ range L.ND, Real.cos ((coord L L.ND k mu : ℝ) * U1.twiddle L mu)) : ℝ) : ℂ) := by
    rw [← ofReal_sum, sum_sub_distrib, ← mul_sum]
    congr 1
    simp
    ring
  rw [e]
  by_cases h : k = 0
  · subst h
    rw [if_pos rfl, if_pos rfl, wave_zero, div_self hV]
    push_cast
    ring
  · rw [if_neg h, if_neg h, zero_div]
    push_cast
    ring

theorem helmholtz_sum (L : Latt) (s : Finset ℕ) (c : ℕ → ℂ) (w : ℕ → ℕ → ℂ) (x : ℕ) :
    helmholtz L (fun x => ∑ k ∈ s, c k * w k x) x = ∑ k ∈ s, c k * helmholtz L (w k) x := by
  unfold helmholtz
  simp only [mul_add, sum_add_distrib]
  congr 1
  · simp only [mul_sum]
    rw [sum_comm]
    refine sum_congr rfl fun mu _ => ?_
    rw [← sum_sub_distrib, ← sum_sub_distrib]
    exact sum_congr rfl fun k _ => by ring
  · rw [sum_comm, sum_div]
    exact sum_congr rfl fun k _ => by rw [← mul_sum, mul_div_assoc]

/-- The transform, a factor for every wave, and the transform back. -/
noncomputable def filter (L : Latt) (w : ℕ → ℝ) (f : ℕ → ℂ) : ℕ → ℂ :=
  small_plan L 1 fun i => small_plan L (-1) f i * (w i : ℂ)

theorem forward_eq {L : Latt} (hL : Valid L) (f : ℕ → ℂ) (k : ℕ) :
    small_plan L (-1) f k = ∑ x ∈ range (volume L), f x * star (wave L k x) := by
  rw [small_plan_eq hL]
  refine sum_congr rfl fun x _ => ?_
  unfold wave
  rw [← starRingEnd_apply, ← Complex.exp_conj, phase_comm]
  congr 2
  simp only [map_mul, conj_ofReal, conj_I]
  push_cast
  ring

theorem filter_eq {L : Latt} (hL : Valid L) (w : ℕ → ℝ) (f : ℕ → ℂ) (x : ℕ) :
    filter L w f x = ∑ k ∈ range (volume L), (small_plan L (-1) f k * (w k : ℂ)) * wave L k x := by
  unfold filter
  rw [small_plan_eq hL]
  refine sum_congr rfl fun k _ => ?_
  unfold wave
  rw [one_mul]

theorem inversion {L : Latt} (hL : Valid L) (f : ℕ → ℂ) {x : ℕ} (hx : x < volume L) :
    ∑ k ∈ range (volume L), small_plan L (-1) f k * wave L k x = (volume L : ℂ) * f x := by
  simp only [forward_eq hL, sum_mul]
  rw [sum_comm]
  rw [sum_eq_single_of_mem x (mem_range.2 hx)]
  · have h := sum_wave hL hx hx
    rw [if_pos rfl] at h
    rw [← h, sum_mul]
    exact sum_congr rfl fun k _ => by ring
  · intro y hy hne
    have h := sum_wave hL hx (mem_range.1 hy)
    rw [if_neg hne] at h
    rw [show (0 : ℂ) = f y * 0 by ring, ← h, mul_sum]
    exact sum_congr rfl fun k _ => by ring

/-- With the inverse of the code's square of the momentum the filter solves the Poisson equation. -/
theorem filter_poisson {L : Latt} (hL : Valid L) (c : ℝ) (f : ℕ → ℂ) {x : ℕ} (hx : x < volume L) :
    helmholtz L (filter L (fun k => c / gen_p_sq L k L.ND) f) x = ((c * volume L : ℝ) : ℂ) * f x := by
  have e : filter L (fun k => c / gen_p_sq L k L.ND) f = fun x => ∑ k ∈ range (volume L),
      (small_plan L (-1) f k * ((c / gen_p_sq L k L.ND : ℝ) : ℂ)) * wave L k x := by
    funext x; exact filter_eq hL _ f x
  rw [e, helmholtz_sum]
  push_cast
  rw [mul_assoc, ← inversion hL f hx, mul_sum]
  refine sum_congr rfl fun k hk => ?_
  have hp := gen_p_sq_pos hL (mem_range.1 hk)
  have hp' : (gen_p_sq L k L.ND : ℂ) ≠ 0 := by exact_mod_cast hp.ne'
  rw [helmholtz_wave hL (mem_range.1 hk)]
  field_simp

end GLU.Gfix
