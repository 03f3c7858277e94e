import Verif.Gfix.Model
import Verif.Gfix.Orbit
import Verif.Update.Props

/-!
# Helper lemmas for over-relaxed gauge fixing
-/

namespace GLU.Gfix

open Complex Matrix GLU.Mat GLU.Geom GLU.Field GLU.Update Finset

/-! ## Specification -/

/-- The sum of the links that leave the site and the daggers of those that enter it, over the first `D` directions. -/
noncomputable def siteSum (NC : ℕ) (L : Latt) (lat : Gauge) (i D : ℕ) : Matrix (Fin NC) (Fin NC) ℂ :=
  ∑ mu ∈ range D, (link NC lat i mu + (link NC lat (back L i mu) mu)ᴴ)

/-- The quantity the gauge fixing makes large: the sum of the real traces of the links of the first `D` directions on
the sites `S`. -/
noncomputable def linkSum (NC : ℕ) (lat : Gauge) (S : Finset ℕ) (D : ℕ) : ℝ :=
  ∑ i ∈ S, ∑ mu ∈ range D, (link NC lat i mu).trace.re

/-! ## The sums -/

theorem data_all {NC s : ℕ} (hs : s < NSU2SUBGROUPS NC) (p q : Fin NC)
    (hp : (p : ℕ) = (rowPair NC s).1) (hq : (q : ℕ) = (rowPair NC s).2) :
    (su2_data NC s).idx_a / NC = p ∧ (su2_data NC s).idx_a % NC = p ∧ (su2_data NC s).idx_b / NC = p ∧
    (su2_data NC s).idx_b % NC = q ∧ (su2_data NC s).idx_c / NC = q ∧ (su2_data NC s).idx_c % NC = p ∧
    (su2_data NC s).idx_d / NC = q ∧ (su2_data NC s).idx_d % NC = q := by
  obtain ⟨d, i, rfl, h⟩ := index_split hs
  have hN : 0 < NC := by omega
  rw [rowPair_at h] at hp hq
  rw [su2_data_at h]
  simp only at hp hq ⊢
  rw [hp, hq]
  have h1 : ∀ a b, a < NC → (a + NC * b) / NC = b := fun a b ha => by
    rw [Nat.add_mul_div_left _ _ hN, Nat.div_eq_of_lt ha, zero_add]
  have h2 : ∀ a b, a < NC → (a + NC * b) % NC = a := fun a b ha => by
    rw [Nat.add_mul_mod_self_left, Nat.mod_eq_of_lt ha]
  refine ⟨h1 _ _ (by omega), h2 _ _ (by omega), h1 _ _ (by omega), h2 _ _ (by omega), h1 _ _ (by omega),
    h2 _ _ (by omega), h1 _ _ (by omega), h2 _ _ (by omega)⟩

theorem pair_sum {n : ℕ} (f g : ℕ → ℂ) :
    forN n (fun k (s : ℂ × ℂ) => (s.1 + f k, s.2 + g k)) (0, 0) = (∑ k ∈ range n, f k, ∑ k ∈ range n, g k) := by
  induction n with
  | zero => rfl
  | succ n ih => rw [forN, ih, sum_range_succ, sum_range_succ]

theorem orSum_eq {NC s : ℕ} (hs : s < NSU2SUBGROUPS NC) (p q : Fin NC)
    (hp : (p : ℕ) = (rowPair NC s).1) (hq : (q : ℕ) = (rowPair NC s).2) (L : Latt) (lat : Gauge) (i D : ℕ) :
    orSum NC L lat s i D = (star (siteSum NC L lat i D p p) + siteSum NC L lat i D q q,
      star (siteSum NC L lat i D q p) - siteSum NC L lat i D p q) := by
  obtain ⟨h1, h2, h3, h4, h5, h6, h7, h8⟩ := data_all hs p q hp hq
  unfold orSum siteSum
  simp only [h1, h2, h3, h4, h5, h6, h7, h8]
  rw [pair_sum]
  simp only [Matrix.sum_apply, star_sum, ← sum_add_distrib, ← sum_sub_distrib]
  refine Prod.ext ?_ ?_ <;> simp only
  · refine sum_congr rfl fun mu _ => ?_
    simp only [link, Matrix.add_apply, conjTranspose_apply, toM_apply, conj, star_add, star_star, Nat.mul_comm _ NC]
    ring
  · refine sum_congr rfl fun mu _ => ?_
    simp only [link, Matrix.add_apply, conjTranspose_apply, toM_apply, conj, star_add, star_star, Nat.mul_comm _ NC]
    ring

/-! ## The rotation -/

/-- What every accepted choice satisfies: the pair has unit norm, and it does not lower the trace; it raises it strictly
unless the sums are those of a stationary site. -/
structure GoodPair (s r : ℂ × ℂ) : Prop where
  norm : normSq r.1 + normSq r.2 = 1
  gain : s.1.re ≤ (star r.1 * s.1 + star r.2 * s.2).re
  strict : (star r.1 * s.1 + star r.2 * s.2).re = s.1.re → s.1.im = 0 ∧ s.2 = 0 ∧ 0 < s.1.re

theorem relax_good {s r : ℂ × ℂ} (h : relax s.1 s.2 = some r) : GoodPair s r := by
  obtain ⟨⟨a, b⟩, ⟨c, d⟩⟩ := s
  unfold relax at h
  simp only at h
  split at h
  · cases h
  next hn =>
  rw [Option.some_inj] at h
  subst h
  set n := Real.sqrt (a * a + b * b + c * c + d * d) with hnd
  have hsq : n * n = a * a + b * b + c * c + d * d := Real.mul_self_sqrt (by nlinarith [mul_self_nonneg a, mul_self_nonneg b, mul_self_nonneg c, mul_self_nonneg d])
  have hn0 : 0 ≤ n := Real.sqrt_nonneg _
  have hpos : 0 < n := lt_of_le_of_ne hn0 (Ne.symm hn)
  have hg : (star ((⟨a, b⟩ : ℂ) * ((1 / n : ℝ) : ℂ)) * ⟨a, b⟩ + star ((⟨c, d⟩ : ℂ) * ((1 / n : ℝ) : ℂ)) * ⟨c, d⟩).re = n := by
    simp [Complex.mul_re, Complex.mul_im]
    field_simp
    nlinarith
  clear_value n
  refine ⟨?_, ?_, ?_⟩
  · simp [normSq_apply, Complex.mul_re, Complex.mul_im]
    field_simp
    nlinarith
  · refine le_of_le_of_eq ?_ hg.symm
    show a ≤ n
    exact le_of_not_gt fun hlt => by
      nlinarith [mul_self_nonneg b, mul_self_nonneg c, mul_self_nonneg d]
  · intro he
    have hna : n = a := hg.symm.trans he
    have h0 : b * b + c * c + d * d = 0 := by rw [hna] at hsq; linarith
    have hb : b = 0 := by nlinarith [mul_self_nonneg b, mul_self_nonneg c, mul_self_nonneg d]
    have hc : c = 0 := by nlinarith [mul_self_nonneg b, mul_self_nonneg c, mul_self_nonneg d]
    have hd : d = 0 := by nlinarith [mul_self_nonneg b, mul_self_nonneg c, mul_self_nonneg d]
    exact ⟨hb, by rw [hc, hd]; rfl, by linarith⟩

theorem OrRotation_good {s r : ℂ × ℂ} (h : OrRotation s.1 s.2 2 = some r) : GoodPair s r := by
  obtain ⟨⟨a, b⟩, ⟨c, d⟩⟩ := s
  unfold OrRotation at h
  simp only at h
  split at h
  · cases h
  next hs =>
  split at h
  · cases h
  next hr =>
  rw [Option.some_inj] at h
  subst h
  set A := b * b + c * c + d * d with hA
  have hA0 : 0 ≤ A := by nlinarith [mul_self_nonneg b, mul_self_nonneg c, mul_self_nonneg d]
  have ha0 : 0 ≤ a * a := mul_self_nonneg a
  have hSp : 0 < a * a + A := lt_of_le_of_ne (by linarith) (Ne.symm hs)
  set x := (2 * (a * a) + A) / (a * a + A) with hx
  have hx1 : 1 ≤ x := by rw [hx, le_div_iff₀ hSp]; linarith
  have hx2 : x ≤ 2 := by rw [hx, div_le_iff₀ hSp]; linarith
  clear_value x
  set n := Real.sqrt (a * a + x * x * A) with hn
  have hsq : n * n = a * a + x * x * A := Real.mul_self_sqrt (by positivity)
  have hn0 : 0 ≤ n := Real.sqrt_nonneg _
  have hpos : 0 < n := lt_of_le_of_ne hn0 (Ne.symm hr)
  clear_value n
  have hg : (star (((a / n : ℝ) : ℂ) + I * ((b * (x / n) : ℝ) : ℂ)) * (⟨a, b⟩ : ℂ) +
      star ((⟨c, d⟩ : ℂ) * ((x / n : ℝ) : ℂ)) * ⟨c, d⟩).re = (a * a + x * A) / n := by
    rw [hA]
    simp [Complex.mul_re, Complex.mul_im, -ofReal_div, -ofReal_mul]
    field_simp
    ring
  have hmain : a * n ≤ a * a + x * A := by
    rcases le_or_gt a 0 with h | h
    · nlinarith [mul_nonneg (by linarith : (0:ℝ) ≤ x) hA0, mul_nonneg (by linarith : 0 ≤ -a) hn0]
    · have hxA : 0 ≤ x * A := mul_nonneg (by linarith) hA0
      have h1 : (a * n) * (a * n) ≤ (a * a + x * A) * (a * a + x * A) := by
        have : (a * n) * (a * n) = a * a * (a * a + x * x * A) := by rw [← hsq]; ring
        rw [this]
        have h2 : 0 ≤ x * A * (a * a * (2 - x) + x * A) :=
          mul_nonneg hxA (add_nonneg (mul_nonneg ha0 (by linarith)) hxA)
        nlinarith
      exact le_of_not_gt fun hlt => by nlinarith [mul_pos h hpos]
  refine ⟨?_, ?_, ?_⟩
  · simp [normSq_apply, Complex.mul_re, Complex.mul_im, -ofReal_div, -ofReal_mul]
    field_simp
    rw [hA] at hsq
    nlinarith
  · show a ≤ _
    refine le_of_le_of_eq ?_ hg.symm
    rw [le_div_iff₀ hpos]; exact hmain
  · intro he
    have he' : (a * a + x * A) / n = a := hg.symm.trans he
    rw [div_eq_iff hpos.ne'] at he'
    have hxA : 0 ≤ x * A := mul_nonneg (by linarith) hA0
    have hAz : A = 0 := by
      by_contra hne
      have hAp : 0 < A := lt_of_le_of_ne hA0 (Ne.symm hne)
      have hxAp : 0 < x * A := mul_pos (by linarith) hAp
      have h1 : (a * n) * (a * n) = a * a * (a * a + x * x * A) := by rw [← hsq]; ring
      rw [← he'] at h1
      have h2 : x * A * (a * a * (2 - x) + x * A) = 0 := by nlinarith
      have h3 : 0 < a * a * (2 - x) + x * A := add_pos_of_nonneg_of_pos (mul_nonneg ha0 (by linarith)) hxAp
      exact absurd h2 (mul_pos hxAp h3).ne'
    have hb : b = 0 := by nlinarith [mul_self_nonneg b, mul_self_nonneg c, mul_self_nonneg d]
    have hc : c = 0 := by nlinarith [mul_self_nonneg b, mul_self_nonneg c, mul_self_nonneg d]
    have hd : d = 0 := by nlinarith [mul_self_nonneg b, mul_self_nonneg c, mul_self_nonneg d]
    refine ⟨hb, by show (⟨c, d⟩ : ℂ) = 0; rw [hc, hd]; rfl, ?_⟩
    show 0 < a
    rw [hAz] at he' hSp
    have : 0 < a * n := by rw [← he']; linarith
    exact (pos_iff_pos_of_mul_pos this).2 hpos

theorem orChoice_good {OrParam coin : ℝ} {s r : ℂ × ℂ} (h : orChoice OrParam coin s = some r) : GoodPair s r := by
  unfold orChoice at h
  split at h
  · exact OrRotation_good h
  · exact relax_good h

/-- A choice is defined unless the sums vanish. -/
theorem orChoice_defined {OrParam coin : ℝ} {s : ℂ × ℂ} (h : s ≠ (0, 0)) : ∃ r, orChoice OrParam coin s = some r := by
  obtain ⟨⟨a, b⟩, ⟨c, d⟩⟩ := s
  have hp : a * a + (b * b + c * c + d * d) ≠ 0 := by
    intro h0
    apply h
    have ha : a = 0 := by nlinarith [mul_self_nonneg a, mul_self_nonneg b, mul_self_nonneg c, mul_self_nonneg d]
    have hb : b = 0 := by nlinarith [mul_self_nonneg a, mul_self_nonneg b, mul_self_nonneg c, mul_self_nonneg d]
    have hc : c = 0 := by nlinarith [mul_self_nonneg a, mul_self_nonneg b, mul_self_nonneg c, mul_self_nonneg d]
    have hd : d = 0 := by nlinarith [mul_self_nonneg a, mul_self_nonneg b, mul_self_nonneg c, mul_self_nonneg d]
    subst ha hb hc hd; rfl
  have hpos : 0 < a * a + (b * b + c * c + d * d) := lt_of_le_of_ne (by nlinarith [mul_self_nonneg a, mul_self_nonneg b, mul_self_nonneg c, mul_self_nonneg d]) (Ne.symm hp)
  unfold orChoice OrRotation relax
  split
  · simp only
    rw [if_neg hp]
    have hA0 : 0 ≤ b * b + c * c + d * d := by nlinarith [mul_self_nonneg b, mul_self_nonneg c, mul_self_nonneg d]
    generalize hA : b * b + c * c + d * d = A at *
    have hx : 1 ≤ (2 * (a * a) + A) / (a * a + A) := by
      rw [le_div_iff₀ hpos]; nlinarith [mul_self_nonneg a]
    generalize (2 * (a * a) + A) / (a * a + A) = x at *
    rw [if_neg]
    · exact ⟨_, rfl⟩
    · show ¬ _
      rw [← ne_eq, Real.sqrt_ne_zero (by nlinarith [mul_self_nonneg a, mul_nonneg (mul_self_nonneg x) hA0])]
      have : a * a + A ≤ a * a + x * x * A := by nlinarith [mul_nonneg hA0 (by nlinarith : (0:ℝ) ≤ x * x - 1)]
      exact (lt_of_lt_of_le hpos this).ne'
  · rw [if_neg]
    · exact ⟨_, rfl⟩
    · rw [← ne_eq, Real.sqrt_ne_zero (by nlinarith [mul_self_nonneg a, mul_self_nonneg b, mul_self_nonneg c, mul_self_nonneg d])]
      intro h0; exact hp (by linarith)

theorem orChoice_zero (OrParam coin : ℝ) : orChoice OrParam coin (0, 0) = none := by
  unfold orChoice OrRotation relax
  simp

end GLU.Gfix
