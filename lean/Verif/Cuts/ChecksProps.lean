import Verif.Cuts.Checks

/-!
# C134, C135
-/

namespace GLU.Cuts

open Complex GLU.Mat GLU.Geom GLU.Field Matrix

theorem forN_tally {σ : Type*} [AddCommMonoid σ] (n : ℕ) (g : ℕ → σ) (s : σ) :
    forN n (fun i s => s + g i) s = s + ∑ i ∈ Finset.range n, g i := by
  induction n with
  | zero => simp [forN]
  | succ n ih => rw [forN, ih, Finset.sum_range_succ, add_assoc]

/-! ## C134 -/

open Classical in
/-- **C134.** The number printed is the number of pairs of a site and a direction whose link is found not to be unitary,
whatever the stack holds. -/
theorem C134_count (NC : ℕ) (L : Latt) (lat : Gauge) (temp : ℕ × ℕ → Arr ℂ) :
    check_links NC L lat temp = ((Finset.range (volume L) ×ˢ Finset.range L.ND).filter fun l =>
      is_unitary NC (lat l) (temp l) = false).card := by
  have h : ∀ i n, forN L.ND (fun mu n => if is_unitary NC (lat (i, mu)) (temp (i, mu)) = false then n + 1 else n) n =
      n + ∑ mu ∈ Finset.range L.ND, if is_unitary NC (lat (i, mu)) (temp (i, mu)) = false then 1 else 0 := by
    intro i n
    rw [← forN_tally]
    congr 1
    funext mu n
    split_ifs <;> rfl
  unfold check_links
  simp only [h]
  rw [forN_tally, zero_add, Finset.card_filter, Finset.sum_product]

/-- **C134.** A lattice of unitary links is reported without bad links. -/
theorem C134_good {NC : ℕ} {L : Latt} {lat : Gauge}
    (h : ∀ i < volume L, ∀ mu < L.ND, toM NC (lat (i, mu)) ∈ unitaryGroup (Fin NC) ℂ) (temp : ℕ × ℕ → Arr ℂ) :
    check_links NC L lat temp = 0 := by
  classical
  rw [C134_count, Finset.card_eq_zero, Finset.filter_eq_empty_iff]
  rintro ⟨i, mu⟩ hl
  rw [Finset.mem_product, Finset.mem_range, Finset.mem_range] at hl
  rw [C24_complete (h i hl.1 mu hl.2)]
  decide

/-- **C134.** A report without bad links means that the rows of every link are orthonormal within `NC 10^-14`. -/
theorem C134_sound {NC : ℕ} {L : Latt} {lat : Gauge} {temp : ℕ × ℕ → Arr ℂ} (h : check_links NC L lat temp = 0) :
    ∀ i < volume L, ∀ mu < L.ND, ∀ a b, ‖(toM NC (lat (i, mu)) * (toM NC (lat (i, mu)))ᴴ - 1) a b‖ ≤ NC * (1 / 10 ^ 14) := by
  classical
  intro i hi mu hmu a b
  rw [C134_count, Finset.card_eq_zero, Finset.filter_eq_empty_iff] at h
  have h1 := h (x := (i, mu)) (Finset.mem_product.2 ⟨Finset.mem_range.2 hi, Finset.mem_range.2 hmu⟩)
  have h2 : is_unitary NC (lat (i, mu)) (temp (i, mu)) = true := by
    simpa using h1
  exact (C24_sound h2).1 a b

/-- **C134 fails for the determinant.** "checks for any problems with non-SU( NC ) matrices": a lattice of links none of which has
determinant one is reported without bad links, for every number of colours above one. -/
theorem C134_determinant_fails {NC : ℕ} (hN : 2 ≤ NC) (L : Latt) : ∃ lat : Gauge,
    (∀ l, (toM NC (lat l)).det ≠ 1) ∧ ∀ temp, check_links NC L lat temp = 0 := by
  let d : Matrix (Fin NC) (Fin NC) ℂ := Matrix.diagonal fun r => if (r : ℕ) = 0 then -1 else 1
  let a : Arr ℂ := fun x => if x = 0 then -1 else if x % (NC + 1) = 0 then 1 else 0
  have ha : toM NC a = d := by
    ext r c
    have hr := r.2
    have hc := c.2
    rw [toM_apply]
    simp only [a, d, Matrix.diagonal_apply]
    by_cases e : r = c
    · subst e
      rw [if_pos rfl, show (r : ℕ) + NC * r = (NC + 1) * r by ring, Nat.mul_mod_right, if_pos rfl]
      by_cases e0 : (r : ℕ) = 0
      · rw [if_pos (by rw [e0, mul_zero]), if_pos e0]
      · rw [if_neg (Nat.mul_ne_zero (by omega) e0), if_neg e0]
    · have ne : (r : ℕ) ≠ c := fun h => e (Fin.ext h)
      have hm : ((c : ℕ) + NC * r) % (NC + 1) ≠ 0 := by
        intro h
        obtain ⟨q, hq⟩ := Nat.dvd_of_mod_eq_zero h
        have h1 : (c : ℕ) + (NC + 1) * r = (NC + 1) * q + r := by rw [← hq]; ring
        have h2 := congrArg (· % (NC + 1)) h1
        simp only [Nat.add_mul_mod_self_left, Nat.mul_add_mod] at h2
        rw [Nat.mod_eq_of_lt (by omega), Nat.mod_eq_of_lt (by omega)] at h2
        exact ne h2.symm
      have hz : (c : ℕ) + NC * r ≠ 0 := fun h => hm (by rw [h, Nat.zero_mod])
      rw [if_neg e, if_neg hz, if_neg hm]
  have hdet : d.det = -1 := by
    rw [Matrix.det_diagonal, Finset.prod_eq_single (⟨0, by omega⟩ : Fin NC)]
    · simp
    · intro b _ hb
      exact if_neg fun h => hb (Fin.ext h)
    · intro h
      exact absurd (Finset.mem_univ _) h
  have hu : d ∈ unitaryGroup (Fin NC) ℂ := by
    rw [mem_unitaryGroup_iff, star_eq_conjTranspose, Matrix.diagonal_conjTranspose, Matrix.diagonal_mul_diagonal,
      ← Matrix.diagonal_one]
    congr 1
    funext r
    simp only [Pi.star_apply]
    split_ifs <;> simp
  refine ⟨fun _ => a, fun _ => ?_, fun temp => C134_good (fun i _ mu _ => ?_) temp⟩
  · rw [ha, hdet]
    norm_num
  · rw [ha]
    exact hu

/-- A lattice with one bad link among four: the zero matrix. -/
example : check_links 3 ⟨1, fun _ => 4⟩ (fun l => if l = (2, 0) then fun _ => 0 else suExample) (fun _ _ => 0) ≠ 0 := by
  intro h
  have := C134_sound h 2 (by decide) 0 (by norm_num) 0 0
  norm_num [Matrix.mul_apply, toM_apply] at this

/-! ## C135 -/

theorem siteDiv_toM (NC : ℕ) (L : Latt) (A : Gauge) (i : ℕ) :
    toM NC (siteDiv NC L A i) = ∑ mu ∈ Finset.range L.ND, (toM NC (A (i, mu)) - toM NC (A (back L i mu, mu))) := by
  unfold siteDiv
  have hin : ∀ (f : Arr ℂ) (dA : Arr ℂ) (n : ℕ), forN n (fun elem dA => Function.update dA elem (dA elem + f elem)) dA =
      fun x => if x < n then dA x + f x else dA x := by
    intro f dA n
    induction n with
    | zero => simp [forN]
    | succ n ih =>
      rw [forN, ih]
      funext x
      rcases lt_trichotomy x n with h | rfl | h
      · rw [Function.update_of_ne (by omega), if_pos h, if_pos (by omega)]
      · rw [Function.update_self, if_pos (by omega)]
        simp only [lt_irrefl, if_false]
      · rw [Function.update_of_ne (by omega), if_neg (by omega), if_neg (by omega)]
  have hout : ∀ n, toM NC (forN n (fun mu dA => forN (NC * NC) (fun elem dA =>
      Function.update dA elem (dA elem + (A (i, mu) elem - A (back L i mu, mu) elem))) dA) fun _ => 0) =
      ∑ mu ∈ Finset.range n, (toM NC (A (i, mu)) - toM NC (A (back L i mu, mu))) := by
    intro n
    induction n with
    | zero => ext r c; simp [forN, toM_apply]
    | succ n ih =>
      rw [forN, hin (fun elem => A (i, n) elem - A (back L i n, n) elem), Finset.sum_range_succ, ← ih]
      ext r c
      have hlt : (c : ℕ) + NC * r < NC * NC := by
        have := Nat.mul_le_mul_left NC (show (r : ℕ) + 1 ≤ NC from r.2)
        have := c.2
        rw [Nat.mul_add, Nat.mul_one] at *
        omega
      simp only [Matrix.add_apply, Matrix.sub_apply, toM_apply, if_pos hlt]
  exact hout L.ND

/-- **C135.** For Hermitian traceless fields the accuracy printed is the sum over the sites of the squared entries of the divergence,
divided by the number of colours times the number of sites. -/
theorem C135_value {NC : ℕ} {L : Latt} {A : Gauge} (hA : ∀ l, (toM NC (A l)).IsHermitian ∧ (toM NC (A l)).trace = 0) :
    check_landau_condition NC L A = (∑ i ∈ Finset.range (volume L), ∑ a, ∑ b,
      ‖(∑ mu ∈ Finset.range L.ND, (toM NC (A (i, mu)) - toM NC (A (back L i mu, mu)))) a b‖ ^ 2) / (NC * volume L) := by
  unfold check_landau_condition
  rw [forN_tally, zero_add]
  congr 1
  refine Finset.sum_congr rfl fun i _ => ?_
  rw [← siteDiv_toM]
  have hH : (toM NC (siteDiv NC L A i)).IsHermitian := by
    rw [siteDiv_toM, Matrix.IsHermitian, conjTranspose_sum]
    refine Finset.sum_congr rfl fun mu _ => ?_
    rw [conjTranspose_sub, (hA _).1.eq, (hA _).1.eq]
  have ht : (toM NC (siteDiv NC L A i)).trace = 0 := by
    rw [siteDiv_toM, trace_sum]
    refine Finset.sum_eq_zero fun mu _ => ?_
    rw [trace_sub, (hA _).2, (hA _).2, sub_self]
  have h := C12_trace_ab_herm hH hH fun _ => ⟨ht, ht⟩
  apply ofReal_injective
  rw [h]
  nth_rewrite 2 [← hH.eq]
  push_cast
  simp only [Matrix.trace, Matrix.diag_apply, Matrix.mul_apply, conjTranspose_apply]
  refine Finset.sum_congr rfl fun a _ => Finset.sum_congr rfl fun b _ => ?_
  exact Complex.mul_conj' _

/-- **C135.** The accuracy printed is never negative, and it is zero exactly for fields without divergence at any site. -/
theorem C135_zero {NC : ℕ} {L : Latt} {A : Gauge} (hN : 0 < NC) (hV : 0 < volume L)
    (hA : ∀ l, (toM NC (A l)).IsHermitian ∧ (toM NC (A l)).trace = 0) :
    0 ≤ check_landau_condition NC L A ∧ (check_landau_condition NC L A = 0 ↔ ∀ i < volume L,
      ∑ mu ∈ Finset.range L.ND, (toM NC (A (i, mu)) - toM NC (A (back L i mu, mu))) = 0) := by
  rw [C135_value hA]
  have hd : (0 : ℝ) < NC * volume L := by positivity
  have h1 : ∀ (M : Matrix (Fin NC) (Fin NC) ℂ) (a : Fin NC), 0 ≤ ∑ b, ‖M a b‖ ^ 2 := fun M a =>
    Finset.sum_nonneg fun b _ => sq_nonneg _
  have h2 : ∀ M : Matrix (Fin NC) (Fin NC) ℂ, 0 ≤ ∑ a, ∑ b, ‖M a b‖ ^ 2 := fun M => Finset.sum_nonneg fun a _ => h1 M a
  refine ⟨div_nonneg (Finset.sum_nonneg fun i _ => h2 _) hd.le, ?_⟩
  rw [div_eq_zero_iff, or_iff_left hd.ne', Finset.sum_eq_zero_iff_of_nonneg fun i _ => h2 _]
  constructor
  · intro h i hi
    have h3 := h i (Finset.mem_range.2 hi)
    rw [Finset.sum_eq_zero_iff_of_nonneg fun a _ => h1 _ a] at h3
    ext a b
    have h4 := h3 a (Finset.mem_univ a)
    rw [Finset.sum_eq_zero_iff_of_nonneg fun a _ => sq_nonneg _] at h4
    have h5 := h4 b (Finset.mem_univ b)
    rw [Matrix.zero_apply, ← norm_eq_zero]
    exact pow_eq_zero_iff (two_ne_zero) |>.1 h5
  · intro h i hi
    rw [h i (Finset.mem_range.1 hi)]
    simp

/-- Fields that meet the hypotheses with a divergence: one direction, three colours, `diag(1, -1, 0)` on one of four sites. -/
example : let A : Gauge := fun l => if l = (2, 0) then fun x => if x = 0 then 1 else if x = 4 then -1 else 0 else fun _ => 0
    (∀ l, (toM 3 (A l)).IsHermitian ∧ (toM 3 (A l)).trace = 0) ∧ check_landau_condition 3 ⟨1, fun _ => 4⟩ A ≠ 0 := by
  intro A
  have hA : ∀ l, (toM 3 (A l)).IsHermitian ∧ (toM 3 (A l)).trace = 0 := by
    intro l
    by_cases e : l = (2, 0)
    · simp only [A, if_pos e]
      refine ⟨?_, ?_⟩
      · ext r c
        fin_cases r <;> fin_cases c <;> simp [toM_apply]
      · simp [Matrix.trace, Fin.sum_univ_three, toM_apply]
    · simp only [A, if_neg e]
      refine ⟨?_, ?_⟩
      · ext r c
        simp [toM_apply]
      · simp [Matrix.trace, toM_apply]
  refine ⟨hA, fun h => ?_⟩
  have h2 := ((C135_zero (by norm_num) (by decide) hA).2.1 h) 2 (by decide)
  have h3 := congrFun (congrFun h2 0) 0
  have hb : back ⟨1, fun _ => 4⟩ 2 0 = 1 := by decide
  rw [Finset.sum_range_one, hb] at h3
  simp [A, toM_apply] at h3

end GLU.Cuts
