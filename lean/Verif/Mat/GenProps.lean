import Verif.Mat.GenLemmas
import Mathlib.LinearAlgebra.Matrix.Hermitian

namespace GLU.Mat

open Complex Matrix

theorem trace_single_mul' {NC : ℕ} (a b : Fin NC) (x : ℂ) (M : Matrix (Fin NC) (Fin NC) ℂ) :
    (Matrix.single a b x * M).trace = x * M b a := by
  rw [Matrix.trace_single_mul, smul_eq_mul]

/-- Off-diagonal indices come from a pair. -/
theorem gen_off {NC p : ℕ} (hp : p < NC * NC - 1) (hoff : ∀ m, 2 ≤ m → p ≠ m * m - 2) :
    ∃ k j : Fin NC, j < k ∧ 1 ≤ (k : ℕ) ∧
      ((p = k * k - 1 + 2 * j ∧ init_generators NC p = symA NC k j) ∨
       (p = k * k - 1 + (2 * j + 1) ∧ init_generators NC p = asymA NC k j)) := by
  obtain ⟨k, hk1, ⟨j, hj, e⟩ | ⟨j, hj, e⟩ | e⟩ := gen_index hp
  · exact ⟨k, ⟨j, hj.trans k.2⟩, hj, hk1, Or.inl ⟨e, e ▸ ((init_generators_spec NC hk1 k.2).1 j hj).1⟩⟩
  · exact ⟨k, ⟨j, hj.trans k.2⟩, hj, hk1,
      Or.inr ⟨by simp only; omega, e ▸ ((init_generators_spec NC hk1 k.2).1 j hj).2⟩⟩
  · refine absurd e ?_
    have := hoff (k + 1) (by omega)
    have e2 : ((k : ℕ) + 1) * (k + 1) = k * k + 2 * k + 1 := by ring
    have e3 : 1 ≤ (k : ℕ) * k := Nat.one_le_iff_ne_zero.2 (by positivity)
    omega

/-- Every generator is Hermitian. -/
theorem C22_hermitian {NC p : ℕ} (hp : p < NC * NC - 1) : (toM NC (init_generators NC p)).IsHermitian := by
  obtain ⟨k, hk1, ⟨j, hj, e⟩ | ⟨j, hj, e⟩ | e⟩ := gen_index hp
  · rw [e, ((init_generators_spec NC hk1 k.2).1 j hj).1]
    have := toM_sym NC (k := k) (j := ⟨j, hj.trans k.2⟩) hj
    simp only at this
    rw [this, Matrix.IsHermitian, conjTranspose_add, conjTranspose_single, conjTranspose_single, add_comm]
    simp
  · rw [e, ((init_generators_spec NC hk1 k.2).1 j hj).2]
    have := toM_asym NC (k := k) (j := ⟨j, hj.trans k.2⟩) hj
    simp only at this
    rw [this, Matrix.IsHermitian, conjTranspose_add, conjTranspose_single, conjTranspose_single, add_comm]
    simp
  · rw [e, (init_generators_spec NC hk1 k.2).2, toM_diagA, Matrix.IsHermitian, diagonal_conjTranspose]
    congr 1
    funext r
    simp only [Pi.star_apply]
    split
    · exact Complex.conj_ofReal _
    · split
      · exact Complex.conj_ofReal _
      · exact star_zero _

/-- **C22** for the off-diagonal generators (all but those with index `m² - 2`):
traceless and Hermitian, normalised to one half and orthogonal to every other
generator.  The diagonal generators are missing, see `C22_diagonal_fails`. -/
theorem C22_offdiagonal_partial {NC p : ℕ} (hp : p < NC * NC - 1)
    (hoff : ∀ m, 2 ≤ m → p ≠ m * m - 2) :
    (toM NC (init_generators NC p)).IsHermitian ∧ (toM NC (init_generators NC p)).trace = 0 ∧
    ∀ q < NC * NC - 1, (toM NC (init_generators NC p) * toM NC (init_generators NC q)).trace =
      if p = q then 1 / 2 else 0 := by
  refine ⟨C22_hermitian hp, ?_⟩
  obtain ⟨k, j, hjk, hk1, h⟩ := gen_off hp hoff
  have hne : j ≠ k := ne_of_lt hjk
  have hjk' : (j : ℕ) < k := hjk
  refine ⟨?_, fun q hq => ?_⟩
  · rcases h with ⟨-, h⟩ | ⟨-, h⟩
    · rw [h, toM_sym NC hjk]; simp [Matrix.trace_add, Matrix.trace_single_eq_of_ne, hne, hne.symm]
    · rw [h, toM_asym NC hjk]; simp [Matrix.trace_add, Matrix.trace_single_eq_of_ne, hne, hne.symm]
  · -- the two entries of the second generator that are met
    obtain ⟨k', hk1', h'⟩ := gen_index hq
    have hpq : ∀ r r', r ≤ 2 * (k : ℕ) → r' ≤ 2 * (k' : ℕ) → p = k * k - 1 + r → q = k' * k' - 1 + r' →
        (p = q ↔ (k = k' ∧ r = r')) := by
      intro r r' hr hr' e e'
      constructor
      · intro h
        have := gen_block_eq hk1 hk1' hr hr' (by omega)
        exact ⟨Fin.ext this.1, this.2⟩
      · rintro ⟨rfl, rfl⟩; omega
    have I2 : I * I = -1 := I_mul_I
    rcases h' with ⟨j', hj', e'⟩ | ⟨j', hj', e'⟩ | e'
    · have hq' : toM NC (init_generators NC q) = single k' ⟨j', hj'.trans k'.2⟩ (1 / 2) +
          single ⟨j', hj'.trans k'.2⟩ k' (1 / 2) := by
        rw [e', ((init_generators_spec NC hk1' k'.2).1 j' hj').1]
        exact toM_sym NC (k := k') (j := ⟨j', hj'.trans k'.2⟩) hj'
      rw [hq']
      have c1 : ¬ (k' = j ∧ (⟨j', hj'.trans k'.2⟩ : Fin NC) = k) := by
        rintro ⟨rfl, h2⟩; have := congrArg Fin.val h2; simp only at this; omega
      have c2 : (k' = k ∧ (⟨j', hj'.trans k'.2⟩ : Fin NC) = j) ↔ (k = k' ∧ 2 * (j : ℕ) = 2 * j') := by
        constructor
        · rintro ⟨rfl, rfl⟩; exact ⟨rfl, rfl⟩
        · rintro ⟨rfl, h2⟩; exact ⟨rfl, Fin.ext (by simp only; omega)⟩
      rcases h with ⟨e, h⟩ | ⟨e, h⟩
      · rw [h, toM_sym NC hjk, if_congr (hpq _ _ (by omega) (by omega) e e') rfl rfl]
        simp only [add_mul, Matrix.trace_add, trace_single_mul', Matrix.add_apply, single_apply]
        rw [if_neg c1, if_congr (and_comm.trans c2) rfl rfl, if_congr c2 rfl rfl,
          if_neg (fun h => c1 (And.comm.1 h))]
        split <;> norm_num
      · rw [h, toM_asym NC hjk, if_congr (hpq _ _ (by omega) (by omega) e e') rfl rfl]
        simp only [add_mul, Matrix.trace_add, trace_single_mul', Matrix.add_apply, single_apply]
        rw [if_neg c1, if_congr (and_comm.trans c2) rfl rfl, if_congr c2 rfl rfl,
          if_neg (fun h => c1 (And.comm.1 h)), if_neg (show ¬ (k = k' ∧ 2 * (j : ℕ) + 1 = 2 * j') by omega)]
        split <;> ring
    · have hq' : toM NC (init_generators NC q) = single k' ⟨j', hj'.trans k'.2⟩ (I / 2) +
          single ⟨j', hj'.trans k'.2⟩ k' (-I / 2) := by
        rw [e', ((init_generators_spec NC hk1' k'.2).1 j' hj').2]
        exact toM_asym NC (k := k') (j := ⟨j', hj'.trans k'.2⟩) hj'
      rw [hq']
      have c1 : ¬ (k' = j ∧ (⟨j', hj'.trans k'.2⟩ : Fin NC) = k) := by
        rintro ⟨rfl, h2⟩; have := congrArg Fin.val h2; simp only at this; omega
      have c2 : (k' = k ∧ (⟨j', hj'.trans k'.2⟩ : Fin NC) = j) ↔ (k = k' ∧ 2 * (j : ℕ) + 1 = 2 * j' + 1) := by
        constructor
        · rintro ⟨rfl, rfl⟩; exact ⟨rfl, rfl⟩
        · rintro ⟨rfl, h2⟩; exact ⟨rfl, Fin.ext (by simp only; omega)⟩
      have e' : q = (k' : ℕ) * k' - 1 + (2 * j' + 1) := by omega
      rcases h with ⟨e, h⟩ | ⟨e, h⟩
      · rw [h, toM_sym NC hjk, if_congr (hpq _ _ (by omega) (by omega) e e') rfl rfl]
        simp only [add_mul, Matrix.trace_add, trace_single_mul', Matrix.add_apply, single_apply]
        rw [if_neg c1, if_congr (and_comm.trans c2) rfl rfl, if_congr c2 rfl rfl,
          if_neg (fun h => c1 (And.comm.1 h)), if_neg (show ¬ (k = k' ∧ 2 * (j : ℕ) = 2 * j' + 1) by omega)]
        split <;> ring
      · rw [h, toM_asym NC hjk, if_congr (hpq _ _ (by omega) (by omega) e e') rfl rfl]
        simp only [add_mul, Matrix.trace_add, trace_single_mul', Matrix.add_apply, single_apply]
        rw [if_neg c1, if_congr (and_comm.trans c2) rfl rfl, if_congr c2 rfl rfl,
          if_neg (fun h => c1 (And.comm.1 h))]
        split
        · linear_combination (-1 / 2 : ℂ) * I2
        · ring
    · obtain ⟨dd, hq'⟩ : ∃ dd, toM NC (init_generators NC q) = diagonal dd :=
        ⟨_, by rw [e', (init_generators_spec NC hk1' k'.2).2, toM_diagA]⟩
      rw [hq']
      rcases h with ⟨e, h⟩ | ⟨e, h⟩
      · rw [h, toM_sym NC hjk, if_congr (hpq _ _ (by omega) (by omega) e e') rfl rfl,
          if_neg (by rintro ⟨rfl, h2⟩; omega)]
        simp only [add_mul, Matrix.trace_add, trace_single_mul']
        rw [diagonal_apply_ne _ hne, diagonal_apply_ne _ hne.symm]
        ring
      · rw [h, toM_asym NC hjk, if_congr (hpq _ _ (by omega) (by omega) e e') rfl rfl,
          if_neg (by rintro ⟨rfl, h2⟩; omega)]
        simp only [add_mul, Matrix.trace_add, trace_single_mul']
        rw [diagonal_apply_ne _ hne, diagonal_apply_ne _ hne.symm]
        ring

/-- **C22** fails for every diagonal generator: its trace is `2^64` times the
normalisation, because the last entry negates an unsigned number. -/
theorem C22_diagonal_fails {NC m : ℕ} (hm : 2 ≤ m) (hmN : m ≤ NC) (hN : NC < 2 ^ 64) :
    (toM NC (init_generators NC (m * m - 2))).trace = ((2 ^ 64 * √(1 / (2 * m * (m - 1))) : ℝ) : ℂ) ∧
    (toM NC (init_generators NC (m * m - 2))).trace ≠ 0 := by
  obtain ⟨k, rfl⟩ : ∃ k, m = k + 1 := ⟨m - 1, by omega⟩
  have e : (k + 1) * (k + 1) - 2 = k * k - 1 + 2 * k := by
    have e2 : (k + 1) * (k + 1) = k * k + 2 * k + 1 := by ring
    have : 1 ≤ k * k := Nat.one_le_iff_ne_zero.2 (Nat.mul_ne_zero (by omega) (by omega))
    omega
  have hk : k < NC := by omega
  have key : (toM NC (init_generators NC ((k + 1) * (k + 1) - 2))).trace =
      ((2 ^ 64 * √(1 / (2 * (k + 1 : ℕ) * ((k + 1 : ℕ) - 1))) : ℝ) : ℂ) := by
    rw [e, (init_generators_spec NC (by omega) hk).2]
    have := toM_diagA NC ⟨k, hk⟩
    simp only at this
    rw [this, trace_diagonal]
    have hneg : negSize k = 2 ^ 64 - k := by
      unfold negSize
      rw [Nat.mod_eq_of_lt (by omega), Nat.mod_eq_of_lt (by omega)]
    rw [hneg, Nat.cast_sub (by omega)]
    have hs : ∀ (x y : ℂ), (∑ r : Fin NC, if r < (⟨k, hk⟩ : Fin NC) then x else
        if r = ⟨k, hk⟩ then y else 0) = k * x + y := by
      intro x y
      have : ∀ r : Fin NC, (if r < (⟨k, hk⟩ : Fin NC) then x else if r = ⟨k, hk⟩ then y else 0) =
          (if r < (⟨k, hk⟩ : Fin NC) then x else 0) + if r = ⟨k, hk⟩ then y else 0 := by
        intro r
        by_cases h1 : r < (⟨k, hk⟩ : Fin NC)
        · rw [if_pos h1, if_pos h1, if_neg (ne_of_lt h1), add_zero]
        · rw [if_neg h1, if_neg h1, zero_add]
      rw [Finset.sum_congr rfl fun r _ => this r, Finset.sum_add_distrib, Finset.sum_ite_eq',
        if_pos (Finset.mem_univ _), ← Finset.sum_filter, Finset.sum_const, nsmul_eq_mul]
      congr 2
      rw [show (Finset.univ.filter fun r : Fin NC => r < ⟨k, hk⟩) = Finset.Iio ⟨k, hk⟩ by ext; simp,
        Fin.card_Iio]
    rw [hs]
    unfold gfact
    push_cast
    ring
  refine ⟨key, ?_⟩
  rw [key]
  have : (0 : ℝ) < 2 ^ 64 * √(1 / (2 * (k + 1 : ℕ) * ((k + 1 : ℕ) - 1))) := by
    have hk1 : (1 : ℝ) ≤ k := by exact_mod_cast (by omega : 1 ≤ k)
    have : (0 : ℝ) < 1 / (2 * (k + 1 : ℕ) * ((k + 1 : ℕ) - 1)) := by push_cast; simp; positivity
    positivity
  exact_mod_cast this.ne'

/-- Non-vacuity: the first generator of four colours is off-diagonal. -/
example : ((toM 4 (init_generators 4 0)) * toM 4 (init_generators 4 0)).trace = 1 / 2 := by
  have := (C22_offdiagonal_partial (NC := 4) (p := 0) (by norm_num) (fun m hm h => by
    have := Nat.mul_le_mul hm hm; omega)).2.2 0 (by norm_num)
  simpa using this

end GLU.Mat
