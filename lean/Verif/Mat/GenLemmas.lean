import Verif.Mat.Lie
import Verif.Mat.UNopsLemmas
import Mathlib.LinearAlgebra.Matrix.Trace
import Mathlib.Data.Nat.Sqrt
import Mathlib.Tactic.LinearCombination

namespace GLU.Mat

open Complex Matrix

/-- The real symmetric generator of a pair. -/
noncomputable def symA (NC k j : ℕ) : Arr ℂ :=
  Function.update (Function.update (fun _ => 0) (mat_idx NC j k) (1 / 2)) (mat_idx NC k j) (1 / 2)

/-- The imaginary antisymmetric generator of a pair. -/
noncomputable def asymA (NC k j : ℕ) : Arr ℂ :=
  Function.update (Function.update (fun _ => 0) (mat_idx NC j k) (I * (1 / 2))) (mat_idx NC k j)
    (-I * (1 / 2))

theorem Gens.set_lam (g : Gens) (x : ℕ) (v : ℂ) (t : ℕ) :
    (g.set x v).lam t = if t = g.idx then Function.update (g.lam t) x v else g.lam t := by
  unfold Gens.set
  by_cases h : t = g.idx
  · subst h; simp
  · simp [h]

@[simp] theorem Gens.set_idx (g : Gens) (x : ℕ) (v : ℂ) : (g.set x v).idx = g.idx := rfl
@[simp] theorem Gens.next_idx (g : Gens) : g.next.idx = g.idx + 1 := rfl
@[simp] theorem Gens.next_lam (g : Gens) : g.next.lam = g.lam := rfl

theorem genPair_idx (NC k j : ℕ) (g : Gens) : (genPair NC k j g).idx = g.idx + 2 := rfl

theorem genPair_lam (NC k j : ℕ) (g : Gens) (t : ℕ) (h0 : g.lam g.idx = fun _ => 0)
    (h1 : g.lam (g.idx + 1) = fun _ => 0) :
    (genPair NC k j g).lam t = if t = g.idx then symA NC k j else
      if t = g.idx + 1 then asymA NC k j else g.lam t := by
  simp only [genPair, Gens.next_lam, Gens.set_lam, Gens.set_idx, Gens.next_idx]
  by_cases e : t = g.idx
  · subst e
    rw [if_neg (by omega), if_neg (by omega), if_pos rfl, if_pos rfl, if_pos rfl, h0]; rfl
  · rw [if_neg e, if_neg e, if_neg e]
    by_cases e' : t = g.idx + 1
    · subst e'; rw [if_pos rfl, if_pos rfl, if_pos rfl, h1]; rfl
    · rw [if_neg e', if_neg e', if_neg e']

/-- The pairs of one block. -/
theorem genPairs (NC k : ℕ) (g : Gens) (hz : ∀ t, g.idx ≤ t → g.lam t = fun _ => 0) (m : ℕ) :
    let g' := forN m (fun j g => genPair NC k j g) g
    g'.idx = g.idx + 2 * m ∧ (∀ t, g'.idx ≤ t → g'.lam t = fun _ => 0) ∧
    (∀ t, t < g.idx → g'.lam t = g.lam t) ∧
    ∀ j, j < m → g'.lam (g.idx + 2 * j) = symA NC k j ∧ g'.lam (g.idx + 2 * j + 1) = asymA NC k j := by
  refine forN_inv (fun m (g' : Gens) => g'.idx = g.idx + 2 * m ∧
    (∀ t, g'.idx ≤ t → g'.lam t = fun _ => 0) ∧ (∀ t, t < g.idx → g'.lam t = g.lam t) ∧
    ∀ j, j < m → g'.lam (g.idx + 2 * j) = symA NC k j ∧ g'.lam (g.idx + 2 * j + 1) = asymA NC k j)
    ⟨rfl, hz, fun _ _ => rfl, fun j hj => absurd hj (by omega)⟩ ?_
  rintro i - s ⟨h1, h2, h3, h4⟩
  have L := genPair_lam NC k i s
  have z0 := h2 s.idx (le_refl _)
  have z1 := h2 (s.idx + 1) (by omega)
  refine ⟨by rw [genPair_idx, h1]; omega, fun t ht => ?_, fun t ht => ?_, fun j hj => ?_⟩
  · rw [genPair_idx] at ht
    rw [L t z0 z1, if_neg (by omega), if_neg (by omega)]
    exact h2 t (by omega)
  · rw [L t z0 z1, if_neg (by omega), if_neg (by omega)]; exact h3 t ht
  · rcases Nat.lt_succ_iff_lt_or_eq.1 hj with hj | rfl
    · rw [L _ z0 z1, L _ z0 z1, if_neg (by omega), if_neg (by omega), if_neg (by omega),
        if_neg (by omega)]
      exact h4 j hj
    · rw [L _ z0 z1, L _ z0 z1, if_pos (by omega), if_neg (by omega), if_pos (by omega)]
      exact ⟨rfl, rfl⟩

/-- The diagonal loop. -/
theorem genDiag (NC : ℕ) (v : ℂ) (g : Gens) (m : ℕ) :
    let g' := forN m (fun i g => g.set (mat_idx NC i i) v) g
    g'.idx = g.idx ∧ (∀ t, t ≠ g.idx → g'.lam t = g.lam t) ∧
    ∀ x, g'.lam g.idx x = if ∃ i < m, x = mat_idx NC i i then v else g.lam g.idx x := by
  refine forN_inv (fun m (g' : Gens) => g'.idx = g.idx ∧ (∀ t, t ≠ g.idx → g'.lam t = g.lam t) ∧
    ∀ x, g'.lam g.idx x = if ∃ i < m, x = mat_idx NC i i then v else g.lam g.idx x)
    ⟨rfl, fun _ _ => rfl, fun x => by simp⟩ ?_
  rintro i - s ⟨h1, h2, h3⟩
  refine ⟨h1, fun t ht => ?_, fun x => ?_⟩
  · rw [Gens.set_lam, if_neg (by rw [h1]; exact ht)]; exact h2 t ht
  · rw [Gens.set_lam, if_pos h1.symm, Function.update_apply]
    by_cases e : x = mat_idx NC i i
    · rw [if_pos e, if_pos ⟨i, by omega, e⟩]
    · rw [if_neg e, h3]
      refine if_congr ⟨?_, ?_⟩ rfl rfl
      · rintro ⟨j, hj, e'⟩; exact ⟨j, by omega, e'⟩
      · rintro ⟨j, hj, e'⟩
        rcases Nat.lt_succ_iff_lt_or_eq.1 hj with hj | rfl
        · exact ⟨j, hj, e'⟩
        · exact absurd e' e

/-- The normalisation of the diagonal generator of a block. -/
noncomputable def gfact (k : ℕ) : ℝ := √(1 / (2 * (k + 1 : ℕ) * ((k + 1 : ℕ) - 1 : ℝ)))

/-- The diagonal generator of a block as stored. -/
noncomputable def diagA (NC k : ℕ) : Arr ℂ :=
  Function.update (fun x => if ∃ i < k, x = mat_idx NC i i then (gfact k : ℂ) else 0)
    (mat_idx NC k k) ((gfact k * (negSize k : ℝ) : ℝ) : ℂ)

theorem genBlock_spec (NC k : ℕ) (g : Gens) (hz : ∀ t, g.idx ≤ t → g.lam t = fun _ => 0) :
    let g' := genBlock NC (k + 1) g
    g'.idx = g.idx + 2 * k + 1 ∧ (∀ t, g'.idx ≤ t → g'.lam t = fun _ => 0) ∧
    (∀ t, t < g.idx → g'.lam t = g.lam t) ∧
    (∀ j, j < k → g'.lam (g.idx + 2 * j) = symA NC k j ∧ g'.lam (g.idx + 2 * j + 1) = asymA NC k j) ∧
    g'.lam (g.idx + 2 * k) = diagA NC k := by
  intro g'
  obtain ⟨a1, a2, a3, a4⟩ := genPairs NC k g hz k
  set g1 := forN k (fun j g => genPair NC k j g) g with hg1
  obtain ⟨b1, b2, b3⟩ := genDiag NC (gfact k : ℂ) g1 k
  set g2 := forN k (fun i g => g.set (mat_idx NC i i) (gfact k : ℂ)) g1 with hg2
  have hg' : g' = (g2.set (mat_idx NC k k) ((gfact k * (negSize k : ℝ) : ℝ) : ℂ)).next := rfl
  have hidx : g'.idx = g.idx + 2 * k + 1 := by rw [hg', Gens.next_idx, Gens.set_idx, b1, a1]
  have hother : ∀ t, t ≠ g1.idx → g'.lam t = g1.lam t := by
    intro t ht
    rw [hg', Gens.next_lam, Gens.set_lam, if_neg (by rw [b1]; exact ht), b2 t ht]
  refine ⟨hidx, fun t ht => ?_, fun t ht => ?_, fun j hj => ?_, ?_⟩
  · rw [hother t (by omega)]; exact a2 t (by omega)
  · rw [hother t (by omega)]; exact a3 t ht
  · rw [hother _ (by omega), hother _ (by omega)]; exact a4 j hj
  · rw [← a1, hg', Gens.next_lam, Gens.set_lam, if_pos b1.symm]
    unfold diagA
    congr 1
    funext x
    rw [b3, a2 _ (le_refl _)]

/-- All generators. -/
theorem init_generators_spec (NC : ℕ) {k : ℕ} (h1 : 1 ≤ k) (hk : k < NC) :
    (∀ j, j < k → init_generators NC (k * k - 1 + 2 * j) = symA NC k j ∧
      init_generators NC (k * k - 1 + 2 * j + 1) = asymA NC k j) ∧
    init_generators NC (k * k - 1 + 2 * k) = diagA NC k := by
  have H := forN_inv (fun n (g : Gens) => g.idx = (n + 1) * (n + 1) - 1 ∧
    (∀ t, g.idx ≤ t → g.lam t = fun _ => 0) ∧ ∀ k, 1 ≤ k → k ≤ n →
      (∀ j, j < k → g.lam (k * k - 1 + 2 * j) = symA NC k j ∧
        g.lam (k * k - 1 + 2 * j + 1) = asymA NC k j) ∧ g.lam (k * k - 1 + 2 * k) = diagA NC k)
    (n := NC - 1) (body := fun n g => genBlock NC (n + 2) g) (s := ⟨fun _ _ => 0, 0⟩)
    ⟨rfl, fun _ _ => rfl, fun k h1 h2 => absurd h1 (by omega)⟩ (by
      rintro i - s ⟨c1, c2, c3⟩
      obtain ⟨d1, d2, d3, d4, d5⟩ := genBlock_spec NC (i + 1) s c2
      have e : (i + 1 + 1) * (i + 1 + 1) = (i + 1) * (i + 1) + 2 * (i + 1) + 1 := by ring
      have e0 : 1 ≤ (i + 1) * (i + 1) := Nat.one_le_iff_ne_zero.2 (by positivity)
      refine ⟨by rw [d1, c1]; omega, d2, fun k hk1 hk2 => ?_⟩
      rcases Nat.lt_or_ge k (i + 1) with hk | hk
      · have hlt : k * k - 1 + 2 * k < s.idx := by
          rw [c1]
          have : (k + 1) * (k + 1) ≤ (i + 1) * (i + 1) := Nat.mul_le_mul (by omega) (by omega)
          have e2 : (k + 1) * (k + 1) = k * k + 2 * k + 1 := by ring
          have e3 : 1 ≤ k * k := Nat.one_le_iff_ne_zero.2 (by positivity)
          omega
        obtain ⟨f1, f2⟩ := c3 k hk1 (by omega)
        refine ⟨fun j hj => ?_, ?_⟩
        · rw [d3 _ (by omega), d3 _ (by omega)]; exact f1 j hj
        · rw [d3 _ hlt]; exact f2
      · have : k = i + 1 := by omega
        subst this
        rw [c1] at d4 d5
        exact ⟨d4, d5⟩)
  exact H.2.2 k h1 (by omega)

theorem mat_idx_eq {NC r c j k : ℕ} (hc : c < NC) (hj : j < NC) :
    c + NC * r = mat_idx NC j k ↔ c = j ∧ r = k := by
  unfold mat_idx
  rw [Nat.mul_comm k NC]
  constructor
  · intro h
    have := index_inj hc hj h
    tauto
  · rintro ⟨rfl, rfl⟩; rfl

theorem toM_sym (NC : ℕ) {k j : Fin NC} (h : j < k) :
    toM NC (symA NC k j) = Matrix.single k j (1 / 2) + Matrix.single j k (1 / 2) := by
  ext r c
  simp only [toM_apply, symA, Function.update_apply, mat_idx_eq c.2 k.2, mat_idx_eq c.2 j.2,
    Matrix.add_apply, Matrix.single_apply, Fin.val_inj]
  have : j ≠ k := ne_of_lt h
  by_cases e1 : c = k ∧ r = j
  · obtain ⟨rfl, rfl⟩ := e1; simp [this, this.symm]
  · rw [if_neg e1]
    by_cases e2 : c = j ∧ r = k
    · obtain ⟨rfl, rfl⟩ := e2; simp [this, this.symm]
    · rw [if_neg e2, if_neg (by tauto), if_neg (by tauto), add_zero]

theorem toM_asym (NC : ℕ) {k j : Fin NC} (h : j < k) :
    toM NC (asymA NC k j) = Matrix.single k j (I / 2) + Matrix.single j k (-I / 2) := by
  ext r c
  simp only [toM_apply, asymA, Function.update_apply, mat_idx_eq c.2 k.2, mat_idx_eq c.2 j.2,
    Matrix.add_apply, Matrix.single_apply, Fin.val_inj]
  have : j ≠ k := ne_of_lt h
  by_cases e1 : c = k ∧ r = j
  · obtain ⟨rfl, rfl⟩ := e1; simp [this, this.symm]; ring
  · rw [if_neg e1]
    by_cases e2 : c = j ∧ r = k
    · obtain ⟨rfl, rfl⟩ := e2; simp [this, this.symm]; ring
    · rw [if_neg e2, if_neg (by tauto), if_neg (by tauto), add_zero]

theorem toM_diagA (NC : ℕ) (k : Fin NC) :
    toM NC (diagA NC k) = Matrix.diagonal fun r => if r < k then (gfact k : ℂ) else
      if r = k then ((gfact k * (negSize k : ℝ) : ℝ) : ℂ) else 0 := by
  ext r c
  rw [toM_apply, Matrix.diagonal_apply]
  simp only [diagA, Function.update_apply, mat_idx_eq c.2 k.2]
  have hex : (∃ i < (k : ℕ), (c : ℕ) + NC * r = mat_idx NC i i) ↔ r = c ∧ r < k := by
    constructor
    · rintro ⟨i, hi, e⟩
      rw [mat_idx_eq c.2 (lt_trans hi k.2)] at e
      exact ⟨Fin.ext (by omega), by rw [Fin.lt_def]; omega⟩
    · rintro ⟨rfl, h⟩
      exact ⟨r, h, (mat_idx_eq r.2 r.2).2 ⟨rfl, rfl⟩⟩
  rw [if_congr hex rfl rfl]
  simp only [Fin.val_inj]
  by_cases e : r = c
  · subst e
    by_cases e2 : r = k
    · subst e2; simp
    · simp [e2]
  · have : ¬ (c = k ∧ r = k) := fun h => e (h.2.trans h.1.symm)
    simp [e, this]

/-- Every generator index is of one of the three kinds. -/
theorem gen_index {NC p : ℕ} (hp : p < NC * NC - 1) : ∃ k : Fin NC, 1 ≤ (k : ℕ) ∧
    ((∃ j < (k : ℕ), p = k * k - 1 + 2 * j) ∨ (∃ j < (k : ℕ), p = k * k - 1 + 2 * j + 1) ∨
      p = k * k - 1 + 2 * k) := by
  have h1 := Nat.sqrt_le (p + 1)
  have h2 := Nat.lt_succ_sqrt (p + 1)
  set k := Nat.sqrt (p + 1)
  have e : (k + 1) * (k + 1) = k * k + 2 * k + 1 := by ring
  simp only [Nat.succ_eq_add_one] at h2
  have hkN : k < NC := by
    by_contra hh
    have := Nat.mul_le_mul (Nat.le_of_not_lt hh) (Nat.le_of_not_lt hh)
    omega
  have hk1 : 1 ≤ k := by
    by_contra hh
    have : k = 0 := by omega
    rw [this] at h2
    omega
  have hkk : 1 ≤ k * k := Nat.one_le_iff_ne_zero.2 (by positivity)
  refine ⟨⟨k, hkN⟩, hk1, ?_⟩
  simp only
  rcases Nat.even_or_odd' (p + 1 - k * k) with ⟨j, hj | hj⟩
  · by_cases hjk : j < k
    · exact Or.inl ⟨j, hjk, by omega⟩
    · exact Or.inr (Or.inr (by omega))
  · exact Or.inr (Or.inl ⟨j, by omega, by omega⟩)

/-- Equal indices come from equal blocks. -/
theorem gen_block_eq {k r k' r' : ℕ} (h1 : 1 ≤ k) (h1' : 1 ≤ k') (hr : r ≤ 2 * k) (hr' : r' ≤ 2 * k')
    (h : k * k - 1 + r = k' * k' - 1 + r') : k = k' ∧ r = r' := by
  have a : 1 ≤ k * k := Nat.one_le_iff_ne_zero.2 (by positivity)
  have b : 1 ≤ k' * k' := Nat.one_le_iff_ne_zero.2 (by positivity)
  have : k = k' := by
    rcases Nat.lt_trichotomy k k' with hh | hh | hh
    · have := Nat.mul_le_mul (show k + 1 ≤ k' from hh) (show k + 1 ≤ k' from hh)
      have e : (k + 1) * (k + 1) = k * k + 2 * k + 1 := by ring
      omega
    · exact hh
    · have := Nat.mul_le_mul (show k' + 1 ≤ k from hh) (show k' + 1 ≤ k from hh)
      have e : (k' + 1) * (k' + 1) = k' * k' + 2 * k' + 1 := by ring
      omega
  subst this
  exact ⟨rfl, by omega⟩

end GLU.Mat
