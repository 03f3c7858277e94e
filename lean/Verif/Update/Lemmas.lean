import Verif.Update.Model
import Verif.Mat.GramProps
import Mathlib.LinearAlgebra.Matrix.SchurComplement

namespace GLU.Update

open Complex Matrix GLU.Mat

/-! ## Enumeration of the subgroups -/

/-- Number of pairs at distance at most `d`. -/
def tri (NC : ℕ) : ℕ → ℕ
  | 0 => 0
  | d + 1 => tri NC d + (NC - (d + 1))

theorem tri_eq (NC : ℕ) {d : ℕ} (h : d ≤ NC) : 2 * tri NC d + d * (d + 1) = 2 * d * NC := by
  induction d with
  | zero => simp [tri]
  | succ d ih =>
    have := ih (by omega)
    rw [tri]
    obtain ⟨k, rfl⟩ : ∃ k, NC = d + 1 + k := ⟨NC - (d + 1), by omega⟩
    rw [Nat.add_sub_cancel_left]
    nlinarith

theorem tri_last {NC : ℕ} (h : 1 ≤ NC) : tri NC (NC - 1) = NSU2SUBGROUPS NC := by
  have := tri_eq NC (d := NC - 1) (by omega)
  obtain ⟨n, rfl⟩ : ∃ n, NC = n + 1 := ⟨NC - 1, by omega⟩
  unfold NSU2SUBGROUPS
  simp only [Nat.add_sub_cancel] at *
  have e : (n + 1) * n = 2 * tri (n + 1) n := by nlinarith
  rw [e]
  omega

theorem tri_mono (NC : ℕ) {d e : ℕ} (h : d ≤ e) : tri NC d ≤ tri NC e := by
  induction e with
  | zero => rw [show d = 0 by omega]
  | succ e ih =>
    rcases Nat.eq_or_lt_of_le h with rfl | h
    · exact le_refl _
    · exact (ih (by omega)).trans (by rw [tri]; omega)

theorem scanFor_found (s n i index k : ℕ) (h : s = index + k) (hk : k < n) :
    scanFor s n i index = (true, i + k, s) := by
  induction n generalizing i index k with
  | zero => omega
  | succ n ih =>
    rw [scanFor]
    by_cases e : index = s
    · rw [if_pos e, show k = 0 by omega, e]; rfl
    · rw [if_neg e, ih (i + 1) (index + 1) (k - 1) (by omega) (by omega),
        show i + 1 + (k - 1) = i + k by omega]

theorem scanFor_missed (s n i index : ℕ) (h : index + n ≤ s) :
    scanFor s n i index = (false, i + n, index + n) := by
  induction n generalizing i index with
  | zero => rfl
  | succ n ih =>
    rw [scanFor, if_neg (by omega), ih _ _ (by omega), show i + 1 + n = i + (n + 1) by omega,
      show index + 1 + n = index + (n + 1) by omega]

theorem scanWhile_eq (NC : ℕ) {d i : ℕ} (hi : i + d + 1 < NC) :
    ∀ (n del i1 : ℕ), del ≤ d → del + n = NC - 1 →
      scanWhile NC (tri NC d + i) n del (tri NC del) i1 = (i, d + 1) := by
  intro n
  induction n with
  | zero => intro del i1 h1 h2; omega
  | succ n ih =>
    intro del i1 h1 h2
    rw [scanWhile]
    rcases Nat.eq_or_lt_of_le h1 with rfl | h1
    · rw [scanFor_found _ _ _ _ i rfl (by omega)]
      simp
    · rw [scanFor_missed _ _ _ _ (by
        have := tri_mono NC (show del + 1 ≤ d from h1)
        rw [tri] at this
        omega)]
      exact ih (del + 1) _ h1 (by omega)

/-- The pair of rows of a subgroup, as the code recovers it from the stored
positions (SU2_rotate.c:111-112, 144-145). -/
def rowPair (NC s : ℕ) : ℕ × ℕ := ((su2_data NC s).idx_a / NC, (su2_data NC s).idx_b % NC)

theorem su2_data_at {NC d i : ℕ} (hi : i + d + 1 < NC) :
    su2_data NC (tri NC d + i) = ⟨i + NC * i, i + d + 1 + NC * i, i + NC * (i + d + 1),
      i + d + 1 + NC * (i + d + 1)⟩ := by
  have : scanWhile NC (tri NC d + i) (NC - 1) 0 0 0 = (i, d + 1) :=
    scanWhile_eq NC hi (NC - 1) 0 0 (by omega) (by omega)
  unfold su2_data
  rw [this]
  rfl

theorem rowPair_at {NC d i : ℕ} (hi : i + d + 1 < NC) :
    rowPair NC (tri NC d + i) = (i, i + d + 1) := by
  have hN : 0 < NC := by omega
  rw [rowPair, su2_data_at hi]
  simp only [Prod.mk.injEq]
  refine ⟨?_, ?_⟩
  · rw [Nat.add_mul_div_left _ _ hN, Nat.div_eq_of_lt (by omega), Nat.zero_add]
  · rw [Nat.add_mul_mod_self_left, Nat.mod_eq_of_lt hi]

theorem index_split {NC s : ℕ} (hs : s < NSU2SUBGROUPS NC) :
    ∃ d i, s = tri NC d + i ∧ i + d + 1 < NC := by
  have hN : 1 ≤ NC := by
    rcases Nat.eq_zero_or_pos NC with h | h
    · subst h; simp [NSU2SUBGROUPS] at hs
    · exact h
  rw [← tri_last hN] at hs
  have : ∀ e, e ≤ NC - 1 → s < tri NC e → ∃ d i, s = tri NC d + i ∧ i + d + 1 < NC := by
    intro e
    induction e with
    | zero => intro _ h; simp [tri] at h
    | succ e ih =>
      intro he h
      by_cases h2 : s < tri NC e
      · exact ih (by omega) h2
      · rw [tri] at h
        exact ⟨e, s - tri NC e, by omega, by omega⟩
  exact this _ (le_refl _) hs

/-! ## Subgroup matrices -/

/-- The matrix equal to the identity except for rows and columns `p`, `q`, where it
is `[[a, b], [-b*, a*]]`. -/
def subgroupMatrix {NC : ℕ} (p q : Fin NC) (a b : ℂ) : Matrix (Fin NC) (Fin NC) ℂ :=
  of fun i j =>
    if i = p then (if j = p then a else if j = q then b else 0)
    else if i = q then (if j = p then -star b else if j = q then star a else 0)
    else if i = j then 1 else 0

/-- Embedding of two coordinates. -/
def emb {NC : ℕ} (p q : Fin NC) : Matrix (Fin NC) (Fin 2) ℂ :=
  of fun i k => if i = ![p, q] k then 1 else 0

/-- The two by two matrix. -/
def su2M (a b : ℂ) : Matrix (Fin 2) (Fin 2) ℂ := !![a, b; -star b, star a]

theorem emb_orth {NC : ℕ} {p q : Fin NC} (h : p ≠ q) : (emb p q)ᵀ * emb p q = 1 := by
  ext k l
  simp only [Matrix.mul_apply, transpose_apply, emb, of_apply]
  simp only [ite_mul, one_mul, zero_mul, ← ite_and]
  fin_cases k <;> fin_cases l <;> simp [ite_and, h, h.symm]

theorem emb_conj {NC : ℕ} (p q : Fin NC) : (emb p q)ᴴ = (emb p q)ᵀ := by
  ext k i
  simp only [conjTranspose_apply, transpose_apply, emb, of_apply]
  split <;> simp

theorem subgroup_emb {NC : ℕ} {p q : Fin NC} (h : p ≠ q) (a b : ℂ) :
    subgroupMatrix p q a b = 1 + emb p q * ((su2M a b - 1) * (emb p q)ᵀ) := by
  ext i j
  simp only [subgroupMatrix, Matrix.mul_apply, Fin.sum_univ_two, transpose_apply, emb, of_apply,
    Matrix.add_apply, su2M, Matrix.sub_apply, Matrix.one_apply]
  simp
  by_cases hi : i = p
  · subst hi
    by_cases hj : j = i
    · subst hj; simp [h]
    · by_cases hj2 : j = q
      · subst hj2; simp [hj, Ne.symm hj, h, h.symm]
      · simp [hj, Ne.symm hj, hj2, h, h.symm]
  · by_cases hi2 : i = q
    · subst hi2
      by_cases hj : j = p
      · subst hj; simp [h, h.symm]
      · by_cases hj2 : j = i
        · subst hj2; simp [hj, h, h.symm, hi]
        · simp [hj, hj2, Ne.symm hj2, h, h.symm]
    · simp [hi, hi2]

theorem subgroup_det {NC : ℕ} {p q : Fin NC} (h : p ≠ q) (a b : ℂ) :
    (subgroupMatrix p q a b).det = a * star a + b * star b := by
  rw [subgroup_emb h, det_one_add_mul_comm, Matrix.mul_assoc, emb_orth h, Matrix.mul_one,
    add_sub_cancel, su2M, det_fin_two_of]
  ring

theorem subgroup_su {NC : ℕ} {p q : Fin NC} (h : p ≠ q) {a b : ℂ} (hab : normSq a + normSq b = 1) :
    subgroupMatrix p q a b ∈ specialUnitaryGroup (Fin NC) ℂ := by
  have hab' : a * star a + b * star b = 1 := by
    rw [Complex.star_def, mul_conj, mul_conj]; exact_mod_cast hab
  have hS : (su2M a b)ᴴ * su2M a b = 1 := by
    ext k l
    rw [Complex.star_def] at hab'
    fin_cases k <;> fin_cases l <;> simp [su2M, Matrix.mul_apply, Fin.sum_univ_two] <;>
      first | linear_combination hab' | ring
  rw [mem_specialUnitaryGroup_iff]
  refine ⟨?_, by rw [subgroup_det h, hab']⟩
  rw [mem_unitaryGroup_iff', star_eq_conjTranspose]
  rw [subgroup_emb h, conjTranspose_add, conjTranspose_mul, conjTranspose_mul, conjTranspose_one,
    ← emb_conj, conjTranspose_conjTranspose, conjTranspose_sub, conjTranspose_one, emb_conj]
  set E := emb p q
  have hE : Eᵀ * E = 1 := emb_orth h
  set S := su2M a b
  have e : (1 + E * (Sᴴ - 1) * Eᵀ) * (1 + E * ((S - 1) * Eᵀ)) =
      1 + E * (Sᴴ * S - 1) * Eᵀ := by
    have : E * (Sᴴ - 1) * Eᵀ * (E * ((S - 1) * Eᵀ)) = E * ((Sᴴ - 1) * (S - 1)) * Eᵀ := by
      calc E * (Sᴴ - 1) * Eᵀ * (E * ((S - 1) * Eᵀ)) = E * (Sᴴ - 1) * (Eᵀ * E) * ((S - 1) * Eᵀ) := by
            simp only [Matrix.mul_assoc]
        _ = _ := by rw [hE]; simp only [Matrix.mul_assoc, Matrix.mul_one]
    rw [Matrix.add_mul, Matrix.one_mul, Matrix.mul_add, Matrix.mul_one, this]
    have e2 : E * ((S - 1) * Eᵀ) = E * (S - 1) * Eᵀ := by rw [Matrix.mul_assoc]
    rw [e2, add_assoc, ← Matrix.add_mul, ← Matrix.mul_add, ← Matrix.add_mul, ← Matrix.mul_add]
    congr 3
    noncomm_ring
  rw [e, hS]
  simp

/-- Left multiplication by a subgroup matrix mixes two rows. -/
theorem subgroup_mul {NC : ℕ} {p q : Fin NC} (h : p ≠ q) (a b : ℂ) (M : Matrix (Fin NC) (Fin NC) ℂ)
    (i j : Fin NC) : (subgroupMatrix p q a b * M) i j =
      if i = p then a * M p j + b * M q j else
      if i = q then -star b * M p j + star a * M q j else M i j := by
  rw [Matrix.mul_apply]
  simp only [subgroupMatrix, of_apply]
  have key : ∀ x y : ℂ, ∑ k : Fin NC, (if k = p then x else if k = q then y else 0) * M k j =
      x * M p j + y * M q j := by
    intro x y
    have : ∀ k : Fin NC, (if k = p then x else if k = q then y else 0) * M k j =
        (if k = p then x * M k j else 0) + if k = q then y * M k j else 0 := by
      intro k
      by_cases h1 : k = p
      · subst h1; simp [h]
      · by_cases h2 : k = q
        · subst h2; simp [h1]
        · simp [h1, h2]
    rw [Finset.sum_congr rfl fun k _ => this k, Finset.sum_add_distrib]
    simp
  by_cases hi : i = p
  · simp only [hi, if_true]; exact key a b
  · by_cases hi2 : i = q
    · simp only [hi2, if_true, h.symm, if_false]; exact key _ _
    · simp [hi, hi2]

/-- Right multiplication by the adjoint mixes two columns. -/
theorem mul_subgroup {NC : ℕ} {p q : Fin NC} (h : p ≠ q) (a b : ℂ) (M : Matrix (Fin NC) (Fin NC) ℂ)
    (i j : Fin NC) : (M * (subgroupMatrix p q a b)ᴴ) i j =
      if j = p then M i p * star a + M i q * star b else
      if j = q then -M i p * b + M i q * a else M i j := by
  have := subgroup_mul h a b Mᴴ j i
  rw [← conjTranspose_conjTranspose M, ← conjTranspose_mul, conjTranspose_apply, this]
  split
  · simp; ring
  · split
    · simp; ring
    · simp

/-! ## The loops -/

theorem flat_ne {n c r k x : ℕ} (hc : c < n) (hk : k < n) (h : r ≠ x) : c + n * r ≠ n * x + k := by
  intro e
  rw [Nat.add_comm (n * x)] at e
  exact h (index_inj hc hk e).1

theorem rot_rows (NC p q : ℕ) (hpq : p ≠ q) (w : Arr ℂ) (a b : ℂ) (r c : ℕ) (hc : c < NC) :
    forN NC (fun i w =>
      let W1 := w (NC * p + i)
      let W2 := w (NC * q + i)
      let w := Function.update w (NC * p + i) (a * W1 + b * W2)
      Function.update w (NC * q + i) (-star b * W1 + star a * W2)) w (c + NC * r) =
    if r = p then a * w (c + NC * p) + b * w (c + NC * q) else
    if r = q then -star b * w (c + NC * p) + star a * w (c + NC * q) else w (c + NC * r) := by
  have H := forN_inv (fun m (s : Arr ℂ) => ∀ r c, c < NC → s (c + NC * r) = if c < m then
      (if r = p then a * w (c + NC * p) + b * w (c + NC * q) else
        if r = q then -star b * w (c + NC * p) + star a * w (c + NC * q) else w (c + NC * r))
      else w (c + NC * r)) (n := NC)
    (body := fun i w =>
      let W1 := w (NC * p + i)
      let W2 := w (NC * q + i)
      let w := Function.update w (NC * p + i) (a * W1 + b * W2)
      Function.update w (NC * q + i) (-star b * W1 + star a * W2)) (s := w)
    (fun r c _ => by rw [if_neg (by omega)]) (by
      intro m hm s hs r c hc
      simp only [Function.update_apply]
      have e1 : s (NC * p + m) = w (m + NC * p) := by
        rw [Nat.add_comm, hs p m hm, if_neg (by omega)]
      have e2 : s (NC * q + m) = w (m + NC * q) := by
        rw [Nat.add_comm, hs q m hm, if_neg (by omega)]
      rw [e1, e2]
      by_cases hcm : c = m
      · subst hcm
        rw [if_pos (show c < c + 1 by omega)]
        by_cases hr : r = q
        · subst hr
          rw [if_pos (by omega), if_neg (Ne.symm hpq), if_pos rfl]
        · rw [if_neg (flat_ne hc hm hr)]
          by_cases hr2 : r = p
          · subst hr2; rw [if_pos (by omega), if_pos rfl]
          · rw [if_neg (flat_ne hc hm hr2), if_neg hr2, if_neg hr, hs r c hc, if_neg (by omega)]
      · have n1 : ∀ x, c + NC * r ≠ NC * x + m := by
          intro x e
          rw [Nat.add_comm (NC * x)] at e
          exact hcm (index_inj hc hm e).2
        rw [if_neg (n1 q), if_neg (n1 p), hs r c hc]
        by_cases h3 : c < m
        · rw [if_pos h3, if_pos (show c < m + 1 by omega)]
        · rw [if_neg h3, if_neg (show ¬ c < m + 1 by omega)])
  rw [H r c hc, if_pos hc]

theorem rot_cols (NC p q : ℕ) (hp : p < NC) (hq : q < NC) (hpq : p ≠ q) (U : Arr ℂ) (a b : ℂ) (r c : ℕ)
    (hr : r < NC) (hc : c < NC) :
    forN NC (fun i U =>
      let U1 := U (p + i * NC)
      let U2 := U (q + i * NC)
      let U := Function.update U (p + i * NC) (U1 * star a + U2 * star b)
      Function.update U (q + i * NC) (-U1 * b + U2 * a)) U (c + NC * r) =
    if c = p then U (p + NC * r) * star a + U (q + NC * r) * star b else
    if c = q then -U (p + NC * r) * b + U (q + NC * r) * a else U (c + NC * r) := by
  have H := forN_inv (fun m (s : Arr ℂ) => ∀ r c, c < NC → s (c + NC * r) = if r < m then
      (if c = p then U (p + NC * r) * star a + U (q + NC * r) * star b else
        if c = q then -U (p + NC * r) * b + U (q + NC * r) * a else U (c + NC * r))
      else U (c + NC * r)) (n := NC)
    (body := fun i U =>
      let U1 := U (p + i * NC)
      let U2 := U (q + i * NC)
      let U := Function.update U (p + i * NC) (U1 * star a + U2 * star b)
      Function.update U (q + i * NC) (-U1 * b + U2 * a)) (s := U)
    (fun r c _ => by rw [if_neg (by omega)]) (by
      intro m hm s hs r c hc
      simp only [Function.update_apply, Nat.mul_comm m NC]
      have e1 : s (p + NC * m) = U (p + NC * m) := by rw [hs m p hp, if_neg (by omega)]
      have e2 : s (q + NC * m) = U (q + NC * m) := by rw [hs m q hq, if_neg (by omega)]
      rw [e1, e2]
      by_cases hrm : r = m
      · subst hrm
        rw [if_pos (show r < r + 1 by omega)]
        by_cases h1 : c = q
        · subst h1
          rw [if_pos rfl, if_neg (Ne.symm hpq), if_pos rfl]
        · rw [if_neg (fun e => h1 (index_inj hc hq e).2)]
          by_cases h2 : c = p
          · subst h2; rw [if_pos rfl, if_pos rfl]
          · rw [if_neg (fun e => h2 (index_inj hc hp e).2), if_neg h2, if_neg h1, hs r c hc,
              if_neg (by omega)]
      · rw [if_neg (fun e => hrm (index_inj hc hq e).1), if_neg (fun e => hrm (index_inj hc hp e).1),
          hs r c hc]
        by_cases h3 : r < m
        · rw [if_pos h3, if_pos (show r < m + 1 by omega)]
        · rw [if_neg h3, if_neg (show ¬ r < m + 1 by omega)])
  rw [H r c hc, if_pos hr]

/-- The rows used for a subgroup index. -/
def rowsOf (NC s : ℕ) : ℕ × ℕ :=
  if NC = 3 then (match s % 3 with | 0 => (0, 1) | 1 => (1, 2) | _ => (2, 0))
  else if NC = 2 then (0, 1) else rowPair NC s

theorem rowsOf_spec {NC s : ℕ} (hN : 2 ≤ NC) (hs : s < NSU2SUBGROUPS NC) :
    (rowsOf NC s).1 < NC ∧ (rowsOf NC s).2 < NC ∧ (rowsOf NC s).1 ≠ (rowsOf NC s).2 := by
  unfold rowsOf
  split
  · next h => subst h; split <;> simp
  · split
    · next h => subst h; simp
    · obtain ⟨d, i, rfl, h⟩ := index_split hs
      rw [rowPair_at h]
      refine ⟨?_, ?_, ?_⟩ <;> simp only <;> omega

theorem data_c {NC s : ℕ} (hs : s < NSU2SUBGROUPS NC) :
    (su2_data NC s).idx_c / NC = (rowPair NC s).2 := by
  obtain ⟨d, i, rfl, h⟩ := index_split hs
  have hN : 0 < NC := by omega
  rw [rowPair_at h, su2_data_at h]
  simp only
  rw [Nat.add_mul_div_left _ _ hN, Nat.div_eq_of_lt (by omega), Nat.zero_add]

theorem data_a_mod {NC s : ℕ} (hs : s < NSU2SUBGROUPS NC) :
    (su2_data NC s).idx_a % NC = (rowPair NC s).1 := by
  obtain ⟨d, i, rfl, h⟩ := index_split hs
  rw [rowPair_at h, su2_data_at h]
  simp only
  rw [Nat.add_mul_mod_self_left, Nat.mod_eq_of_lt (by omega)]

theorem multiply_eq {NC s : ℕ} (hs : s < NSU2SUBGROUPS NC) (p q : Fin NC)
    (hp : (p : ℕ) = (rowPair NC s).1) (hq : (q : ℕ) = (rowPair NC s).2) (hpq : p ≠ q) (U : Arr ℂ) (a b : ℂ) :
    toM NC (shortened_su2_multiply NC U a b s) = subgroupMatrix p q a b * toM NC U := by
  ext i j
  rw [subgroup_mul hpq, toM_apply, toM_apply, toM_apply, toM_apply]
  unfold shortened_su2_multiply
  rw [data_c hs, ← hq, show (su2_data NC s).idx_a / NC = p from hp.symm]
  have := rot_rows NC p q (fun h => hpq (Fin.ext h)) U a b i j j.2
  simp only [Fin.val_inj] at this
  exact this

theorem multiply_dag_eq {NC s : ℕ} (hs : s < NSU2SUBGROUPS NC) (p q : Fin NC)
    (hp : (p : ℕ) = (rowPair NC s).1) (hq : (q : ℕ) = (rowPair NC s).2) (hpq : p ≠ q) (U : Arr ℂ) (a b : ℂ) :
    toM NC (shortened_su2_multiply_dag NC U a b s) = toM NC U * (subgroupMatrix p q a b)ᴴ := by
  ext i j
  rw [mul_subgroup hpq, toM_apply, toM_apply, toM_apply, toM_apply]
  unfold shortened_su2_multiply_dag
  rw [data_a_mod hs, ← hp, show (su2_data NC s).idx_b % NC = q from hq.symm]
  have := rot_cols NC p q p.2 q.2 (fun h => hpq (Fin.ext h)) U a b i j i.2 j.2
  simp only [Fin.val_inj] at this
  exact this

theorem rotate_eq {NC s : ℕ} (hN : 2 ≤ NC) (hs : s < NSU2SUBGROUPS NC) (p q : Fin NC)
    (hp : (p : ℕ) = (rowsOf NC s).1) (hq : (q : ℕ) = (rowsOf NC s).2) (U : Arr ℂ) (a b : ℂ)
    (hU : NC = 2 → IsSU NC U) :
    toM NC (su2_rotate NC U a b s) = subgroupMatrix p q a b * toM NC U := by
  have hne : p ≠ q := by
    intro e
    have := (rowsOf_spec hN hs).2.2
    rw [← hp, ← hq, e] at this
    exact this rfl
  unfold su2_rotate
  unfold rowsOf at hp hq
  split
  · next h3 =>
    subst h3
    rw [if_pos rfl] at hp hq
    ext i j
    rw [subgroup_mul hne]
    have h012 : s % 3 = 0 ∨ s % 3 = 1 ∨ s % 3 = 2 := by omega
    rcases h012 with h | h | h
    · simp only [h] at hp hq ⊢
      obtain rfl : p = 0 := Fin.ext hp
      obtain rfl : q = 1 := Fin.ext hq
      fin_cases i <;> fin_cases j <;> simp [toM, arr]
    · simp only [h] at hp hq ⊢
      obtain rfl : p = 1 := Fin.ext hp
      obtain rfl : q = 2 := Fin.ext hq
      fin_cases i <;> fin_cases j <;> simp [toM, arr]
    · simp only [h] at hp hq ⊢
      obtain rfl : p = 2 := Fin.ext hp
      obtain rfl : q = 0 := Fin.ext hq
      fin_cases i <;> fin_cases j <;> simp [toM, arr] <;> ring
  · next h3 =>
    split
    · next h2 =>
      subst h2
      rw [if_neg h3, if_pos rfl] at hp hq
      obtain rfl : p = 0 := Fin.ext hp
      obtain rfl : q = 1 := Fin.ext hq
      obtain ⟨r0, r1⟩ := su2_row (hU rfl)
      simp only [toM_apply] at r0 r1
      norm_num at r0 r1
      ext i j
      rw [subgroup_mul hne]
      fin_cases i <;> fin_cases j <;> simp [toM, arr, r0, r1] <;> ring
    · next h2 =>
      rw [if_neg h3, if_neg h2] at hp hq
      exact multiply_eq hs p q hp hq hne U a b

theorem only_subgroup_eq {NC s : ℕ} (hN : 2 ≤ NC) (hs : s < NSU2SUBGROUPS NC) (p q : Fin NC)
    (hp : (p : ℕ) = (rowsOf NC s).1) (hq : (q : ℕ) = (rowsOf NC s).2) (U st : Arr ℂ) :
    only_subgroup NC U st s =
      normalise ((toM NC U * (toM NC st)ᴴ) p p) ((toM NC U * (toM NC st)ᴴ) p q)
        ((toM NC U * (toM NC st)ᴴ) q p) ((toM NC U * (toM NC st)ᴴ) q q) := by
  unfold only_subgroup
  unfold rowsOf at hp hq
  split
  · next h3 =>
    subst h3
    rw [if_pos rfl] at hp hq
    have h012 : s % 3 = 0 ∨ s % 3 = 1 ∨ s % 3 = 2 := by omega
    rcases h012 with h | h | h
    · simp only [h] at hp hq ⊢
      obtain rfl : p = 0 := Fin.ext hp
      obtain rfl : q = 1 := Fin.ext hq
      simp [Matrix.mul_apply, Fin.sum_univ_three, toM]
    · simp only [h] at hp hq ⊢
      obtain rfl : p = 1 := Fin.ext hp
      obtain rfl : q = 2 := Fin.ext hq
      simp [Matrix.mul_apply, Fin.sum_univ_three, toM]
    · simp only [h] at hp hq ⊢
      obtain rfl : p = 2 := Fin.ext hp
      obtain rfl : q = 0 := Fin.ext hq
      simp [Matrix.mul_apply, Fin.sum_univ_three, toM]
  · next h3 =>
    split
    · next h2 =>
      subst h2
      rw [if_neg h3, if_pos rfl] at hp hq
      obtain rfl : p = 0 := Fin.ext hp
      obtain rfl : q = 1 := Fin.ext hq
      simp [Matrix.mul_apply, Fin.sum_univ_two, toM]
    · next h2 =>
      rw [if_neg h3, if_neg h2] at hp hq
      simp only [Matrix.mul_apply, conjTranspose_apply, toM_apply, loopSum_eq_fin]
      rw [show (su2_data NC s).idx_a / NC = p from hp.symm, show (su2_data NC s).idx_b % NC = q from hq.symm]

theorem normalise_some {t0 t1 t2 t3 : ℂ} {s0 s1 : ℂ} {k : ℝ} (h : normalise t0 t1 t2 t3 = some (s0, s1, k)) :
    0 < k ∧ s0 = (t0 + star t3) * k ∧ s1 = (t1 - star t2) * k ∧ normSq s0 + normSq s1 = 1 := by
  unfold normalise at h
  simp only [] at h
  split at h
  · cases h
  · next hz =>
    simp only [Option.some.injEq, Prod.mk.injEq] at h
    obtain ⟨h0, h1, hk⟩ := h
    set u := t0 + star t3
    set v := t1 - star t2
    set n := √(u.re * u.re + u.im * u.im + v.re * v.re + v.im * v.im) with hn
    have hpos : 0 < n := lt_of_le_of_ne (Real.sqrt_nonneg _) (Ne.symm hz)
    have hsq : n * n = u.re * u.re + u.im * u.im + v.re * v.re + v.im * v.im :=
      Real.mul_self_sqrt (by
        have := mul_self_nonneg u.re
        have := mul_self_nonneg u.im
        have := mul_self_nonneg v.re
        have := mul_self_nonneg v.im
        linarith)
    refine ⟨by rw [← hk]; positivity, by rw [← h0, hk], by rw [← h1, hk], ?_⟩
    rw [← h0, ← h1, normSq_mul, normSq_mul, normSq_ofReal, ← add_mul, normSq_apply, normSq_apply]
    rw [show u.re * u.re + u.im * u.im + (v.re * v.re + v.im * v.im) = n * n by rw [hsq]; ring]
    field_simp

theorem normalise_none {t0 t1 t2 t3 : ℂ} :
    normalise t0 t1 t2 t3 = none ↔ t0 + star t3 = 0 ∧ t1 - star t2 = 0 := by
  unfold normalise
  simp only []
  set u := t0 + star t3
  set v := t1 - star t2
  have hnn : 0 ≤ u.re * u.re + u.im * u.im + v.re * v.re + v.im * v.im := by
    nlinarith [mul_self_nonneg u.re, mul_self_nonneg u.im, mul_self_nonneg v.re, mul_self_nonneg v.im]
  constructor
  · intro h
    split at h
    · next hz =>
      rw [Real.sqrt_eq_zero hnn] at hz
      have a1 := mul_self_nonneg u.re
      have a2 := mul_self_nonneg u.im
      have a3 := mul_self_nonneg v.re
      have a4 := mul_self_nonneg v.im
      exact ⟨Complex.ext (mul_self_eq_zero.1 (by linarith)) (mul_self_eq_zero.1 (by linarith)),
        Complex.ext (mul_self_eq_zero.1 (by linarith)) (mul_self_eq_zero.1 (by linarith))⟩
    · cases h
  · rintro ⟨hu, hv⟩
    rw [if_pos (by rw [hu, hv]; simp)]

/-- Trace of a rotated product. -/
theorem trace_rotated {NC : ℕ} {p q : Fin NC} (h : p ≠ q) (a b : ℂ) (V : Matrix (Fin NC) (Fin NC) ℂ) :
    (subgroupMatrix p q a b * V).trace = V.trace + ((a - 1) * V p p + b * V q p +
      -star b * V p q + (star a - 1) * V q q) := by
  have e : ∀ i, (subgroupMatrix p q a b * V) i i = V i i +
      ((if i = p then (a - 1) * V p p + b * V q p else 0) +
        if i = q then -star b * V p q + (star a - 1) * V q q else 0) := by
    intro i
    rw [subgroup_mul h]
    by_cases h1 : i = p
    · subst h1; simp [h]; ring
    · by_cases h2 : i = q
      · subst h2; simp [h1]; ring
      · simp [h1, h2]
  simp only [Matrix.trace, Matrix.diag_apply]
  rw [Finset.sum_congr rfl fun i _ => e i, Finset.sum_add_distrib, Finset.sum_add_distrib]
  simp
  ring

theorem micro_norm {s0 s1 : ℂ} (h : normSq s0 + normSq s1 = 1) :
    normSq (microcanonical s0 s1).1 + normSq (microcanonical s0 s1).2 = 1 := by
  simp only [microcanonical, normSq_apply] at *
  simp
  have : (s0.re * s0.re + s0.im * s0.im + (s1.re * s1.re + s1.im * s1.im)) ^ 2 = 1 := by rw [h]; norm_num
  linear_combination this

/-- The microcanonical element leaves the real trace unchanged. -/
theorem micro_trace {t0 t1 t2 t3 s0 s1 : ℂ} {k : ℝ} (h : normalise t0 t1 t2 t3 = some (s0, s1, k)) :
    (((microcanonical s0 s1).1 - 1) * t0 + (microcanonical s0 s1).2 * t2 +
      -star (microcanonical s0 s1).2 * t1 + (star (microcanonical s0 s1).1 - 1) * t3).re = 0 := by
  obtain ⟨hk, h0, h1, hn⟩ := normalise_some h
  have e0 : t0.re + t3.re = s0.re / k := by rw [h0]; simp; field_simp
  have e0' : t0.im - t3.im = s0.im / k := by rw [h0]; simp; field_simp; ring
  have e1 : t1.re - t2.re = s1.re / k := by rw [h1]; simp; field_simp
  have e1' : t1.im + t2.im = s1.im / k := by rw [h1]; simp; field_simp
  simp only [microcanonical]
  simp
  rw [normSq_apply, normSq_apply] at hn
  have r0 : s0.re = k * (t0.re + t3.re) := by rw [e0]; field_simp
  have r0' : s0.im = k * (t0.im - t3.im) := by rw [e0']; field_simp
  have r1 : s1.re = k * (t1.re - t2.re) := by rw [e1]; field_simp
  have r1' : s1.im = k * (t1.im + t2.im) := by rw [e1']; field_simp
  have a : t0.re = s0.re / k - t3.re := by linarith
  have a' : t0.im = s0.im / k + t3.im := by linarith
  have b : t1.re = s1.re / k + t2.re := by linarith
  have b' : t1.im = s1.im / k - t2.im := by linarith
  rw [a, a', b, b']
  linear_combination s0.re / k * hn

end GLU.Update
