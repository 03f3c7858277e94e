import Verif.Mat.MMul
import Mathlib.LinearAlgebra.UnitaryGroup
import Mathlib.Tactic.FinCases
import Mathlib.Tactic.LinearCombination

namespace GLU.Mat

open Complex Matrix

theorem mul_parts (x y : ℂ) :
    creal x * creal y - cimag x * cimag y + I * (creal x * cimag y + cimag x * creal y) = x * y := by
  apply Complex.ext <;> simp [creal, cimag]

theorem dag_mul_parts (x y : ℂ) :
    creal x * creal y + cimag x * cimag y + I * (creal x * cimag y - cimag x * creal y)
      = conj x * y := by
  apply Complex.ext <;> simp [creal, cimag, conj]; ring

theorem mul_dag_parts (x y : ℂ) :
    creal x * creal y + cimag x * cimag y + I * (creal y * cimag x - creal x * cimag y)
      = x * conj y := by
  apply Complex.ext <;> simp [creal, cimag, conj]; ring

@[simp] theorem toM_apply {R : Type*} {NC : ℕ} (a : Arr R) (i j : Fin NC) :
    toM NC a i j = a (j + NC * i) := rfl

theorem toM_ext {R : Type*} {NC : ℕ} {a b : Arr R} (h : ∀ i < NC, ∀ j < NC, a (j + NC * i) = b (j + NC * i)) :
    toM NC a = toM NC b := by
  ext i j; exact h i i.2 j j.2

@[simp] theorem arr_zero {R : Type*} [Zero R] (x : R) (l : List R) : arr (x :: l) 0 = x := rfl
@[simp] theorem arr_succ {R : Type*} [Zero R] (x : R) (l : List R) (n : ℕ) :
    arr (x :: l) (n + 1) = arr l n := rfl

/-! ## Two columns per pass -/

theorem even_inner {R : Type*} (n i : ℕ) (g : ℕ → R) (a : Arr R) (k x : ℕ) :
    forN k (fun h a => Function.update (Function.update a (2 * h + n * i) (g (2 * h)))
        (2 * h + 1 + n * i) (g (2 * h + 1))) a x =
      forN (2 * k) (fun j a => Function.update a (j + n * i) (g j)) a x := by
  have : forN k (fun h a => Function.update (Function.update a (2 * h + n * i) (g (2 * h)))
        (2 * h + 1 + n * i) (g (2 * h + 1))) a =
      forN (2 * k) (fun j a => Function.update a (j + n * i) (g j)) a := by
    induction k with
    | zero => rfl
    | succ k ih =>
      rw [show 2 * (k + 1) = 2 * k + 1 + 1 by ring, forN, forN, forN, ih]
  rw [this]

theorem forN_congr {σ : Type*} {n : ℕ} {f g : ℕ → σ → σ} (h : ∀ i < n, ∀ s, f i s = g i s) (s : σ) :
    forN n f s = forN n g s := by
  induction n with
  | zero => rfl
  | succ n ih =>
    rw [forN, forN, ih fun i hi => h i (by omega), h n (by omega)]

/-! ## In-place products -/

/-- A loop over columns, each pass rewriting column `i` from its old content. -/
theorem col_inner {R : Type*} (n i : ℕ) (hi : i < n) (g : ℕ → R) (a : Arr R) (k : ℕ) (r c : ℕ)
    (hc : c < n) :
    forN k (fun m a => Function.update a (i + m * n) (g m)) a (c + r * n) =
      if c = i ∧ r < k then g r else a (c + r * n) := by
  induction k with
  | zero => rw [forN, if_neg (by omega)]
  | succ k ih =>
    rw [forN, Function.update_apply, ih]
    by_cases h : c + r * n = i + k * n
    · rw [Nat.mul_comm r, Nat.mul_comm k] at h
      obtain ⟨h1, h2⟩ := index_inj hc hi h
      subst h1; subst h2
      simp
    · rw [if_neg h]
      by_cases h2 : c = i ∧ r < k
      · rw [if_pos h2, if_pos (by omega)]
      · rw [if_neg h2, if_neg]
        rintro ⟨rfl, h3⟩
        exact h (by rw [show r = k by omega])

theorem atomic_left_cols (NC : ℕ) (a b : Arr ℂ) (k : ℕ) (hk : k ≤ NC) (r c : ℕ) (hr : r < NC)
    (hc : c < NC) :
    forN k (fun i a =>
      let R : ℕ → ℂ := fun j => loopSum NC fun m => b (m + j * NC) * a (i + m * NC)
      forN NC (fun m a => Function.update a (i + m * NC) (R m)) a) a (c + r * NC) =
      if c < k then loopSum NC fun m => b (m + r * NC) * a (c + m * NC) else a (c + r * NC) := by
  induction k generalizing r c with
  | zero => rw [forN, if_neg (by omega)]
  | succ k ih =>
    rw [forN]
    simp only []
    rw [col_inner NC k (by omega) _ _ NC r c hc]
    by_cases h : c = k
    · subst h
      rw [if_pos ⟨rfl, hr⟩, if_pos (by omega), loopSum_eq, loopSum_eq]
      refine Finset.sum_congr rfl fun m hm => ?_
      rw [ih (by omega) m c (Finset.mem_range.1 hm) hc, if_neg (by omega)]
    · rw [if_neg (by tauto), ih (by omega) r c hr hc]
      by_cases h2 : c < k
      · rw [if_pos h2, if_pos (by omega)]
      · rw [if_neg h2, if_neg (by omega)]

theorem row_inner {R : Type*} (n i : ℕ) (g : ℕ → R) (a : Arr R) (k : ℕ) (hk : k ≤ n) (r c : ℕ)
    (hc : c < n) :
    forN k (fun j a => Function.update a (j + i * n) (g j)) a (c + r * n) =
      if r = i ∧ c < k then g c else a (c + r * n) := by
  induction k with
  | zero => rw [forN, if_neg (by omega)]
  | succ k ih =>
    rw [forN, Function.update_apply, ih (by omega)]
    by_cases h : c + r * n = k + i * n
    · rw [Nat.mul_comm r, Nat.mul_comm i] at h
      obtain ⟨h1, h2⟩ := index_inj hc (by omega) h
      subst h1; subst h2
      simp
    · rw [if_neg h]
      by_cases h2 : r = i ∧ c < k
      · rw [if_pos h2, if_pos (by omega)]
      · rw [if_neg h2, if_neg]
        rintro ⟨rfl, h3⟩
        exact h (by rw [show c = k by omega])

theorem atomic_right_rows (NC : ℕ) (a b : Arr ℂ) (k : ℕ) (hk : k ≤ NC) (r c : ℕ) (hr : r < NC)
    (hc : c < NC) :
    forN k (fun i a =>
      let R : ℕ → ℂ := fun j => loopSum NC fun m => a (m + i * NC) * b (j + m * NC)
      forN NC (fun j a => Function.update a (j + i * NC) (R j)) a) a (c + r * NC) =
      if r < k then loopSum NC fun m => a (m + r * NC) * b (c + m * NC) else a (c + r * NC) := by
  induction k generalizing r c with
  | zero => rw [forN, if_neg (by omega)]
  | succ k ih =>
    rw [forN]
    simp only []
    rw [row_inner NC k _ _ NC le_rfl r c hc]
    by_cases h : r = k
    · subst h
      rw [if_pos ⟨rfl, hc⟩, if_pos (by omega), loopSum_eq, loopSum_eq]
      refine Finset.sum_congr rfl fun m hm => ?_
      rw [ih (by omega) r m hr (Finset.mem_range.1 hm), if_neg (by omega)]
    · rw [if_neg (by tauto), ih (by omega) r c hr hc]
      by_cases h2 : r < k
      · rw [if_pos h2, if_pos (by omega)]
      · rw [if_neg h2, if_neg (by omega)]

/-! ## Special unitary matrices -/

/-- A special unitary matrix equals the conjugate of its cofactor matrix. -/
theorem su_adjugate {n : ℕ} {A : Matrix (Fin n) (Fin n) ℂ}
    (hA : A ∈ specialUnitaryGroup (Fin n) ℂ) : adjugate A = Aᴴ := by
  obtain ⟨hU, hd⟩ := mem_specialUnitaryGroup_iff.1 hA
  have h1 : Aᴴ * A = 1 := (mem_unitaryGroup_iff').1 hU
  calc adjugate A = (Aᴴ * A) * adjugate A := by rw [h1, one_mul]
    _ = Aᴴ * (A * adjugate A) := by rw [mul_assoc]
    _ = Aᴴ := by rw [mul_adjugate, hd, one_smul, mul_one]

/-- The stored matrix is special unitary. -/
def IsSU (NC : ℕ) (a : Arr ℂ) : Prop := toM NC a ∈ specialUnitaryGroup (Fin NC) ℂ

theorem isSU_mul {NC : ℕ} {A B : Matrix (Fin NC) (Fin NC) ℂ}
    (hA : A ∈ specialUnitaryGroup (Fin NC) ℂ) (hB : B ∈ specialUnitaryGroup (Fin NC) ℂ) :
    A * B ∈ specialUnitaryGroup (Fin NC) ℂ := mul_mem hA hB

theorem isSU_star {NC : ℕ} {A : Matrix (Fin NC) (Fin NC) ℂ}
    (hA : A ∈ specialUnitaryGroup (Fin NC) ℂ) : Aᴴ ∈ specialUnitaryGroup (Fin NC) ℂ := by
  obtain ⟨hU, hd⟩ := mem_specialUnitaryGroup_iff.1 hA
  refine mem_specialUnitaryGroup_iff.2 ⟨?_, by rw [det_conjTranspose, hd, star_one]⟩
  rw [mem_unitaryGroup_iff]
  simpa [star_eq_conjTranspose] using (mem_unitaryGroup_iff').1 hU

/-- Third row of a 3 x 3 special unitary matrix from the first two. -/
theorem su3_row {A : Matrix (Fin 3) (Fin 3) ℂ} (hA : A ∈ specialUnitaryGroup (Fin 3) ℂ) :
    A 2 0 = star (A 0 1 * A 1 2 - A 0 2 * A 1 1) ∧
    A 2 1 = star (A 0 2 * A 1 0 - A 0 0 * A 1 2) ∧
    A 2 2 = star (A 0 0 * A 1 1 - A 0 1 * A 1 0) := by
  have h := su_adjugate hA
  rw [adjugate_fin_three] at h
  have e : ∀ i j, A i j = star (Aᴴ j i) := fun i j => by simp
  refine ⟨?_, ?_, ?_⟩ <;> rw [e, ← h] <;> simp [Matrix.of_apply]
  ring

theorem su2_row {A : Matrix (Fin 2) (Fin 2) ℂ} (hA : A ∈ specialUnitaryGroup (Fin 2) ℂ) :
    A 1 0 = - star (A 0 1) ∧ A 1 1 = star (A 0 0) := by
  have h := su_adjugate hA
  rw [adjugate_fin_two] at h
  have e : ∀ i j, A i j = star (Aᴴ j i) := fun i j => by simp
  refine ⟨?_, ?_⟩ <;> rw [e, ← h] <;> simp

/-- Completion of a 3 x 3 array from its first two rows. -/
theorem complete3 {x : Arr ℂ} {A : Matrix (Fin 3) (Fin 3) ℂ} (hA : A ∈ specialUnitaryGroup (Fin 3) ℂ)
    (h0 : x 0 = A 0 0) (h1 : x 1 = A 0 1) (h2 : x 2 = A 0 2)
    (h3 : x 3 = A 1 0) (h4 : x 4 = A 1 1) (h5 : x 5 = A 1 2)
    (h6 : x 6 = conj (x 1 * x 5 - x 2 * x 4)) (h7 : x 7 = conj (x 2 * x 3 - x 0 * x 5))
    (h8 : x 8 = conj (x 0 * x 4 - x 1 * x 3)) : toM 3 x = A := by
  obtain ⟨r0, r1, r2⟩ := su3_row hA
  rw [h1, h5, h2, h4] at h6
  rw [h2, h3, h0, h5] at h7
  rw [h0, h4, h1, h3] at h8
  ext i j
  fin_cases i <;> fin_cases j
  · exact h0
  · exact h1
  · exact h2
  · exact h3
  · exact h4
  · exact h5
  · exact h6.trans r0.symm
  · exact h7.trans r1.symm
  · exact h8.trans r2.symm

theorem complete2 {x : Arr ℂ} {A : Matrix (Fin 2) (Fin 2) ℂ} (hA : A ∈ specialUnitaryGroup (Fin 2) ℂ)
    (h0 : x 0 = A 0 0) (h1 : x 1 = A 0 1) (h2 : x 2 = - conj (x 1)) (h3 : x 3 = conj (x 0)) :
    toM 2 x = A := by
  obtain ⟨r0, r1⟩ := su2_row hA
  rw [h1] at h2
  rw [h0] at h3
  ext i j
  fin_cases i <;> fin_cases j
  · exact h0
  · exact h1
  · exact h2.trans r0.symm
  · exact h3.trans r1.symm

theorem conj_parts (p q r s : ℂ) :
    creal p * creal q - cimag p * cimag q - I * (creal p * cimag q + creal q * cimag p)
      - creal r * creal s + cimag r * cimag s + I * (creal r * cimag s + creal s * cimag r)
      = conj (p * q - r * s) := by
  apply Complex.ext <;> simp [creal, cimag, conj] <;> ring

end GLU.Mat
