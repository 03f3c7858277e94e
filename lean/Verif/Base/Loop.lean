import Mathlib.Data.Complex.Basic
import Mathlib.Algebra.BigOperators.Fin
import Mathlib.Tactic.Ring
import Mathlib.Data.Matrix.Mul
import Mathlib.LinearAlgebra.Matrix.ConjTranspose

/-!
# Loops and flat arrays

Building blocks for transcribing C loops over `GLU_complex a[ NCNC ]`.
Doubles are idealised as real numbers: `GLU_complex` is `ℂ`.
-/

namespace GLU

/-- `for( i = 0 ; i < n ; i++ ) { s = body i s ; }`. -/
def forN {σ : Type*} (n : ℕ) (body : ℕ → σ → σ) (s : σ) : σ :=
  match n with
  | 0 => s
  | n + 1 => body n (forN n body s)

/-- A flat array. -/
abbrev Arr (R : Type*) := ℕ → R

/-- An array given by its entries (zero beyond). -/
def arr {R : Type*} [Zero R] (l : List R) : Arr R := fun n => l.getD n 0

/-- The `NC x NC` matrix stored row-major in a flat array: entry `(i,j)` is
`a[ j + NC*i ]`. -/
def toM {R : Type*} (NC : ℕ) (a : Arr R) : Matrix (Fin NC) (Fin NC) R :=
  Matrix.of fun i j => a (j + NC * i)

/-- `sum = 0 ; for( m = 0 ; m < n ; m++ ) { sum += f(m) ; }`. -/
def loopSum {R : Type*} [Zero R] [Add R] (n : ℕ) (f : ℕ → R) : R :=
  forN n (fun m s => s + f m) 0

/-- `for i < n, for j < n : a[ j + n*i ] = f i j`. -/
def fillNN {R : Type*} (n : ℕ) (f : ℕ → ℕ → R) (a : Arr R) : Arr R :=
  forN n (fun i a => forN n (fun j a => Function.update a (j + n * i) (f i j)) a) a

theorem loopSum_eq {R : Type*} [AddCommMonoid R] (n : ℕ) (f : ℕ → R) :
    loopSum n f = ∑ m ∈ Finset.range n, f m := by
  unfold loopSum
  induction n with
  | zero => rfl
  | succ n ih => rw [forN, ih, Finset.sum_range_succ]

theorem loopSum_eq_fin {R : Type*} [AddCommMonoid R] (n : ℕ) (f : ℕ → R) :
    loopSum n f = ∑ m : Fin n, f m := by
  rw [loopSum_eq, Finset.sum_range]

theorem index_inj {n i j i' j' : ℕ} (hj : j < n) (hj' : j' < n) (h : j + n * i = j' + n * i') :
    i = i' ∧ j = j' := by
  have h1 : (j + n * i) % n = (j' + n * i') % n := by rw [h]
  rw [Nat.add_mul_mod_self_left, Nat.add_mul_mod_self_left, Nat.mod_eq_of_lt hj,
    Nat.mod_eq_of_lt hj'] at h1
  subst h1
  have : n * i = n * i' := by omega
  exact ⟨Nat.eq_of_mul_eq_mul_left (by omega) this, rfl⟩

theorem index_lt {n i j : ℕ} (hi : i < n) (hj : j < n) : j + n * i < n * n := by
  have h : n * i + n ≤ n * n := by
    calc n * i + n = n * (i + 1) := by ring
      _ ≤ n * n := Nat.mul_le_mul_left _ hi
  omega

/-- Inner loop of a fill: row `i` up to column `k`. -/
theorem fill_inner {R : Type*} (n i : ℕ) (g : ℕ → R) (a : Arr R) (k : ℕ) (x : ℕ) :
    forN k (fun j a => Function.update a (j + n * i) (g j)) a x =
      if n * i ≤ x ∧ x < n * i + k then g (x - n * i) else a x := by
  induction k with
  | zero => rw [forN, if_neg (by omega)]
  | succ k ih =>
    rw [forN, Function.update_apply, ih]
    by_cases h : x = k + n * i
    · rw [if_pos h, if_pos (by omega)]; congr 1; omega
    · rw [if_neg h]
      by_cases h2 : n * i ≤ x ∧ x < n * i + k
      · rw [if_pos h2, if_pos (by omega)]
      · rw [if_neg h2, if_neg (by omega)]

theorem fillNN_rows {R : Type*} (n : ℕ) (f : ℕ → ℕ → R) (a : Arr R) (k i j : ℕ) (hj : j < n) :
    forN k (fun i a => forN n (fun j a => Function.update a (j + n * i) (f i j)) a) a (j + n * i) =
      if i < k then f i j else a (j + n * i) := by
  induction k with
  | zero => rfl
  | succ k ih =>
    rw [forN, fill_inner]
    by_cases h : i = k
    · subst h
      rw [if_pos (by omega), if_pos (by omega)]; congr 1; omega
    · have hne : ¬ (n * k ≤ j + n * i ∧ j + n * i < n * k + n) := by
        rintro ⟨h1, h2⟩
        rcases Nat.lt_or_gt_of_ne h with h' | h'
        · have : n * i + n ≤ n * k := by
            calc n * i + n = n * (i + 1) := by ring
              _ ≤ n * k := Nat.mul_le_mul_left _ h'
          omega
        · have : n * k + n ≤ n * i := by
            calc n * k + n = n * (k + 1) := by ring
              _ ≤ n * i := Nat.mul_le_mul_left _ h'
          omega
      rw [if_neg hne, ih]
      by_cases h2 : i < k
      · rw [if_pos h2, if_pos (by omega)]
      · rw [if_neg h2, if_neg (by omega)]

/-- A fill writes exactly the named entries. -/
theorem fillNN_apply {R : Type*} {n : ℕ} (f : ℕ → ℕ → R) (a : Arr R) {i j : ℕ} (hi : i < n)
    (hj : j < n) : fillNN n f a (j + n * i) = f i j := by
  unfold fillNN
  rw [fillNN_rows n f a n i j hj, if_pos hi]

theorem toM_fillNN {R : Type*} (n : ℕ) (f : ℕ → ℕ → R) (a : Arr R) :
    toM n (fillNN n f a) = Matrix.of fun i j : Fin n => f i j := by
  ext i j
  exact fillNN_apply f a i.2 j.2

end GLU
