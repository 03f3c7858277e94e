import Verif.Mat.LU
import Verif.Mat.UNopsProps
import Mathlib.LinearAlgebra.Matrix.Determinant.Basic
import Mathlib.LinearAlgebra.Matrix.Adjugate

namespace GLU.Mat

open Complex Matrix

theorem modsq_nonneg (z : ℂ) : 0 ≤ modsq z := by
  unfold modsq; nlinarith [sq_nonneg z.re, sq_nonneg z.im]

theorem modsq_eq_zero {z : ℂ} : modsq z = 0 ↔ z = 0 := by
  rw [show modsq z = normSq z from rfl, normSq_eq_zero]

theorem findPivot_spec {N i : ℕ} (hi : i < N) (U : Arr ℂ) :
    i ≤ (findPivot N i U).1 ∧ (findPivot N i U).1 < N ∧
    (findPivot N i U).2 = modsq (U (i + (findPivot N i U).1 * N)) ∧
    ∀ j, i ≤ j → j < N → modsq (U (i + j * N)) ≤ (findPivot N i U).2 := by
  have e0 : i * (N + 1) = i + i * N := by ring
  have := forFrom_inv (fun j (s : ℕ × ℝ) => i ≤ s.1 ∧ s.1 < N ∧ s.2 = modsq (U (i + s.1 * N)) ∧
      ∀ k, i ≤ k → k < j → modsq (U (i + k * N)) ≤ s.2) (lo := i + 1) (hi := N) hi
    (body := fun j s =>
      if modsq (U (i + j * N)) > s.2 then (j, modsq (U (i + j * N))) else s)
    (s := (i, modsq (U (i * (N + 1)))))
    ⟨le_refl _, hi, by rw [e0], fun k h1 h2 => by rw [e0, show k = i by omega]⟩
    (fun j h1 h2 s hs => by
      obtain ⟨a, b, c, d⟩ := hs
      split
      · next h =>
        refine ⟨by simp; omega, h2, rfl, fun k hk1 hk2 => ?_⟩
        rcases Nat.lt_succ_iff_lt_or_eq.1 hk2 with h3 | rfl
        · exact (d k hk1 h3).trans h.le
        · exact le_refl _
      · next h =>
        refine ⟨a, b, c, fun k hk1 hk2 => ?_⟩
        rcases Nat.lt_succ_iff_lt_or_eq.1 hk2 with h3 | rfl
        · exact d k hk1 h3
        · exact not_lt.1 h)
  exact ⟨this.1, this.2.1, this.2.2.1, this.2.2.2⟩

theorem flat_inj {N r c r' c' : ℕ} (hc : c < N) (hc' : c' < N) (h : c + r * N = c' + r' * N) :
    r = r' ∧ c = c' :=
  index_inj hc hc' (by rwa [Nat.mul_comm N, Nat.mul_comm N])

theorem swapRows_apply {N i piv : ℕ} (hi : i < N) (hp : piv < N) (hne : piv ≠ i) (U : Arr ℂ)
    {r c : ℕ} (_hr : r < N) (hc : c < N) :
    swapRows N i piv U (c + r * N) =
      if i ≤ c then (if r = i then U (c + piv * N) else if r = piv then U (c + i * N)
        else U (c + r * N)) else U (c + r * N) := by
  have := forFrom_inv (fun l (V : Arr ℂ) => ∀ r c, c < N → V (c + r * N) =
      if i ≤ c ∧ c < l then (if r = i then U (c + piv * N) else if r = piv then U (c + i * N)
        else U (c + r * N)) else U (c + r * N)) (lo := i) (hi := N) hi.le
    (body := fun l U =>
      let dt := U (l + i * N)
      let U := Function.update U (l + i * N) (U (l + piv * N))
      Function.update U (l + piv * N) dt) (s := U)
    (fun r c _ => by rw [if_neg (by omega)])
    (fun l h1 h2 V hV r c hc => by
      simp only [Function.update_apply]
      by_cases hcl : c = l
      · subst hcl
        rw [if_pos (by omega : i ≤ c ∧ c < c + 1)]
        have n1 : ¬ (i ≤ c ∧ c < c) := by omega
        by_cases hrp : r = piv
        · subst hrp
          rw [if_pos rfl, if_neg hne, if_pos rfl, hV _ _ hc, if_neg n1]
        · rw [if_neg (fun h => hrp (flat_inj hc hc h).1)]
          by_cases hri : r = i
          · subst hri
            rw [if_pos rfl, if_pos rfl, hV _ _ hc, if_neg n1]
          · rw [if_neg (fun h => hri (flat_inj hc hc h).1), hV _ _ hc, if_neg n1, if_neg hri,
              if_neg hrp]
      · rw [if_neg (fun h => hcl (flat_inj hc h2 h).2), if_neg (fun h => hcl (flat_inj hc h2 h).2),
          hV _ _ hc]
        by_cases h : i ≤ c ∧ c < l
        · have h' : i ≤ c ∧ c < l + 1 := by omega
          rw [if_pos h, if_pos h']
        · have h' : ¬ (i ≤ c ∧ c < l + 1) := by omega
          rw [if_neg h, if_neg h'])
  have h := this r c hc
  unfold swapRows
  rw [h]
  by_cases hic : i ≤ c
  · rw [if_pos ⟨hic, hc⟩, if_pos hic]
  · rw [if_neg (by omega), if_neg hic]

theorem elim_entry (f p : ℂ) : creal f * creal p - cimag f * cimag p
    + I * (creal f * cimag p + cimag f * creal p) = f * p := by
  apply Complex.ext <;> simp [creal, cimag]

theorem eliminate_apply {N i : ℕ} (hi : i < N) (U : Arr ℂ) {r c : ℕ} (hr : r < N) (hc : c < N) :
    eliminate N i U (c + r * N) =
      if i < r ∧ i < c then U (c + r * N) - U (i + r * N) * (1 / U (i * (N + 1))) * U (c + i * N)
        else U (c + r * N) := by
  unfold eliminate
  simp only [elim_entry]
  have outer := forN_inv (fun t (V : Arr ℂ) => ∀ r c, r < N → c < N → V (c + r * N) =
      if N - 1 - t < r ∧ i < c then
        U (c + r * N) - U (i + r * N) * (1 / U (i * (N + 1))) * U (c + i * N)
      else U (c + r * N)) (n := N - 1 - i)
    (body := fun t V => forFrom (i + 1) N (fun l W => Function.update W (l + (N - 1 - t) * N)
      (W (l + (N - 1 - t) * N) - V (i + (N - 1 - t) * N) * (1 / U (i * (N + 1))) * W (i * N + l))) V)
    (s := U) (fun r c hr _ => by rw [if_neg (by omega)])
    (fun t ht V hV r c hr hc => by
      have hj : N - 1 - t < N := by omega
      have hij : i < N - 1 - t := by omega
      have inner := forFrom_inv (fun l (W : Arr ℂ) => ∀ r c, r < N → c < N → W (c + r * N) =
          if r = N - 1 - t ∧ i < c ∧ c < l then
            U (c + r * N) - U (i + r * N) * (1 / U (i * (N + 1))) * U (c + i * N)
          else V (c + r * N)) (lo := i + 1) (hi := N) (by omega)
        (body := fun l W => Function.update W (l + (N - 1 - t) * N)
          (W (l + (N - 1 - t) * N) -
            V (i + (N - 1 - t) * N) * (1 / U (i * (N + 1))) * W (i * N + l))) (s := V)
        (fun r c _ _ => by rw [if_neg (by omega)])
        (fun l h1 h2 W hW r c hr hc => by
          rw [Function.update_apply]
          by_cases h : c + r * N = l + (N - 1 - t) * N
          · obtain ⟨h3, h4⟩ := flat_inj hc h2 h
            subst h3 h4
            rw [if_pos rfl, if_pos (by omega), hW _ _ hr hc, if_neg (by omega), hV _ _ hr hc,
              if_neg (by omega), hV _ _ hr hi, if_neg (by omega),
              show i * N + c = c + i * N by ring, hW _ _ hi hc, if_neg (by omega), hV _ _ hi hc,
              if_neg (by omega)]
          · have : ¬ (r = N - 1 - t ∧ c = l) := by rintro ⟨rfl, rfl⟩; exact h rfl
            rw [if_neg h, hW _ _ hr hc]
            by_cases h5 : r = N - 1 - t ∧ i < c ∧ c < l
            · rw [if_pos h5, if_pos (by omega)]
            · rw [if_neg h5, if_neg (by omega)])
      rw [inner r c hr hc, hV _ _ hr hc]
      by_cases h6 : r = N - 1 - t ∧ i < c ∧ c < N
      · rw [if_pos h6, if_pos (by omega)]
      · rw [if_neg h6]
        by_cases h7 : N - 1 - t < r ∧ i < c
        · rw [if_pos h7, if_pos (by omega)]
        · rw [if_neg h7, if_neg (by omega)])
  rw [outer r c hr hc, show N - 1 - (N - 1 - i) = i by omega]

/-! ## One elimination step on determinants -/

/-- The trailing block from row and column `i`. -/
def trail (N i m : ℕ) (U : Arr ℂ) : Matrix (Fin m) (Fin m) ℂ :=
  Matrix.of fun r c => U ((i + c) + (i + r) * N)

theorem det_elim {m : ℕ} (A : Matrix (Fin (m + 1)) (Fin (m + 1)) ℂ) (h : A 0 0 ≠ 0) :
    A.det = A 0 0 * (Matrix.of fun r c : Fin m =>
      A r.succ c.succ - A r.succ 0 * (1 / A 0 0) * A 0 c.succ).det := by
  let B : Matrix (Fin (m + 1)) (Fin (m + 1)) ℂ :=
    Matrix.of fun r c => if r = 0 then A r c else A r c - A r 0 * (1 / A 0 0) * A 0 c
  have hB : A.det = B.det := by
    refine det_eq_of_forall_row_eq_smul_add_const (fun r => if r = 0 then 0 else A r 0 * (1 / A 0 0))
      0 (by simp) fun r c => ?_
    by_cases hr : r = 0
    · subst hr; simp [B]
    · simp [B, hr]
  rw [hB, det_succ_column_zero, Fin.sum_univ_succ]
  have hz : ∀ r : Fin m, B r.succ 0 = 0 := fun r => by
    simp [B, Fin.succ_ne_zero]; field_simp; simp
  simp only [hz, mul_zero, zero_mul, Finset.sum_const_zero, add_zero, Fin.val_zero, pow_zero,
    one_mul, Fin.succAbove_zero]
  have h0 : B 0 0 = A 0 0 := by simp [B]
  rw [h0]
  rfl

theorem trail_elim {N i m : ℕ} (hN : N = i + (m + 1)) (U : Arr ℂ) (h : U (i * (N + 1)) ≠ 0) :
    (trail N i (m + 1) U).det =
      eliminate N i U (i * (N + 1)) * (trail N (i + 1) m (eliminate N i U)).det := by
  have e0 : i * (N + 1) = i + i * N := by ring
  rw [det_elim _ (by simpa [trail, ← e0] using h)]
  congr 1
  · rw [e0, eliminate_apply (by omega) U (by omega) (by omega), if_neg (by omega)]
    simp [trail]
  · congr 1
    ext r c
    have hr := r.2
    have hc := c.2
    simp only [trail, Matrix.of_apply, Fin.val_succ, Fin.val_zero, add_zero]
    rw [eliminate_apply (by omega) U (by omega) (by omega), if_pos (by omega), e0,
      show i + (c + 1 : ℕ) = i + 1 + c by ring, show i + (r + 1 : ℕ) = i + 1 + r by ring]

theorem trail_swap {N i m piv : ℕ} (hN : N = i + m) (U : Arr ℂ) (h1 : i < piv) (h2 : piv < N) :
    (trail N i m (swapRows N i piv U)).det = -(trail N i m U).det := by
  let a : Fin m := ⟨0, by omega⟩
  let b : Fin m := ⟨piv - i, by omega⟩
  have hab : a ≠ b := by simp [a, b, Fin.ext_iff]; omega
  have e : trail N i m (swapRows N i piv U) =
      (trail N i m U).submatrix (Equiv.swap a b) id := by
    ext r c
    have hr := r.2
    have hc := c.2
    simp only [trail, Matrix.of_apply, submatrix_apply, id]
    rw [swapRows_apply (by omega) h2 (by omega) U (by omega) (by omega), if_pos (by omega)]
    by_cases ha : r = a
    · subst ha
      rw [Equiv.swap_apply_left, if_pos (by simp [a])]
      simp only [b]
      rw [show i + (piv - i) = piv by omega]
    · have ha' : (r : ℕ) ≠ 0 := fun hz => ha (Fin.ext hz)
      rw [if_neg (by omega)]
      by_cases hb : r = b
      · subst hb
        rw [Equiv.swap_apply_right, if_pos (by simp [b]; omega)]
        simp [a]
      · have hb' : (r : ℕ) ≠ piv - i := fun hz => hb (Fin.ext hz)
        rw [Equiv.swap_apply_of_ne_of_ne ha hb, if_neg (by omega)]
  rw [e, det_permute, Equiv.Perm.sign_swap hab]
  simp

/-- Invariant of the elimination. -/
def LUInv (N : ℕ) (D : ℂ) (i : ℕ) (o : Option LUState) : Prop :=
  match o with
  | none => D = 0
  | some s => D = (-1) ^ s.perms * s.determinant * (trail N i (N - i) s.U).det

theorem luStep_inv {N i : ℕ} (hi : i + 1 < N) {D : ℂ} {s : LUState} (h : LUInv N D i (some s)) :
    LUInv N D (i + 1) (luStep N i s) := by
  obtain ⟨m, hm⟩ : ∃ m, N = i + (m + 1) := ⟨N - i - 1, by omega⟩
  obtain ⟨p1, p2, p3, p4⟩ := findPivot_spec (show i < N by omega) s.U
  have hm1 : N - i = m + 1 := by omega
  have hm2 : N - (i + 1) = m := by omega
  simp only [LUInv] at h
  rw [hm1] at h
  unfold luStep
  simp only []
  split
  · next hz =>
    simp only [LUInv]
    rw [h, det_eq_zero_of_column_eq_zero 0, mul_zero]
    intro r
    have hr := r.2
    have := p4 (i + r) (by omega) (by omega)
    rw [hz] at this
    simp only [trail, Matrix.of_apply, Fin.val_zero, add_zero]
    exact modsq_eq_zero.1 (le_antisymm this (modsq_nonneg _))
  · next hz =>
    simp only [LUInv]
    rw [hm2]
    have e0 : i * (N + 1) = i + i * N := by ring
    rw [p3] at hz
    have hpz : s.U (i + (findPivot N i s.U).1 * N) ≠ 0 := fun h => hz (modsq_eq_zero.2 h)
    by_cases hp : (findPivot N i s.U).1 = i
    · simp only [hp, ne_eq, not_true_eq_false, if_false]
      rw [hp] at hpz
      rw [h, trail_elim hm s.U (by rwa [e0])]
      ring
    · simp only [ne_eq, hp, not_false_eq_true, if_true]
      have hlt : i < (findPivot N i s.U).1 := by omega
      have hne : swapRows N i (findPivot N i s.U).1 s.U (i * (N + 1)) ≠ 0 := by
        rw [e0, swapRows_apply (by omega) p2 (by omega) s.U (by omega) (by omega), if_pos (le_refl _),
          if_pos rfl]
        exact hpz
      have hs := trail_swap hm s.U hlt p2
      rw [trail_elim hm _ hne] at hs
      rw [h, pow_succ]
      linear_combination ((-1) ^ s.perms * s.determinant) * hs

theorem trail_zero (N : ℕ) (U : Arr ℂ) : trail N 0 N U = toM N U := by
  ext r c
  simp [trail, Nat.mul_comm]

theorem LU_det_overwrite_eq {N : ℕ} (hN : 0 < N) (U : Arr ℂ) :
    LU_det_overwrite N U = (toM N U).det := by
  have inv := forN_inv (LUInv N (toM N U).det) (n := N - 1)
    (body := fun i o => o.bind (luStep N i)) (s := some ⟨U, 1, 0⟩)
    (by simp [LUInv, trail_zero])
    (fun i hi o ho => by
      cases o with
      | none => exact ho
      | some s => exact luStep_inv (by omega) ho)
  unfold LU_det_overwrite
  split
  · next h => rw [h] at inv; exact inv.symm
  · next s h =>
    rw [h] at inv
    simp only [LUInv] at inv
    rw [show N - (N - 1) = 1 by omega] at inv
    rw [inv, det_unique, trail]
    have e : N - 1 + (N - 1) * N = N * N - 1 := by
      obtain ⟨k, rfl⟩ : ∃ k, N = k + 1 := ⟨N - 1, by omega⟩
      simp; ring_nf; omega
    simp only [Matrix.of_apply, Fin.default_eq_zero, Fin.val_zero, add_zero, e]
    rcases Nat.mod_two_eq_zero_or_one s.perms with h2 | h2
    · rw [if_neg (by omega), (Nat.even_iff.2 h2).neg_one_pow]; ring
    · rw [if_pos h2, (Nat.odd_iff.2 h2).neg_one_pow]; ring

/-! ## Packing a minor -/

/-- Number of kept flat positions before `j` when row `R` and column `C` are removed. -/
def keptBefore (NC R C j : ℕ) : ℕ :=
  (j / NC - if R < j / NC then 1 else 0) * (NC - 1) +
    if j / NC = R then 0 else (j % NC - if C < j % NC then 1 else 0)

theorem keptBefore_succ {NC R C j : ℕ} (hC : C < NC) :
    keptBefore NC R C (j + 1) = keptBefore NC R C j +
      if j % NC ≠ C ∧ j / NC ≠ R then 1 else 0 := by
  have hN : 0 < NC := by omega
  have hj := Nat.mod_add_div j NC
  have hlt := Nat.mod_lt j hN
  by_cases h : j % NC + 1 < NC
  · have e1 : (j + 1) / NC = j / NC := by
      rw [← hj, add_right_comm, Nat.add_mul_div_left _ _ hN, Nat.div_eq_of_lt h,
        Nat.add_mul_div_left _ _ hN, Nat.div_eq_of_lt hlt]
    have e2 : (j + 1) % NC = j % NC + 1 := by
      conv_lhs => rw [← hj, add_right_comm, Nat.add_mul_mod_self_left, Nat.mod_eq_of_lt h]
    unfold keptBefore
    rw [e1, e2]
    split_ifs <;> omega
  · have e0 : j % NC + 1 = NC := by omega
    have e1 : (j + 1) / NC = j / NC + 1 := by
      conv_lhs => rw [← hj, add_right_comm, e0, Nat.add_mul_div_left _ _ hN, Nat.div_self hN]
      omega
    have e2 : (j + 1) % NC = 0 := by
      conv_lhs => rw [← hj, add_right_comm, e0, Nat.add_mul_mod_self_left, Nat.mod_self]
    unfold keptBefore
    rw [e1, e2]
    have hm : j % NC = NC - 1 := by omega
    rw [hm]
    by_cases hR : j / NC = R
    · have a1 : R < j / NC + 1 := by omega
      have a2 : ¬ R < j / NC := by omega
      have a3 : ¬ (j / NC + 1 = R) := by omega
      simp [hR]
    · by_cases hR2 : R < j / NC
      · have a1 : R < j / NC + 1 := by omega
        have a3 : ¬ (j / NC + 1 = R) := by omega
        obtain ⟨q, hq⟩ : ∃ q, j / NC = q + 1 := ⟨j / NC - 1, by omega⟩
        simp only [a1, if_true, hR2, a3, hR, if_false]
        rw [hq]
        have : (q + 1) * (NC - 1) = q * (NC - 1) + (NC - 1) := by ring
        simp only [Nat.add_sub_cancel, this]
        split_ifs <;> omega
      · have a1 : ¬ R < j / NC + 1 := by omega
        simp only [a1, hR2, hR, if_false]
        have : (j / NC + 1) * (NC - 1) = j / NC * (NC - 1) + (NC - 1) := by ring
        simp only [Nat.sub_zero, this]
        split_ifs <;> omega

theorem keptBefore_mono {NC R C : ℕ} (hC : C < NC) {j k : ℕ} (h : j ≤ k) :
    keptBefore NC R C j ≤ keptBefore NC R C k := by
  induction k with
  | zero => rw [show j = 0 by omega]
  | succ k ih =>
    rcases Nat.le_succ_iff.1 h with h | rfl
    · rw [keptBefore_succ hC]; exact (ih h).trans (Nat.le_add_right _ _)
    · exact le_refl _

theorem packKept_apply {NC R C n : ℕ} (hC : C < NC) (keep : ℕ → Bool)
    (hk : ∀ j < n, keep j = true ↔ (j % NC ≠ C ∧ j / NC ≠ R)) (b array : Arr ℂ) {j : ℕ} (hj : j < n)
    (hkeep : keep j = true) : packKept n keep b array (keptBefore NC R C j) = b j := by
  have := forN_inv (fun k (s : ℕ × Arr ℂ) => s.1 = keptBefore NC R C k ∧
      ∀ j < k, keep j = true → s.2 (keptBefore NC R C j) = b j) (n := n)
    (body := fun j (s : ℕ × Arr ℂ) =>
      if keep j then (s.1 + 1, Function.update s.2 s.1 (b j)) else s) (s := (0, array))
    ⟨by simp [keptBefore], by simp⟩
    (fun k hkn s hs => by
      obtain ⟨h1, h2⟩ := hs
      have hsucc := keptBefore_succ (NC := NC) (R := R) (j := k) hC
      by_cases hkk : keep k = true
      · rw [if_pos hkk]
        rw [if_pos ((hk k hkn).1 hkk)] at hsucc
        refine ⟨by simp only [h1]; omega, fun j hj hkj => ?_⟩
        simp only [Function.update_apply, h1]
        rcases Nat.lt_succ_iff_lt_or_eq.1 hj with h3 | rfl
        · have h4 : keptBefore NC R C (j + 1) ≤ keptBefore NC R C k := keptBefore_mono hC h3
          rw [keptBefore_succ hC, if_pos ((hk j (by omega)).1 hkj)] at h4
          rw [if_neg (by omega)]
          exact h2 j h3 hkj
        · rw [if_pos rfl]
      · rw [if_neg hkk]
        rw [if_neg (fun h => hkk ((hk k hkn).2 h))] at hsucc
        refine ⟨by rw [h1, hsucc]; rfl, fun j hj hkj => ?_⟩
        rcases Nat.lt_succ_iff_lt_or_eq.1 hj with h3 | rfl
        · exact h2 j h3 hkj
        · exact absurd hkj hkk)
  exact this.2 j hj hkeep

theorem keptBefore_succAbove {m : ℕ} (R C : Fin (m + 1)) (r c : Fin m) :
    keptBefore (m + 1) R C ((C.succAbove c : ℕ) + (m + 1) * (R.succAbove r : ℕ)) =
      (c : ℕ) + m * r := by
  have hlt : (C.succAbove c : ℕ) < m + 1 := (C.succAbove c).2
  unfold keptBefore
  rw [Nat.add_mul_div_left _ _ (by omega), Nat.div_eq_of_lt hlt, Nat.zero_add,
    Nat.add_mul_mod_self_left, Nat.mod_eq_of_lt hlt]
  have hne : (R.succAbove r : ℕ) ≠ R := fun h => Fin.succAbove_ne R r (Fin.ext h)
  rw [if_neg hne]
  have e1 : (R.succAbove r : ℕ) - (if (R : ℕ) < R.succAbove r then 1 else 0) = r := by
    rcases lt_or_ge r.castSucc R with h | h
    · rw [Fin.succAbove_of_castSucc_lt _ _ h]
      have : (r : ℕ) < R := h
      rw [Fin.val_castSucc, if_neg (by omega), Nat.sub_zero]
    · rw [Fin.succAbove_of_le_castSucc _ _ h]
      have : (R : ℕ) ≤ r := h
      rw [Fin.val_succ, if_pos (by omega), Nat.add_sub_cancel]
  have e2 : (C.succAbove c : ℕ) - (if (C : ℕ) < C.succAbove c then 1 else 0) = c := by
    rcases lt_or_ge c.castSucc C with h | h
    · rw [Fin.succAbove_of_castSucc_lt _ _ h]
      have : (c : ℕ) < C := h
      rw [Fin.val_castSucc, if_neg (by omega), Nat.sub_zero]
    · rw [Fin.succAbove_of_le_castSucc _ _ h]
      have : (C : ℕ) ≤ c := h
      rw [Fin.val_succ, if_pos (by omega), Nat.add_sub_cancel]
  rw [e1, e2, Nat.add_sub_cancel]
  ring

/-- The packed array is the minor. -/
theorem toM_packKept {m n : ℕ} (R C : Fin (m + 1)) (keep : ℕ → Bool) (b array : Arr ℂ)
    (hk : ∀ j < n, keep j = true ↔ (j % (m + 1) ≠ C ∧ j / (m + 1) ≠ R))
    (hn : ∀ r c : Fin m, (C.succAbove c : ℕ) + (m + 1) * (R.succAbove r : ℕ) < n) :
    toM m (packKept n keep b array) = (toM (m + 1) b).submatrix R.succAbove C.succAbove := by
  ext r c
  have hlt : (C.succAbove c : ℕ) < m + 1 := (C.succAbove c).2
  rw [toM_apply, submatrix_apply, toM_apply, ← keptBefore_succAbove R C r c,
    packKept_apply C.2 keep hk b array (hn r c)]
  rw [hk _ (hn r c), Nat.add_mul_div_left _ _ (by omega), Nat.div_eq_of_lt hlt, Nat.zero_add,
    Nat.add_mul_mod_self_left, Nat.mod_eq_of_lt hlt]
  exact ⟨fun h => Fin.succAbove_ne C c (Fin.ext h), fun h => Fin.succAbove_ne R r (Fin.ext h)⟩

end GLU.Mat
