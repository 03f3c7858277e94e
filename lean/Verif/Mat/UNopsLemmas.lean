import Verif.Mat.UNops
import Verif.Mat.MMulLemmas
import Mathlib.Tactic.Linarith
import Mathlib.Tactic.NormNum

namespace GLU

/-- Loop invariant rule. -/
theorem forN_inv {σ : Type*} (P : ℕ → σ → Prop) {n : ℕ} {body : ℕ → σ → σ} {s : σ} (h0 : P 0 s)
    (hstep : ∀ i < n, ∀ s, P i s → P (i + 1) (body i s)) : P n (forN n body s) := by
  induction n with
  | zero => exact h0
  | succ n ih => exact hstep n (by omega) _ (ih fun i hi => hstep i (by omega))

end GLU

namespace GLU.Mat

open Complex Matrix

theorem mapN_apply {R : Type*} (n : ℕ) (f : ℕ → R → R) (a : Arr R) (x : ℕ) :
    mapN n f a x = if x < n then f x (a x) else a x := by
  have := forN_inv (fun k (s : Arr R) => s x = if x < k then f x (a x) else a x)
    (n := n) (body := fun i a => Function.update a i (f i (a i))) (s := a)
    (by simp) (fun i _ s hs => by
      rw [Function.update_apply]
      split
      · next h => subst h; rw [hs, if_neg (by omega), if_pos (by omega)]
      · next h =>
        rw [hs]
        by_cases h2 : x < i
        · rw [if_pos h2, if_pos (by omega)]
        · rw [if_neg h2, if_neg (by omega)])
  exact this

theorem forFrom_inv {σ : Type*} (P : ℕ → σ → Prop) {lo hi : ℕ} (hle : lo ≤ hi)
    {body : ℕ → σ → σ} {s : σ} (h0 : P lo s)
    (hstep : ∀ i, lo ≤ i → i < hi → ∀ s, P i s → P (i + 1) (body i s)) :
    P hi (forFrom lo hi body s) := by
  have := forN_inv (fun k s => P (lo + k) s) (n := hi - lo) (body := fun k => body (lo + k))
    (s := s) h0 (fun i hi' s hs => by
      have := hstep (lo + i) (by omega) (by omega) s hs
      rwa [show lo + (i + 1) = lo + i + 1 by omega])
  rwa [show lo + (hi - lo) = hi by omega] at this

theorem forFrom_sum {R : Type*} [AddCommMonoid R] (lo hi : ℕ) (f : ℕ → R) (s : R) :
    forFrom lo hi (fun j s => s + f j) s = s + ∑ j ∈ Finset.Ico lo hi, f j := by
  unfold forFrom
  rw [Finset.sum_Ico_eq_sum_range]
  induction hi - lo with
  | zero => simp [forN]
  | succ n ih => rw [forN, ih, Finset.sum_range_succ]; simp only [add_assoc]

theorem forN_sum {R : Type*} [AddCommMonoid R] (n : ℕ) (f : ℕ → R) (s : R) :
    forN n (fun j s => s + f j) s = s + ∑ j ∈ Finset.range n, f j := by
  induction n with
  | zero => simp [forN]
  | succ n ih => rw [forN, ih, Finset.sum_range_succ, add_assoc]

/-- A symmetric double sum from its upper triangle. -/
theorem sum_tri (n : ℕ) (f : ℕ → ℕ → ℝ) (hf : ∀ i j, i < n → j < n → f i j = f j i) :
    ∑ i ∈ Finset.range n, (f i i + ∑ j ∈ Finset.Ico (i + 1) n, 2 * f i j) =
      ∑ i ∈ Finset.range n, ∑ j ∈ Finset.range n, f i j := by
  induction n with
  | zero => simp
  | succ n ih =>
    have ih := ih fun i j hi hj => hf i j (by omega) (by omega)
    rw [Finset.sum_range_succ, Finset.sum_range_succ]
    have e1 : ∀ i ∈ Finset.range n, (f i i + ∑ j ∈ Finset.Ico (i + 1) (n + 1), 2 * f i j) =
        (f i i + ∑ j ∈ Finset.Ico (i + 1) n, 2 * f i j) + 2 * f i n := by
      intro i hi
      rw [Finset.sum_Ico_succ_top (by have := Finset.mem_range.1 hi; omega)]
      ring
    have e2 : ∀ i ∈ Finset.range n, ∑ j ∈ Finset.range (n + 1), f i j =
        ∑ j ∈ Finset.range n, f i j + f i n := fun i _ => Finset.sum_range_succ _ _
    rw [Finset.sum_congr rfl e1, Finset.sum_congr rfl e2, Finset.sum_add_distrib (s := Finset.range n)
      (g := fun i => 2 * f i n), ih, Finset.sum_add_distrib, Finset.sum_range_succ]
    have e3 : ∑ j ∈ Finset.range n, f n j = ∑ j ∈ Finset.range n, f j n :=
      Finset.sum_congr rfl fun j hj => hf n j (by omega) (by have := Finset.mem_range.1 hj; omega)
    rw [e3, ← Finset.mul_sum]
    simp
    ring

/-- A flat index seen as row and column. -/
theorem sum_flat {R : Type*} [AddCommMonoid R] (n m : ℕ) (f : ℕ → R) :
    ∑ x ∈ Finset.range (n * m), f x =
      ∑ i ∈ Finset.range m, ∑ j ∈ Finset.range n, f (j + n * i) := by
  induction m with
  | zero => simp
  | succ m ih =>
    rw [Nat.mul_succ, Finset.sum_range_add, ih, Finset.sum_range_succ]
    congr 1
    exact Finset.sum_congr rfl fun j _ => by rw [Nat.add_comm]

theorem forN_pair (n : ℕ) (step : ℕ → ℝ × ℝ → ℝ × ℝ) (s : ℝ × ℝ) :
    forN n (fun h s => step (2 * h + 1) (step (2 * h) s)) s = forN (2 * n) step s := by
  induction n with
  | zero => rfl
  | succ n ih => rw [show 2 * (n + 1) = 2 * n + 1 + 1 by ring, forN, forN, forN, ih]

theorem forN_pair1 (n : ℕ) (step : ℕ → ℝ → ℝ) (s : ℝ) :
    forN n (fun h s => step (2 * h + 1) (step (2 * h) s)) s = forN (2 * n) step s := by
  induction n with
  | zero => rfl
  | succ n ih => rw [show 2 * (n + 1) = 2 * n + 1 + 1 by ring, forN, forN, forN, ih]

theorem forN_sum2 (n : ℕ) (f g : ℕ → ℝ) (s : ℝ × ℝ) :
    forN n (fun j (s : ℝ × ℝ) => (s.1 + f j, s.2 + g j)) s =
      (s.1 + ∑ j ∈ Finset.range n, f j, s.2 + ∑ j ∈ Finset.range n, g j) := by
  induction n with
  | zero => simp [forN]
  | succ n ih => rw [forN, ih, Finset.sum_range_succ, Finset.sum_range_succ]; simp [add_assoc]

theorem sq_even {NC : ℕ} (h : NC % 2 = 0) : 2 * (NC * NC / 2) = NC * NC := by
  have : NC * NC % 2 = 0 := by rw [Nat.mul_mod, h]
  omega

/-! ## Diagonal and off-diagonal stores -/

theorem add_constant_loop (NC : ℕ) (a : Arr ℂ) (c : ℂ) (k i j : ℕ) (hj : j < NC)
    (hk : k ≤ NC) :
    forN k (fun i a => Function.update a (i * (NC + 1)) (a (i * (NC + 1)) + c)) a (j + NC * i) =
      if i = j ∧ i < k then a (j + NC * i) + c else a (j + NC * i) := by
  induction k with
  | zero => rw [forN, if_neg (by omega)]
  | succ k ih =>
    rw [forN, Function.update_apply]
    by_cases h : j + NC * i = k * (NC + 1)
    · have h' : j + NC * i = k + NC * k := by rw [h]; ring
      obtain ⟨rfl, rfl⟩ := index_inj hj (by omega) h'
      rw [if_pos h, if_pos ⟨rfl, by omega⟩, ← h, ih (by omega), if_neg (by omega)]
    · rw [if_neg h, ih (by omega)]
      by_cases h2 : i = j ∧ i < k
      · rw [if_pos h2, if_pos (by omega)]
      · rw [if_neg h2, if_neg]
        rintro ⟨rfl, h3⟩
        exact h (by rw [show i = k by omega]; ring)

theorem diag_vect_loop (NC : ℕ) (M c : Arr ℂ) (k i j : ℕ) (hi : i < NC) (hj : j < NC)
    (hk : k ≤ NC) :
    forN k (fun i M =>
      let M := forFrom (i + 1) NC (fun j M =>
        Function.update (Function.update M (i + j * NC) 0) (j + i * NC) 0) M
      Function.update M (i * (NC + 1)) (c i)) M (j + NC * i) =
      if i < k ∨ j < k then (if i = j then c i else 0) else M (j + NC * i) := by
  induction k with
  | zero => rw [forN, if_neg (by omega)]
  | succ k ih =>
    rw [forN]
    simp only []
    rw [Function.update_apply]
    have inner := forFrom_inv (fun m (N : Arr ℂ) => N (j + NC * i) =
        if (i = k ∧ k < j ∧ j < m) ∨ (j = k ∧ k < i ∧ i < m) then 0 else
        forN k (fun i M =>
          let M := forFrom (i + 1) NC (fun j M =>
            Function.update (Function.update M (i + j * NC) 0) (j + i * NC) 0) M
          Function.update M (i * (NC + 1)) (c i)) M (j + NC * i))
      (lo := k + 1) (hi := NC) (by omega)
      (body := fun j M => Function.update (Function.update M (k + j * NC) 0) (j + k * NC) 0)
      (s := forN k (fun i M =>
          let M := forFrom (i + 1) NC (fun j M =>
            Function.update (Function.update M (i + j * NC) 0) (j + i * NC) 0) M
          Function.update M (i * (NC + 1)) (c i)) M)
      (by rw [if_neg (by omega)])
      (fun m hm hm' s hs => by
        rw [Function.update_apply, Function.update_apply, hs]
        by_cases h1 : j + NC * i = m + k * NC
        · rw [Nat.mul_comm k] at h1
          obtain ⟨rfl, rfl⟩ := index_inj hj hm' h1
          rw [if_pos (by ring), if_pos (by omega)]
        · by_cases h2 : j + NC * i = k + m * NC
          · rw [if_neg h1, if_pos h2]
            rw [Nat.mul_comm m] at h2
            obtain ⟨rfl, rfl⟩ := index_inj hj (by omega) h2
            rw [if_pos (by omega)]
          · rw [if_neg h1, if_neg h2]
            have n1 : ¬ (i = k ∧ j = m) := by rintro ⟨rfl, rfl⟩; exact h1 (by ring)
            have n2 : ¬ (i = m ∧ j = k) := by rintro ⟨rfl, rfl⟩; exact h2 (by ring)
            by_cases h3 : (i = k ∧ k < j ∧ j < m) ∨ (j = k ∧ k < i ∧ i < m)
            · rw [if_pos h3, if_pos (by omega)]
            · rw [if_neg h3, if_neg (by omega)])
    by_cases h : j + NC * i = k * (NC + 1)
    · have h' : j + NC * i = k + NC * k := by rw [h]; ring
      obtain ⟨rfl, rfl⟩ := index_inj hj (by omega) h'
      rw [if_pos h, if_pos (by omega), if_pos rfl]
    · rw [if_neg h, inner, ih (by omega)]
      have n1 : ¬ (i = k ∧ j = k) := by rintro ⟨rfl, rfl⟩; exact h (by ring)
      by_cases h3 : (i = k ∧ k < j ∧ j < NC) ∨ (j = k ∧ k < i ∧ i < NC)
      · rw [if_pos h3, if_pos (by omega), if_neg (by omega)]
      · rw [if_neg h3]
        by_cases h4 : i < k ∨ j < k
        · rw [if_pos h4, if_pos (show i < k + 1 ∨ j < k + 1 by omega)]
        · rw [if_neg h4, if_neg (show ¬ (i < k + 1 ∨ j < k + 1) by omega)]

theorem mat_mult_vec_loop (NC : ℕ) (vect S v : Arr ℂ) (k x : ℕ) :
    forN k (fun i vect =>
      let vect := Function.update vect i 0
      forN NC (fun j vect => Function.update vect i (vect i + S (j + i * NC) * v j)) vect) vect x =
      if x < k then ∑ j ∈ Finset.range NC, S (j + x * NC) * v j else vect x := by
  have inner : ∀ (i n : ℕ) (w : Arr ℂ),
      forN n (fun j vect => Function.update vect i (vect i + S (j + i * NC) * v j))
        (Function.update w i 0) =
      Function.update w i (∑ j ∈ Finset.range n, S (j + i * NC) * v j) := by
    intro i n w
    induction n with
    | zero => simp [forN]
    | succ n ih => rw [forN, ih, Finset.sum_range_succ]; simp
  simp only [inner]
  induction k with
  | zero => rfl
  | succ k ih =>
    rw [forN, Function.update_apply, ih]
    by_cases h : x = k
    · subst h; rw [if_pos rfl, if_pos (by omega)]
    · rw [if_neg h]
      by_cases h2 : x < k
      · rw [if_pos h2, if_pos (by omega)]
      · rw [if_neg h2, if_neg (by omega)]

/-! ## Packed storage -/

/-- Position of the first packed entry of row `i`. -/
def off (NC : ℕ) : ℕ → ℕ
  | 0 => 0
  | i + 1 => off NC i + (NC - i)

theorem off_mono (NC : ℕ) {i j : ℕ} (h : i ≤ j) : off NC i ≤ off NC j := by
  induction h with
  | refl => exact le_rfl
  | step _ ih => exact ih.trans (by simp [off])

theorem off_succ_le (NC : ℕ) {i j : ℕ} (h : i < j) : off NC i + (NC - i) ≤ off NC j :=
  off_mono NC (Nat.succ_le_of_lt h)

theorem off_lt (NC : ℕ) {i m j : ℕ} (h : i < m) (hj : j < NC - i) : off NC i + j < off NC m := by
  have := off_succ_le NC h
  omega

/-- Invariant rule for the triangular loop with a running index. -/
theorem tri_inv {σ : Type*} (NC m : ℕ) (P : ℕ → ℕ → σ → Prop) {body : ℕ → ℕ → σ → σ} {s : σ}
    (hm : m ≤ NC) (h0 : P 0 0 s)
    (hstep : ∀ i < m, ∀ j, i ≤ j → j < NC → ∀ s, P i j s → P i (j + 1) (body i j s))
    (hrow : ∀ i < m, ∀ s, P i NC s → P (i + 1) (i + 1) s) :
    P m m (forN m (fun i s => forFrom i NC (fun j s => body i j s) s) s) :=
  forN_inv (fun i s => P i i s) h0 fun i hi s hs =>
    hrow i hi _ (forFrom_inv (fun j s => P i j s) (by omega) hs
      fun j hj hj' s hs => hstep i hi j hj hj' s hs)

theorem pack_apply (NC : ℕ) (a b : Arr ℂ) {r c : ℕ} (hr : r < NC - 1) (hrc : r ≤ c) (hc : c < NC) :
    pack_hermitian NC a b (off NC r + (c - r)) = b (c + NC * r) := by
  have := tri_inv NC (NC - 1) (fun i j (s : ℕ × Arr ℂ) => s.1 = off NC i + (j - i) ∧
      ((r < i ∨ (r = i ∧ c < j)) → s.2 (off NC r + (c - r)) = b (c + NC * r)))
    (body := fun i j s => (s.1 + 1, Function.update s.2 s.1 (b (j + i * NC)))) (s := (0, a))
    (by omega) ⟨rfl, by omega⟩
    (fun i hi j hij hj s hs => by
      obtain ⟨h1, h2⟩ := hs
      refine ⟨by simp only [h1]; omega, fun h => ?_⟩
      simp only [Function.update_apply, h1]
      by_cases h3 : r = i ∧ c = j
      · obtain ⟨rfl, rfl⟩ := h3
        rw [if_pos rfl, Nat.mul_comm]
      · rw [if_neg, h2 (by omega)]
        by_cases h4 : r = i
        · subst h4; omega
        · have := off_lt NC (show r < i by omega) (j := c - r) (by omega)
          omega)
    (fun i hi s hs => ⟨by rw [hs.1]; simp [off], fun h => hs.2 (by omega)⟩)
  exact this.2 (Or.inl hr)

/-- Entries of the rebuilt matrix, for the sign `e` of the conjugates. -/
theorem rebuild_loop (NC : ℕ) (g : ℂ → ℂ) (a b : Arr ℂ) :
    let s := forN (NC - 1) (fun i s => forFrom i NC (fun j (s : ℕ × Arr ℂ) =>
      (s.1 + 1, Function.update (Function.update s.2 (j + NC * i) (b s.1)) (i + NC * j) (g (b s.1)))) s)
      (0, a)
    ∀ r c, r < NC - 1 → r ≤ c → c < NC →
      s.2 (r + NC * c) = g (b (off NC r + (c - r))) ∧
      (r < c → s.2 (c + NC * r) = b (off NC r + (c - r))) := by
  intro s r c hr hrc hc
  have := tri_inv NC (NC - 1) (fun i j (s : ℕ × Arr ℂ) => s.1 = off NC i + (j - i) ∧
      ((r < i ∨ (r = i ∧ c < j)) → s.2 (r + NC * c) = g (b (off NC r + (c - r))) ∧
        (r < c → s.2 (c + NC * r) = b (off NC r + (c - r)))))
    (body := fun i j s => (s.1 + 1, Function.update (Function.update s.2 (j + NC * i) (b s.1))
      (i + NC * j) (g (b s.1)))) (s := (0, a))
    (by omega) ⟨rfl, by omega⟩
    (fun i hi j hij hj s hs => by
      obtain ⟨h1, h2⟩ := hs
      refine ⟨by simp only [h1]; omega, fun h => ?_⟩
      simp only [Function.update_apply, h1]
      by_cases h3 : r = i ∧ c = j
      · obtain ⟨rfl, rfl⟩ := h3
        rw [if_pos rfl]
        refine ⟨rfl, fun hlt => ?_⟩
        rw [if_neg, if_pos rfl]
        intro he
        have := index_inj hc (show r < NC by omega) he
        omega
      · have e1 : r + NC * c ≠ i + NC * j := fun he => by
          have := index_inj (show r < NC by omega) (show i < NC by omega) he; omega
        have e2 : r + NC * c ≠ j + NC * i := fun he => by
          have := index_inj (show r < NC by omega) hj he; omega
        have e3 : c + NC * r ≠ i + NC * j := fun he => by
          have := index_inj hc (show i < NC by omega) he; omega
        have e4 : c + NC * r ≠ j + NC * i := fun he => by
          have := index_inj hc hj he; omega
        rw [if_neg e1, if_neg e2, if_neg e3, if_neg e4]
        exact h2 (by omega))
    (fun i hi s hs => ⟨by rw [hs.1]; simp [off], fun h => hs.2 (by omega)⟩)
  exact this.2 (Or.inl hr)

end GLU.Mat
