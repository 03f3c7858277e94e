import Verif.Mat.Invert
import Verif.Mat.LUProps
import Mathlib.LinearAlgebra.Matrix.Block

namespace GLU.Mat

open Complex Matrix

@[simp] theorem CE.sub_some (x y : ℂ) : CE.sub (some x) (some y) = some (x - y) := rfl

@[simp] theorem CE.mul_some (x y : ℂ) : CE.mul (some x) (some y) = some (x * y) := by
  simp only [CE.mul, elim_entry]

theorem CE.div_some {x y : ℂ} (h : y ≠ 0) : CE.div (some x) (some y) = some (x / y) := by
  simp [CE.div, h]

@[simp] theorem CE.modsq_some (x : ℂ) : CE.modsq (some x) = some (Mat.modsq x) := rfl

theorem gtE_irrefl (x : Option ℝ) : ¬ gtE x x := by
  cases x <;> simp [gtE]

theorem gtE_trans {x y z : Option ℝ} (h1 : gtE x y) (h2 : gtE y z) : gtE x z := by
  cases x <;> cases y <;> cases z <;> simp [gtE] at *
  linarith

theorem diagIdx (NC i : ℕ) : i * (NC + 1) = i + i * NC := by ring

/-- Entries after `eliminate_column`. -/
theorem elimCol_fst {NC i j : ℕ} (hi : i < NC) (hij : i ≠ j) (s : Arr CE × Arr CE)
    {r c : ℕ} (hc : c < NC) :
    (eliminate_column NC i j s).1 (c + r * NC) =
      if r = j ∧ i < c then CE.sub (s.1 (c + j * NC))
        (CE.mul (CE.div (s.1 (i + j * NC)) (s.1 (i + i * NC))) (s.1 (c + i * NC)))
      else s.1 (c + r * NC) := by
  unfold eliminate_column
  simp only [diagIdx]
  set fac1 := CE.div (s.1 (i + j * NC)) (s.1 (i + i * NC))
  have := forFrom_inv (fun l (a : Arr CE) => ∀ r c, c < NC → a (c + r * NC) =
      if r = j ∧ i < c ∧ c < l then CE.sub (s.1 (c + j * NC)) (CE.mul fac1 (s.1 (c + i * NC)))
      else s.1 (c + r * NC)) (lo := i + 1) (hi := NC) hi
    (body := fun k a => Function.update a (k + j * NC)
      (CE.sub (a (k + j * NC)) (CE.mul fac1 (a (i * NC + k))))) (s := s.1)
    (fun r c _ => by rw [if_neg (by omega)])
    (fun k h1 h2 a ha r c hc => by
      rw [Function.update_apply]
      by_cases h : c + r * NC = k + j * NC
      · obtain ⟨h3, h4⟩ := flat_inj hc h2 h
        subst h3 h4
        rw [if_pos rfl, if_pos ⟨rfl, by omega, by omega⟩, ha _ _ hc, if_neg (by omega),
          show i * NC + c = c + i * NC by ring, ha _ _ hc, if_neg (by omega)]
      · have hne : ¬ (r = j ∧ c = k) := by rintro ⟨rfl, rfl⟩; exact h rfl
        rw [if_neg h, ha _ _ hc]
        by_cases h5 : r = j ∧ i < c ∧ c < k
        · rw [if_pos h5, if_pos (by omega)]
        · rw [if_neg h5, if_neg (by omega)])
  rw [this r c hc]
  by_cases h : r = j ∧ i < c
  · rw [if_pos ⟨h.1, h.2, hc⟩, if_pos h]
  · rw [if_neg (fun h' => h ⟨h'.1, h'.2.1⟩), if_neg h]

theorem elimCol_snd {NC i j : ℕ} (hij : i ≠ j) (s : Arr CE × Arr CE) {r c : ℕ} (hc : c < NC) :
    (eliminate_column NC i j s).2 (c + r * NC) =
      if r = j then CE.sub (s.2 (c + j * NC))
        (CE.mul (CE.div (s.1 (i + j * NC)) (s.1 (i + i * NC))) (s.2 (c + i * NC)))
      else s.2 (c + r * NC) := by
  unfold eliminate_column
  simp only [diagIdx]
  set fac1 := CE.div (s.1 (i + j * NC)) (s.1 (i + i * NC))
  have := forN_inv (fun l (a : Arr CE) => ∀ r c, c < NC → a (c + r * NC) =
      if r = j ∧ c < l then CE.sub (s.2 (c + j * NC)) (CE.mul fac1 (s.2 (c + i * NC)))
      else s.2 (c + r * NC)) (n := NC)
    (body := fun k a => Function.update a (k + j * NC)
      (CE.sub (a (k + j * NC)) (CE.mul fac1 (a (i * NC + k))))) (s := s.2)
    (fun r c _ => by rw [if_neg (by omega)])
    (fun k h2 a ha r c hc => by
      rw [Function.update_apply]
      by_cases h : c + r * NC = k + j * NC
      · obtain ⟨h3, h4⟩ := flat_inj hc h2 h
        subst h3 h4
        rw [if_pos rfl, if_pos ⟨rfl, by omega⟩, ha _ _ hc, if_neg (by omega),
          show i * NC + c = c + i * NC by ring, ha _ _ hc, if_neg (by omega)]
      · have hne : ¬ (r = j ∧ c = k) := by rintro ⟨rfl, rfl⟩; exact h rfl
        rw [if_neg h, ha _ _ hc]
        by_cases h5 : r = j ∧ c < k
        · rw [if_pos h5, if_pos (by omega)]
        · rw [if_neg h5, if_neg (by omega)])
  rw [this r c hc]
  by_cases h : r = j
  · rw [if_pos ⟨h, hc⟩, if_pos h]
  · rw [if_neg (fun h' => h h'.1), if_neg h]

/-- Entries after a row swap. -/
theorem swapRow1_apply {NC p q : ℕ} (hne : q ≠ p) (a : Arr CE) {r c : ℕ} (hc : c < NC) :
    swapRow1 NC p q a (c + r * NC) =
      if r = p then a (c + q * NC) else if r = q then a (c + p * NC) else a (c + r * NC) := by
  have := forN_inv (fun l (V : Arr CE) => ∀ r c, c < NC → V (c + r * NC) =
      if c < l then (if r = p then a (c + q * NC) else if r = q then a (c + p * NC)
        else a (c + r * NC)) else a (c + r * NC)) (n := NC)
    (body := fun l a =>
      let tmp := a (l + p * NC)
      let a := Function.update a (l + p * NC) (a (l + q * NC))
      Function.update a (l + q * NC) tmp) (s := a)
    (fun r c _ => by rw [if_neg (by omega)])
    (fun l h2 V hV r c hc => by
      simp only [Function.update_apply]
      by_cases hcl : c = l
      · subst hcl
        have n1 : ¬ c < c := by omega
        rw [if_pos (show c < c + 1 by omega)]
        by_cases hrp : r = q
        · subst hrp
          rw [if_pos rfl, if_neg hne, if_pos rfl, hV _ _ hc, if_neg n1]
        · rw [if_neg (fun h => hrp (flat_inj hc hc h).1)]
          by_cases hri : r = p
          · subst hri
            rw [if_pos rfl, if_pos rfl, hV _ _ hc, if_neg n1]
          · rw [if_neg (fun h => hri (flat_inj hc hc h).1), hV _ _ hc, if_neg n1, if_neg hri,
              if_neg hrp]
      · rw [if_neg (fun h => hcl (flat_inj hc h2 h).2), if_neg (fun h => hcl (flat_inj hc h2 h).2),
          hV _ _ hc]
        by_cases h : c < l
        · rw [if_pos h, if_pos (show c < l + 1 by omega)]
        · rw [if_neg h, if_neg (show ¬ c < l + 1 by omega)])
  have h := this r c hc
  unfold swapRow1
  rw [h, if_pos hc]

theorem colPivot_bound {NC i : ℕ} (hi : i < NC) (a : Arr CE)
    (h : gtE (colPivot NC i a).2 (CE.modsq (a (i * (NC + 1))))) :
    i < (colPivot NC i a).1 ∧ (colPivot NC i a).1 < NC ∧
      (colPivot NC i a).2 = CE.modsq (a (i + (colPivot NC i a).1 * NC)) := by
  classical
  have := forFrom_inv (fun j (p : ℕ × Option ℝ) =>
      (p.2 = CE.modsq (a (i * (NC + 1)))) ∨
        (i < p.1 ∧ p.1 < NC ∧ p.2 = CE.modsq (a (i + p.1 * NC)))) (lo := i + 1) (hi := NC) hi
    (body := fun j (p : ℕ × Option ℝ) =>
      if gtE (CE.modsq (a (i + j * NC))) p.2 then (j, CE.modsq (a (i + j * NC))) else p)
    (s := (i * (NC + 1), CE.modsq (a (i * (NC + 1)))))
    (Or.inl rfl)
    (fun j h1 h2 p hp => by
      by_cases hg : gtE (CE.modsq (a (i + j * NC))) p.2
      · rw [if_pos hg]
        exact Or.inr ⟨by simp only []; omega, h2, rfl⟩
      · rw [if_neg hg]
        exact hp)
  rcases this with h' | h'
  · exfalso
    have h'' : (colPivot NC i a).2 = CE.modsq (a (i * (NC + 1))) := by
      unfold colPivot; exact h'
    rw [h''] at h
    exact gtE_irrefl _ h
  · unfold colPivot
    exact h'

/-- When no swap happens and all candidates are numbers, the diagonal one is largest;
when a swap happens the new pivot is nonzero. -/
theorem colPivot_max {NC i : ℕ} (hi : i < NC) (a : Arr CE) (b : ℕ → ℂ)
    (hb : ∀ j, i ≤ j → j < NC → a (i + j * NC) = some (b j))
    (h : ¬ gtE (colPivot NC i a).2 (CE.modsq (a (i * (NC + 1))))) :
    ∀ j, i ≤ j → j < NC → modsq (b j) ≤ modsq (b i) := by
  classical
  have := forFrom_inv (fun j (p : ℕ × Option ℝ) => ∃ x, p.2 = some x ∧ modsq (b i) ≤ x ∧
      ∀ k, i ≤ k → k < j → modsq (b k) ≤ x) (lo := i + 1) (hi := NC) hi
    (body := fun j (p : ℕ × Option ℝ) =>
      if gtE (CE.modsq (a (i + j * NC))) p.2 then (j, CE.modsq (a (i + j * NC))) else p)
    (s := (i * (NC + 1), CE.modsq (a (i * (NC + 1)))))
    ⟨modsq (b i), by rw [diagIdx, hb i (le_refl _) hi]; rfl, le_refl _, fun k h1 h2 => by
      rw [show k = i by omega]⟩
    (fun j h1 h2 p hp => by
      obtain ⟨x, hx, hx0, hx2⟩ := hp
      rw [hb j (by omega) h2, hx]
      by_cases hg : gtE (CE.modsq (some (b j))) (some x)
      · rw [if_pos hg]
        have hg' : modsq (b j) > x := hg
        refine ⟨modsq (b j), rfl, by linarith, fun k hk1 hk2 => ?_⟩
        rcases Nat.lt_succ_iff_lt_or_eq.1 hk2 with h3 | rfl
        · have := hx2 k hk1 h3; linarith
        · exact le_refl _
      · rw [if_neg hg]
        have hg' : ¬ modsq (b j) > x := hg
        refine ⟨x, hx, hx0, fun k hk1 hk2 => ?_⟩
        rcases Nat.lt_succ_iff_lt_or_eq.1 hk2 with h3 | rfl
        · exact hx2 k hk1 h3
        · linarith)
  obtain ⟨x, hx, hx0, hx2⟩ := this
  have hx' : (colPivot NC i a).2 = some x := by unfold colPivot; exact hx
  rw [hx', diagIdx, hb i (le_refl _) hi] at h
  have h' : ¬ x > modsq (b i) := h
  intro j h1 h2
  have := hx2 j h1 h2
  linarith

/-- The elimination below row `i`. -/
theorem elimDown {NC i : ℕ} (hi : i < NC) (s : Arr CE × Arr CE) :
    ∀ r c, r < NC → c < NC →
    (forN (NC - 1 - i) (fun t s => eliminate_column NC i (NC - 1 - t) s) s).1 (c + r * NC) =
      (if i < r ∧ i < c then CE.sub (s.1 (c + r * NC))
        (CE.mul (CE.div (s.1 (i + r * NC)) (s.1 (i + i * NC))) (s.1 (c + i * NC)))
      else s.1 (c + r * NC)) ∧
    (forN (NC - 1 - i) (fun t s => eliminate_column NC i (NC - 1 - t) s) s).2 (c + r * NC) =
      (if i < r then CE.sub (s.2 (c + r * NC))
        (CE.mul (CE.div (s.1 (i + r * NC)) (s.1 (i + i * NC))) (s.2 (c + i * NC)))
      else s.2 (c + r * NC)) := by
  have := forN_inv (fun t (q : Arr CE × Arr CE) => ∀ r c, r < NC → c < NC →
    q.1 (c + r * NC) =
      (if NC - 1 - t < r ∧ i < c then CE.sub (s.1 (c + r * NC))
        (CE.mul (CE.div (s.1 (i + r * NC)) (s.1 (i + i * NC))) (s.1 (c + i * NC)))
      else s.1 (c + r * NC)) ∧
    q.2 (c + r * NC) =
      (if NC - 1 - t < r then CE.sub (s.2 (c + r * NC))
        (CE.mul (CE.div (s.1 (i + r * NC)) (s.1 (i + i * NC))) (s.2 (c + i * NC)))
      else s.2 (c + r * NC))) (n := NC - 1 - i)
    (body := fun t s => eliminate_column NC i (NC - 1 - t) s) (s := s)
    (fun r c hr _ => by rw [if_neg (by omega), if_neg (by omega)]; exact ⟨rfl, rfl⟩)
    (fun t ht q hq r c hr hc => by
      have hj : NC - 1 - t < NC := by omega
      have hij : i < NC - 1 - t := by omega
      have q1 : ∀ c, c < NC → q.1 (c + (NC - 1 - t) * NC) = s.1 (c + (NC - 1 - t) * NC) :=
        fun c hc => by rw [(hq _ _ hj hc).1, if_neg (by omega)]
      have q2 : ∀ c, c < NC → q.1 (c + i * NC) = s.1 (c + i * NC) :=
        fun c hc => by rw [(hq _ _ hi hc).1, if_neg (by omega)]
      have q3 : ∀ c, c < NC → q.2 (c + (NC - 1 - t) * NC) = s.2 (c + (NC - 1 - t) * NC) :=
        fun c hc => by rw [(hq _ _ hj hc).2, if_neg (by omega)]
      have q4 : ∀ c, c < NC → q.2 (c + i * NC) = s.2 (c + i * NC) :=
        fun c hc => by rw [(hq _ _ hi hc).2, if_neg (by omega)]
      rw [elimCol_fst hi (by omega) q hc, elimCol_snd (by omega) q hc, q1 c hc, q1 i hi, q2 i hi,
        q2 c hc, q3 c hc, q4 c hc, (hq r c hr hc).1, (hq r c hr hc).2]
      constructor
      · by_cases h : r = NC - 1 - t ∧ i < c
        · rw [if_pos h, if_pos (by omega), h.1]
        · rw [if_neg h]
          by_cases h' : NC - 1 - t < r ∧ i < c
          · rw [if_pos h', if_pos (by omega)]
          · rw [if_neg h', if_neg (by omega)]
      · by_cases h : r = NC - 1 - t
        · rw [if_pos h, if_pos (by omega), h]
        · rw [if_neg h]
          by_cases h' : NC - 1 - t < r
          · rw [if_pos h', if_pos (by omega)]
          · rw [if_neg h', if_neg (by omega)])
  intro r c hr hc
  have h := this r c hr hc
  rwa [show NC - 1 - (NC - 1 - i) = i by omega] at h

/-- Regular case of the first phase: `T` collects the row operations. -/
def Good (NC : ℕ) (M : Arr ℂ) (i : ℕ) (s : Arr CE × Arr CE) : Prop :=
  ∃ T : Matrix (Fin NC) (Fin NC) ℂ, T.det ≠ 0 ∧
    (∀ r c : Fin NC, s.2 (c + r * NC) = some (T r c)) ∧
    (∀ r c : Fin NC, (i ≤ (c : ℕ) ∨ r ≤ c) → s.1 (c + r * NC) = some ((T * toM NC M) r c)) ∧
    (∀ r c : Fin NC, (c : ℕ) < i → c < r → (T * toM NC M) r c = 0) ∧
    (∀ r : Fin NC, (r : ℕ) < i → (T * toM NC M) r r ≠ 0)

/-- A zero pivot was met. -/
def Bad (NC : ℕ) (M : Arr ℂ) (i : ℕ) (s : Arr CE × Arr CE) : Prop :=
  (toM NC M).det = 0 ∧ ∃ d < i, s.1 (d + d * NC) = some 0

theorem bad_step {NC i : ℕ} (hi : i + 1 < NC) {M : Arr ℂ} {s : Arr CE × Arr CE} (h : Bad NC M i s) :
    Bad NC M (i + 1) (gjDown NC i s) := by
  classical
  obtain ⟨h1, d, hd, h2⟩ := h
  refine ⟨h1, d, by omega, ?_⟩
  unfold gjDown
  simp only []
  rw [(elimDown (by omega) _ d d (by omega) (by omega)).1, if_neg (by omega)]
  split
  · next hg =>
    obtain ⟨b1, b2, -⟩ := colPivot_bound (by omega) s.1 hg.2
    simp only [swap_rows]
    rw [swapRow1_apply (by omega) s.1 (by omega), if_neg (by omega), if_neg (by omega), h2]
  · exact h2

/-- A matrix that is triangular in the columns before `i` and vanishes on and below the
diagonal of column `i` is singular. -/
theorem det_zero_of_column {NC i : ℕ} (hi : i < NC) {B : Matrix (Fin NC) (Fin NC) ℂ}
    (h1 : ∀ r c : Fin NC, (c : ℕ) < i → c < r → B r c = 0)
    (h2 : ∀ r : Fin NC, i ≤ (r : ℕ) → B r ⟨i, hi⟩ = 0) : B.det = 0 := by
  have hz : ∀ r c : Fin NC, i ≤ (r : ℕ) → (c : ℕ) ≤ i → B r c = 0 := by
    intro r c hr hc
    by_cases hci : (c : ℕ) = i
    · rw [show c = ⟨i, hi⟩ from Fin.ext hci]; exact h2 r hr
    · exact h1 r c (by omega) (Fin.lt_def.2 (by omega))
  rw [twoBlockTriangular_det B (fun c : Fin NC => (c : ℕ) ≤ i) (fun r hr c hc => hz r c (by omega) hc),
    det_eq_zero_of_row_eq_zero (⟨⟨i, hi⟩, le_refl _⟩ : {c : Fin NC // (c : ℕ) ≤ i}), zero_mul]
  intro c
  exact hz _ _ (le_refl _) c.2

/-- Elimination below the pivot keeps the regular case. -/
theorem good_elim {NC i : ℕ} (hi : i + 1 < NC) {M : Arr ℂ} {s : Arr CE × Arr CE}
    {T : Matrix (Fin NC) (Fin NC) ℂ} (hT : T.det ≠ 0)
    (h2 : ∀ r c : Fin NC, s.2 (c + r * NC) = some (T r c))
    (h1 : ∀ r c : Fin NC, (i ≤ (c : ℕ) ∨ r ≤ c) → s.1 (c + r * NC) = some ((T * toM NC M) r c))
    (h3 : ∀ r c : Fin NC, (c : ℕ) < i → c < r → (T * toM NC M) r c = 0)
    (h4 : ∀ r : Fin NC, (r : ℕ) ≤ i → (T * toM NC M) r r ≠ 0) :
    Good NC M (i + 1) (forN (NC - 1 - i) (fun t s => eliminate_column NC i (NC - 1 - t) s) s) := by
  have hi' : i < NC := by omega
  let q : Fin NC := ⟨i, hi'⟩
  let f : Fin NC → ℂ := fun r =>
    if i < (r : ℕ) then (T * toM NC M) r q / (T * toM NC M) q q else 0
  let T' : Matrix (Fin NC) (Fin NC) ℂ := Matrix.of fun r c => T r c - f r * T q c
  have hfq : f q = 0 := by simp [f, q]
  have hqq : (T * toM NC M) q q ≠ 0 := h4 q (le_refl _)
  have hdet : T'.det = T.det := by
    symm
    refine det_eq_of_forall_row_eq_smul_add_const f q hfq fun r c => ?_
    simp only [T', Matrix.of_apply, hfq, zero_mul, sub_zero]
    ring
  have hprod : ∀ r c, (T' * toM NC M) r c = (T * toM NC M) r c - f r * (T * toM NC M) q c := by
    intro r c
    simp only [Matrix.mul_apply, T', Matrix.of_apply, sub_mul, Finset.sum_sub_distrib,
      Finset.mul_sum, mul_assoc]
  have hdiv : ∀ r : Fin NC, i < (r : ℕ) →
      CE.div (s.1 (i + r * NC)) (s.1 (i + i * NC)) = some (f r) := by
    intro r hr
    have e1 := h1 r q (Or.inl (le_refl _))
    have e2 := h1 q q (Or.inl (le_refl _))
    simp only [q] at e1 e2
    rw [e1, e2, CE.div_some hqq]
    simp only [f, if_pos hr]
    rfl
  refine ⟨T', by rw [hdet]; exact hT, ?_, ?_, ?_, ?_⟩
  · intro r c
    rw [(elimDown hi' s r c r.2 c.2).2]
    split
    · next hr =>
      have e2 := h2 q c
      simp only [q] at e2
      rw [hdiv r hr, h2 r c, e2, CE.mul_some, CE.sub_some]
      rfl
    · next hr =>
      rw [h2 r c]
      simp [T', f, hr]
  · intro r c hrc
    rw [(elimDown hi' s r c r.2 c.2).1, hprod]
    by_cases hr : i < (r : ℕ) ∧ i < (c : ℕ)
    · have e2 := h1 q c (Or.inl (by omega))
      simp only [q] at e2
      rw [if_pos hr, hdiv r hr.1, h1 r c (Or.inl (by omega)), e2, CE.mul_some, CE.sub_some]
    · rw [if_neg hr, h1 r c (by rcases hrc with h | h; exacts [Or.inl (by omega), Or.inr h])]
      have hr' : ¬ i < (r : ℕ) := by
        intro h
        rcases hrc with h' | h'
        · omega
        · have := Fin.le_def.1 h'; omega
      simp [f, hr']
  · intro r c hc hcr
    have hcr' := Fin.lt_def.1 hcr
    rw [hprod]
    by_cases hci : (c : ℕ) = i
    · have : c = q := Fin.ext hci
      subst this
      have : i < (r : ℕ) := by omega
      simp only [f, if_pos this]
      rw [div_mul_cancel₀ _ hqq, sub_self]
    · rw [h3 r c (by omega) hcr, h3 q c (by omega) (Fin.lt_def.2 (by simp only [q]; omega))]
      simp
  · intro r hr
    rw [hprod]
    have : ¬ i < (r : ℕ) := by omega
    simp only [f, if_neg this, zero_mul, sub_zero]
    exact h4 r (by omega)

theorem good_step {NC i : ℕ} (hi : i + 1 < NC) {M : Arr ℂ} {s : Arr CE × Arr CE} (h : Good NC M i s) :
    Good NC M (i + 1) (gjDown NC i s) ∨ Bad NC M (i + 1) (gjDown NC i s) := by
  classical
  obtain ⟨T, hT, h2, h1, h3, h4⟩ := h
  have hi' : i < NC := by omega
  let q : Fin NC := ⟨i, hi'⟩
  have hcol : ∀ j (hj : j < NC), s.1 (i + j * NC) = some ((T * toM NC M) ⟨j, hj⟩ q) :=
    fun j hj => h1 ⟨j, hj⟩ q (Or.inl (le_refl _))
  unfold gjDown
  simp only []
  by_cases hg : gtE (colPivot NC i s.1).2 (CE.modsq (s.1 (i * (NC + 1))))
  · rw [if_pos ⟨hg, hg⟩]
    obtain ⟨b1, b2, b3⟩ := colPivot_bound hi' s.1 hg
    set p := (colPivot NC i s.1).1 with hp
    let pf : Fin NC := ⟨p, b2⟩
    left
    let T' : Matrix (Fin NC) (Fin NC) ℂ := T.submatrix (Equiv.swap q pf) id
    have hqp : q ≠ pf := by intro h; have := congrArg Fin.val h; simp [q, pf] at this; omega
    have hsw : ∀ (A : Matrix (Fin NC) (Fin NC) ℂ) (r c : Fin NC),
        A.submatrix (Equiv.swap q pf) id r c =
          if (r : ℕ) = p then A q c else if (r : ℕ) = i then A pf c else A r c := by
      intro A r c
      rw [submatrix_apply, id]
      by_cases hrp : (r : ℕ) = p
      · have : r = pf := Fin.ext hrp
        rw [if_pos hrp, this, Equiv.swap_apply_right]
      · rw [if_neg hrp]
        by_cases hri : (r : ℕ) = i
        · have : r = q := Fin.ext hri
          rw [if_pos hri, this, Equiv.swap_apply_left]
        · rw [if_neg hri, Equiv.swap_apply_of_ne_of_ne (fun h => hri (congrArg Fin.val h))
            (fun h => hrp (congrArg Fin.val h))]
    have hprod : T' * toM NC M = (T * toM NC M).submatrix (Equiv.swap q pf) id := by
      ext r c
      rw [hsw (T * toM NC M) r c, Matrix.mul_apply]
      simp only [T', hsw T]
      split
      · rw [Matrix.mul_apply]
      · split
        · rw [Matrix.mul_apply]
        · rw [Matrix.mul_apply]
    have hpiv : (T * toM NC M) pf q ≠ 0 := by
      intro hz
      have e := hcol p b2
      rw [b3, e, hz, diagIdx, hcol i hi'] at hg
      have hg' : modsq (0 : ℂ) > modsq ((T * toM NC M) ⟨i, hi'⟩ q) := hg
      have := modsq_nonneg ((T * toM NC M) ⟨i, hi'⟩ q)
      rw [modsq_eq_zero.2 rfl] at hg'
      linarith
    refine good_elim hi (T := T') ?_ ?_ ?_ ?_ ?_
    · rw [det_permute, Equiv.Perm.sign_swap hqp]
      simpa using hT
    · intro r c
      simp only [swap_rows]
      rw [swapRow1_apply (by omega) s.2 c.2, show T' r c = _ from hsw T r c]
      split
      · exact h2 q c
      · split
        · exact h2 pf c
        · exact h2 r c
    · intro r c hrc
      simp only [swap_rows]
      rw [swapRow1_apply (by omega) s.1 c.2, hprod, hsw]
      by_cases hrp : (r : ℕ) = p
      · rw [if_pos hrp, if_pos hrp]
        refine h1 q c ?_
        rcases hrc with h | h
        · exact Or.inl h
        · have := Fin.le_def.1 h; exact Or.inl (by omega)
      · rw [if_neg hrp, if_neg hrp]
        by_cases hri : (r : ℕ) = i
        · rw [if_pos hri, if_pos hri]
          refine h1 pf c ?_
          rcases hrc with h | h
          · exact Or.inl h
          · have := Fin.le_def.1 h; exact Or.inl (by omega)
        · rw [if_neg hri, if_neg hri]
          exact h1 r c hrc
    · intro r c hc hcr
      have hcr' := Fin.lt_def.1 hcr
      rw [hprod, hsw]
      split
      · exact h3 q c hc (Fin.lt_def.2 hc)
      · split
        · exact h3 pf c hc (Fin.lt_def.2 (by simp only [pf]; omega))
        · exact h3 r c hc hcr
    · intro r hr
      rw [hprod, hsw, if_neg (by omega)]
      split
      · next hri =>
        have : r = q := Fin.ext hri
        rw [this]
        exact hpiv
      · next hri => exact h4 r (by omega)
  · rw [if_neg (fun h => hg h.1)]
    have hmax := colPivot_max hi' s.1 (fun j => if hj : j < NC then (T * toM NC M) ⟨j, hj⟩ q else 0)
      (fun j _ hj => by rw [hcol j hj, dif_pos hj]) hg
    by_cases hz : (T * toM NC M) q q = 0
    · right
      refine ⟨?_, i, by omega, ?_⟩
      · have hd := det_zero_of_column hi' h3 (fun r hr => by
          have := hmax r hr r.2
          rw [dif_pos r.2, dif_pos hi'] at this
          rw [modsq_eq_zero.2 hz] at this
          exact modsq_eq_zero.1 (le_antisymm this (modsq_nonneg _)))
        rw [det_mul] at hd
        exact (mul_eq_zero.1 hd).resolve_left hT
      · rw [(elimDown hi' _ i i hi' hi').1, if_neg (by omega), hcol i hi']
        exact congrArg some hz
    · left
      refine good_elim hi hT h2 h1 h3 fun r hr => ?_
      rcases Nat.lt_or_eq_of_le hr with h | h
      · exact h4 r h
      · have : r = q := Fin.ext h
        rw [this]; exact hz

/-! ## Second phase -/

theorem elimUp_diag {NC i : ℕ} (hi : i < NC) (s : Arr CE × Arr CE) (n : ℕ) (hn : n ≤ i) {d : ℕ}
    (hd : d < NC) :
    (forN n (fun j s => eliminate_column NC i j s) s).1 (d + d * NC) = s.1 (d + d * NC) := by
  refine forN_inv (fun _ (q : Arr CE × Arr CE) => q.1 (d + d * NC) = s.1 (d + d * NC)) rfl
    fun j hj q hq => ?_
  rw [elimCol_fst hi (by omega) q hd, if_neg (by omega), hq]

/-- The second phase never changes a diagonal entry. -/
theorem gjUp_diag {NC : ℕ} (s : Arr CE × Arr CE) {d : ℕ} (hd : d < NC) :
    (gjUp NC s).1 (d + d * NC) = s.1 (d + d * NC) := by
  unfold gjUp
  refine forN_inv (fun _ (q : Arr CE × Arr CE) => q.1 (d + d * NC) = s.1 (d + d * NC)) rfl
    fun t ht q hq => ?_
  rw [elimUp_diag (by omega) q _ (le_refl _) hd, hq]

/-- Invariant of the second phase: columns after `i` are cleared. -/
def Upper (NC : ℕ) (M : Arr ℂ) (i : ℕ) (s : Arr CE × Arr CE) : Prop :=
  ∃ T : Matrix (Fin NC) (Fin NC) ℂ,
    (∀ r c : Fin NC, s.2 (c + r * NC) = some (T r c)) ∧
    (∀ r c : Fin NC, r ≤ c → ((c : ℕ) ≤ i ∨ r = c) → s.1 (c + r * NC) = some ((T * toM NC M) r c)) ∧
    (∀ r c : Fin NC, c < r → (T * toM NC M) r c = 0) ∧
    (∀ r c : Fin NC, r ≠ c → i < (c : ℕ) → (T * toM NC M) r c = 0) ∧
    (∀ r : Fin NC, (T * toM NC M) r r ≠ 0)

theorem upper_elim {NC i j : ℕ} (hi : i < NC) (hj : j < i) {M : Arr ℂ} {s : Arr CE × Arr CE}
    {T : Matrix (Fin NC) (Fin NC) ℂ}
    (h2 : ∀ r c : Fin NC, s.2 (c + r * NC) = some (T r c))
    (h1 : ∀ r c : Fin NC, r ≤ c → ((c : ℕ) < i ∨ ((c : ℕ) = i ∧ j ≤ (r : ℕ)) ∨ r = c) →
      s.1 (c + r * NC) = some ((T * toM NC M) r c))
    (h3 : ∀ r c : Fin NC, c < r → (T * toM NC M) r c = 0)
    (h4 : ∀ r c : Fin NC, r ≠ c → (i < (c : ℕ) ∨ ((c : ℕ) = i ∧ (r : ℕ) < j)) →
      (T * toM NC M) r c = 0)
    (h5 : ∀ r : Fin NC, (T * toM NC M) r r ≠ 0) :
    ∃ T' : Matrix (Fin NC) (Fin NC) ℂ,
    (∀ r c : Fin NC, (eliminate_column NC i j s).2 (c + r * NC) = some (T' r c)) ∧
    (∀ r c : Fin NC, r ≤ c → ((c : ℕ) < i ∨ ((c : ℕ) = i ∧ j + 1 ≤ (r : ℕ)) ∨ r = c) →
      (eliminate_column NC i j s).1 (c + r * NC) = some ((T' * toM NC M) r c)) ∧
    (∀ r c : Fin NC, c < r → (T' * toM NC M) r c = 0) ∧
    (∀ r c : Fin NC, r ≠ c → (i < (c : ℕ) ∨ ((c : ℕ) = i ∧ (r : ℕ) < j + 1)) →
      (T' * toM NC M) r c = 0) ∧
    (∀ r : Fin NC, (T' * toM NC M) r r ≠ 0) := by
  let q : Fin NC := ⟨i, hi⟩
  let p : Fin NC := ⟨j, by omega⟩
  let f : Fin NC → ℂ := fun r =>
    if (r : ℕ) = j then (T * toM NC M) p q / (T * toM NC M) q q else 0
  let T' : Matrix (Fin NC) (Fin NC) ℂ := Matrix.of fun r c => T r c - f r * T q c
  have hqq : (T * toM NC M) q q ≠ 0 := h5 q
  have hprod : ∀ r c, (T' * toM NC M) r c = (T * toM NC M) r c - f r * (T * toM NC M) q c := by
    intro r c
    simp only [Matrix.mul_apply, T', Matrix.of_apply, sub_mul, Finset.sum_sub_distrib,
      Finset.mul_sum, mul_assoc]
  have hq0 : ∀ c : Fin NC, c ≠ q → (T * toM NC M) q c = 0 := by
    intro c hc
    rcases lt_or_ge c q with h | h
    · exact h3 q c h
    · exact h4 q c (Ne.symm hc) (Or.inl (lt_of_le_of_ne (Fin.le_def.1 h)
        (fun h' => hc (Fin.ext h'.symm))))
  have hprod' : ∀ r c, (T' * toM NC M) r c =
      if (r : ℕ) = j ∧ c = q then 0 else (T * toM NC M) r c := by
    intro r c
    rw [hprod]
    by_cases hc : c = q
    · subst hc
      by_cases hr : (r : ℕ) = j
      · rw [if_pos ⟨hr, rfl⟩]
        have : r = p := Fin.ext hr
        subst this
        simp only [f, if_pos hr]
        rw [div_mul_cancel₀ _ hqq, sub_self]
      · rw [if_neg (fun h => hr h.1)]
        simp [f, hr]
    · rw [if_neg (fun h => hc h.2), hq0 c hc, mul_zero, sub_zero]
  have hdiv : CE.div (s.1 (i + j * NC)) (s.1 (i + i * NC)) = some (f p) := by
    have e1 := h1 p q (Fin.le_def.2 (by simp only [p, q]; omega)) (Or.inr (Or.inl ⟨rfl, le_refl _⟩))
    have e2 := h1 q q (le_refl _) (Or.inr (Or.inr rfl))
    simp only [q, p] at e1 e2
    rw [e1, e2, CE.div_some hqq]
    simp [f, p, q]
  refine ⟨T', ?_, ?_, ?_, ?_, ?_⟩
  · intro r c
    rw [elimCol_snd (by omega) s c.2]
    split
    · next hr =>
      have : r = p := Fin.ext hr
      subst this
      have e1 := h2 p c
      have e2 := h2 q c
      simp only [p, q] at e1 e2
      rw [hdiv, e1, e2, CE.mul_some, CE.sub_some]
      rfl
    · next hr =>
      rw [h2 r c]
      simp [T', f, hr]
  · intro r c hrc hc
    rw [elimCol_fst hi (by omega) s c.2, hprod']
    have hrc' := Fin.le_def.1 hrc
    by_cases hx : (r : ℕ) = j ∧ i < (c : ℕ)
    · exfalso
      rcases hc with h | h | h
      · omega
      · omega
      · subst h; omega
    · rw [if_neg hx]
      by_cases hy : (r : ℕ) = j ∧ c = q
      · exfalso
        obtain ⟨hy1, hy2⟩ := hy
        have hy3 : (c : ℕ) = i := congrArg Fin.val hy2
        rcases hc with h | h | h
        · omega
        · omega
        · subst h; omega
      · rw [if_neg hy]
        refine h1 r c hrc ?_
        rcases hc with h | h | h
        · exact Or.inl h
        · exact Or.inr (Or.inl ⟨h.1, by omega⟩)
        · exact Or.inr (Or.inr h)
  · intro r c hcr
    rw [hprod']
    split
    · rfl
    · exact h3 r c hcr
  · intro r c hrc hc
    rw [hprod']
    split
    · rfl
    · next hy =>
      refine h4 r c hrc ?_
      rcases hc with h | ⟨h, h'⟩
      · exact Or.inl h
      · right
        refine ⟨h, ?_⟩
        have : (r : ℕ) ≠ j := fun h'' => hy ⟨h'', Fin.ext h⟩
        omega
  · intro r
    rw [hprod', if_neg]
    · exact h5 r
    · rintro ⟨h, h'⟩
      subst h'
      simp only [q] at h
      omega

/-- One column of the second phase. -/
theorem upper_step {NC i : ℕ} (hi : i < NC) (hi0 : 0 < i) {M : Arr ℂ} {s : Arr CE × Arr CE}
    (h : Upper NC M i s) :
    Upper NC M (i - 1) (forN i (fun j s => eliminate_column NC i j s) s) := by
  have := forN_inv (fun j (s : Arr CE × Arr CE) => ∃ T : Matrix (Fin NC) (Fin NC) ℂ,
    (∀ r c : Fin NC, s.2 (c + r * NC) = some (T r c)) ∧
    (∀ r c : Fin NC, r ≤ c → ((c : ℕ) < i ∨ ((c : ℕ) = i ∧ j ≤ (r : ℕ)) ∨ r = c) →
      s.1 (c + r * NC) = some ((T * toM NC M) r c)) ∧
    (∀ r c : Fin NC, c < r → (T * toM NC M) r c = 0) ∧
    (∀ r c : Fin NC, r ≠ c → (i < (c : ℕ) ∨ ((c : ℕ) = i ∧ (r : ℕ) < j)) →
      (T * toM NC M) r c = 0) ∧
    (∀ r : Fin NC, (T * toM NC M) r r ≠ 0)) (n := i)
    (body := fun j s => eliminate_column NC i j s) (s := s)
    (by
      obtain ⟨T, h2, h1, h3, h4, h5⟩ := h
      exact ⟨T, h2, fun r c hrc hc => h1 r c hrc (by
          rcases hc with h | h | h
          exacts [Or.inl (by omega), Or.inl (by omega), Or.inr h]), h3,
        fun r c hrc hc => h4 r c hrc (by omega), h5⟩)
    (fun j hj s hs => by
      obtain ⟨T, h2, h1, h3, h4, h5⟩ := hs
      exact upper_elim hi hj h2 h1 h3 h4 h5)
  obtain ⟨T, h2, h1, h3, h4, h5⟩ := this
  refine ⟨T, h2, fun r c hrc hc => h1 r c hrc (by
    rcases hc with h | h
    exacts [Or.inl (by omega), Or.inr (Or.inr h)]), h3, fun r c hrc hc => ?_, h5⟩
  rcases lt_or_ge i (c : ℕ) with h | h
  · exact h4 r c hrc (Or.inl h)
  · have hci : (c : ℕ) = i := by omega
    rcases lt_or_ge (r : ℕ) i with h' | h'
    · exact h4 r c hrc (Or.inr ⟨hci, h'⟩)
    · refine h3 r c (Fin.lt_def.2 (lt_of_le_of_ne (by omega) fun h'' => hrc (Fin.ext h''.symm)))

theorem gjUp_upper {NC : ℕ} {M : Arr ℂ} {s : Arr CE × Arr CE} (h : Upper NC M (NC - 1) s) :
    Upper NC M 0 (gjUp NC s) := by
  unfold gjUp
  have := forN_inv (fun t (q : Arr CE × Arr CE) => Upper NC M (NC - 1 - t) q) (n := NC - 1)
    (body := fun t s => forN (NC - 1 - t) (fun j s => eliminate_column NC (NC - 1 - t) j s) s)
    (s := s) h
    (fun t ht q hq => by
      have := upper_step (i := NC - 1 - t) (by omega) (by omega) hq
      rwa [show NC - 1 - t - 1 = NC - 1 - (t + 1) by omega] at this)
  rwa [show NC - 1 - (NC - 1) = 0 by omega] at this

/-! ## Final scaling -/

theorem scaleRow {NC j : ℕ} (x : CE) (v : Arr CE) {r c : ℕ} (hc : c < NC) :
    forN NC (fun i ainv => Function.update ainv (i + j * NC) (CE.mul (ainv (i + j * NC)) x)) v
      (c + r * NC) = if r = j then CE.mul (v (c + r * NC)) x else v (c + r * NC) := by
  have := forN_inv (fun l (a : Arr CE) => ∀ r c, c < NC → a (c + r * NC) =
      if r = j ∧ c < l then CE.mul (v (c + r * NC)) x else v (c + r * NC)) (n := NC)
    (body := fun i ainv => Function.update ainv (i + j * NC) (CE.mul (ainv (i + j * NC)) x))
    (s := v)
    (fun r c _ => by rw [if_neg (by omega)])
    (fun k h2 a ha r c hc => by
      rw [Function.update_apply]
      by_cases h : c + r * NC = k + j * NC
      · obtain ⟨h3, h4⟩ := flat_inj hc h2 h
        subst h3 h4
        rw [if_pos rfl, if_pos ⟨rfl, by omega⟩, ha _ _ hc, if_neg (by omega)]
      · have hne : ¬ (r = j ∧ c = k) := by rintro ⟨rfl, rfl⟩; exact h rfl
        rw [if_neg h, ha _ _ hc]
        by_cases h5 : r = j ∧ c < k
        · rw [if_pos h5, if_pos (by omega)]
        · rw [if_neg h5, if_neg (by omega)])
  rw [this r c hc]
  by_cases h : r = j
  · rw [if_pos ⟨h, hc⟩, if_pos h]
  · rw [if_neg (fun h' => h h'.1), if_neg h]

theorem gjScale_bad {NC d : ℕ} (hd : d < NC) {s : Arr CE × Arr CE} (h : s.1 (d + d * NC) = some 0) :
    gjScale NC s = none := by
  classical
  unfold gjScale
  have := forN_inv (fun j (o : Option (Arr CE)) => d < j → o = none) (n := NC)
    (body := fun j o => o.bind fun ainv =>
      if s.1 (j * (NC + 1)) = some 0 then none else
      let am1 := CE.div (some 1) (s.1 (j * (NC + 1)))
      some (forN NC (fun i ainv => Function.update ainv (i + j * NC)
        (CE.mul (ainv (i + j * NC)) am1)) ainv)) (s := some s.2)
    (fun h => by omega)
    (fun j hj o ho hdj => by
      by_cases hdj' : d < j
      · rw [ho hdj']; rfl
      · have : d = j := by omega
        subst this
        rw [diagIdx]
        cases o <;> simp [h])
  exact this hd

theorem gjScale_good {NC : ℕ} {s : Arr CE × Arr CE} (D : ℕ → ℂ)
    (hD : ∀ j, j < NC → s.1 (j + j * NC) = some (D j)) (hD0 : ∀ j, j < NC → D j ≠ 0) :
    ∃ v, gjScale NC s = some v ∧ ∀ r c, r < NC → c < NC →
      v (c + r * NC) = CE.mul (s.2 (c + r * NC)) (some (1 / D r)) := by
  classical
  unfold gjScale
  have := forN_inv (fun j (o : Option (Arr CE)) => ∃ v, o = some v ∧ ∀ r c, r < NC → c < NC →
      v (c + r * NC) = if r < j then CE.mul (s.2 (c + r * NC)) (some (1 / D r))
        else s.2 (c + r * NC)) (n := NC)
    (body := fun j o => o.bind fun ainv =>
      if s.1 (j * (NC + 1)) = some 0 then none else
      let am1 := CE.div (some 1) (s.1 (j * (NC + 1)))
      some (forN NC (fun i ainv => Function.update ainv (i + j * NC)
        (CE.mul (ainv (i + j * NC)) am1)) ainv)) (s := some s.2)
    ⟨s.2, rfl, fun r c _ _ => by rw [if_neg (by omega)]⟩
    (fun j hj o ho => by
      obtain ⟨v, rfl, hv⟩ := ho
      have hne : ¬ (some (D j) : CE) = some 0 := fun h => hD0 j hj (Option.some.inj h)
      simp only [Option.bind_some, diagIdx]
      rw [hD j hj, if_neg hne, CE.div_some (hD0 j hj)]
      refine ⟨_, rfl, fun r c hr hc => ?_⟩
      rw [scaleRow _ _ hc, hv r c hr hc]
      by_cases h : r = j
      · subst h
        rw [if_pos rfl, if_neg (by omega), if_pos (by omega)]
      · rw [if_neg h]
        by_cases h' : r < j
        · rw [if_pos h', if_pos (by omega)]
        · rw [if_neg h', if_neg (by omega)])
  obtain ⟨v, h1, h2⟩ := this
  exact ⟨v, h1, fun r c hr hc => by rw [h2 r c hr hc, if_pos hr]⟩

theorem ident_apply {NC : ℕ} (r c : Fin NC) :
    (forN NC (fun i v => Function.update v (i * (NC + 1)) (some 1)) (fun _ => (some 0 : CE)))
      (c + r * NC) = some ((1 : Matrix (Fin NC) (Fin NC) ℂ) r c) := by
  have := forN_inv (fun l (a : Arr CE) => ∀ r c, c < NC → a (c + r * NC) =
      if r = c ∧ c < l then some 1 else some 0) (n := NC)
    (body := fun i v => Function.update v (i * (NC + 1)) (some 1)) (s := fun _ => (some 0 : CE))
    (fun r c _ => by rw [if_neg (by omega)])
    (fun k h2 a ha r c hc => by
      rw [Function.update_apply, diagIdx]
      by_cases h : c + r * NC = k + k * NC
      · obtain ⟨h3, h4⟩ := flat_inj hc h2 h
        rw [if_pos h, if_pos (by omega)]
      · have hne : ¬ (r = k ∧ c = k) := by rintro ⟨rfl, rfl⟩; exact h rfl
        rw [if_neg h, ha _ _ hc]
        by_cases h5 : r = c ∧ c < k
        · rw [if_pos h5, if_pos (by omega)]
        · rw [if_neg h5, if_neg (by omega)])
  rw [this r c c.2, one_apply]
  by_cases h : r = c
  · rw [if_pos ⟨congrArg Fin.val h, c.2⟩, if_pos h]
  · rw [if_neg (fun h' => h (Fin.ext h'.1)), if_neg h]

/-- Outcome of the Gauss-Jordan elimination. -/
theorem gauss_jordan_outcome {NC : ℕ} (hNC : 0 < NC) (M : Arr ℂ) :
    (gauss_jordan NC M = none ∧ (toM NC M).det = 0) ∨
    ∃ v, ∃ X : Matrix (Fin NC) (Fin NC) ℂ, gauss_jordan NC M = some v ∧
      (∀ r c : Fin NC, v (c + r * NC) = some (X r c)) ∧ X * toM NC M = 1 := by
  unfold gauss_jordan
  simp only []
  have h1 := forN_inv (fun i (s : Arr CE × Arr CE) => Good NC M i s ∨ Bad NC M i s) (n := NC - 1)
    (body := fun i s => gjDown NC i s)
    (s := ((fun x => some (M x)),
      forN NC (fun i v => Function.update v (i * (NC + 1)) (some 1)) (fun _ => (some 0 : CE))))
    (Or.inl ⟨1, by simp, fun r c => ident_apply r c, fun r c _ => by
        rw [one_mul, toM_apply, mul_comm (r : ℕ)],
      fun r c h => by omega, fun r h => by omega⟩)
    (fun i hi s hs => by
      rcases hs with h | h
      · exact good_step (by omega) h
      · exact Or.inr (bad_step (by omega) h))
  set s := forN (NC - 1) (fun i s => gjDown NC i s) ((fun x => some (M x)),
    forN NC (fun i v => Function.update v (i * (NC + 1)) (some 1)) (fun _ => (some 0 : CE))) with hs
  clear_value s
  have hbad : ∀ d, d < NC → s.1 (d + d * NC) = some 0 → gjScale NC (gjUp NC s) = none :=
    fun d hd h => gjScale_bad hd ((gjUp_diag s hd).trans h)
  rcases h1 with ⟨T, hT, a2, a1, a3, a4⟩ | ⟨hd, d, hdl, hz⟩
  · let q : Fin NC := ⟨NC - 1, by omega⟩
    by_cases hq : (T * toM NC M) q q = 0
    · left
      constructor
      · refine hbad (NC - 1) (by omega) ?_
        have := a1 q q (Or.inr (le_refl _))
        rw [hq] at this
        exact this
      · have hd := det_zero_of_column (i := NC - 1) (by omega) a3 (fun r hr => by
          have : r = q := Fin.ext (by simp only [q]; omega)
          rw [this]; exact hq)
        rw [det_mul] at hd
        exact (mul_eq_zero.1 hd).resolve_left hT
    · right
      have hup : Upper NC M (NC - 1) s := by
        refine ⟨T, a2, fun r c hrc _ => a1 r c (Or.inr hrc), fun r c hcr => a3 r c ?_ hcr,
          fun r c _ hc => by omega, fun r => ?_⟩
        · have := Fin.lt_def.1 hcr; omega
        · by_cases hr : (r : ℕ) < NC - 1
          · exact a4 r hr
          · have : r = q := Fin.ext (by simp only [q]; omega)
            rw [this]; exact hq
      obtain ⟨T', b2, b1, b3, b4, b5⟩ := gjUp_upper hup
      let D : ℕ → ℂ := fun j => if hj : j < NC then (T' * toM NC M) ⟨j, hj⟩ ⟨j, hj⟩ else 0
      have hDr : ∀ r : Fin NC, D r = (T' * toM NC M) r r := fun r => by simp [D]
      obtain ⟨v, hv, hv2⟩ := gjScale_good D
        (fun j hj => by
          rw [show D j = _ from hDr ⟨j, hj⟩]
          exact b1 ⟨j, hj⟩ ⟨j, hj⟩ (le_refl _) (Or.inr rfl))
        (fun j hj => by rw [show D j = _ from hDr ⟨j, hj⟩]; exact b5 _)
      refine ⟨v, Matrix.of fun r c => T' r c * (1 / D r), hv, fun r c => ?_, ?_⟩
      · rw [hv2 r c r.2 c.2, b2 r c, CE.mul_some]
        rfl
      · ext r c
        have : (Matrix.of (fun r c => T' r c * (1 / D r)) * toM NC M) r c =
            (1 / D r) * (T' * toM NC M) r c := by
          simp only [Matrix.mul_apply, Matrix.of_apply, Finset.mul_sum]
          exact Finset.sum_congr rfl fun x _ => by ring
        rw [this, one_apply]
        by_cases h : r = c
        · subst h
          rw [if_pos rfl, hDr, one_div, inv_mul_cancel₀ (b5 r)]
        · rw [if_neg h]
          rcases lt_or_gt_of_ne h with h' | h'
          · have := Fin.lt_def.1 h'
            rw [b4 r c h (by omega), mul_zero]
          · rw [b3 r c h', mul_zero]
  · exact Or.inl ⟨hbad d (by omega) hz, hd⟩

end GLU.Mat
