import Verif.Mat.SseInvert
import Verif.Mat.InvertLemmas
import Mathlib.LinearAlgebra.Matrix.Block

namespace GLU.Mat.Sse

open Matrix Complex

/-! ## Agreement with the portable elimination on a nonzero pivot -/

theorem conjDiv_self {z : ℂ} (hz : z ≠ 0) : conjDiv (some z) (absfac (some z)) = some (1 / z) := by
  have h : Mat.modsq z = Complex.normSq z := by
    simp [Mat.modsq, creal, cimag, Complex.normSq_apply]
  simp only [conjDiv, absfac, CE.modsq_some]
  rw [if_neg (by rw [h]; exact fun h' => hz (Complex.normSq_eq_zero.1 h')), h]
  congr 1
  rw [one_div, Complex.inv_def, div_eq_mul_inv]
  simp [conj]

theorem conjDiv_zero : conjDiv (some 0) (absfac (some 0)) = none := by
  simp [conjDiv, absfac, Mat.modsq, creal, cimag]

theorem CE_mul_none (x : CE) : CE.mul x none = none := by cases x <;> rfl

theorem CE_none_mul (x : CE) : CE.mul none x = none := by cases x <;> rfl

theorem CE_sub_none (x : CE) : CE.sub x none = none := by cases x <;> rfl

theorem CE_none_sub (x : CE) : CE.sub none x = none := by cases x <;> rfl

/-- On a nonzero pivot the two eliminations agree. -/
theorem elim_eq {NC i j : ℕ} {s : Arr CE × Arr CE} {z : ℂ} (hz : z ≠ 0)
    (h : s.1 (i + i * NC) = some z) :
    eliminate_column NC (some (1 / z)) i j s = Mat.eliminate_column NC i j s := by
  have : CE.mul (s.1 (i + j * NC)) (some (1 / z)) =
      CE.div (s.1 (i + j * NC)) (s.1 (i * (NC + 1))) := by
    rw [diagIdx, h]
    cases s.1 (i + j * NC) with
    | none => rfl
    | some w => rw [CE.mul_some, CE.div_some hz, mul_one_div]
  unfold eliminate_column Mat.eliminate_column
  simp only [this]

theorem forN_congr_inv {σ : Type*} {n : ℕ} {f g : ℕ → σ → σ} (P : σ → Prop) {s : σ} (h0 : P s)
    (hP : ∀ k, k < n → ∀ s, P s → P (g k s)) (h : ∀ k, k < n → ∀ s, P s → f k s = g k s) :
    forN n f s = forN n g s := by
  have := forN_inv (fun k (x : σ) => k ≤ n → P x ∧ forN k f s = x) (n := n) (body := g) (s := s)
    (fun _ => ⟨h0, rfl⟩)
    (fun k hk x hx _ => by
      obtain ⟨h1, h2⟩ := hx (by omega)
      refine ⟨hP k hk x h1, ?_⟩
      rw [show forN (k + 1) f s = f k (forN k f s) from rfl, h2, h k hk x h1])
  exact (this (le_refl _)).2

/-! ## Entries after an elimination with any factor -/

theorem elim_snd {NC i j : ℕ} (hij : i ≠ j) (fac : CE) (s : Arr CE × Arr CE) {r c : ℕ}
    (hc : c < NC) :
    (eliminate_column NC fac i j s).2 (c + r * NC) =
      if r = j then CE.sub (s.2 (c + j * NC))
        (CE.mul (CE.mul (s.1 (i + j * NC)) fac) (s.2 (c + i * NC)))
      else s.2 (c + r * NC) := by
  unfold eliminate_column
  simp only []
  set fac1 := CE.mul (s.1 (i + j * NC)) fac
  have := forN_inv (fun l (a : Arr CE) => ∀ r c, c < NC → a (c + r * NC) =
      if r = j ∧ c < l then CE.sub (s.2 (c + j * NC)) (CE.mul fac1 (s.2 (c + i * NC)))
      else s.2 (c + r * NC)) (n := NC)
    (body := fun k a => Function.update a (k + j * NC)
      (CE.sub (a (k + j * NC)) (CE.mul fac1 (a (i * NC + k))))) (s := s.2)
    (fun r c _ => by rw [if_neg (by omega)])
    (fun k h2 a ha r c hc => by
      rw [Function.update_apply]
      by_cases h : c + r * NC = k + j * NC
      · obtain ⟨h3, h4⟩ := flat_inj hc h2 h
        subst h3 h4
        rw [if_pos rfl, if_pos ⟨rfl, by omega⟩, ha _ _ hc, if_neg (by omega),
          show i * NC + c = c + i * NC by ring, ha _ _ hc, if_neg (by omega)]
      · have hne : ¬ (r = j ∧ c = k) := by rintro ⟨rfl, rfl⟩; exact h rfl
        rw [if_neg h, ha _ _ hc]
        by_cases h5 : r = j ∧ c < k
        · rw [if_pos h5, if_pos (by omega)]
        · rw [if_neg h5, if_neg (by omega)])
  rw [this r c hc]
  by_cases h : r = j
  · rw [if_pos ⟨h, hc⟩, if_pos h]
  · rw [if_neg (fun h' => h h'.1), if_neg h]

/-- Rows of the inverse that are not numbers stay so, and with a factor that is not a number
every row below the pivot becomes so. -/
theorem elimDown_none {NC i : ℕ} (hi : i < NC) (fac : CE) (s : Arr CE × Arr CE) {r c : ℕ}
    (hir : i < r) (hr : r < NC) (hc : c < NC) (h : fac = none ∨ s.2 (c + r * NC) = none) :
    (forN (NC - 1 - i) (fun t s => eliminate_column NC fac i (NC - 1 - t) s) s).2 (c + r * NC)
      = none := by
  have := forN_inv (fun t (q : Arr CE × Arr CE) =>
      (fac = none ∨ q.2 (c + r * NC) = none) ∧ (NC - 1 - t < r → q.2 (c + r * NC) = none))
    (n := NC - 1 - i) (body := fun t s => eliminate_column NC fac i (NC - 1 - t) s) (s := s)
    ⟨h, fun h => by omega⟩
    (fun t ht q hq => by
      have hij : i ≠ NC - 1 - t := by omega
      rw [elim_snd hij fac q hc]
      by_cases hj : r = NC - 1 - t
      · rw [if_pos hj]
        have : CE.sub (q.2 (c + (NC - 1 - t) * NC))
            (CE.mul (CE.mul (q.1 (i + (NC - 1 - t) * NC)) fac) (q.2 (c + i * NC))) = none := by
          rcases hq.1 with h | h
          · rw [h, CE_mul_none, CE_none_mul, CE_sub_none]
          · rw [← hj, h, CE_none_sub]
        exact ⟨Or.inr this, fun _ => this⟩
      · rw [if_neg hj]
        exact ⟨hq.1, fun h => hq.2 (by omega)⟩)
  exact this.2 (by omega)

theorem modsq_nonneg' (z : ℂ) : 0 ≤ Mat.modsq z := by
  simp only [Mat.modsq]
  exact add_nonneg (mul_self_nonneg _) (mul_self_nonneg _)

/-- No candidate beats the diagonal entry when column `i` of the inverse is zero, or not a
number, below the diagonal. -/
theorem pivotSearch_stays {NC i : ℕ} (hi : i < NC) {s : Arr CE × Arr CE}
    (h : ∀ j, i < j → j < NC → s.2 (i + j * NC) = some 0 ∨ s.2 (i + j * NC) = none) :
    pivotSearch NC i s = (i, absfac (s.1 (i + i * NC))) := by
  classical
  unfold pivotSearch
  rw [diagIdx]
  refine forFrom_inv (fun _ (p : ℕ × Option ℝ) => p = (i, absfac (s.1 (i + i * NC)))) hi rfl
    fun j h1 h2 p hp => ?_
  subst hp
  simp only []
  rw [if_neg]
  rcases h j (by omega) h2 with h | h
  · rw [h]
    cases s.1 (i + i * NC) with
    | none => exact id
    | some z =>
      have h1 := modsq_nonneg' z
      have h2 : Mat.modsq 0 = 0 := by simp [Mat.modsq, creal, cimag]
      show ¬ (Mat.modsq 0 > Mat.modsq z)
      rw [h2]; linarith
  · rw [h]
    cases s.1 (i + i * NC) <;> exact id

/-- A pass with a nonzero pivot is the portable elimination. -/
theorem gjDown_regular {NC i : ℕ} (hi : i < NC) {s : Arr CE × Arr CE} {z : ℂ} (hz : z ≠ 0)
    (hd : s.1 (i + i * NC) = some z)
    (h : ∀ j, i < j → j < NC → s.2 (i + j * NC) = some 0 ∨ s.2 (i + j * NC) = none) :
    gjDown NC i s = forN (NC - 1 - i) (fun t s => Mat.eliminate_column NC i (NC - 1 - t) s) s := by
  unfold gjDown
  rw [pivotSearch_stays hi h]
  simp only [ne_eq, not_true_eq_false, if_false]
  rw [diagIdx, hd, conjDiv_self hz]
  refine forN_congr_inv (fun s => s.1 (i + i * NC) = some z) hd (fun k hk s hs => ?_)
    (fun k hk s hs => elim_eq hz hs)
  rw [elimCol_fst hi (by omega) s hi, if_neg (by omega), hs]

/-! ## The first loop: lower triangular row operations -/

/-- Leading square block. -/
def lead {NC : ℕ} (k : ℕ) (hk : k ≤ NC) (A : Matrix (Fin NC) (Fin NC) ℂ) :
    Matrix (Fin k) (Fin k) ℂ := A.submatrix (Fin.castLE hk) (Fin.castLE hk)

/-- Regular state before pass `i`: the row operations `T` so far are unit lower triangular and
have not touched the columns from `i` on. -/
def Reg (NC : ℕ) (M : Arr ℂ) (i : ℕ) (s : Arr CE × Arr CE) : Prop :=
  ∃ T : Matrix (Fin NC) (Fin NC) ℂ, T.det ≠ 0 ∧
    (∀ r c : Fin NC, s.2 (c + r * NC) = some (T r c)) ∧
    (∀ r c : Fin NC, (i ≤ (c : ℕ) ∨ r ≤ c) → s.1 (c + r * NC) = some ((T * toM NC M) r c)) ∧
    (∀ r c : Fin NC, (c : ℕ) < i → c < r → (T * toM NC M) r c = 0) ∧
    (∀ r : Fin NC, (r : ℕ) < i → (T * toM NC M) r r ≠ 0) ∧
    (∀ r c : Fin NC, (r ≤ c ∨ i ≤ (c : ℕ)) → T r c = (1 : Matrix (Fin NC) (Fin NC) ℂ) r c)

theorem lead_mul {NC k : ℕ} (hk : k ≤ NC) {T A : Matrix (Fin NC) (Fin NC) ℂ}
    (hT : ∀ r c : Fin NC, r < c → T r c = 0) : lead k hk (T * A) = lead k hk T * lead k hk A := by
  ext r c
  simp only [lead, submatrix_apply, mul_apply]
  symm
  have inj : Function.Injective (Fin.castLE hk : Fin k → Fin NC) := Fin.castLE_injective hk
  rw [← Finset.sum_image (f := fun x => T (Fin.castLE hk r) x * A x (Fin.castLE hk c))
    (fun _ _ _ _ h => inj h)]
  refine Finset.sum_subset (Finset.subset_univ _) fun x _ hx => ?_
  have : k ≤ (x : ℕ) := by
    by_contra h
    exact hx (Finset.mem_image.2 ⟨⟨x, by omega⟩, Finset.mem_univ _, Fin.ext rfl⟩)
  rw [hT _ _ (Fin.lt_def.2 (by simp only [Fin.val_castLE]; omega)), zero_mul]

/-- The leading minor is the product of the pivots. -/
theorem lead_det {NC i : ℕ} (hi : i < NC) {T A : Matrix (Fin NC) (Fin NC) ℂ}
    (hT : ∀ r c : Fin NC, r ≤ c → T r c = (1 : Matrix (Fin NC) (Fin NC) ℂ) r c)
    (h3 : ∀ r c : Fin NC, (c : ℕ) < i → c < r → (T * A) r c = 0) :
    (lead (i + 1) hi A).det = ∏ r : Fin (i + 1), (T * A) (Fin.castLE hi r) (Fin.castLE hi r) := by
  have hT0 : ∀ r c : Fin NC, r < c → T r c = 0 := fun r c h => by
    rw [hT r c h.le, one_apply_ne h.ne]
  have e1 : (lead (i + 1) hi T).det = 1 := by
    rw [det_of_lowerTriangular]
    · refine Finset.prod_eq_one fun r _ => ?_
      simp only [lead, submatrix_apply]
      rw [hT _ _ (le_refl _), one_apply_eq]
    · intro r c h
      exact hT0 _ _ (by
        have : r < c := by simpa using h
        exact Fin.lt_def.2 (by simpa using this))
  have e2 : (lead (i + 1) hi (T * A)).det =
      ∏ r : Fin (i + 1), (T * A) (Fin.castLE hi r) (Fin.castLE hi r) := by
    rw [det_of_upperTriangular]
    · rfl
    · intro r c h
      have h : (c : ℕ) < r := by simpa using h
      have hr := r.2
      exact h3 _ _ (by simp only [Fin.val_castLE]; omega)
        (Fin.lt_def.2 (by simpa using h))
  rw [← e2, lead_mul hi hT0, det_mul, e1, one_mul]

theorem reg_init {NC : ℕ} (M : Arr ℂ) :
    Reg NC M 0 ((fun x => some (M x)),
      fun x => if x % (NC + 1) = 0 then some 1 else some 0) := by
  refine ⟨1, by simp, fun r c => ?_, fun r c _ => by
        rw [one_mul, toM_apply, mul_comm (r : ℕ)],
      fun r c h => by omega, fun r h => by omega, fun r c _ => rfl⟩
  simp only [one_apply]
  have key : ((c : ℕ) + r * NC) % (NC + 1) = 0 ↔ r = c := by
    have hc := c.2
    have hr := r.2
    constructor
    · intro h
      have h1 : (c : ℕ) + r * (NC + 1) = (c + r * NC) + r := by ring
      have h2 : ((c : ℕ) + r * (NC + 1)) % (NC + 1) = ((0 : ℕ) + r) % (NC + 1) := by
        rw [h1, Nat.add_mod, h, ← Nat.add_mod_mod]; simp
      rw [Nat.add_mul_mod_self_right, Nat.mod_eq_of_lt (by omega), zero_add,
        Nat.mod_eq_of_lt (by omega)] at h2
      exact Fin.ext h2.symm
    · rintro rfl
      rw [show (r : ℕ) + r * NC = r * (NC + 1) by ring, Nat.mul_mod_left]
  by_cases h : r = c
  · rw [if_pos (key.2 h), if_pos h]
  · rw [if_neg (fun h' => h (key.1 h')), if_neg h]

theorem reg_column {NC i : ℕ} {M : Arr ℂ} {s : Arr CE × Arr CE} (h : Reg NC M i s)
    (hi : i < NC) (j : ℕ) (h1 : i < j) (h2 : j < NC) :
    s.2 (i + j * NC) = some 0 ∨ s.2 (i + j * NC) = none := by
  obtain ⟨T, -, b2, -, -, -, b6⟩ := h
  left
  have := b2 ⟨j, h2⟩ ⟨i, hi⟩
  rw [b6 _ _ (Or.inr (le_refl _)), one_apply_ne (fun h => by
    have := Fin.mk.inj h; omega)] at this
  exact this

/-- The diagonal entry met at pass `i` is nonzero exactly when the next leading minor is. -/
theorem reg_pivot {NC i : ℕ} {M : Arr ℂ} {s : Arr CE × Arr CE} (h : Reg NC M i s) (hi : i < NC) :
    ∃ z, s.1 (i + i * NC) = some z ∧ (z ≠ 0 ↔ (lead (i + 1) hi (toM NC M)).det ≠ 0) := by
  obtain ⟨T, -, b2, b1, b3, b4, b6⟩ := h
  refine ⟨_, b1 ⟨i, hi⟩ ⟨i, hi⟩ (Or.inr (le_refl _)), ?_⟩
  rw [lead_det hi (fun r c h => b6 r c (Or.inl h)) b3, Finset.prod_ne_zero_iff]
  constructor
  · intro hz r _
    by_cases hr : (r : ℕ) < i
    · exact b4 _ (by simpa using hr)
    · have : Fin.castLE hi r = ⟨i, hi⟩ := Fin.ext (by simp only [Fin.val_castLE]; omega)
      rw [this]; exact hz
  · intro h
    exact h ⟨i, by omega⟩ (Finset.mem_univ _)

theorem reg_step {NC i : ℕ} (hi : i + 1 < NC) {M : Arr ℂ} {s : Arr CE × Arr CE}
    (h : Reg NC M i s) (hm : (lead (i + 1) (by omega) (toM NC M)).det ≠ 0) :
    Reg NC M (i + 1) (gjDown NC i s) := by
  have hi' : i < NC := by omega
  obtain ⟨z, hz, hz0⟩ := reg_pivot h hi'
  rw [gjDown_regular hi' (hz0.2 hm) hz (reg_column h hi')]
  obtain ⟨T, b0, b2, b1, b3, b4, b6⟩ := h
  have hqq : (T * toM NC M) ⟨i, hi'⟩ ⟨i, hi'⟩ ≠ 0 := by
    have := b1 ⟨i, hi'⟩ ⟨i, hi'⟩ (Or.inr (le_refl _))
    rw [show ((⟨i, hi'⟩ : Fin NC) : ℕ) = i from rfl, hz] at this
    rw [← Option.some.inj this]
    exact hz0.2 hm
  obtain ⟨T', c0, c2, c1, c3, c4⟩ := good_elim hi b0 b2 b1 b3 (fun r hr => by
    by_cases hr' : (r : ℕ) < i
    · exact b4 r hr'
    · rw [show r = ⟨i, hi'⟩ from Fin.ext (by simp only []; omega)]; exact hqq)
  refine ⟨T', c0, c2, c1, c3, c4, fun r c hrc => ?_⟩
  have e := c2 r c
  rw [(elimDown hi' s r c r.2 c.2).2] at e
  split at e
  · next hr =>
    have hq := b2 ⟨i, hi'⟩ c
    have hic : i < (c : ℕ) := by
      rcases hrc with h | h
      · have := Fin.le_def.1 h; omega
      · omega
    rw [b6 _ _ (Or.inl (Fin.le_def.2 (by simp only []; omega))), one_apply_ne (fun h => by
      have := congrArg Fin.val h; simp only [] at this; omega)] at hq
    have e1 := b1 r ⟨i, hi'⟩ (Or.inl (le_refl _))
    have e2 := b1 ⟨i, hi'⟩ ⟨i, hi'⟩ (Or.inl (le_refl _))
    simp only [] at hq e1 e2
    rw [e1, e2, CE.div_some hqq, hq, b2 r c, CE.mul_some, CE.sub_some, mul_zero, sub_zero] at e
    rw [← Option.some.inj e]
    exact b6 r c (Or.inr (by omega))
  · next hr =>
    rw [b2 r c] at e
    rw [← Option.some.inj e]
    refine b6 r c ?_
    rcases hrc with h | h
    · exact Or.inl h
    · exact Or.inr (by omega)

/-! ## After a zero pivot -/

/-- From row `i` on the inverse is not a number. -/
def Lost (NC i : ℕ) (s : Arr CE × Arr CE) : Prop :=
  ∀ r c, i ≤ r → r < NC → c < NC → s.2 (c + r * NC) = none

theorem lost_start {NC i : ℕ} (hi : i + 1 < NC) {M : Arr ℂ} {s : Arr CE × Arr CE}
    (h : Reg NC M i s) (hm : (lead (i + 1) (by omega) (toM NC M)).det = 0) :
    Lost NC (i + 1) (gjDown NC i s) := by
  have hi' : i < NC := by omega
  obtain ⟨z, hz, hz0⟩ := reg_pivot h hi'
  have : z = 0 := by
    by_contra h'
    exact hz0.1 h' hm
  subst this
  intro r c h1 h2 h3
  unfold gjDown
  rw [pivotSearch_stays hi' (reg_column h hi')]
  simp only [ne_eq, not_true_eq_false, if_false]
  exact elimDown_none hi' _ s (by omega) h2 h3 (Or.inl (by rw [diagIdx, hz]; exact conjDiv_zero))

theorem lost_step {NC i : ℕ} (hi : i + 1 < NC) {s : Arr CE × Arr CE} (h : Lost NC i s) :
    Lost NC (i + 1) (gjDown NC i s) := by
  have hi' : i < NC := by omega
  intro r c h1 h2 h3
  unfold gjDown
  rw [pivotSearch_stays hi' (fun j h1 h2 => Or.inr (h j i (by omega) h2 hi'))]
  simp only [ne_eq, not_true_eq_false, if_false]
  exact elimDown_none hi' _ s (by omega) h2 h3 (Or.inr (h r c (by omega) h2 h3))

/-! ## Second loop and scaling -/

theorem gjUp_eq {NC : ℕ} {s : Arr CE × Arr CE} (D : ℕ → ℂ)
    (hD : ∀ j, j < NC → s.1 (j + j * NC) = some (D j)) (hD0 : ∀ j, j < NC → D j ≠ 0) :
    gjUp NC s = Mat.gjUp NC s := by
  unfold gjUp Mat.gjUp
  refine forN_congr_inv (fun q : Arr CE × Arr CE => ∀ j, j < NC → q.1 (j + j * NC) = some (D j)) hD
    (fun t ht q hq j hj => ?_) (fun t ht q hq => ?_)
  · rw [elimUp_diag (by omega) q _ (le_refl _) hj, hq j hj]
  · simp only []
    rw [diagIdx, hq _ (by omega), SSE2_inverse, conjDiv_self (hD0 _ (by omega))]
    refine forN_congr_inv (fun q : Arr CE × Arr CE => ∀ j, j < NC → q.1 (j + j * NC) = some (D j)) hq
      (fun k hk q hq j hj => ?_) (fun k hk q hq => elim_eq (hD0 _ (by omega)) (hq _ (by omega)))
    rw [elimCol_fst (by omega) (by omega) q hj, if_neg (by omega), hq j hj]

theorem gjUp_last {NC : ℕ} {s : Arr CE × Arr CE} {c : ℕ} (hc : c < NC) :
    (gjUp NC s).2 (c + (NC - 1) * NC) = s.2 (c + (NC - 1) * NC) := by
  unfold gjUp
  refine forN_inv (fun _ (q : Arr CE × Arr CE) => q.2 (c + (NC - 1) * NC) = s.2 (c + (NC - 1) * NC))
    rfl fun t ht q hq => ?_
  refine forN_inv (fun _ (q : Arr CE × Arr CE) => q.2 (c + (NC - 1) * NC) = s.2 (c + (NC - 1) * NC))
    hq fun j hj q hq => ?_
  rw [elim_snd (by omega) _ q hc, if_neg (by omega), hq]

theorem elim_fst_diag {NC i j : ℕ} (hi : i < NC) (hj : j < i) (fac : CE) (s : Arr CE × Arr CE)
    {d : ℕ} (hd : d < NC) (hdi : i ≤ d) :
    (eliminate_column NC fac i j s).1 (d + d * NC) = s.1 (d + d * NC) := by
  unfold eliminate_column
  simp only []
  refine forFrom_inv (fun _ (a : Arr CE) => a (d + d * NC) = s.1 (d + d * NC)) hi rfl
    fun k h1 h2 a ha => ?_
  rw [Function.update_apply, if_neg, ha]
  intro h
  have := (flat_inj hd h2 h)
  omega

theorem gjUp_last_diag {NC : ℕ} (hNC : 0 < NC) {s : Arr CE × Arr CE} :
    (gjUp NC s).1 ((NC - 1) + (NC - 1) * NC) = s.1 ((NC - 1) + (NC - 1) * NC) := by
  unfold gjUp
  refine forN_inv (fun _ (q : Arr CE × Arr CE) =>
    q.1 ((NC - 1) + (NC - 1) * NC) = s.1 ((NC - 1) + (NC - 1) * NC)) rfl fun t ht q hq => ?_
  refine forN_inv (fun _ (q : Arr CE × Arr CE) =>
    q.1 ((NC - 1) + (NC - 1) * NC) = s.1 ((NC - 1) + (NC - 1) * NC)) hq fun j hj q hq => ?_
  rw [elim_fst_diag (by omega) hj _ q (by omega) (by omega), hq]

theorem gjScale_apply {NC : ℕ} (s : Arr CE × Arr CE) {r c : ℕ} (hr : r < NC) (hc : c < NC) :
    gjScale NC s (c + r * NC) = CE.mul (s.2 (c + r * NC)) (SSE2_inverse (s.1 (r + r * NC))) := by
  unfold gjScale
  have := forN_inv (fun j (v : Arr CE) => ∀ r c, r < NC → c < NC →
      v (c + r * NC) = if r < j then CE.mul (s.2 (c + r * NC)) (SSE2_inverse (s.1 (r + r * NC)))
        else s.2 (c + r * NC)) (n := NC)
    (body := fun j inv =>
      let m1 := SSE2_inverse (s.1 (j * (NC + 1)))
      forN NC (fun i inv => Function.update inv (i + j * NC) (CE.mul (inv (i + j * NC)) m1)) inv)
    (s := s.2)
    (fun r c _ _ => by rw [if_neg (by omega)])
    (fun j hj v hv r c hr hc => by
      simp only []
      rw [scaleRow _ _ hc, hv r c hr hc, diagIdx]
      by_cases h : r = j
      · subst h
        rw [if_pos rfl, if_neg (by omega), if_pos (by omega)]
      · rw [if_neg h]
        by_cases h' : r < j
        · rw [if_pos h', if_pos (by omega)]
        · rw [if_neg h', if_neg (by omega)])
  rw [this r c hr hc, if_pos hr]

/-- Outcome of the vectorised elimination. -/
theorem gauss_jordan_regular {NC : ℕ} (hNC : 0 < NC) (M : Arr ℂ)
    (hm : ∀ k (hk : k ≤ NC), (lead k hk (toM NC M)).det ≠ 0) :
    ∃ X : Matrix (Fin NC) (Fin NC) ℂ,
      (∀ r c : Fin NC, gauss_jordan NC M (c + r * NC) = some (X r c)) ∧ X * toM NC M = 1 := by
  have hreg := forN_inv (fun i (s : Arr CE × Arr CE) => Reg NC M i s) (n := NC - 1)
    (body := fun i s => gjDown NC i s) (reg_init M)
    (fun i hi s hs => reg_step (by omega) hs (hm (i + 1) (by omega)))
  unfold gauss_jordan
  set s := forN (NC - 1) (fun i s => gjDown NC i s) ((fun x => some (M x)),
    fun x => if x % (NC + 1) = 0 then some 1 else some 0) with hs
  clear_value s
  obtain ⟨z, hz, hz0⟩ := reg_pivot hreg (show NC - 1 < NC by omega)
  have hz1 := hz0.2 (hm _ _)
  obtain ⟨T, hT, a2, a1, a3, a4, -⟩ := hreg
  let q : Fin NC := ⟨NC - 1, by omega⟩
  have hq : (T * toM NC M) q q ≠ 0 := by
    have := a1 q q (Or.inr (le_refl _))
    rw [show ((q : Fin NC) : ℕ) = NC - 1 from rfl, hz] at this
    rw [← Option.some.inj this]; exact hz1
  have hup : Upper NC M (NC - 1) s := by
    refine ⟨T, a2, fun r c hrc _ => a1 r c (Or.inr hrc), fun r c hcr => a3 r c ?_ hcr,
      fun r c _ hc => by omega, fun r => ?_⟩
    · have := Fin.lt_def.1 hcr; omega
    · by_cases hr : (r : ℕ) < NC - 1
      · exact a4 r hr
      · have : r = q := Fin.ext (by simp only [q]; omega)
        rw [this]; exact hq
  have hdiag : ∀ j, j < NC → ∃ w, w ≠ 0 ∧ s.1 (j + j * NC) = some w := by
    intro j hj
    obtain ⟨T, -, h1, -, -, h5⟩ := hup
    exact ⟨_, h5 ⟨j, hj⟩, h1 ⟨j, hj⟩ ⟨j, hj⟩ (le_refl _) (Or.inr rfl)⟩
  choose! W hW0 hW using hdiag
  rw [gjUp_eq W hW hW0]
  obtain ⟨T', b2, b1, b3, b4, b5⟩ := gjUp_upper hup
  refine ⟨Matrix.of fun r c => T' r c * (1 / (T' * toM NC M) r r), fun r c => ?_, ?_⟩
  · rw [gjScale_apply _ r.2 c.2, b2 r c, b1 r r (le_refl _) (Or.inr rfl), SSE2_inverse,
      conjDiv_self (b5 r), CE.mul_some]
    rfl
  · ext r c
    have : (Matrix.of (fun r c => T' r c * (1 / (T' * toM NC M) r r)) * toM NC M) r c =
        (1 / (T' * toM NC M) r r) * (T' * toM NC M) r c := by
      rw [Matrix.mul_apply, Matrix.mul_apply (M := T') (i := r) (k := c), Finset.mul_sum]
      exact Finset.sum_congr rfl fun x _ => by simp only [Matrix.of_apply]; ring
    rw [this, one_apply]
    by_cases h : r = c
    · subst h
      rw [if_pos rfl, one_div, inv_mul_cancel₀ (b5 r)]
    · rw [if_neg h]
      rcases lt_or_gt_of_ne h with h' | h'
      · have := Fin.lt_def.1 h'
        rw [b4 r c h (by omega), mul_zero]
      · rw [b3 r c h', mul_zero]

/-- A vanishing leading minor loses the whole last row. -/
theorem gauss_jordan_lost {NC : ℕ} (M : Arr ℂ) {k : ℕ} (hk : k ≤ NC)
    (hm : (lead k hk (toM NC M)).det = 0) (c : ℕ) (hc : c < NC) :
    gauss_jordan NC M (c + (NC - 1) * NC) = none := by
  have hNC : 0 < NC := by omega
  have hinv := forN_inv (fun i (s : Arr CE × Arr CE) =>
      (Reg NC M i s ∧ ∀ k, k ≤ i → ∀ hk : k ≤ NC, (lead k hk (toM NC M)).det ≠ 0) ∨ Lost NC i s)
    (n := NC - 1) (body := fun i s => gjDown NC i s)
    (Or.inl ⟨reg_init M, fun k h hk => by
      obtain rfl : k = 0 := by omega
      simp [lead]⟩)
    (fun i hi s hs => by
      rcases hs with ⟨h1, h2⟩ | h
      · by_cases hd : (lead (i + 1) (by omega) (toM NC M)).det = 0
        · exact Or.inr (lost_start (by omega) h1 hd)
        · refine Or.inl ⟨reg_step (by omega) h1 hd, fun k h hk => ?_⟩
          by_cases hki : k ≤ i
          · exact h2 k hki hk
          · obtain rfl : k = i + 1 := by omega
            exact hd
      · exact Or.inr (lost_step (by omega) h))
  unfold gauss_jordan
  rw [gjScale_apply _ (by omega) hc, gjUp_last hc, gjUp_last_diag hNC]
  rcases hinv with ⟨h1, h2⟩ | h
  · obtain ⟨z, hz, hz0⟩ := reg_pivot h1 (show NC - 1 < NC by omega)
    have hkN : k = NC - 1 + 1 := by
      by_contra hne
      exact h2 k (by omega) hk hm
    subst hkN
    have : z = 0 := by
      by_contra h'
      exact hz0.1 h' hm
    rw [hz, this, SSE2_inverse, conjDiv_zero, CE_mul_none]
  · rw [h _ _ (le_refl _) (by omega) hc, CE_none_mul]

end GLU.Mat.Sse
