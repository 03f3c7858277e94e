import Verif.Mat.Gram
import Verif.Mat.LUProps
import Mathlib.LinearAlgebra.Matrix.ToLinearEquiv

namespace GLU.Mat

open Complex Matrix

/-! ## Orthonormal rows completed by minors -/

/-- The Hermitian product. -/
def ip {n : ℕ} (x y : Fin n → ℂ) : ℂ := star x ⬝ᵥ y

theorem ip_self {n : ℕ} (x : Fin n → ℂ) : ip x x = ((∑ k, normSq (x k) : ℝ) : ℂ) := by
  simp only [ip, dotProduct, Pi.star_apply, star_def]
  push_cast
  exact Finset.sum_congr rfl fun k _ => by rw [mul_comm, Complex.mul_conj]

theorem ip_self_eq_zero {n : ℕ} {x : Fin n → ℂ} (h : ∑ k, normSq (x k) = 0) : x = 0 := by
  funext k
  exact normSq_eq_zero.1 ((Finset.sum_eq_zero_iff_of_nonneg fun i _ => normSq_nonneg (x i)).1 h k
    (Finset.mem_univ k))

theorem ip_star {n : ℕ} (x y : Fin n → ℂ) : star (ip x y) = ip y x := by
  simp only [ip, dotProduct, Pi.star_apply, star_sum, star_mul', star_star]
  exact Finset.sum_congr rfl fun k _ => mul_comm _ _

theorem mul_conj_entry {n : ℕ} (A : Matrix (Fin n) (Fin n) ℂ) (i j : Fin n) :
    (A * Aᴴ) i j = ip (A j) (A i) := by
  rw [Matrix.mul_apply]
  simp only [ip, dotProduct, conjTranspose_apply, Pi.star_apply]
  exact Finset.sum_congr rfl fun k _ => mul_comm _ _

/-- Rows orthonormal except for the last, which is orthogonal to the others. -/
theorem diag_gram {m : ℕ} {A : Matrix (Fin (m + 1)) (Fin (m + 1)) ℂ}
    (h : ∀ i j, i ≠ Fin.last m → j ≠ Fin.last m → ip (A i) (A j) = if i = j then 1 else 0)
    (hl : ∀ i, i ≠ Fin.last m → ip (A i) (A (Fin.last m)) = 0) :
    A * Aᴴ = diagonal (fun i => if i = Fin.last m then ip (A (Fin.last m)) (A (Fin.last m)) else 1) := by
  ext i j
  rw [mul_conj_entry]
  by_cases hi : i = Fin.last m <;> by_cases hj : j = Fin.last m
  · subst hi hj; simp
  · subst hi
    rw [hl j hj, diagonal_apply_ne _ (Ne.symm hj)]
  · subst hj
    rw [← ip_star, hl i hi, star_zero, diagonal_apply_ne _ hi]
  · rw [h j i hj hi]
    by_cases hij : i = j
    · subst hij; simp [hi]
    · rw [diagonal_apply_ne _ hij, if_neg (Ne.symm hij)]

theorem det_diag_last {m : ℕ} (z : ℂ) :
    (diagonal (fun i : Fin (m + 1) => if i = Fin.last m then z else 1)).det = z := by
  rw [det_diagonal, Finset.prod_ite_eq' Finset.univ (Fin.last m) (fun _ => z)]
  simp

theorem normSq_det {n : ℕ} (A : Matrix (Fin n) (Fin n) ℂ) :
    (A * Aᴴ).det = (normSq A.det : ℝ) := by
  rw [det_mul, det_conjTranspose, star_def, Complex.mul_conj]

/-- Determinant along the last row. -/
theorem det_last_row {m : ℕ} (A : Matrix (Fin (m + 1)) (Fin (m + 1)) ℂ) :
    A.det = ∑ c, A (Fin.last m) c * adjugate A c (Fin.last m) :=
  det_eq_sum_mul_adjugate_row A (Fin.last m)

theorem adjugate_last_congr {m : ℕ} {A B : Matrix (Fin (m + 1)) (Fin (m + 1)) ℂ}
    (h : ∀ i j, i ≠ Fin.last m → A i j = B i j) (c : Fin (m + 1)) :
    adjugate A c (Fin.last m) = adjugate B c (Fin.last m) := by
  rw [adjugate_fin_succ_eq_det_submatrix, adjugate_fin_succ_eq_det_submatrix]
  congr 2
  ext i j
  exact h _ _ (Fin.succAbove_ne _ _)

/-- Orthonormal rows completed with the conjugate minors form a special unitary
matrix. -/
theorem su_of_rows {m : ℕ} {A : Matrix (Fin (m + 1)) (Fin (m + 1)) ℂ}
    (h : ∀ i j, i ≠ Fin.last m → j ≠ Fin.last m → ip (A i) (A j) = if i = j then 1 else 0)
    (hl : ∀ c, A (Fin.last m) c = star (adjugate A c (Fin.last m))) :
    A ∈ specialUnitaryGroup (Fin (m + 1)) ℂ := by
  have horth : ∀ i, i ≠ Fin.last m → ip (A i) (A (Fin.last m)) = 0 := by
    intro i hi
    have e : (A * adjugate A) i (Fin.last m) = 0 := by
      rw [mul_adjugate, Matrix.smul_apply, Matrix.one_apply_ne hi, smul_zero]
    rw [Matrix.mul_apply] at e
    have : ip (A i) (A (Fin.last m)) = star (∑ j, A i j * adjugate A j (Fin.last m)) := by
      simp only [ip, dotProduct, Pi.star_apply, star_sum, star_mul', hl]
    rw [this, e, star_zero]
  have hdet : A.det = ip (A (Fin.last m)) (A (Fin.last m)) := by
    rw [det_last_row]
    simp only [ip, dotProduct, Pi.star_apply]
    refine Finset.sum_congr rfl fun c _ => ?_
    rw [hl c, star_star, mul_comm]
  have hg := diag_gram h horth
  have h2 := normSq_det A
  rw [hg, det_diag_last, hdet, ip_self] at h2
  set q := ∑ k, normSq (A (Fin.last m) k) with hq
  have h3 : q = q * q := by
    rw [normSq_ofReal] at h2
    exact_mod_cast h2
  have hq1 : q = 1 := by
    by_contra hne
    have hq0 : q = 0 := by
      rcases mul_eq_zero.1 (show q * (q - 1) = 0 by linarith) with h | h
      · exact h
      · exact absurd (by linarith) hne
    have hzero : A (Fin.last m) = 0 := ip_self_eq_zero hq0
    -- a vector orthogonal to all rows
    have hd0 : A.det = 0 := det_eq_zero_of_row_eq_zero (Fin.last m) fun j => by rw [hzero]; rfl
    obtain ⟨v, hv, hAv⟩ := exists_mulVec_eq_zero_iff.2 hd0
    let N : Matrix (Fin (m + 1)) (Fin (m + 1)) ℂ := A.updateRow (Fin.last m) (star v)
    have hN : ∀ i, i ≠ Fin.last m → N i = A i := fun i hi => by
      simp only [N]; exact updateRow_ne hi
    have hNl : N (Fin.last m) = star v := by simp only [N]; exact updateRow_self
    have hNd : N.det = 0 := by
      rw [det_last_row]
      refine Finset.sum_eq_zero fun c _ => ?_
      rw [adjugate_last_congr (B := A) (fun i j hi => by rw [hN i hi])]
      have := hl c
      rw [hzero] at this
      rw [show adjugate A c (Fin.last m) = 0 from by
        rw [← star_star (adjugate A c (Fin.last m)), ← this]; simp, mul_zero]
    have hNg := diag_gram (A := N) (fun i j hi hj => by rw [hN i hi, hN j hj]; exact h i j hi hj)
      (fun i hi => by
        rw [hN i hi, hNl]
        have := congrFun hAv i
        simp only [mulVec, Pi.zero_apply] at this
        have e : ip (A i) (star v) = star (A i ⬝ᵥ v) := by
          simp only [ip, dotProduct, Pi.star_apply, star_sum, star_mul']
        rw [e, this, star_zero])
    have h5 := normSq_det N
    rw [hNg, det_diag_last, hNd, map_zero, hNl, ip_self] at h5
    have h6 : ∑ k, normSq (star v k) = 0 := by exact_mod_cast h5
    have h7 := ip_self_eq_zero h6
    exact hv (by rw [← star_star v, h7, star_zero])
  refine mem_specialUnitaryGroup_iff.2 ⟨?_, ?_⟩
  · rw [mem_unitaryGroup_iff, star_eq_conjTranspose, hg]
    ext i j
    by_cases hij : i = j
    · subst hij
      rw [diagonal_apply_eq, Matrix.one_apply_eq, ip_self, ← hq, hq1]
      simp
    · rw [diagonal_apply_ne _ hij, Matrix.one_apply_ne hij]
  · rw [hdet, ip_self, ← hq, hq1]; simp

/-! ## The steps of the generic algorithm -/

/-- Row of `NC` numbers as a vector. -/
def vec (NC : ℕ) (a : Arr ℂ) : Fin NC → ℂ := fun c => a c

theorem project_vec (NC : ℕ) (V U : Arr ℂ) :
    vec NC (project NC V U) = vec NC V - ip (vec NC U) (vec NC V) • vec NC U := by
  have hp : forN NC (fun i (p : ℝ × ℝ) =>
      (p.1 + (V i).re * (U i).re + (V i).im * (U i).im,
        p.2 + (U i).re * (V i).im - (U i).im * (V i).re)) (0, 0) =
      ((ip (vec NC U) (vec NC V)).re, (ip (vec NC U) (vec NC V)).im) := by
    rw [forN_congr (g := fun i (p : ℝ × ℝ) =>
      (p.1 + ((V i).re * (U i).re + (V i).im * (U i).im),
        p.2 + ((U i).re * (V i).im - (U i).im * (V i).re)))
      (fun i _ s => by simp only [Prod.mk.injEq]; constructor <;> ring), forN_sum2]
    simp only [ip, dotProduct, Complex.re_sum, Complex.im_sum, Finset.sum_range, zero_add]
    congr 1 <;> refine Finset.sum_congr rfl fun k _ => ?_ <;> simp [vec] <;> ring
  funext c
  unfold project
  simp only [hp]
  rw [show vec NC (mapN NC _ V) c = mapN NC _ V c from rfl, mapN_apply, if_pos c.2]
  simp only [Pi.sub_apply, Pi.smul_apply, smul_eq_mul, vec]
  apply Complex.ext <;> simp

theorem vect_norm2_vec (NC : ℕ) (a : Arr ℂ) :
    (vect_norm2 NC a = none ∧ vec NC a = 0) ∨
    (∃ b, vect_norm2 NC a = some b ∧ vec NC a ≠ 0 ∧
      vec NC b = ((1 / Real.sqrt (∑ k, normSq (vec NC a k)) : ℝ) : ℂ) • vec NC a) := by
  have hn : forN NC (fun mu (norm : ℝ) =>
      norm + ((a mu).re * (a mu).re + (a mu).im * (a mu).im)) 0 = ∑ k, normSq (vec NC a k) := by
    rw [forN_sum, zero_add, Finset.sum_range]
    rfl
  unfold vect_norm2
  simp only [hn]
  by_cases h : ∑ k, normSq (vec NC a k) = 0
  · left
    rw [if_pos h]
    exact ⟨rfl, ip_self_eq_zero h⟩
  · right
    rw [if_neg h]
    refine ⟨_, rfl, fun h0 => h (by rw [h0]; simp), ?_⟩
    funext c
    rw [show vec NC (mapN NC _ a) c = mapN NC _ a c from rfl, mapN_apply, if_pos c.2]
    simp [vec, mul_comm]

theorem ip_smul_right {n : ℕ} (x y : Fin n → ℂ) (z : ℂ) : ip x (z • y) = z * ip x y := by
  simp [ip]

theorem ip_smul_left {n : ℕ} (x y : Fin n → ℂ) (z : ℂ) : ip (z • x) y = star z * ip x y := by
  simp [ip]

theorem ip_sub_right {n : ℕ} (x y w : Fin n → ℂ) : ip x (y - w) = ip x y - ip x w := by
  simp [ip]

/-- Projection loop: the residual is orthogonal to the vectors treated and differs from
the start by their combination. -/
theorem project_loop (NC k : ℕ) (v : ℕ → Arr ℂ)
    (hv : ∀ i < k, ∀ j < k, ip (vec NC (v i)) (vec NC (v j)) = if i = j then 1 else 0) (w : Arr ℂ) :
    (∀ i < k, ip (vec NC (v i)) (vec NC (forN k (fun i vk => project NC vk (v i)) w)) = 0) ∧
    vec NC w - vec NC (forN k (fun i vk => project NC vk (v i)) w) ∈
      Submodule.span ℂ {x | ∃ i < k, x = vec NC (v i)} := by
  have := forN_inv (fun t (x : Arr ℂ) => (∀ i < t, ip (vec NC (v i)) (vec NC x) = 0) ∧
      vec NC w - vec NC x ∈ Submodule.span ℂ {x | ∃ i < k, x = vec NC (v i)}) (n := k)
    (body := fun i vk => project NC vk (v i)) (s := w) ⟨by simp, by simp⟩
    (fun t ht x hx => by
      obtain ⟨h1, h2⟩ := hx
      constructor
      · intro i hi
        rw [project_vec, ip_sub_right, ip_smul_right, hv i (by omega) t ht]
        rcases Nat.lt_succ_iff_lt_or_eq.1 hi with h3 | rfl
        · rw [h1 i h3, if_neg (by omega)]; simp
        · rw [if_pos rfl]; simp
      · rw [project_vec, ← sub_add]
        exact Submodule.add_mem _ h2 (Submodule.smul_mem _ _
          (Submodule.subset_span ⟨t, ht, rfl⟩)))
  exact this

/-- Row `i` of the stored matrix. -/
def urow (NC : ℕ) (U : Arr ℂ) (i : ℕ) : Fin NC → ℂ := fun c => U (c + NC * i)

/-- Invariant of the modified Gram-Schmidt loop. -/
def GramInv (NC : ℕ) (U0 : Arr ℂ) (k : ℕ) (o : Option ((ℕ → Arr ℂ) × Arr ℂ)) : Prop :=
  match o with
  | none => ¬ LinearIndependent ℂ (fun i : Fin (NC - 1) => urow NC U0 i)
  | some s =>
    (∀ i < k, ∀ j < k, ip (vec NC (s.1 i)) (vec NC (s.1 j)) = if i = j then 1 else 0) ∧
    (∀ i < k, vec NC (s.1 i) ∈ Submodule.span ℂ {x | ∃ j < k, x = urow NC U0 j}) ∧
    (∀ i, k ≤ i → vec NC (s.1 i) = urow NC U0 i) ∧
    (∀ i j, j < NC → s.2 (j + NC * i) = if i < k then s.1 i j else U0 (j + NC * i))

theorem ip_zero_iff {n : ℕ} {x : Fin n → ℂ} (h : x ≠ 0) : (0 : ℝ) < ∑ k, normSq (x k) := by
  refine lt_of_le_of_ne (Finset.sum_nonneg fun k _ => normSq_nonneg _) fun h0 => h ?_
  exact ip_self_eq_zero h0.symm

theorem ip_normalised {n : ℕ} {x : Fin n → ℂ} (h : x ≠ 0) :
    ip (((1 / Real.sqrt (∑ k, normSq (x k)) : ℝ) : ℂ) • x)
      (((1 / Real.sqrt (∑ k, normSq (x k)) : ℝ) : ℂ) • x) = 1 := by
  have h0 := ip_zero_iff h
  rw [ip_smul_left, ip_smul_right, ip_self, star_def, conj_ofReal, ← ofReal_mul, ← ofReal_mul,
    ← ofReal_one]
  congr 1
  have hs := Real.mul_self_sqrt h0.le
  have hp := Real.sqrt_pos.2 h0
  field_simp
  nlinarith

theorem not_li_of_mem_span {n k : ℕ} {N : ℕ} {u : ℕ → Fin N → ℂ} (hk : k < n)
    (h : u k ∈ Submodule.span ℂ {x | ∃ j < k, x = u j}) :
    ¬ LinearIndependent ℂ (fun i : Fin n => u i) := by
  intro hli
  have := hli.notMem_span_image (s := {i : Fin n | (i : ℕ) < k}) (x := ⟨k, hk⟩) (by simp)
  apply this
  refine Submodule.span_mono ?_ h
  rintro x ⟨j, hj, rfl⟩
  exact ⟨⟨j, by omega⟩, hj, rfl⟩

theorem gramStep_inv {NC k : ℕ} (hk : k < NC - 1) {U0 : Arr ℂ} {s : (ℕ → Arr ℂ) × Arr ℂ}
    (h : GramInv NC U0 k (some s)) : GramInv NC U0 (k + 1) (gramStep NC k s) := by
  obtain ⟨h1, h2, h3, h4⟩ := h
  obtain ⟨p1, p2⟩ := project_loop NC k s.1 h1 (s.1 k)
  have hspan : Submodule.span ℂ {x | ∃ i < k, x = vec NC (s.1 i)} ≤
      Submodule.span ℂ {x | ∃ j < k, x = urow NC U0 j} := by
    rw [Submodule.span_le]
    rintro x ⟨i, hi, rfl⟩
    exact h2 i hi
  have hmono : Submodule.span ℂ {x | ∃ j < k, x = urow NC U0 j} ≤
      Submodule.span ℂ {x | ∃ j < k + 1, x = urow NC U0 j} := by
    apply Submodule.span_mono
    rintro x ⟨j, hj, rfl⟩
    exact ⟨j, by omega, rfl⟩
  rw [h3 k (le_refl _)] at p2
  unfold gramStep
  set w := forN k (fun i vk => project NC vk (s.1 i)) (s.1 k) with hw
  rcases vect_norm2_vec NC w with ⟨hn, hz⟩ | ⟨b, hb, hne, hbv⟩
  · rw [hn]
    rw [hz, sub_zero] at p2
    exact not_li_of_mem_span hk (hspan p2)
  · rw [hb]
    have hself : ip (vec NC b) (vec NC b) = 1 := by rw [hbv]; exact ip_normalised hne
    have hortho : ∀ i < k, ip (vec NC (s.1 i)) (vec NC b) = 0 := fun i hi => by
      rw [hbv, ip_smul_right, p1 i hi, mul_zero]
    refine ⟨?_, ?_, ?_, ?_⟩
    · intro i hi j hj
      simp only [Function.update_apply]
      rcases Nat.lt_succ_iff_lt_or_eq.1 hi with hi' | rfl <;>
        rcases Nat.lt_succ_iff_lt_or_eq.1 hj with hj' | rfl
      · rw [if_neg (by omega), if_neg (by omega)]; exact h1 i hi' j hj'
      · rw [if_neg (by omega), if_pos rfl, if_neg (by omega)]; exact hortho i hi'
      · rw [if_pos rfl, if_neg (by omega), if_neg (by omega), ← ip_star, hortho j hj', star_zero]
      · rw [if_pos rfl, if_pos rfl]; exact hself
    · intro i hi
      simp only [Function.update_apply]
      rcases Nat.lt_succ_iff_lt_or_eq.1 hi with hi' | rfl
      · rw [if_neg (by omega)]; exact hmono (h2 i hi')
      · rw [if_pos rfl, hbv]
        apply Submodule.smul_mem
        have hu : urow NC U0 i ∈ Submodule.span ℂ {x | ∃ j < i + 1, x = urow NC U0 j} :=
          Submodule.subset_span ⟨i, by omega, rfl⟩
        have := Submodule.sub_mem _ hu (hmono (hspan p2))
        rwa [sub_sub_cancel] at this
    · intro i hi
      simp only [Function.update_apply]
      rw [if_neg (by omega)]
      exact h3 i (by omega)
    · intro i j hj
      simp only []
      rw [fill_inner, Function.update_apply]
      by_cases hik : i = k
      · subst hik
        rw [if_pos (by omega), if_pos (by omega), if_pos rfl]
        congr 1; omega
      · have hne2 : ¬ (NC * k ≤ j + NC * i ∧ j + NC * i < NC * k + NC) := by
          rintro ⟨a1, a2⟩
          obtain ⟨e, he⟩ : ∃ e, j + NC * i = e + NC * k := ⟨j + NC * i - NC * k, by omega⟩
          exact hik (index_inj hj (by omega) he).1
        rw [if_neg hne2, h4 i j hj, if_neg hik]
        by_cases hlt : i < k
        · rw [if_pos hlt, if_pos (by omega)]
        · rw [if_neg hlt, if_neg (by omega)]

theorem gram_inv (NC : ℕ) (U0 : Arr ℂ) :
    GramInv NC U0 (NC - 1) (forN (NC - 1) (fun k o => o.bind (gramStep NC k))
      (some (fun i j => U0 (j + NC * i), U0))) := by
  refine forN_inv (GramInv NC U0) ⟨by simp, by simp, fun i _ => rfl, by simp⟩ fun k hk o ho => ?_
  cases o with
  | none => exact ho
  | some s => exact gramStep_inv hk ho

/-- On orthonormal rows the loop changes nothing. -/
theorem gram_fixed {NC : ℕ} {U0 : Arr ℂ}
    (h : ∀ i < NC - 1, ∀ j < NC - 1, ip (urow NC U0 i) (urow NC U0 j) = if i = j then 1 else 0) :
    ∃ s, forN (NC - 1) (fun k o => o.bind (gramStep NC k))
      (some (fun i j => U0 (j + NC * i), U0)) = some s ∧
      ∀ i j, j < NC → s.2 (j + NC * i) = U0 (j + NC * i) := by
  have := forN_inv (fun (k : ℕ) (o : Option ((ℕ → Arr ℂ) × Arr ℂ)) =>
      ∃ s, o = some s ∧ (∀ i, vec NC (s.1 i) = urow NC U0 i) ∧
        ∀ i j, j < NC → s.2 (j + NC * i) = U0 (j + NC * i)) (n := NC - 1)
    (body := fun k o => o.bind (gramStep NC k)) (s := some (fun i j => U0 (j + NC * i), U0))
    ⟨_, rfl, fun i => rfl, fun _ _ _ => rfl⟩
    (fun k hk o ho => by
      obtain ⟨s, rfl, hs1, hs2⟩ := ho
      have hproj : vec NC (forN k (fun i vk => project NC vk (s.1 i)) (s.1 k)) = urow NC U0 k := by
        refine forN_inv (fun _ (x : Arr ℂ) => vec NC x = urow NC U0 k) (hs1 k) fun i hi x hx => ?_
        rw [project_vec, hx, hs1, h i (by omega) k hk, if_neg (by omega), zero_smul, sub_zero]
      have hone : ∑ c, normSq (urow NC U0 k c) = 1 := by
        have := h k hk k hk
        rw [ip_self, if_pos rfl] at this
        exact_mod_cast this
      simp only [Option.bind_some]
      unfold gramStep
      rcases vect_norm2_vec NC (forN k (fun i vk => project NC vk (s.1 i)) (s.1 k)) with
        ⟨_, hz⟩ | ⟨b, hb, _, hbv⟩
      · rw [hproj] at hz
        rw [hz] at hone
        simp at hone
      · rw [hproj, hone, Real.sqrt_one, div_one, ofReal_one, one_smul] at hbv
        rw [hb]
        refine ⟨_, rfl, fun i => ?_, fun i j hj => ?_⟩
        · simp only [Function.update_apply]
          split
          · next hik => subst hik; exact hbv
          · exact hs1 i
        · simp only []
          rw [fill_inner]
          split
          · next hin =>
            obtain ⟨e, he⟩ : ∃ e, j + NC * i = e + NC * k := ⟨j + NC * i - NC * k, by omega⟩
            have hel : e < NC := by omega
            obtain ⟨rfl, rfl⟩ := index_inj hj hel he
            rw [Nat.add_sub_cancel]
            exact congrFun hbv ⟨j, hj⟩
          · exact hs2 i j hj)
  obtain ⟨s, hs, _, h2⟩ := this
  exact ⟨s, hs, h2⟩

end GLU.Mat
