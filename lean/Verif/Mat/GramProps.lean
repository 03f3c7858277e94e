import Verif.Mat.GramLemmas

/-!
# Property C15: reunitarisation
-/

namespace GLU.Mat

open Complex Matrix

/-! ## Helpers for three colours -/

/-- Column `k` of a stored 3 x 3 matrix. -/
def col3 (U : Arr ℂ) (k : ℕ) : Fin 3 → ℂ := ![U k, U (3 + k), U (6 + k)]

theorem mk_scale (a b y : ℝ) : (⟨a * y, b * y⟩ : ℂ) = (y : ℂ) * ⟨a, b⟩ := by
  apply Complex.ext <;> simp [mul_comm]

/-- What the three-colour routine does, in vector notation. -/
theorem gram3_cases (U : Arr ℂ) :
    (gram_reunit3 U = none ∧ col3 U 0 = 0) ∨
    (gram_reunit3 U = none ∧ ∃ c : ℂ, col3 U 1 = c • col3 U 0) ∨
    (∃ V, gram_reunit3 U = some V ∧
      col3 V 0 = ((1 / Real.sqrt (∑ k, normSq (col3 U 0 k)) : ℝ) : ℂ) • col3 U 0 ∧
      ip (col3 V 0) (col3 V 0) = 1 ∧
      (∃ w, w = col3 U 1 - ip (col3 V 0) (col3 U 1) • col3 V 0 ∧ w ≠ 0 ∧
        col3 V 1 = ((1 / Real.sqrt (∑ k, normSq (w k)) : ℝ) : ℂ) • w) ∧
      V 2 = conj (V 3 * V 7 - V 6 * V 4) ∧ V 5 = conj (V 6 * V 1 - V 0 * V 7) ∧
      V 8 = conj (V 0 * V 4 - V 3 * V 1)) := by
  unfold gram_reunit3
  extract_lets a0R a0I b0R b0I a1R a1I b1R b1I a2R a2I b2R b2I n0 n1 n2 x p0R p0I p1R p1I p2R p2I
    cR0 cR1 cR cI0 cI1 cI w0R w0I w1R w1I w2R w2I m0 m1 m2 y q0R q0I q1R q1I q2R q2I
    r0R' r0R r0I' r0I r1R' r1R r1I' r1I r2R' r2R r2I' r2I
  have hn : n2 = ∑ k, normSq (col3 U 0 k) := by
    simp only [n2, n1, n0, a0R, a0I, a1R, a1I, a2R, a2I, Fin.sum_univ_three, col3, normSq_apply]
    simp
    ring
  by_cases hz : n2 = 0
  · left
    rw [if_pos hz]
    exact ⟨rfl, ip_self_eq_zero (hn ▸ hz)⟩
  rw [if_neg hz]
  right
  have hx : x = 1 / Real.sqrt (∑ k, normSq (col3 U 0 k)) := by simp only [x, hn]
  let P : Fin 3 → ℂ := ![⟨p0R, p0I⟩, ⟨p1R, p1I⟩, ⟨p2R, p2I⟩]
  have hP : P = ((1 / Real.sqrt (∑ k, normSq (col3 U 0 k)) : ℝ) : ℂ) • col3 U 0 := by
    rw [← hx]
    funext k
    fin_cases k <;> apply Complex.ext <;>
      simp [P, p0R, p0I, p1R, p1I, p2R, p2I, col3, a0R, a0I, a1R, a1I, a2R, a2I, mul_comm]
  have hU0 : col3 U 0 ≠ 0 := by
    intro h0
    rw [h0] at hn
    exact hz (by rw [hn]; simp)
  have hc : (⟨cR, cI⟩ : ℂ) = ip P (col3 U 1) := by
    apply Complex.ext <;>
      simp [ip, dotProduct, Fin.sum_univ_three, P, col3, cR, cR1, cR0, cI, cI1, cI0, b0R, b0I, b1R,
        b1I, b2R, b2I] <;> ring
  let W : Fin 3 → ℂ := ![⟨w0R, w0I⟩, ⟨w1R, w1I⟩, ⟨w2R, w2I⟩]
  have hW : W = col3 U 1 - ip P (col3 U 1) • P := by
    rw [← hc]
    funext k
    fin_cases k <;> apply Complex.ext <;>
      simp [W, P, col3, w0R, w0I, w1R, w1I, w2R, w2I, b0R, b0I, b1R, b1I, b2R, b2I]
  have hm : m2 = ∑ k, normSq (W k) := by
    simp only [m2, m1, m0, Fin.sum_univ_three, W, normSq_apply]
    simp
    ring
  by_cases hmz : m2 = 0
  · left
    rw [if_pos hmz]
    refine ⟨rfl, ip P (col3 U 1) * ((1 / Real.sqrt (∑ k, normSq (col3 U 0 k)) : ℝ) : ℂ), ?_⟩
    have hW0 : W = 0 := ip_self_eq_zero (hm ▸ hmz)
    rw [mul_smul, ← hP]
    exact sub_eq_zero.1 (hW.symm.trans hW0)
  rw [if_neg hmz]
  right
  refine ⟨_, rfl, ?_, ?_, ⟨W, ?_, ?_, ?_⟩, ?_, ?_, ?_⟩
  · rw [← hP]
    funext k
    fin_cases k <;> rfl
  · have : col3 (arr [⟨p0R, p0I⟩, ⟨q0R, q0I⟩, ⟨r0R, r0I⟩, ⟨p1R, p1I⟩, ⟨q1R, q1I⟩, ⟨r1R, r1I⟩,
        ⟨p2R, p2I⟩, ⟨q2R, q2I⟩, ⟨r2R, r2I⟩]) 0 = P := by
      funext k
      fin_cases k <;> rfl
    rw [this, hP]
    exact ip_normalised hU0
  · rw [hW]
    have : col3 (arr [⟨p0R, p0I⟩, ⟨q0R, q0I⟩, ⟨r0R, r0I⟩, ⟨p1R, p1I⟩, ⟨q1R, q1I⟩, ⟨r1R, r1I⟩,
        ⟨p2R, p2I⟩, ⟨q2R, q2I⟩, ⟨r2R, r2I⟩]) 0 = P := by
      funext k
      fin_cases k <;> rfl
    rw [this]
  · intro h0
    rw [h0] at hm
    exact hmz (by rw [hm]; simp)
  · rw [← hm]
    funext k
    fin_cases k
    · exact mk_scale w0R w0I y
    · exact mk_scale w1R w1I y
    · exact mk_scale w2R w2I y
  · clear_value p0R p0I p1R p1I p2R p2I q0R q0I q1R q1I q2R q2I
    apply Complex.ext <;> simp [conj, r0R, r0I, r0R', r0I'] <;> ring
  · clear_value p0R p0I p1R p1I p2R p2I q0R q0I q1R q1I q2R q2I
    apply Complex.ext <;> simp [conj, r1R, r1I, r1R', r1I'] <;> ring
  · clear_value p0R p0I p1R p1I p2R p2I q0R q0I q1R q1I q2R q2I
    apply Complex.ext <;> simp [conj, r2R, r2I, r2R', r2I'] <;> ring

theorem su_transpose {n : ℕ} {A : Matrix (Fin n) (Fin n) ℂ}
    (hA : A ∈ specialUnitaryGroup (Fin n) ℂ) : Aᵀ ∈ specialUnitaryGroup (Fin n) ℂ := by
  obtain ⟨hU, hd⟩ := mem_specialUnitaryGroup_iff.1 hA
  refine mem_specialUnitaryGroup_iff.2 ⟨?_, by rw [det_transpose, hd]⟩
  rw [mem_unitaryGroup_iff', star_eq_conjTranspose]
  have h : A * Aᴴ = 1 := mem_unitaryGroup_iff.1 hU
  have h2 := congrArg Matrix.transpose h
  rw [transpose_mul, transpose_one] at h2
  exact h2

theorem toM3_transpose_row (V : Arr ℂ) (k : Fin 3) : (toM 3 V)ᵀ k = col3 V k := by
  funext c
  fin_cases k <;> fin_cases c <;> rfl

/-- Orthonormal first columns with the cross product as third column. -/
theorem su_of_columns {V : Arr ℂ} (h0 : ip (col3 V 0) (col3 V 0) = 1)
    (h1 : ip (col3 V 1) (col3 V 1) = 1) (h01 : ip (col3 V 0) (col3 V 1) = 0)
    (h2 : V 2 = conj (V 3 * V 7 - V 6 * V 4)) (h5 : V 5 = conj (V 6 * V 1 - V 0 * V 7))
    (h8 : V 8 = conj (V 0 * V 4 - V 3 * V 1)) : IsSU 3 V := by
  have : (toM 3 V)ᵀ ∈ specialUnitaryGroup (Fin 3) ℂ := by
    apply su_of_rows (m := 2)
    · intro i j hi hj
      rw [toM3_transpose_row, toM3_transpose_row]
      fin_cases i <;> fin_cases j
      · exact h0
      · exact h01
      · exact absurd rfl hj
      · have : ip (col3 V 1) (col3 V 0) = 0 := by rw [← ip_star, h01, star_zero]
        exact this
      · exact h1
      · exact absurd rfl hj
      · exact absurd rfl hi
      · exact absurd rfl hi
      · exact absurd rfl hi
    · intro c
      rw [adjugate_fin_three]
      fin_cases c
      · simp [Matrix.transpose_apply, Fin.last, h2, conj]
      · simp [Matrix.transpose_apply, Fin.last, h5, conj]
        ring
      · simp [Matrix.transpose_apply, Fin.last, h8, conj]
  have h := su_transpose this
  rwa [transpose_transpose] at h

theorem gram3_su {U V : Arr ℂ} (h : gram_reunit3 U = some V) : IsSU 3 V := by
  rcases gram3_cases U with ⟨hn, _⟩ | ⟨hn, _⟩ | ⟨V', hV, hc0, hn0, ⟨w, hw, hw0, hc1⟩, h2, h5, h8⟩
  · rw [hn] at h; cases h
  · rw [hn] at h; cases h
  · rw [hV] at h
    obtain rfl := Option.some.inj h
    refine su_of_columns hn0 ?_ ?_ h2 h5 h8
    · rw [hc1]; exact ip_normalised hw0
    · rw [hc1, ip_smul_right, hw, ip_sub_right, ip_smul_right, hn0]
      ring

theorem gram3_fixed {U : Arr ℂ} (h : IsSU 3 U) :
    ∃ V, gram_reunit3 U = some V ∧ toM 3 V = toM 3 U := by
  have hT := su_transpose h
  obtain ⟨hU, -⟩ := mem_specialUnitaryGroup_iff.1 hT
  have hone : (toM 3 U)ᵀ * ((toM 3 U)ᵀ)ᴴ = 1 := mem_unitaryGroup_iff.1 hU
  have hip : ∀ i j : Fin 3, ip (col3 U i) (col3 U j) = if i = j then 1 else 0 := fun i j => by
    rw [← toM3_transpose_row, ← toM3_transpose_row, ← mul_conj_entry, hone, Matrix.one_apply]
    by_cases hij : i = j
    · rw [if_pos hij, if_pos hij.symm]
    · rw [if_neg hij, if_neg (Ne.symm hij)]
  have e00 : ip (col3 U 0) (col3 U 0) = 1 := by simpa using hip 0 0
  have e11 : ip (col3 U 1) (col3 U 1) = 1 := by simpa using hip 1 1
  have e01 : ip (col3 U 0) (col3 U 1) = 0 := by simpa using hip 0 1
  have s0 : ∑ k, normSq (col3 U 0 k) = 1 := by rw [ip_self] at e00; exact_mod_cast e00
  have s1 : ∑ k, normSq (col3 U 1 k) = 1 := by rw [ip_self] at e11; exact_mod_cast e11
  rcases gram3_cases U with ⟨hn, hz⟩ | ⟨hn, c, hc⟩ | ⟨V, hV, hc0, hn0, ⟨w, hw, hw0, hc1⟩, h2, h5, h8⟩
  · rw [hz] at s0; simp at s0
  · rw [hc, ip_smul_right, e00, mul_one] at e01
    rw [hc, e01, zero_smul] at s1
    simp at s1
  · refine ⟨V, hV, ?_⟩
    rw [s0, Real.sqrt_one, div_one, ofReal_one, one_smul] at hc0
    rw [hc0, e01, zero_smul, sub_zero] at hw
    subst hw
    rw [s1, Real.sqrt_one, div_one, ofReal_one, one_smul] at hc1
    obtain ⟨r0, r1, r2⟩ := su3_row hT
    have a0 : V 0 = U 0 := congrFun hc0 0
    have a3 : V 3 = U 3 := congrFun hc0 1
    have a6 : V 6 = U 6 := congrFun hc0 2
    have a1 : V 1 = U 1 := congrFun hc1 0
    have a4 : V 4 = U 4 := congrFun hc1 1
    have a7 : V 7 = U 7 := congrFun hc1 2
    rw [a3, a7, a6, a4] at h2
    rw [a6, a1, a0, a7] at h5
    rw [a0, a4, a3, a1] at h8
    ext i j
    fin_cases i <;> fin_cases j
    · exact a0
    · exact a1
    · exact h2.trans r0.symm
    · exact a3
    · exact a4
    · exact h5.trans r1.symm
    · exact a6
    · exact a7
    · exact h8.trans r2.symm

/-! ## The property -/

/-- The vectors that are kept: the first `NC-1` columns for two and three colours, the
first `NC-1` rows otherwise. -/
def leading (NC : ℕ) (U : Arr ℂ) (k : Fin (NC - 1)) : Fin NC → ℂ := fun c =>
  if NC ≤ 3 then U (k + NC * c) else U (c + NC * k)

/-- C15: whenever the routine does not divide by zero the result is special unitary, for
every number of colours. -/
theorem C15_special_unitary {NC : ℕ} (hN : 1 < NC) {U array V : Arr ℂ}
    (h : gram_reunit NC U array = some V) : IsSU NC V := by
  unfold gram_reunit at h
  split at h
  · next h3 => subst h3; exact gram3_su h
  · split at h
    · next h2 =>
      subst h2
      unfold gram_reunit2 at h
      simp only [] at h
      split at h
      · cases h
      · next hs =>
        obtain rfl := Option.some.inj h
        set n := (U 0).re * (U 0).re + (U 0).im * (U 0).im + (U 2).re * (U 2).re +
          (U 2).im * (U 2).im with hn
        have hn0 : 0 ≤ n := by
          rw [hn]
          nlinarith [sq_nonneg (U 0).re, sq_nonneg (U 0).im, sq_nonneg (U 2).re,
            sq_nonneg (U 2).im]
        have hmul := Real.mul_self_sqrt hn0
        have hq : n * (1 / Real.sqrt n) * (1 / Real.sqrt n) = 1 := by
          field_simp
          nlinarith
        set q := 1 / Real.sqrt n
        have key : ((U 0).re * (U 0).re + (U 0).im * (U 0).im + (U 2).re * (U 2).re +
          (U 2).im * (U 2).im) * q * q = 1 := hq
        refine mem_specialUnitaryGroup_iff.2 ⟨?_, ?_⟩
        · rw [mem_unitaryGroup_iff]
          ext i j
          fin_cases i <;> fin_cases j <;>
            simp [Matrix.mul_apply, Fin.sum_univ_two, Matrix.star_apply] <;>
            apply Complex.ext <;> simp <;> linarith
        · rw [det_fin_two]
          apply Complex.ext <;> simp <;> linarith
    · obtain ⟨m, rfl⟩ : ∃ m, NC = m + 1 := ⟨NC - 1, by omega⟩
      unfold gram_reunitN at h
      have inv := gram_inv (m + 1) U
      rw [Option.map_eq_some_iff] at h
      obtain ⟨s, hs, rfl⟩ := h
      rw [hs] at inv
      obtain ⟨h1, -, -, h4⟩ := inv
      rw [Nat.add_sub_cancel] at h1 h4
      have hrow : ∀ i : Fin (m + 1), i ≠ Fin.last m → ∀ c,
          toM (m + 1) (completeBottom (m + 1) s.2 array) i c = vec (m + 1) (s.1 i) c := by
        intro i hi c
        have hlt : (i : ℕ) < m := by
          have := i.2
          have : (i : ℕ) ≠ m := fun h => hi (Fin.ext h)
          omega
        rw [completeBottom_apply (by omega), if_neg hi, toM_apply, h4 i c c.2, if_pos hlt]
        rfl
      apply su_of_rows
      · intro i j hi hj
        rw [show toM (m + 1) (completeBottom (m + 1) s.2 array) i = vec (m + 1) (s.1 i) from
            funext (hrow i hi),
          show toM (m + 1) (completeBottom (m + 1) s.2 array) j = vec (m + 1) (s.1 j) from
            funext (hrow j hj)]
        have hi' : (i : ℕ) ≠ m := fun h => hi (Fin.ext h)
        have hj' : (j : ℕ) ≠ m := fun h => hj (Fin.ext h)
        rw [h1 i (by omega) j (by omega)]
        simp [Fin.ext_iff]
      · intro c
        rw [completeBottom_apply (by omega), if_pos rfl]
        congr 1
        refine adjugate_last_congr (fun i j hi => ?_) c
        rw [completeBottom_apply (by omega), if_neg hi]

/-- C15: the routine does not divide by zero when the leading vectors are linearly
independent. -/
theorem C15_defined {NC : ℕ} (hN : 1 < NC) {U : Arr ℂ} (array : Arr ℂ)
    (h : LinearIndependent ℂ (leading NC U)) : ∃ V, gram_reunit NC U array = some V := by
  unfold gram_reunit
  split
  · next h3 =>
    subst h3
    have e0 : leading 3 U 0 = col3 U 0 := by
      funext c; fin_cases c <;> rfl
    have e1 : leading 3 U 1 = col3 U 1 := by
      funext c; fin_cases c <;> rfl
    rcases gram3_cases U with ⟨-, hz⟩ | ⟨-, c, hc⟩ | ⟨V, hV, -⟩
    · exact absurd (e0.trans hz) (h.ne_zero 0)
    · exfalso
      have := linearIndependent_iff'.1 h Finset.univ ![c, -1] (by
        rw [show (Finset.univ : Finset (Fin (3 - 1))) = {0, 1} from rfl]
        rw [Finset.sum_pair (by decide), e0, e1, hc]
        simp) 1 (Finset.mem_univ _)
      simp at this
    · exact ⟨V, hV⟩
  · split
    · next h2 =>
      subst h2
      unfold gram_reunit2
      simp only []
      rw [if_neg]
      · exact ⟨_, rfl⟩
      · intro hs
        have hn0 : 0 ≤ (U 0).re * (U 0).re + (U 0).im * (U 0).im + (U 2).re * (U 2).re +
          (U 2).im * (U 2).im := by
          nlinarith [sq_nonneg (U 0).re, sq_nonneg (U 0).im, sq_nonneg (U 2).re,
            sq_nonneg (U 2).im]
        have hz := (Real.sqrt_eq_zero hn0).1 hs
        apply h.ne_zero 0
        funext c
        have a0 : (U 0).re = 0 := by
          nlinarith [sq_nonneg (U 0).re, sq_nonneg (U 0).im, sq_nonneg (U 2).re,
            sq_nonneg (U 2).im]
        have a1 : (U 0).im = 0 := by
          nlinarith [sq_nonneg (U 0).re, sq_nonneg (U 0).im, sq_nonneg (U 2).re,
            sq_nonneg (U 2).im]
        have a2 : (U 2).re = 0 := by
          nlinarith [sq_nonneg (U 0).re, sq_nonneg (U 0).im, sq_nonneg (U 2).re,
            sq_nonneg (U 2).im]
        have a3 : (U 2).im = 0 := by
          nlinarith [sq_nonneg (U 0).re, sq_nonneg (U 0).im, sq_nonneg (U 2).re,
            sq_nonneg (U 2).im]
        fin_cases c
        · exact Complex.ext a0 a1
        · exact Complex.ext a2 a3
    · next h3 h2 =>
      have inv := gram_inv NC U
      unfold gram_reunitN
      cases hf : forN (NC - 1) (fun k o => o.bind (gramStep NC k))
          (some (fun i j => U (j + NC * i), U)) with
      | some s => exact ⟨_, rfl⟩
      | none =>
        rw [hf] at inv
        refine absurd ?_ inv
        have : leading NC U = fun i : Fin (NC - 1) => urow NC U i := by
          funext k c
          unfold leading urow
          rw [if_neg (by omega)]
        rwa [this] at h

/-- C15: special unitary matrices are left unchanged, for every number of colours. -/
theorem C15_fixes {NC : ℕ} (hN : 1 < NC) {U : Arr ℂ} (array : Arr ℂ) (h : IsSU NC U) :
    ∃ V, gram_reunit NC U array = some V ∧ toM NC V = toM NC U := by
  unfold gram_reunit
  split
  · next h3 => subst h3; exact gram3_fixed h
  · split
    · next h2 =>
      subst h2
      obtain ⟨r0, r1⟩ := su2_row h
      have hd := (mem_specialUnitaryGroup_iff.1 h).2
      rw [det_fin_two] at hd
      simp only [toM_apply] at r0 r1 hd
      norm_num at r0 r1 hd
      have e2 : U 1 = -conj (U 2) := by rw [r0]; simp [conj]
      have hn : (U 0).re * (U 0).re + (U 0).im * (U 0).im + (U 2).re * (U 2).re +
          (U 2).im * (U 2).im = 1 := by
        have := congrArg Complex.re hd
        rw [r1, e2] at this
        simp [conj] at this
        linarith
      unfold gram_reunit2
      simp only []
      rw [hn, Real.sqrt_one, if_neg one_ne_zero]
      refine ⟨_, rfl, ?_⟩
      ext i j
      fin_cases i <;> fin_cases j
      · apply Complex.ext <;> simp
      · have : toM 2 U 0 1 = -conj (U 2) := e2
        simp only [Fin.mk_one, Fin.zero_eta, this]
        apply Complex.ext <;> simp [conj]
      · apply Complex.ext <;> simp
      · have : toM 2 U 1 1 = star (U 0) := r1
        simp only [Fin.mk_one, this]
        apply Complex.ext <;> simp
    · obtain ⟨m, rfl⟩ : ∃ m, NC = m + 1 := ⟨NC - 1, by omega⟩
      obtain ⟨hU, -⟩ := mem_specialUnitaryGroup_iff.1 h
      have hone : toM (m + 1) U * (toM (m + 1) U)ᴴ = 1 := mem_unitaryGroup_iff.1 hU
      obtain ⟨s, hs, hs2⟩ := gram_fixed (NC := m + 1) (U0 := U) (by
        intro i hi j hj
        have := congrFun (congrFun hone ⟨j, by omega⟩) ⟨i, by omega⟩
        rw [mul_conj_entry, Matrix.one_apply] at this
        refine Eq.trans this ?_
        simp only [Fin.mk.injEq]
        by_cases hij : i = j
        · rw [if_pos hij, if_pos hij.symm]
        · rw [if_neg hij, if_neg (Ne.symm hij)])
      unfold gram_reunitN
      rw [hs]
      refine ⟨_, rfl, ?_⟩
      have hM : toM (m + 1) s.2 = toM (m + 1) U := toM_ext fun i _ j hj => hs2 i j hj
      ext r c
      rw [completeBottom_apply (by omega), hM]
      split
      · next hr => rw [su_adjugate h, conjTranspose_apply, star_star, hr]
      · rfl

/-- Non-vacuity: a matrix that is far from unitary has independent leading columns. -/
example : ∃ V, gram_reunit 3 (arr [2, 1, 0, 0, 3 * I, 0, 0, 0, 0]) (arr []) = some V ∧ IsSU 3 V := by
  obtain ⟨V, hV⟩ := C15_defined (NC := 3) (by norm_num) (arr [])
    (U := arr [2, 1, 0, 0, 3 * I, 0, 0, 0, 0]) (by
      have e : leading 3 (arr [2, 1, 0, 0, 3 * I, 0, 0, 0, 0]) = ![![2, 0, 0], ![1, 3 * I, 0]] := by
        funext k c
        fin_cases k <;> fin_cases c <;> simp [leading]
      rw [e, LinearIndependent.pair_iff]
      intro s t h
      have h0 := congrFun h 0
      have h1 := congrFun h 1
      simp at h0 h1
      subst h1
      simpa using h0)
  exact ⟨V, hV, C15_special_unitary (by norm_num) hV⟩

end GLU.Mat
