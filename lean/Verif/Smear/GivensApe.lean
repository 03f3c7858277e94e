import Verif.Smear.GivensFixed

/-! # C84: the APE link, and what goes wrong with it for three colours -/

namespace GLU.Smear

open Complex Matrix GLU.Mat GLU.Update

theorem apeSum_toM (NC : ℕ) (al alpha : ℝ) (link staple : Arr ℂ) :
    toM NC (apeSum al alpha link staple) = (al : ℂ) • toM NC link + (alpha : ℂ) • toM NC staple := by
  ext i j
  simp [apeSum, toM]

/-- **C84**, the APE link: whenever it is defined it is special unitary and at least as near to the weighted sum of link and
staples as the Gram-Schmidt guess for that sum. -/
theorem C84_ape {NC : ℕ} (hN : 1 < NC) {staple link array W : Arr ℂ} {alpha al : ℝ}
    (h : project_APE NC staple link alpha al array = some W) :
    IsSU NC W ∧ ∃ S G : Arr ℂ, toM NC S = (al : ℂ) • toM NC link + (alpha : ℂ) • toM NC staple ∧
      gram_reunit NC S array = some G ∧ dist2 (toM NC S) (toM NC W) ≤ dist2 (toM NC S) (toM NC G) := by
  obtain ⟨h1, G, h2, -, h3⟩ := C84_projection hN h
  exact ⟨h1, _, G, apeSum_toM NC al alpha link staple, h2, h3⟩

/-- **C84**, the APE link does not move if the staples agree with the link. -/
theorem C84_ape_still {NC : ℕ} (hN : 1 < NC) {staple link : Arr ℂ} (array : Arr ℂ) {alpha al : ℝ} (hl : IsSU NC link) {m : ℝ}
    (hs : toM NC staple = (m : ℂ) • toM NC link) (hp : 0 < al + alpha * m) :
    ∃ W, project_APE NC staple link alpha al array = some W ∧ toM NC W = toM NC link := by
  refine C84_fixes hN array hl hp ?_
  rw [apeSum_toM, hs, smul_smul, ← add_smul]
  push_cast
  rfl

theorem su_entry_re_le {n : ℕ} {A : Matrix (Fin n) (Fin n) ℂ} (hA : A ∈ specialUnitaryGroup (Fin n) ℂ) (i j : Fin n) :
    (A i j).re ≤ 1 := by
  have h := congrFun (congrFun (unitary_mul_star hA) i) i
  rw [one_apply_eq, Matrix.mul_apply] at h
  have h' := congrArg Complex.re h
  rw [re_sum, one_re] at h'
  have e : ∀ k, (A i k * Aᴴ k i).re = normSq (A i k) := by
    intro k; rw [conjTranspose_apply, Complex.star_def, mul_conj, ofReal_re]
  simp only [e] at h'
  have := Finset.single_le_sum (f := fun k => normSq (A i k)) (fun k _ => normSq_nonneg _) (Finset.mem_univ j)
  rw [h'] at this
  rw [normSq_apply] at this
  nlinarith [mul_self_nonneg (A i j).im]

/-- **C84**, when the APE link is defined: the weights are not negative and add up to one, and the Gram-Schmidt guess for the
sum has an overlap with it above `NC - 2`. -/
theorem C84_ape_defined {NC : ℕ} (hN : 1 < NC) {staple link array G : Arr ℂ} {alpha al : ℝ} (hl : IsSU NC link)
    {m : ℕ} {S : ℕ → Matrix (Fin NC) (Fin NC) ℂ} (hS : ∀ k < m, S k ∈ specialUnitaryGroup (Fin NC) ℂ)
    (hs : toM NC staple = ∑ k ∈ Finset.range m, S k) (ha : 0 ≤ alpha) (hal : 0 ≤ al) (h1 : al + m * alpha = 1)
    (hG : gram_reunit NC (apeSum al alpha link staple) array = some G)
    (ho : (NC - 2 : ℝ) < overlap (toM NC (apeSum al alpha link staple)) (toM NC G)) :
    ∃ W, project_APE NC staple link alpha al array = some W := by
  refine C84_defined hN hG (B := 1) (fun V hV i => ?_) (by rw [mul_one]; exact ho)
  have e : ((toM NC (apeSum al alpha link staple) * Vᴴ) i i).re =
      al * ((toM NC link * Vᴴ) i i).re + alpha * ∑ k ∈ Finset.range m, ((S k * Vᴴ) i i).re := by
    rw [apeSum_toM, hs, Matrix.add_mul, Matrix.smul_mul, Matrix.smul_mul, Finset.sum_mul, Matrix.add_apply, Matrix.smul_apply,
      Matrix.smul_apply, smul_eq_mul, smul_eq_mul, add_re, re_ofReal_mul, re_ofReal_mul, Matrix.sum_apply, re_sum]
  rw [e, ← h1]
  have b1 := su_entry_re_le (isSU_mul hl (isSU_star hV)) i i
  have b2 : ∑ k ∈ Finset.range m, ((S k * Vᴴ) i i).re ≤ m := by
    have := Finset.sum_le_card_nsmul (Finset.range m) (fun k => ((S k * Vᴴ) i i).re) 1
      (fun k hk => su_entry_re_le (isSU_mul (hS k (Finset.mem_range.1 hk)) (isSU_star hV)) i i)
    simpa using this
  nlinarith [mul_le_mul_of_nonneg_left b1 hal, mul_le_mul_of_nonneg_left b2 ha]

/-- **C84**, two colours: the APE link transforms like the link. -/
theorem C84_ape_covariant_two {staple link staple' link' array array' W X : Arr ℂ} {alpha al : ℝ}
    (h : project_APE 2 staple link alpha al array = some W) (h' : project_APE 2 staple' link' alpha al array' = some X)
    {A B : Matrix (Fin 2) (Fin 2) ℂ} (hA : A ∈ specialUnitaryGroup (Fin 2) ℂ) (hB : B ∈ specialUnitaryGroup (Fin 2) ℂ)
    (hl : toM 2 link' = A * toM 2 link * B) (hs : toM 2 staple' = A * toM 2 staple * B) :
    toM 2 X = A * toM 2 W * B := by
  refine C84_covariant_two h h' hA hB ?_
  rw [apeSum_toM, apeSum_toM, hl, hs, Matrix.mul_add, Matrix.add_mul, Matrix.mul_smul, Matrix.mul_smul, Matrix.smul_mul,
    Matrix.smul_mul]

/-! ## Three colours: fields on which the projection fails -/

theorem sweep3 (s : Arr ℂ × Arr ℂ) :
    givensSweep 3 s = ((givensRotation 3 0 s).bind (givensRotation 3 1)).bind (givensRotation 3 2) := rfl

/-- `A diag( z , z , -1 )`. -/
def turn (A : Arr ℂ) (z : ℂ) : Arr ℂ :=
  arr [A 0 * z, A 1 * z, -A 2, A 3 * z, A 4 * z, -A 5, A 6 * z, A 7 * z, -A 8]

theorem turn_toM (A : Arr ℂ) (z : ℂ) : toM 3 (turn A z) = toM 3 A * diagonal ![z, z, -1] := by
  ext i j
  rw [mul_diagonal]
  fin_cases i <;> fin_cases j <;> simp [turn, toM, arr]

theorem turn_su {A : Arr ℂ} (hA : IsSU 3 A) {z : ℂ} (hz : z * star z = 1) (hz2 : z * z = -1) : IsSU 3 (turn A z) := by
  unfold IsSU
  rw [turn_toM]
  refine isSU_mul hA (mem_specialUnitaryGroup_iff.2 ⟨mem_unitaryGroup_iff.2 ?_, ?_⟩)
  · rw [star_eq_conjTranspose, diagonal_conjTranspose, diagonal_mul_diagonal, ← diagonal_one]
    congr 1
    funext i
    fin_cases i <;> simp <;> exact hz
  · rw [det_diagonal, Fin.prod_univ_three]
    simp [hz2]

/-- Three of either kind. -/
def sixStaples (A : Arr ℂ) : Arr ℂ := fun n => 3 * turn A I n + 3 * turn A (-I) n

theorem six_sum (A : Arr ℂ) : toM 3 (apeSum (1 - 0.8) (0.8 / 6) A (sixStaples A)) =
    toM 3 A * diagonal ![1 / 5, 1 / 5, -(3 / 5)] := by
  have e : toM 3 (sixStaples A) = (3 : ℂ) • toM 3 (turn A I) + (3 : ℂ) • toM 3 (turn A (-I)) := by
    ext i j; simp [sixStaples, toM]
  rw [apeSum_toM, e, turn_toM, turn_toM]
  ext i j
  simp only [Matrix.add_apply, Matrix.smul_apply, mul_diagonal, smul_eq_mul]
  fin_cases j <;> simp <;> ring

theorem six_start {A : Arr ℂ} (hA : IsSU 3 A) (array : Arr ℂ) :
    ∃ G, gram_reunit 3 (apeSum (1 - 0.8) (0.8 / 6) A (sixStaples A)) array = some G ∧ toM 3 G = toM 3 A := by
  refine gram_scaled (by norm_num) array hA (c := 1 / 5) (by norm_num) fun k hk => ?_
  funext c
  rw [Pi.smul_apply]
  unfold lead
  rw [if_pos (by norm_num), if_pos (by norm_num)]
  have h := congrFun (congrFun (six_sum A) c) ⟨k, by omega⟩
  rw [mul_diagonal, toM_apply, toM_apply] at h
  dsimp only at h
  rw [h, smul_eq_mul, mul_comm]
  congr 1
  have : k = 0 ∨ k = 1 := by omega
  rcases this with rfl | rfl <;> simp

theorem rowsOf30 : rowsOf 3 0 = (0, 1) := rfl
theorem rowsOf31 : rowsOf 3 1 = (1, 2) := rfl
theorem rowsOf32 : rowsOf 3 2 = (2, 0) := rfl

theorem sign3 (p q : Fin 3) {x : ℝ} (hx : x < 0) : subgroupMatrix p q ((x / |x| : ℝ) : ℂ) 0 = subgroupMatrix p q (-1) 0 := by
  rw [abs_of_neg hx, div_neg, div_self hx.ne]; simp

theorem sign3' {p q : Fin 3} (h : p ≠ q) {x : ℝ} (hx : 0 < x) : subgroupMatrix p q ((x / |x| : ℝ) : ℂ) 0 = 1 := by
  rw [abs_of_pos hx, div_self hx.ne', ofReal_one, subgroup_one h]

/-- A rotation of three colours by a sign, for a given matrix. -/
theorem rot3 {k : ℕ} (hk : k < 3) {s : Arr ℂ × Arr ℂ} (hw : IsSU 3 s.2) {A : Matrix (Fin 3) (Fin 3) ℂ} (hA : toM 3 s.1 = A)
    (p q : Fin 3) (hpq : ((p : ℕ), (q : ℕ)) = rowsOf 3 k) {x : ℝ} (hx : x ≠ 0)
    (h0 : A p p + star (A q q) = (x : ℂ)) (h1 : A p q = star (A q p)) :
    ∃ s', givensRotation 3 k s = some s' ∧ IsSU 3 s'.2 ∧ toM 3 s'.1 = A * (subgroupMatrix p q ((x / |x| : ℝ) : ℂ) 0)ᴴ ∧
      toM 3 s'.2 = subgroupMatrix p q ((x / |x| : ℝ) : ℂ) 0 * toM 3 s.2 := by
  subst hA
  exact rotation_real (NC := 3) hk hw p q hpq hx h0 h1

theorem rot3_plus {k : ℕ} (hk : k < 3) {s : Arr ℂ × Arr ℂ} (hw : IsSU 3 s.2) {A : Matrix (Fin 3) (Fin 3) ℂ}
    (hA : toM 3 s.1 = A) (p q : Fin 3) (hpq : ((p : ℕ), (q : ℕ)) = rowsOf 3 k) {x : ℝ} (hx : 0 < x)
    (h0 : A p p + star (A q q) = (x : ℂ)) (h1 : A p q = star (A q p)) :
    ∃ s', givensRotation 3 k s = some s' ∧ IsSU 3 s'.2 ∧ toM 3 s'.1 = A ∧ toM 3 s'.2 = toM 3 s.2 := by
  have hne : p ≠ q := fun e => (rowsOf_spec (NC := 3) (by norm_num) hk).2.2 (by rw [← hpq, e])
  obtain ⟨s', a, b, c, d⟩ := rot3 hk hw hA p q hpq hx.ne' h0 h1
  rw [sign3' hne hx] at c d
  exact ⟨s', a, b, by rw [c, conjTranspose_one, Matrix.mul_one], by rw [d, Matrix.one_mul]⟩

theorem rot3_minus {k : ℕ} (hk : k < 3) {s : Arr ℂ × Arr ℂ} (hw : IsSU 3 s.2) {A : Matrix (Fin 3) (Fin 3) ℂ}
    (hA : toM 3 s.1 = A) (p q : Fin 3) (hpq : ((p : ℕ), (q : ℕ)) = rowsOf 3 k) {x : ℝ} (hx : x < 0)
    (h0 : A p p + star (A q q) = (x : ℂ)) (h1 : A p q = star (A q p)) {A' : Matrix (Fin 3) (Fin 3) ℂ}
    (hA' : A * (subgroupMatrix p q (-1) 0)ᴴ = A') :
    ∃ s', givensRotation 3 k s = some s' ∧ IsSU 3 s'.2 ∧ toM 3 s'.1 = A' ∧
      toM 3 s'.2 = subgroupMatrix p q (-1) 0 * toM 3 s.2 := by
  obtain ⟨s', a, b, c, d⟩ := rot3 hk hw hA p q hpq hx.ne h0 h1
  rw [sign3 p q hx] at c d
  exact ⟨s', a, b, c.trans hA', d⟩

theorem sub12 (A : Matrix (Fin 3) (Fin 3) ℂ) : A * (subgroupMatrix 1 2 (-1) 0)ᴴ =
    !![A 0 0, -A 0 1, -A 0 2; A 1 0, -A 1 1, -A 1 2; A 2 0, -A 2 1, -A 2 2] := by
  ext i j
  rw [mul_subgroup (by decide)]
  fin_cases i <;> fin_cases j <;> simp

theorem sub01 (A : Matrix (Fin 3) (Fin 3) ℂ) : A * (subgroupMatrix 0 1 (-1) 0)ᴴ =
    !![-A 0 0, -A 0 1, A 0 2; -A 1 0, -A 1 1, A 1 2; -A 2 0, -A 2 1, A 2 2] := by
  ext i j
  rw [mul_subgroup (by decide)]
  fin_cases i <;> fin_cases j <;> simp

/-- The unit matrix, as the code stores it. -/
def unit3 : Arr ℂ := arr [1, 0, 0, 0, 1, 0, 0, 0, 1]

theorem unit3_toM : toM 3 unit3 = 1 := by
  ext i j
  fin_cases i <;> fin_cases j <;> simp [unit3, toM, arr]

theorem unit3_su : IsSU 3 unit3 := by unfold IsSU; rw [unit3_toM]; exact one_mem _

theorem I_unit : (I : ℂ) * star I = 1 := by simp
theorem I_sq' : (I : ℂ) * I = -1 := I_mul_I

theorem trace3 (A : Matrix (Fin 3) (Fin 3) ℂ) : A.trace = A 0 0 + A 1 1 + A 2 2 := by
  simp [Matrix.trace, Fin.sum_univ_three]

theorem tol3 : Utils.PREC_TOL 3 < 1 / 10 := by unfold Utils.PREC_TOL; norm_num

/-- C84 does not hold for every field: there is a special unitary link with six special unitary staples for which APE smearing
with `alpha = 0.8` divides zero by zero, with the storage of `gram_reunit` as it may be. -/
theorem C84_undefined_fails : ∃ link s1 s2 : Arr ℂ, IsSU 3 link ∧ IsSU 3 s1 ∧ IsSU 3 s2 ∧
    ∀ array, project_APE 3 (fun n => 3 * s1 n + 3 * s2 n) link (0.8 / 6) (1 - 0.8) array = none := by
  refine ⟨unit3, turn unit3 I, turn unit3 (-I), unit3_su, turn_su unit3_su I_unit I_sq', turn_su unit3_su (by simp) (by simp),
    fun array => ?_⟩
  obtain ⟨G, hG, hGA⟩ := six_start unit3_su array
  have hsu := C15_special_unitary (by norm_num) hG
  have hU : toM 3 (multab_dag 3 (apeSum (1 - 0.8) (0.8 / 6) unit3 (sixStaples unit3)) G
      (apeSum (1 - 0.8) (0.8 / 6) unit3 (sixStaples unit3))) = !![1 / 5, 0, 0; 0, 1 / 5, 0; 0, 0, -(3 / 5)] := by
    rw [C10_multab_dag, six_sum, hGA, unit3_toM, conjTranspose_one, Matrix.mul_one, Matrix.one_mul]
    ext i j
    fin_cases i <;> fin_cases j <;> simp
  change project_APE 3 (sixStaples unit3) unit3 (0.8 / 6) (1 - 0.8) array = none
  unfold project_APE givens_reunit
  rw [hG]
  dsimp only [Option.bind]
  generalize multab_dag 3 (apeSum (1 - 0.8) (0.8 / 6) unit3 (sixStaples unit3)) G
      (apeSum (1 - 0.8) (0.8 / 6) unit3 (sixStaples unit3)) = U at hU ⊢
  obtain ⟨s1, a1, a2, a3, a4⟩ := rot3_plus (k := 0) (by norm_num) (s := (U, G)) hsu hU 0 1 rfl (x := 2 / 5) (by norm_num)
    (by simp; norm_num) (by simp)
  obtain ⟨s2, b1, b2, b3, b4⟩ := rot3_minus (k := 1) (by norm_num) a2 a3 1 2 rfl (x := -(2 / 5)) (by norm_num)
    (by simp; norm_num) (by simp) (sub12 _)
  obtain ⟨s3, c1, c2, c3, c4⟩ := rot3_plus (k := 2) (by norm_num) b2 b3 2 0 rfl (x := 4 / 5) (by norm_num)
    (by simp; norm_num) (by simp)
  have hs : givensSweep 3 (U, G) = some s3 := by
    rw [sweep3, a1]; dsimp only [Option.bind]; rw [b1]; exact c1
  have hs' : givensSweep 3 s3 = none := by
    have : givensRotation 3 0 s3 = none := by
      unfold givensRotation
      rw [block_eq (NC := 3) (k := 0) (by decide) 0 1 rfl rfl, c3, normalise_none.2 (by simp)]
      rfl
    rw [sweep3, this]
    rfl
  have t1 : speed_trace_Re 3 U = -(1 / 5) := by
    rw [C12_speed_trace_Re, hU, trace3]; simp; norm_num
  have t2 : speed_trace_Re 3 s3.1 = 3 / 5 := by
    rw [C12_speed_trace_Re, c3, trace3]; simp
  have : givensLoop 3 75 (speed_trace_Re 3 U) (U, G) = none := by
    rw [show (75 : ℕ) = 73 + 1 + 1 from rfl, givensLoop, hs]
    dsimp only [Option.bind]
    rw [if_neg (by norm_num), t1, t2, if_neg, givensLoop, hs']
    · rfl
    · intro h
      have := h.2.trans tol3
      norm_num at this
  rw [this]
  rfl

/-- The loop from a start on which the first sweep raises the trace from `-1/5` to `3/5` and the second does nothing. -/
theorem two_sweeps {U G : Arr ℂ} {s s' : Arr ℂ × Arr ℂ} (h1 : givensSweep 3 (U, G) = some s) (h2 : givensSweep 3 s = some s')
    (he : toM 3 s'.1 = toM 3 s.1) (t1 : (toM 3 U).trace = -(1 / 5)) (t2 : (toM 3 s.1).trace = 3 / 5) :
    givensLoop 3 75 (speed_trace_Re 3 U) (U, G) = some s' := by
  have t3 : (3 / 5 : ℂ).re = 3 / 5 := by norm_num
  rw [show (75 : ℕ) = 73 + 1 + 1 from rfl, givensLoop, h1]
  dsimp only [Option.bind]
  rw [if_neg (by norm_num), if_neg]
  · exact loop_still (by norm_num) h2 he (by rw [t2, t3]; norm_num)
  · rw [C12_speed_trace_Re, C12_speed_trace_Re, t1, t2, t3]
    intro h
    have := h.2.trans tol3
    norm_num at this

/-- A rotation of the last two colours. -/
noncomputable def tilt : Arr ℂ := arr [1, 0, 0, 0, 4 / 5, 3 / 5, 0, -(3 / 5), 4 / 5]

/-- A rotation of the same third column into the first two colours. -/
noncomputable def tilt' : Arr ℂ := arr [4 / 5, 0, 3 / 5, -(3 / 5), 0, 4 / 5, 0, -1, 0]

theorem tilt_su : IsSU 3 tilt := by
  refine mem_specialUnitaryGroup_iff.2 ⟨mem_unitaryGroup_iff.2 ?_, ?_⟩
  · ext i j
    rw [Matrix.mul_apply, Fin.sum_univ_three]
    fin_cases i <;> fin_cases j <;> simp [toM, tilt, arr] <;> norm_num
  · rw [det_fin_three]
    simp [toM, tilt, arr]
    norm_num

theorem tilt'_su : IsSU 3 tilt' := by
  refine mem_specialUnitaryGroup_iff.2 ⟨mem_unitaryGroup_iff.2 ?_, ?_⟩
  · ext i j
    rw [Matrix.mul_apply, Fin.sum_univ_three]
    fin_cases i <;> fin_cases j <;> simp [toM, tilt', arr] <;> norm_num
  · rw [det_fin_three]
    simp [toM, tilt', arr]
    norm_num

theorem tilt_ape (array : Arr ℂ) : ∃ W, project_APE 3 (sixStaples tilt) tilt (0.8 / 6) (1 - 0.8) array = some W ∧
    toM 3 W = subgroupMatrix 1 2 (-1) 0 * toM 3 tilt := by
  obtain ⟨G, hG, hGA⟩ := six_start tilt_su array
  have hsu := C15_special_unitary (by norm_num) hG
  have hU : toM 3 (multab_dag 3 (apeSum (1 - 0.8) (0.8 / 6) tilt (sixStaples tilt)) G
      (apeSum (1 - 0.8) (0.8 / 6) tilt (sixStaples tilt))) =
      !![1 / 5, 0, 0; 0, -(11 / 125), -(48 / 125); 0, -(48 / 125), -(39 / 125)] := by
    rw [C10_multab_dag, six_sum, hGA]
    ext i j
    rw [Matrix.mul_apply, Fin.sum_univ_three]
    simp only [mul_diagonal]
    fin_cases i <;> fin_cases j <;> simp [toM, tilt, arr] <;> norm_num
  unfold project_APE givens_reunit
  rw [hG]
  dsimp only [Option.bind]
  generalize multab_dag 3 (apeSum (1 - 0.8) (0.8 / 6) tilt (sixStaples tilt)) G
      (apeSum (1 - 0.8) (0.8 / 6) tilt (sixStaples tilt)) = U at hU ⊢
  obtain ⟨s1, a1, a2, a3, a4⟩ := rot3_plus (k := 0) (by norm_num) (s := (U, G)) hsu hU 0 1 rfl (x := 14 / 125) (by norm_num)
    (by simp; norm_num) (by simp)
  obtain ⟨s2, b1, b2, b3, b4⟩ := rot3_minus (k := 1) (by norm_num) a2 a3 1 2 rfl (x := -(2 / 5)) (by norm_num)
    (by simp; norm_num) (by simp) (sub12 _)
  obtain ⟨s3, c1, c2, c3, c4⟩ := rot3_plus (k := 2) (by norm_num) b2 b3 2 0 rfl (x := 64 / 125) (by norm_num)
    (by simp; norm_num) (by simp)
  have hs : givensSweep 3 (U, G) = some s3 := by
    rw [sweep3, a1]; dsimp only [Option.bind]; rw [b1]; exact c1
  obtain ⟨s4, d1, d2, d3, d4⟩ := rot3_plus (k := 0) (by norm_num) c2 c3 0 1 rfl (x := 36 / 125) (by norm_num)
    (by simp; norm_num) (by simp)
  obtain ⟨s5, e1, e2, e3, e4⟩ := rot3_plus (k := 1) (by norm_num) d2 d3 1 2 rfl (x := 2 / 5) (by norm_num)
    (by simp; norm_num) (by simp)
  obtain ⟨s6, f1, f2, f3, f4⟩ := rot3_plus (k := 2) (by norm_num) e2 e3 2 0 rfl (x := 64 / 125) (by norm_num)
    (by simp; norm_num) (by simp)
  have hs' : givensSweep 3 s3 = some s6 := by
    rw [sweep3, d1]; dsimp only [Option.bind]; rw [e1]; exact f1
  rw [two_sweeps hs hs' (f3.trans c3.symm) (by rw [hU, trace3]; simp; norm_num) (by rw [c3, trace3]; simp; norm_num)]
  exact ⟨s6.2, rfl, by rw [f4, e4, d4, c4, b4, a4, hGA]⟩

theorem tilt'_ape (array : Arr ℂ) : ∃ W, project_APE 3 (sixStaples tilt') tilt' (0.8 / 6) (1 - 0.8) array = some W ∧
    toM 3 W = subgroupMatrix 0 1 (-1) 0 * toM 3 tilt' := by
  obtain ⟨G, hG, hGA⟩ := six_start tilt'_su array
  have hsu := C15_special_unitary (by norm_num) hG
  have hU : toM 3 (multab_dag 3 (apeSum (1 - 0.8) (0.8 / 6) tilt' (sixStaples tilt')) G
      (apeSum (1 - 0.8) (0.8 / 6) tilt' (sixStaples tilt'))) =
      !![-(11 / 125), -(48 / 125), 0; -(48 / 125), -(39 / 125), 0; 0, 0, 1 / 5] := by
    rw [C10_multab_dag, six_sum, hGA]
    ext i j
    rw [Matrix.mul_apply, Fin.sum_univ_three]
    simp only [mul_diagonal]
    fin_cases i <;> fin_cases j <;> simp [toM, tilt', arr] <;> norm_num
  unfold project_APE givens_reunit
  rw [hG]
  dsimp only [Option.bind]
  generalize multab_dag 3 (apeSum (1 - 0.8) (0.8 / 6) tilt' (sixStaples tilt')) G
      (apeSum (1 - 0.8) (0.8 / 6) tilt' (sixStaples tilt')) = U at hU ⊢
  obtain ⟨s1, a1, a2, a3, a4⟩ := rot3_minus (k := 0) (by norm_num) (s := (U, G)) hsu hU 0 1 rfl (x := -(2 / 5)) (by norm_num)
    (by simp; norm_num) (by simp) (sub01 _)
  obtain ⟨s2, b1, b2, b3, b4⟩ := rot3_plus (k := 1) (by norm_num) a2 a3 1 2 rfl (x := 64 / 125) (by norm_num)
    (by simp; norm_num) (by simp)
  obtain ⟨s3, c1, c2, c3, c4⟩ := rot3_plus (k := 2) (by norm_num) b2 b3 2 0 rfl (x := 36 / 125) (by norm_num)
    (by simp; norm_num) (by simp)
  have hs : givensSweep 3 (U, G) = some s3 := by
    rw [sweep3, a1]; dsimp only [Option.bind]; rw [b1]; exact c1
  obtain ⟨s4, d1, d2, d3, d4⟩ := rot3_plus (k := 0) (by norm_num) c2 c3 0 1 rfl (x := 2 / 5) (by norm_num)
    (by simp; norm_num) (by simp)
  obtain ⟨s5, e1, e2, e3, e4⟩ := rot3_plus (k := 1) (by norm_num) d2 d3 1 2 rfl (x := 64 / 125) (by norm_num)
    (by simp; norm_num) (by simp)
  obtain ⟨s6, f1, f2, f3, f4⟩ := rot3_plus (k := 2) (by norm_num) e2 e3 2 0 rfl (x := 36 / 125) (by norm_num)
    (by simp; norm_num) (by simp)
  have hs' : givensSweep 3 s3 = some s6 := by
    rw [sweep3, d1]; dsimp only [Option.bind]; rw [e1]; exact f1
  rw [two_sweeps hs hs' (f3.trans c3.symm) (by rw [hU, trace3]; simp; norm_num) (by rw [c3, trace3]; simp; norm_num)]
  exact ⟨s6.2, rfl, by rw [f4, e4, d4, c4, b4, a4, hGA]⟩

/-- C84, gauge covariance does not hold for three colours: there are a special unitary link with special unitary staples and a
special unitary matrix `B` such that smearing the link and staples multiplied by `B` gives a defined result that is not `B`
times the smeared link. -/
theorem C84_covariance_fails : ∃ (link s1 s2 link' s1' s2' : Arr ℂ) (B : Matrix (Fin 3) (Fin 3) ℂ),
    B ∈ specialUnitaryGroup (Fin 3) ℂ ∧ IsSU 3 link ∧ IsSU 3 s1 ∧ IsSU 3 s2 ∧
    toM 3 link' = B * toM 3 link ∧ toM 3 s1' = B * toM 3 s1 ∧ toM 3 s2' = B * toM 3 s2 ∧
    ∀ array, ∃ W W', project_APE 3 (fun n => 3 * s1 n + 3 * s2 n) link (0.8 / 6) (1 - 0.8) array = some W ∧
      project_APE 3 (fun n => 3 * s1' n + 3 * s2' n) link' (0.8 / 6) (1 - 0.8) array = some W' ∧
      toM 3 W' ≠ B * toM 3 W := by
  have hB : toM 3 tilt' = (toM 3 tilt' * (toM 3 tilt)ᴴ) * toM 3 tilt := by
    rw [Matrix.mul_assoc, unitary_star_mul tilt_su, Matrix.mul_one]
  refine ⟨tilt, turn tilt I, turn tilt (-I), tilt', turn tilt' I, turn tilt' (-I), toM 3 tilt' * (toM 3 tilt)ᴴ,
    isSU_mul tilt'_su (isSU_star tilt_su), tilt_su, turn_su tilt_su I_unit I_sq', turn_su tilt_su (by simp) (by simp), hB,
    ?_, ?_, fun array => ?_⟩
  · rw [turn_toM, turn_toM, ← Matrix.mul_assoc, ← hB]
  · rw [turn_toM, turn_toM, ← Matrix.mul_assoc, ← hB]
  · obtain ⟨W, h1, h2⟩ := tilt_ape array
    obtain ⟨W', h3, h4⟩ := tilt'_ape array
    refine ⟨W, W', h1, h3, fun h => ?_⟩
    rw [h4, h2] at h
    have := congrFun (congrFun h 2) 1
    rw [subgroup_mul (by decide)] at this
    simp only [Matrix.mul_apply, Fin.sum_univ_three, conjTranspose_apply] at this
    simp [toM, tilt, tilt', arr, subgroupMatrix] at this
    norm_num at this

/-- The hypotheses of `C84_projection` and `C84_ape` are met by a matrix that is not special unitary. -/
example : ∃ W, givens_reunit 3 (fun n => 2 * tilt n) (fun _ => 0) = some W ∧ toM 3 W = toM 3 tilt :=
  C84_fixes (by norm_num) _ tilt_su (c := 2) (by norm_num) (by ext i j; simp [toM])

end GLU.Smear
