import Verif.Mat.UNopsLemmas
import Verif.Mat.MMulProps
import Mathlib.LinearAlgebra.Matrix.Hermitian

/-!
# Properties of the matrix utilities

C12 (traces), C13 (packed Hermitian storage), C17 (powers), C25 (matrix times
vector) and C63 (elementary operations).
-/

namespace GLU.Mat

open Complex Matrix

/-! ## C63: elementary operations -/

theorem C63_add_constant (NC : ℕ) (a : Arr ℂ) (c : ℂ) :
    toM NC (add_constant NC a c) = toM NC a + c • 1 := by
  unfold add_constant
  split
  · next h =>
    subst h
    ext i j
    fin_cases i <;> fin_cases j <;> simp [Function.update]
  split
  · next h =>
    subst h
    ext i j
    fin_cases i <;> fin_cases j <;> simp [Function.update]
  · ext i j
    rw [toM_apply, add_constant_loop NC a c NC i j j.2 le_rfl]
    by_cases h : i = j
    · subst h; simp
    · have : (i : ℕ) ≠ j := fun h' => h (Fin.ext h')
      simp [h, this]

theorem C63_a_plus_b (NC : ℕ) (a b : Arr ℂ) :
    toM NC (a_plus_b NC a b) = toM NC a + toM NC b := by
  unfold a_plus_b
  split
  · next h => subst h; ext i j; fin_cases i <;> fin_cases j <;> simp [a_plus_b3]
  split
  · next h => subst h; ext i j; fin_cases i <;> fin_cases j <;> simp [a_plus_b2]
  · ext i j
    simp [mapN_apply, index_lt i.2 j.2]

theorem C63_a_plus_CSxb (NC : ℕ) (a b : Arr ℂ) (S : ℂ) :
    toM NC (a_plus_CSxb NC a b S) = toM NC a + S • toM NC b := by
  unfold a_plus_CSxb
  split
  · next h => subst h; ext i j; fin_cases i <;> fin_cases j <;> simp [a_plus_CSxb3]
  split
  · next h => subst h; ext i j; fin_cases i <;> fin_cases j <;> simp [a_plus_CSxb2]
  · ext i j
    simp [mapN_apply, index_lt i.2 j.2]

theorem C63_a_plus_Sxb (NC : ℕ) (a b : Arr ℂ) (S : ℝ) :
    toM NC (a_plus_Sxb NC a b S) = toM NC a + (S : ℂ) • toM NC b :=
  C63_a_plus_CSxb NC a b S

theorem C63_b_min_c (NC : ℕ) (a b c : Arr ℂ) :
    toM NC (b_min_c NC a b c) = toM NC b - toM NC c := by
  unfold b_min_c
  split
  · next h => subst h; ext i j; fin_cases i <;> fin_cases j <;> simp [b_min_c3]
  split
  · next h => subst h; ext i j; fin_cases i <;> fin_cases j <;> simp [b_min_c2]
  · ext i j
    simp [mapN_apply, index_lt i.2 j.2]

theorem C63_dagger (NC : ℕ) (b a : Arr ℂ) : toM NC (dagger NC b a) = (toM NC a)ᴴ := by
  unfold dagger
  split
  · next h => subst h; ext i j; fin_cases i <;> fin_cases j <;> simp [dagger3, conj]
  split
  · next h => subst h; ext i j; fin_cases i <;> fin_cases j <;> simp [dagger2, conj]
  · rw [toM_fillNN]
    ext i j
    simp [conj, Nat.mul_comm]

theorem C63_transpose (NC : ℕ) (a b : Arr ℂ) : toM NC (transpose NC a b) = (toM NC b)ᵀ := by
  unfold transpose
  split
  · next h => subst h; ext i j; fin_cases i <;> fin_cases j <;> simp [transpose3]
  split
  · next h => subst h; ext i j; fin_cases i <;> fin_cases j <;> simp [transpose2]
  · rw [toM_fillNN]
    ext i j
    simp [Nat.mul_comm]

theorem C63_diag (NC : ℕ) (M : Arr ℂ) (c : ℂ) :
    toM NC (diag NC M c) = diagonal fun _ => c := by
  unfold diag
  split
  · next h => subst h; ext i j; fin_cases i <;> fin_cases j <;> simp [diag3]
  split
  · next h => subst h; ext i j; fin_cases i <;> fin_cases j <;> simp [diag2]
  · rw [toM_fillNN]
    ext i j
    by_cases h : i = j
    · subst h; simp
    · have : (i : ℕ) ≠ j := fun h' => h (Fin.ext h')
      simp [h, this]

theorem C63_diag_vect (NC : ℕ) (M c : Arr ℂ) :
    toM NC (diag_vect NC M c) = diagonal fun i : Fin NC => c i := by
  unfold diag_vect
  split
  · next h => subst h; ext i j; fin_cases i <;> fin_cases j <;> simp [diag_vect3]
  split
  · next h => subst h; ext i j; fin_cases i <;> fin_cases j <;> simp [diag_vect2]
  · ext i j
    rw [toM_apply, diag_vect_loop NC M c NC i j i.2 j.2 le_rfl, if_pos (Or.inl i.2)]
    by_cases h : i = j
    · subst h; simp
    · have : (i : ℕ) ≠ j := fun h' => h (Fin.ext h')
      simp [h, this]

theorem C63_equiv (NC : ℕ) (a b : Arr ℂ) : toM NC (equiv NC a b) = toM NC b := by
  unfold equiv
  split
  · next h => subst h; ext i j; fin_cases i <;> fin_cases j <;> simp [equiv3]
  split
  · next h => subst h; ext i j; fin_cases i <;> fin_cases j <;> simp [equiv2]
  · ext i j
    simp [mapN_apply, index_lt i.2 j.2]

theorem C63_identity (NC : ℕ) (a : Arr ℂ) : toM NC (identity NC a) = 1 := by
  unfold identity
  split
  · next h => subst h; ext i j; fin_cases i <;> fin_cases j <;> simp [identity3]
  split
  · next h => subst h; ext i j; fin_cases i <;> fin_cases j <;> simp [identity2]
  · rw [toM_fillNN]
    ext i j
    by_cases h : i = j
    · subst h; simp
    · have : (i : ℕ) ≠ j := fun h' => h (Fin.ext h')
      simp [h, this]

theorem C63_M_times_c (NC : ℕ) (M : Arr ℂ) (c : ℂ) :
    toM NC (M_times_c NC M c) = c • toM NC M := by
  unfold M_times_c
  split
  · next h => subst h; ext i j; fin_cases i <;> fin_cases j <;> simp [M_times_c3, mul_comm]
  split
  · next h => subst h; ext i j; fin_cases i <;> fin_cases j <;> simp [M_times_c2, mul_comm]
  · ext i j
    simp [mapN_apply, index_lt i.2 j.2, mul_comm]

theorem C63_outerproduct (NC : ℕ) (Q a b : Arr ℂ) :
    toM NC (outerproduct NC Q a b) =
      vecMulVec (fun i : Fin NC => a i) (fun j : Fin NC => star (b j)) := by
  unfold outerproduct
  split
  · next h =>
    subst h; ext i j; fin_cases i <;> fin_cases j <;> simp [outerproduct3, vecMulVec_apply, conj]
  split
  · next h =>
    subst h; ext i j; fin_cases i <;> fin_cases j <;> simp [outerproduct2, vecMulVec_apply, conj]
  · rw [toM_fillNN]
    ext i j
    simp [vecMulVec_apply, conj]

theorem C63_zero_mat (NC : ℕ) (a : Arr ℂ) : toM NC (zero_mat NC a) = 0 := by
  unfold zero_mat
  split
  · next h => subst h; ext i j; fin_cases i <;> fin_cases j <;> simp [zero_mat3]
  split
  · next h => subst h; ext i j; fin_cases i <;> fin_cases j <;> simp [zero_mat2]
  · ext i j
    simp [mapN_apply, index_lt i.2 j.2]

/-! ## C25: matrix times vector -/

/-- C25 holds for every number of colours except three. -/
theorem C25_mat_mult_vec_partial {NC : ℕ} (h3 : NC ≠ 3) (vect S v : Arr ℂ) (i : Fin NC) :
    mat_mult_vec NC vect S v i = (toM NC S *ᵥ fun j => v j) i := by
  unfold mat_mult_vec
  rw [if_neg h3]
  split
  · next h =>
    subst h
    fin_cases i <;> simp [mat_mult_vec2, mulVec, dotProduct, Fin.sum_univ_two]
  · rw [mat_mult_vec_loop, if_pos i.2, Finset.sum_range]
    simp [mulVec, dotProduct, Nat.mul_comm]

/-- C25 fails for three colours: the entry in row 1, column 2 is taken from row 2,
column 0. -/
theorem C25_three_colours_fails :
    ∃ S v : Arr ℂ, ∀ vect, mat_mult_vec 3 vect S v 1 ≠ (toM 3 S *ᵥ fun j => v j) 1 := by
  refine ⟨arr [0, 0, 0, 0, 0, 1, 0, 0, 0], arr [0, 0, 1], fun vect h => ?_⟩
  simp [mat_mult_vec, mat_mult_vec3, mulVec, dotProduct, Fin.sum_univ_three] at h

/-! ## C17: powers -/

theorem foldl_power (NC : ℕ) (b : Arr ℂ) (B : Matrix (Fin NC) (Fin NC) ℂ) (hB : toM NC b = B) :
    ∀ (n : ℕ), 2 ≤ n → ∀ (tl : List Bool) (a : Arr ℂ), toM NC a = B ^ 2 →
      ∃ a', toM NC a' = B ^ n ∧
      (powerList n tl).foldl (fun a sq =>
        equiv NC a (if sq then multab NC a a a else multab NC a b a)) a =
      tl.foldl (fun a sq =>
        equiv NC a (if sq then multab NC a a a else multab NC a b a)) a' := by
  intro n
  induction n using Nat.strong_induction_on with
  | _ n ih =>
    intro hn tl a ha
    rw [powerList]
    split
    · next h =>
      split
      · next he =>
        obtain ⟨a', h1, h2⟩ := ih (n / 2) (by omega) (by omega) (true :: tl) a ha
        refine ⟨equiv NC a' (multab NC a' a' a'), ?_, ?_⟩
        · rw [C63_equiv, C10_multab, h1, ← pow_add]
          congr 1
          omega
        · rw [h2]; rfl
      · next he =>
        obtain ⟨a', h1, h2⟩ := ih (n - 1) (by omega) (by omega) (false :: tl) a ha
        refine ⟨equiv NC a' (multab NC a' b a'), ?_, ?_⟩
        · rw [C63_equiv, C10_multab, h1, hB, ← pow_succ]
          congr 1
          omega
        · rw [h2]; rfl
    · next h =>
      have : n = 2 := by omega
      subst this
      exact ⟨a, ha, rfl⟩

/-- C17: the binary method returns the `n`-fold product. -/
theorem C17_matrix_power (NC : ℕ) (a b : Arr ℂ) (n : ℕ) :
    toM NC (matrix_power NC a b n) = toM NC b ^ n := by
  unfold matrix_power
  split
  · next h => subst h; rw [C63_identity, pow_zero]
  split
  · next h => subst h; rw [C63_equiv, pow_one]
  split
  · next h => subst h; rw [C10_multab, pow_two]
  · next h0 h1 h2 =>
    obtain ⟨a', e1, e2⟩ := foldl_power NC b _ rfl n (by omega) [] (multab NC b b a)
      (by rw [C10_multab, pow_two])
    rw [e2]
    exact e1

/-! ## C12: traces -/

/-- C12: `trace` and `speed_trace`. -/
theorem C12_trace (NC : ℕ) (U : Arr ℂ) : trace NC U = Matrix.trace (toM NC U) := by
  unfold trace
  split
  · next h => subst h; simp [Matrix.trace, Fin.sum_univ_three]
  split
  · next h => subst h; simp [Matrix.trace, Fin.sum_univ_two]
  · have := forN_inv (fun i (s : ℕ × ℝ × ℝ) => s.1 = 2 * (i * (NC + 1)) ∧
        (s.2.1 + I * s.2.2 : ℂ) = ∑ k ∈ Finset.range i, U (k + NC * k))
      (n := NC) (body := fun _ (s : ℕ × ℝ × ℝ) =>
        (s.1 + 1 + 1 + 2 * NC, s.2.1 + asReals U s.1, s.2.2 + asReals U (s.1 + 1)))
      (s := (0, 0, 0)) (by simp) (fun i _ s hs => by
        obtain ⟨h1, h2⟩ := hs
        refine ⟨by simp only [h1]; ring, ?_⟩
        rw [Finset.sum_range_succ, ← h2]
        have e1 : asReals U s.1 = (U (i + NC * i)).re := by
          rw [asReals, h1, if_pos (by omega)]
          congr 2
          rw [Nat.mul_div_cancel_left _ (by omega)]; ring
        have e2 : asReals U (s.1 + 1) = (U (i + NC * i)).im := by
          rw [asReals, h1, if_neg (by omega)]
          congr 2
          rw [show (2 * (i * (NC + 1)) + 1) / 2 = i * (NC + 1) by omega]; ring
        simp only [e1, e2]
        conv_rhs => rw [← Complex.re_add_im (U (i + NC * i))]
        push_cast
        ring)
    rw [this.2, Finset.sum_range]
    simp [Matrix.trace]

/-- C12: `speed_trace_Re`. -/
theorem C12_speed_trace_Re (NC : ℕ) (U : Arr ℂ) :
    speed_trace_Re NC U = (Matrix.trace (toM NC U)).re := by
  unfold speed_trace_Re
  split
  · next h => subst h; simp [Matrix.trace, Fin.sum_univ_three]
  split
  · next h => subst h; simp [Matrix.trace, Fin.sum_univ_two]
  · have := forN_inv (fun i (s : ℕ × ℝ) => s.1 = 2 * (i * (NC + 1)) ∧
        s.2 = ∑ k ∈ Finset.range i, (U (k + NC * k)).re)
      (n := NC) (body := fun _ (s : ℕ × ℝ) => (s.1 + 2 * (NC + 1), s.2 + asReals U s.1))
      (s := (0, 0)) (by simp) (fun i _ s hs => by
        obtain ⟨h1, h2⟩ := hs
        refine ⟨by simp only [h1]; ring, ?_⟩
        rw [Finset.sum_range_succ, ← h2]
        have e1 : asReals U s.1 = (U (i + NC * i)).re := by
          rw [asReals, h1, if_pos (by omega)]
          congr 2
          rw [Nat.mul_div_cancel_left _ (by omega)]; ring
        simp only [e1])
    rw [this.2, Finset.sum_range]
    simp [Matrix.trace]

theorem trace_mul_range (NC : ℕ) (a b : Arr ℂ) :
    Matrix.trace (toM NC a * toM NC b) =
      ∑ i ∈ Finset.range NC, ∑ j ∈ Finset.range NC, a (j + NC * i) * b (i + NC * j) := by
  rw [Finset.sum_range]
  simp only [Matrix.trace, Matrix.diag, Matrix.mul_apply, toM_apply, Finset.sum_range]

/-- C12: `trace_ab`. -/
theorem C12_trace_ab (NC : ℕ) (a b : Arr ℂ) :
    trace_ab NC a b = Matrix.trace (toM NC a * toM NC b) := by
  unfold trace_ab
  split
  · next h =>
    subst h
    simp [Matrix.trace, Fin.sum_univ_three, Matrix.mul_apply]
    ring
  split
  · next h =>
    subst h
    simp [Matrix.trace, Fin.sum_univ_two, Matrix.mul_apply]
    ring
  · rw [trace_mul_range]
    simp only [forN_sum2]
    apply Complex.ext <;> simp

theorem trace_mul_dag_flat (NC : ℕ) (a b : Arr ℂ) :
    Matrix.trace (toM NC a * (toM NC b)ᴴ) = ∑ x ∈ Finset.range (NC * NC), a x * star (b x) := by
  rw [sum_flat, Finset.sum_range]
  simp only [Matrix.trace, Matrix.diag, Matrix.mul_apply, toM_apply, Finset.sum_range,
    conjTranspose_apply]

/-- C12: `trace_ab_dag`. -/
theorem C12_trace_ab_dag (NC : ℕ) (a b : Arr ℂ) :
    trace_ab_dag NC a b = Matrix.trace (toM NC a * (toM NC b)ᴴ) := by
  unfold trace_ab_dag
  split
  · next h =>
    subst h
    simp [Matrix.trace, Fin.sum_univ_three, Matrix.mul_apply, conj]
    ring
  split
  · next h =>
    subst h
    simp [Matrix.trace, Fin.sum_univ_two, Matrix.mul_apply, conj]
    ring
  · rw [trace_mul_dag_flat]
    have key : ∀ s : ℝ × ℝ, s = forN (NC * NC) (fun i (s : ℝ × ℝ) =>
        (s.1 + ((a i).re * (b i).re + (a i).im * (b i).im),
         s.2 + ((a i).re * (b i).im - (b i).re * (a i).im))) (0, 0) →
        (s.1 - I * s.2 : ℂ) = ∑ x ∈ Finset.range (NC * NC), a x * star (b x) := by
      rintro s rfl
      rw [forN_sum2]
      apply Complex.ext
      · simp
      · simp only [sub_im, ofReal_im, mul_im, I_re, I_im, ofReal_re, im_sum, star_def, conj_re,
          conj_im, zero_add, zero_mul, one_mul, zero_sub]
        rw [← Finset.sum_neg_distrib]
        exact Finset.sum_congr rfl fun x _ => by ring
    apply key
    split
    · next he => 
      conv_rhs => rw [← sq_even he]
      exact forN_pair (NC * NC / 2) (fun i (s : ℝ × ℝ) =>
        (s.1 + ((a i).re * (b i).re + (a i).im * (b i).im),
         s.2 + ((a i).re * (b i).im - (b i).re * (a i).im))) (0, 0)
    · rfl

/-- C12: `trace_ab_dag_Re`. -/
theorem C12_trace_ab_dag_Re (NC : ℕ) (a b : Arr ℂ) :
    trace_ab_dag_Re NC a b = (Matrix.trace (toM NC a * (toM NC b)ᴴ)).re := by
  unfold trace_ab_dag_Re
  split
  · next h =>
    subst h
    simp [Matrix.trace, Fin.sum_univ_three, Matrix.mul_apply]
    ring
  split
  · next h =>
    subst h
    simp [Matrix.trace, Fin.sum_univ_two, Matrix.mul_apply]
    ring
  · rw [trace_mul_dag_flat]
    have key : ∀ s : ℝ, s = forN (NC * NC) (fun i (s : ℝ) =>
        s + ((a i).re * (b i).re + (a i).im * (b i).im)) 0 →
        s = (∑ x ∈ Finset.range (NC * NC), a x * star (b x)).re := by
      rintro s rfl
      rw [forN_sum]
      simp
    apply key
    split
    · next he => 
      conv_rhs => rw [← sq_even he]
      exact forN_pair1 (NC * NC / 2) (fun i (s : ℝ) =>
        s + ((a i).re * (b i).re + (a i).im * (b i).im)) 0
    · rfl

theorem herm_entry {NC : ℕ} {a : Arr ℂ} (h : (toM NC a).IsHermitian) {i j : ℕ} (hi : i < NC)
    (hj : j < NC) : a (i + NC * j) = star (a (j + NC * i)) := by
  have := h.apply ⟨j, hj⟩ ⟨i, hi⟩
  simpa using this.symm

/-- C12: `trace_ab_herm` on Hermitian operands; for two colours the operands must also
be traceless. -/
theorem C12_trace_ab_herm {NC : ℕ} {a b : Arr ℂ} (ha : (toM NC a).IsHermitian)
    (hb : (toM NC b).IsHermitian)
    (h2 : NC = 2 → Matrix.trace (toM NC a) = 0 ∧ Matrix.trace (toM NC b) = 0) :
    (trace_ab_herm NC a b : ℂ) = Matrix.trace (toM NC a * toM NC b) := by
  have key : Matrix.trace (toM NC a * toM NC b) =
      ((∑ i ∈ Finset.range NC, ∑ j ∈ Finset.range NC,
        ((a (j + NC * i)).re * (b (j + NC * i)).re + (a (j + NC * i)).im * (b (j + NC * i)).im) : ℝ)
        : ℂ) := by
    have hre : (Matrix.trace (toM NC a * toM NC b)).re = ∑ i ∈ Finset.range NC,
        ∑ j ∈ Finset.range NC, ((a (j + NC * i)).re * (b (j + NC * i)).re +
          (a (j + NC * i)).im * (b (j + NC * i)).im) := by
      rw [trace_mul_range, Complex.re_sum]
      refine Finset.sum_congr rfl fun i hi => ?_
      rw [Complex.re_sum]
      refine Finset.sum_congr rfl fun j hj => ?_
      rw [herm_entry hb (Finset.mem_range.1 hi) (Finset.mem_range.1 hj)]
      simp
    have him : (Matrix.trace (toM NC a * toM NC b)).im = 0 := by
      have e : star (Matrix.trace (toM NC a * toM NC b)) = Matrix.trace (toM NC a * toM NC b) := by
        rw [← trace_conjTranspose, conjTranspose_mul, ha.eq, hb.eq, trace_mul_comm]
      exact Complex.conj_eq_iff_im.1 e
    apply Complex.ext
    · rw [hre, ofReal_re]
    · rw [him, ofReal_im]
  rw [key]
  congr 1
  unfold trace_ab_herm
  have hs : ∀ i j, i < NC → j < NC →
      (a (j + NC * i)).re * (b (j + NC * i)).re + (a (j + NC * i)).im * (b (j + NC * i)).im =
      (a (i + NC * j)).re * (b (i + NC * j)).re + (a (i + NC * j)).im * (b (i + NC * j)).im := by
    intro i j hi hj
    rw [herm_entry ha hi hj, herm_entry hb hi hj]
    simp
  have hd : ∀ i, i < NC → (a (i + NC * i)).im = 0 := by
    intro i hi
    have := congrArg Complex.im (herm_entry ha hi hi)
    simp at this
    linarith
  have hdd := sum_tri NC (fun i j => (a (j + NC * i)).re * (b (j + NC * i)).re +
    (a (j + NC * i)).im * (b (j + NC * i)).im) hs
  rw [← hdd]
  split
  · next h =>
    subst h
    have d0 := hd 0 (by omega); have d1 := hd 1 (by omega); have d2 := hd 2 (by omega)
    simp only [Finset.sum_range_succ, Finset.sum_range_zero, Finset.sum_Ico_eq_sum_range] 
    norm_num at *
    rw [d0, d1, d2]
    ring
  split
  · next h =>
    subst h
    have d0 := hd 0 (by omega); have d1 := hd 1 (by omega)
    obtain ⟨t1, t2⟩ := h2 rfl
    simp only [Matrix.trace, Fin.sum_univ_two, Matrix.diag, toM_apply] at t1 t2
    have t1 := congrArg Complex.re t1
    have t2 := congrArg Complex.re t2
    simp only [Finset.sum_range_succ, Finset.sum_range_zero, Finset.sum_Ico_eq_sum_range]
    norm_num at *
    rw [d0, d1, show (a 3).re = -(a 0).re by linarith, show (b 3).re = -(b 0).re by linarith]
    ring
  · simp only [forFrom_sum]
    have e : ∀ i, i < NC → ∀ sum : ℝ, (sum + (a (i + NC * i)).re * (b (i + NC * i)).re +
        ∑ j ∈ Finset.Ico (i + 1) NC, 2 * ((a (j + NC * i)).re * (b (j + NC * i)).re +
          (a (j + NC * i)).im * (b (j + NC * i)).im)) = sum + ((a (i + NC * i)).re * (b (i + NC * i)).re +
          (a (i + NC * i)).im * (b (i + NC * i)).im +
        ∑ j ∈ Finset.Ico (i + 1) NC, 2 * ((a (j + NC * i)).re * (b (j + NC * i)).re +
          (a (j + NC * i)).im * (b (j + NC * i)).im)) := by
      intro i hi sum
      rw [hd i hi]; ring
    rw [forN_congr (fun i hi s => e i hi s), forN_sum, zero_add]

/-- C12: `trace_prod_herm` on a Hermitian operand (traceless for two colours). -/
theorem C12_trace_prod_herm {NC : ℕ} {a : Arr ℂ} (ha : (toM NC a).IsHermitian)
    (h2 : NC = 2 → Matrix.trace (toM NC a) = 0) :
    (trace_prod_herm NC a : ℂ) = Matrix.trace (toM NC a * toM NC a) := by
  rw [← C12_trace_ab_herm ha ha fun h => ⟨h2 h, h2 h⟩]
  congr 1
  unfold trace_prod_herm trace_ab_herm
  split
  · ring
  split
  · rfl
  · have := forN_inv (fun i (s : ℕ × ℝ) => s.1 = i + NC * i ∧
        s.2 = forN i (fun i sum =>
          forFrom (i + 1) NC (fun j sum =>
            sum + 2 * ((a (j + NC * i)).re * (a (j + NC * i)).re +
              (a (j + NC * i)).im * (a (j + NC * i)).im))
            (sum + (a (i + NC * i)).re * (a (i + NC * i)).re)) 0)
      (n := NC) (body := fun i s =>
        let s : ℕ × ℝ := (s.1 + 1, s.2 + (a s.1).re * (a s.1).re)
        let s := forFrom (i + 1) NC (fun _ (s : ℕ × ℝ) =>
          (s.1 + 1, s.2 + 2 * ((a s.1).re * (a s.1).re + (a s.1).im * (a s.1).im))) s
        (s.1 + (i + 1), s.2)) (s := (0, 0)) (by simp [forN]) (fun i hi s hs => by
        obtain ⟨h1, h2⟩ := hs
        simp only []
        have inner := forFrom_inv (fun j (t : ℕ × ℝ) => t.1 = j + NC * i ∧
            t.2 = (s.2 + (a s.1).re * (a s.1).re) + ∑ j ∈ Finset.Ico (i + 1) j,
              2 * ((a (j + NC * i)).re * (a (j + NC * i)).re +
              (a (j + NC * i)).im * (a (j + NC * i)).im))
          (lo := i + 1) (hi := NC) (by omega)
          (body := fun _ (s : ℕ × ℝ) =>
            (s.1 + 1, s.2 + 2 * ((a s.1).re * (a s.1).re + (a s.1).im * (a s.1).im)))
          (s := (s.1 + 1, s.2 + (a s.1).re * (a s.1).re)) ⟨by simp only [h1]; ring, by simp⟩
          (fun j hj hj' t ht => by
            obtain ⟨t1, t2⟩ := ht
            refine ⟨by simp only [t1]; ring, ?_⟩
            rw [Finset.sum_Ico_succ_top hj]
            simp only [t1, t2]
            ring)
        refine ⟨by rw [inner.1]; ring, ?_⟩
        rw [inner.2, forN, forFrom_sum, ← h2, h1])
    exact this.2

/-! ### Three matrices -/

theorem insum_eq (NC : ℕ) (a b : Arr ℂ) (i j : Fin NC) :
    ((insum NC a b i j).1 + I * (insum NC a b i j).2 : ℂ) = (toM NC a * toM NC b) j i := by
  unfold insum
  rw [forN_sum2, Matrix.mul_apply]
  apply Complex.ext <;>
    simp only [add_re, add_im, mul_re, mul_im, ofReal_re, ofReal_im, I_re, I_im, zero_mul, one_mul,
      zero_add, add_zero, mul_zero, sub_self, Complex.re_sum, Complex.im_sum,
      Finset.sum_range, toM_apply] <;>
    refine Finset.sum_congr rfl fun k _ => ?_ <;>
    rw [show (j : ℕ) * NC + k = k + NC * j by ring, show (k : ℕ) * NC + i = i + NC * k by ring]

theorem insum_re (NC : ℕ) (a b : Arr ℂ) (i j : Fin NC) :
    (insum NC a b i j).1 = ((toM NC a * toM NC b) j i).re := by
  rw [← insum_eq]; simp

theorem insum_im (NC : ℕ) (a b : Arr ℂ) (i j : Fin NC) :
    (insum NC a b i j).2 = ((toM NC a * toM NC b) j i).im := by
  rw [← insum_eq]; simp

/-- C12: `trace_abc`. -/
theorem C12_trace_abc (NC : ℕ) (a b c : Arr ℂ) :
    trace_abc NC a b c = Matrix.trace (toM NC a * toM NC b * toM NC c) := by
  unfold trace_abc
  split
  · next h =>
    subst h
    simp [Matrix.trace, Fin.sum_univ_three, Matrix.mul_apply]
    ring
  split
  · next h =>
    subst h
    simp [Matrix.trace, Fin.sum_univ_two, Matrix.mul_apply]
    ring
  · simp only [forN_sum2, Finset.sum_range, insum_re, insum_im, zero_add]
    rw [Matrix.trace_mul_comm]
    simp only [Matrix.trace, Matrix.diag]
    conv_rhs => simp only [Matrix.mul_apply (M := toM NC c)]
    apply Complex.ext <;>
      simp only [add_re, add_im, mul_re, mul_im, ofReal_re, ofReal_im, I_re, I_im, zero_mul,
        one_mul, zero_add, add_zero, mul_zero, sub_self, Complex.re_sum,
        Complex.im_sum, toM_apply] <;>
      refine Finset.sum_congr rfl fun i _ => Finset.sum_congr rfl fun j _ => ?_ <;>
      rw [Nat.mul_comm (i : ℕ) NC] <;> ring

/-- C12: `trace_abc_dag`. -/
theorem C12_trace_abc_dag (NC : ℕ) (a b c : Arr ℂ) :
    trace_abc_dag NC a b c = Matrix.trace (toM NC a * toM NC b * (toM NC c)ᴴ) := by
  unfold trace_abc_dag
  split
  · next h =>
    subst h
    simp [Matrix.trace, Fin.sum_univ_three, Matrix.mul_apply, conj]
    ring
  split
  · next h =>
    subst h
    simp [Matrix.trace, Fin.sum_univ_two, Matrix.mul_apply, conj]
    ring
  · simp only [forN_sum2, Finset.sum_range, insum_re, insum_im, zero_add]
    rw [Matrix.trace_mul_comm]
    simp only [Matrix.trace, Matrix.diag]
    conv_rhs => simp only [Matrix.mul_apply (M := (toM NC c)ᴴ)]
    apply Complex.ext <;>
      simp only [add_re, add_im, mul_re, mul_im, ofReal_re, ofReal_im, I_re, I_im, zero_mul,
        one_mul, zero_add, add_zero, mul_zero, sub_self, Complex.re_sum,
        Complex.im_sum, toM_apply, conjTranspose_apply, star_def, conj_re, conj_im] <;>
      refine Finset.sum_congr rfl fun i _ => Finset.sum_congr rfl fun j _ => ?_ <;>
      rw [Nat.mul_comm (j : ℕ) NC] <;> ring

/-- C12: `trace_abc_dag_Re`. -/
theorem C12_trace_abc_dag_Re (NC : ℕ) (a b c : Arr ℂ) :
    trace_abc_dag_Re NC a b c = (Matrix.trace (toM NC a * toM NC b * (toM NC c)ᴴ)).re := by
  rw [← C12_trace_abc_dag]
  unfold trace_abc_dag_Re trace_abc_dag
  split
  · congr 1; ring
  split
  · rfl
  · simp only [forN_sum2, forN_sum]
    simp

/-- C12: `Re_trace_abc_dag_suNC`, which assumes that the product of its first two
operands is special unitary. -/
theorem C12_Re_trace_abc_dag_suNC {NC : ℕ} {a b : Arr ℂ} (ha : IsSU NC a) (hb : IsSU NC b)
    (c : Arr ℂ) :
    Re_trace_abc_dag_suNC NC a b c = (Matrix.trace (toM NC a * toM NC b * (toM NC c)ᴴ)).re := by
  unfold Re_trace_abc_dag_suNC
  split
  · next h =>
    subst h
    obtain ⟨r0, r1, r2⟩ := su3_row (isSU_mul ha hb)
    simp only [Matrix.trace, Fin.sum_univ_three, Matrix.diag]
    simp only [Matrix.mul_apply (M := toM 3 a * toM 3 b), Fin.sum_univ_three, r0, r1, r2]
    simp [Matrix.mul_apply, Fin.sum_univ_three, Re_trace_abc_dag_suNC3]
    ring
  split
  · next h =>
    subst h
    obtain ⟨r0, r1⟩ := su2_row (isSU_mul ha hb)
    simp only [Matrix.trace, Fin.sum_univ_two, Matrix.diag]
    simp only [Matrix.mul_apply (M := toM 2 a * toM 2 b), Fin.sum_univ_two, r0, r1]
    simp [Matrix.mul_apply, Fin.sum_univ_two]
    ring
  · exact C12_trace_abc_dag_Re NC a b c

end GLU.Mat
