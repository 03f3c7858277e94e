import Verif.Mat.LieMany

/-!
# C21 for more than three colours
-/

namespace GLU.Mat

open Complex Matrix

/-! ## The loops as sums -/

theorem forN_measure {σ : Type*} (S : σ → ℂ) (n : ℕ) (body : ℕ → σ → σ) (g : ℕ → ℂ) (h : ∀ i t, S (body i t) = S t + g i)
    (t : σ) : S (forN n body t) = S t + ∑ i ∈ Finset.range n, g i := by
  induction n with
  | zero => simp [forN]
  | succ n ih => rw [forN, h, ih, Finset.sum_range_succ, add_assoc]

theorem tableN_sum (NC : ℕ) (v : ℕ → ℕ → ℕ → ℝ) (S : List Struc → ℂ) (u : Struc → ℂ) (h0 : S [] = 0)
    (h : ∀ t s, S (t ++ [s]) = S t + u s) :
    S (tableN NC v) = ∑ a ∈ Finset.range (NC * NC - 1), ∑ b ∈ Finset.range (NC * NC - 1),
      ∑ c ∈ Finset.range (NC * NC - 1), if PREC_TOL NC < |v a b c| then u ⟨v a b c, a, b, c⟩ else 0 := by
  unfold tableN
  rw [forN_measure S _ _ (fun a => ∑ b ∈ Finset.range (NC * NC - 1), ∑ c ∈ Finset.range (NC * NC - 1),
    if PREC_TOL NC < |v a b c| then u ⟨v a b c, a, b, c⟩ else 0), h0, zero_add]
  intro a t
  rw [forN_measure S _ _ (fun b => ∑ c ∈ Finset.range (NC * NC - 1),
    if PREC_TOL NC < |v a b c| then u ⟨v a b c, a, b, c⟩ else 0)]
  intro b t
  rw [forN_measure S _ _ (fun c => if PREC_TOL NC < |v a b c| then u ⟨v a b c, a, b, c⟩ else 0)]
  intro c t
  by_cases hc : PREC_TOL NC < |v a b c|
  · rw [if_pos hc, if_pos hc, h]
  · rw [if_neg hc, if_neg hc, add_zero]

/-- Dropping the entries up to the tolerance. -/
theorem tableN_near (NC : ℕ) (v : ℕ → ℕ → ℕ → ℝ) (w : ℂ) (hw : ‖w‖ = 1) (a b c : Arr ℂ) (S : List Struc → ℂ) (h0 : S [] = 0)
    (h : ∀ t s, S (t ++ [s]) = S t + (w * (s.val : ℂ)) * a s.a * b s.b * c s.c) :
    ‖S (tableN NC v) - ∑ i ∈ Finset.range (NC * NC - 1), ∑ j ∈ Finset.range (NC * NC - 1),
      ∑ k ∈ Finset.range (NC * NC - 1), (w * (v i j k : ℂ)) * a i * b j * c k‖ ≤
      PREC_TOL NC * ((∑ i ∈ Finset.range (NC * NC - 1), ‖a i‖) * (∑ i ∈ Finset.range (NC * NC - 1), ‖b i‖) *
        ∑ i ∈ Finset.range (NC * NC - 1), ‖c i‖) := by
  have ht : 0 ≤ PREC_TOL NC := by unfold PREC_TOL; positivity
  rw [tableN_sum NC v S _ h0 h, ← Finset.sum_sub_distrib]
  have hb : PREC_TOL NC * ((∑ i ∈ Finset.range (NC * NC - 1), ‖a i‖) * (∑ i ∈ Finset.range (NC * NC - 1), ‖b i‖) *
      ∑ i ∈ Finset.range (NC * NC - 1), ‖c i‖) = ∑ i ∈ Finset.range (NC * NC - 1), ∑ j ∈ Finset.range (NC * NC - 1),
      ∑ k ∈ Finset.range (NC * NC - 1), PREC_TOL NC * (‖a i‖ * ‖b j‖ * ‖c k‖) := by
    rw [Finset.sum_mul_sum, Finset.sum_mul, Finset.mul_sum]
    refine Finset.sum_congr rfl fun i _ => ?_
    rw [Finset.sum_mul, Finset.mul_sum]
    refine Finset.sum_congr rfl fun j _ => ?_
    rw [Finset.mul_sum, Finset.mul_sum]
  rw [hb]
  refine norm_sum_le_of_le _ fun i _ => ?_
  rw [← Finset.sum_sub_distrib]
  refine norm_sum_le_of_le _ fun j _ => ?_
  rw [← Finset.sum_sub_distrib]
  refine norm_sum_le_of_le _ fun k _ => ?_
  split_ifs with hc
  · rw [sub_self, norm_zero]
    positivity
  · rw [zero_sub, norm_neg, norm_mul, norm_mul, norm_mul, norm_mul, hw, one_mul, norm_real, Real.norm_eq_abs, mul_assoc,
      mul_assoc, mul_assoc]
    exact mul_le_mul_of_nonneg_right (not_lt.1 hc) (by positivity)

/-! ## The sums as traces -/

/-- The matrix with the components that `lie_data` finds. -/
noncomputable def span (NC : ℕ) (A : Matrix (Fin NC) (Fin NC) ℂ) : Matrix (Fin NC) (Fin NC) ℂ :=
  ∑ i ∈ Finset.range (NC * NC - 1), (2 * (A * toM NC (init_generators NC i)).trace) • toM NC (init_generators NC i)

theorem lie_dataN_apply {NC i : ℕ} (hi : i ∈ Finset.range (NC * NC - 1)) (A : Arr ℂ) :
    lie_dataN NC A i = 2 * (toM NC A * toM NC (init_generators NC i)).trace := by
  unfold lie_dataN
  rw [if_pos (Finset.mem_range.1 hi), C12_trace_ab]

theorem span_eq (NC : ℕ) (A : Arr ℂ) : span NC (toM NC A) =
    ∑ i ∈ Finset.range (NC * NC - 1), lie_dataN NC A i • toM NC (init_generators NC i) :=
  Finset.sum_congr rfl fun i hi => by rw [lie_dataN_apply hi]

theorem trace_triple {n M : ℕ} (x y z : ℕ → ℂ) (Λ : ℕ → Matrix (Fin n) (Fin n) ℂ) :
    ((∑ i ∈ Finset.range M, x i • Λ i) * (∑ i ∈ Finset.range M, y i • Λ i) * ∑ i ∈ Finset.range M, z i • Λ i).trace =
      ∑ i ∈ Finset.range M, ∑ j ∈ Finset.range M, ∑ k ∈ Finset.range M, (Λ i * Λ j * Λ k).trace * x i * y j * z k := by
  rw [Finset.sum_mul, Finset.sum_mul, trace_sum]
  refine Finset.sum_congr rfl fun i _ => ?_
  rw [show x i • Λ i * (∑ i ∈ Finset.range M, y i • Λ i) = ∑ j ∈ Finset.range M, x i • Λ i * y j • Λ j from
    Finset.mul_sum .., Finset.sum_mul, trace_sum]
  refine Finset.sum_congr rfl fun j _ => ?_
  rw [Finset.mul_sum, trace_sum]
  refine Finset.sum_congr rfl fun k _ => ?_
  simp only [Matrix.smul_mul, Matrix.mul_smul, trace_smul, smul_eq_mul]
  ring

theorem trace_triple' {n M : ℕ} (x y z : ℕ → ℂ) (Λ : ℕ → Matrix (Fin n) (Fin n) ℂ) :
    ((∑ i ∈ Finset.range M, y i • Λ i) * (∑ i ∈ Finset.range M, x i • Λ i) * ∑ i ∈ Finset.range M, z i • Λ i).trace =
      ∑ i ∈ Finset.range M, ∑ j ∈ Finset.range M, ∑ k ∈ Finset.range M, (Λ j * Λ i * Λ k).trace * x i * y j * z k := by
  rw [trace_triple, Finset.sum_comm]
  refine Finset.sum_congr rfl fun i _ => Finset.sum_congr rfl fun j _ => Finset.sum_congr rfl fun k _ => ?_
  ring

/-- The values stored are real. -/
theorem f_and_d {NC a b c : ℕ} (ha : a < NC * NC - 1) (hb : b < NC * NC - 1) (hc : c < NC * NC - 1) :
    let Λ := fun i => toM NC (init_generators NC i)
    ((compute_f_and_d NC (init_generators NC a) (init_generators NC b) (init_generators NC c)).1 : ℂ) =
      -2 * I * ((Λ a * Λ b * Λ c).trace - (Λ b * Λ a * Λ c).trace) ∧
    ((compute_f_and_d NC (init_generators NC a) (init_generators NC b) (init_generators NC c)).2 : ℂ) =
      2 * ((Λ a * Λ b * Λ c).trace + (Λ b * Λ a * Λ c).trace) := by
  intro Λ
  have hA := C22_hermitian ha
  have hB := C22_hermitian hb
  have hC := C22_hermitian hc
  have hconj : (Λ b * Λ a * Λ c).trace = star (Λ a * Λ b * Λ c).trace := by
    rw [← trace_conjTranspose, conjTranspose_mul, conjTranspose_mul, hA.eq, hB.eq, hC.eq, ← Matrix.mul_assoc,
      trace_mul_comm, ← Matrix.mul_assoc]
  simp only [compute_f_and_d, C12_trace_abc]
  change (((-2 * I * ((Λ a * Λ b * Λ c).trace - (Λ b * Λ a * Λ c).trace)).re : ℝ) : ℂ) = _ ∧
    (((2 * ((Λ a * Λ b * Λ c).trace + (Λ b * Λ a * Λ c).trace)).re : ℝ) : ℂ) = _
  rw [hconj]
  generalize (Λ a * Λ b * Λ c).trace = t
  constructor <;> apply Complex.ext <;> simp <;> ring

theorem ifabc_span (NC : ℕ) (A B C : Arr ℂ) :
    ‖ifabc_ABCN NC A B C - 2 * ((span NC (toM NC A) * span NC (toM NC B) - span NC (toM NC B) * span NC (toM NC A)) *
      span NC (toM NC C)).trace‖ ≤ PREC_TOL NC * ((∑ i ∈ Finset.range (NC * NC - 1), ‖lie_dataN NC A i‖) *
        (∑ i ∈ Finset.range (NC * NC - 1), ‖lie_dataN NC B i‖) * ∑ i ∈ Finset.range (NC * NC - 1), ‖lie_dataN NC C i‖) := by
  refine le_of_eq_of_le ?_ (tableN_near NC (fun a b c =>
      (compute_f_and_d NC (init_generators NC a) (init_generators NC b) (init_generators NC c)).1) I norm_I (lie_dataN NC A) (lie_dataN NC B) (lie_dataN NC C)
    (fun t => fLoop t (lie_dataN NC A) (lie_dataN NC B) (lie_dataN NC C) 0) rfl
    (fun t s => by simp only [fLoop, List.foldl_append, List.foldl_cons, List.foldl_nil]))
  congr 2
  rw [Matrix.sub_mul, trace_sub, span_eq, span_eq, span_eq, trace_triple, trace_triple', ← Finset.sum_sub_distrib, Finset.mul_sum]
  refine Finset.sum_congr rfl fun i hi => ?_
  rw [← Finset.sum_sub_distrib, Finset.mul_sum]
  refine Finset.sum_congr rfl fun j hj => ?_
  rw [← Finset.sum_sub_distrib, Finset.mul_sum]
  refine Finset.sum_congr rfl fun k hk => ?_
  rw [(f_and_d (Finset.mem_range.1 hi) (Finset.mem_range.1 hj) (Finset.mem_range.1 hk)).1]
  linear_combination (-2 * ((toM NC (init_generators NC i) * toM NC (init_generators NC j) * toM NC (init_generators NC k)).trace -
    (toM NC (init_generators NC j) * toM NC (init_generators NC i) * toM NC (init_generators NC k)).trace) *
    lie_dataN NC A i * lie_dataN NC B j * lie_dataN NC C k) * -I_mul_I

theorem dabc_span (NC : ℕ) (A B C : Arr ℂ) :
    ‖dabc_ABCN NC A B C - 2 * ((span NC (toM NC A) * span NC (toM NC B) + span NC (toM NC B) * span NC (toM NC A)) *
      span NC (toM NC C)).trace‖ ≤ PREC_TOL NC * ((∑ i ∈ Finset.range (NC * NC - 1), ‖lie_dataN NC A i‖) *
        (∑ i ∈ Finset.range (NC * NC - 1), ‖lie_dataN NC B i‖) * ∑ i ∈ Finset.range (NC * NC - 1), ‖lie_dataN NC C i‖) := by
  refine le_of_eq_of_le ?_ (tableN_near NC (fun a b c =>
      (compute_f_and_d NC (init_generators NC a) (init_generators NC b) (init_generators NC c)).2) 1 norm_one (lie_dataN NC A) (lie_dataN NC B) (lie_dataN NC C)
    (fun t => dLoop t (lie_dataN NC A) (lie_dataN NC B) (lie_dataN NC C) 0) rfl
    (fun t s => by simp only [dLoop, List.foldl_append, List.foldl_cons, List.foldl_nil, one_mul]))
  congr 2
  rw [Matrix.add_mul, trace_add, span_eq, span_eq, span_eq, trace_triple, trace_triple', ← Finset.sum_add_distrib, Finset.mul_sum]
  refine Finset.sum_congr rfl fun i hi => ?_
  rw [← Finset.sum_add_distrib, Finset.mul_sum]
  refine Finset.sum_congr rfl fun j hj => ?_
  rw [← Finset.sum_add_distrib, Finset.mul_sum]
  refine Finset.sum_congr rfl fun k hk => ?_
  rw [(f_and_d (Finset.mem_range.1 hi) (Finset.mem_range.1 hj) (Finset.mem_range.1 hk)).2]
  ring

/-! ## The matrices with zeros on the diagonal -/

theorem span_add (NC : ℕ) (A B : Matrix (Fin NC) (Fin NC) ℂ) : span NC (A + B) = span NC A + span NC B := by
  unfold span
  rw [← Finset.sum_add_distrib]
  refine Finset.sum_congr rfl fun i _ => ?_
  rw [Matrix.add_mul, trace_add, mul_add, add_smul]

theorem span_smul (NC : ℕ) (x : ℂ) (A : Matrix (Fin NC) (Fin NC) ℂ) : span NC (x • A) = x • span NC A := by
  unfold span
  rw [Finset.smul_sum]
  refine Finset.sum_congr rfl fun i _ => ?_
  rw [Matrix.smul_mul, trace_smul, smul_eq_mul, smul_smul]
  congr 1
  ring

theorem span_off {NC p : ℕ} (hp : p < NC * NC - 1) (hoff : ∀ m, 2 ≤ m → p ≠ m * m - 2) :
    span NC (toM NC (init_generators NC p)) = toM NC (init_generators NC p) := by
  unfold span
  rw [Finset.sum_eq_single p]
  · rw [(C22_offdiagonal_partial hp hoff).2.2 p hp, if_pos rfl]
    norm_num
  · intro q hq hne
    rw [(C22_offdiagonal_partial hp hoff).2.2 q (Finset.mem_range.1 hq), if_neg hne.symm, mul_zero, zero_smul]
  · intro h
    exact absurd (Finset.mem_range.2 hp) h

theorem pair_index {NC k j : ℕ} (hjk : j < k) (hk : k < NC) :
    k * k - 1 + 2 * j + 1 < NC * NC - 1 ∧ (∀ m, 2 ≤ m → k * k - 1 + 2 * j ≠ m * m - 2) ∧
      ∀ m, 2 ≤ m → k * k - 1 + 2 * j + 1 ≠ m * m - 2 := by
  have hk1 : 1 ≤ k * k := Nat.one_le_iff_ne_zero.2 (Nat.mul_ne_zero (by omega) (by omega))
  have e2 : (k + 1) * (k + 1) = k * k + 2 * k + 1 := by ring
  have := Nat.mul_le_mul (show k + 1 ≤ NC from hk) (show k + 1 ≤ NC from hk)
  have key : ∀ m r, 2 ≤ m → r < 2 * k → k * k - 1 + r ≠ m * m - 2 := by
    intro m r hm hr h
    obtain ⟨n, rfl⟩ : ∃ n, m = n + 1 := ⟨m - 1, by omega⟩
    have e3 : (n + 1) * (n + 1) = n * n + 2 * n + 1 := by ring
    have hn1 : 1 ≤ n * n := Nat.one_le_iff_ne_zero.2 (Nat.mul_ne_zero (by omega) (by omega))
    obtain ⟨rfl, h2⟩ := gen_block_eq (k := k) (k' := n) (r := r) (r' := 2 * n) (by omega) (by omega) (by omega) (by omega) (by omega)
    omega
  refine ⟨by omega, fun m hm => key m _ hm (by omega), fun m hm => ?_⟩
  rw [add_assoc]
  exact key m _ hm (by omega)

theorem span_single {NC : ℕ} {k j : Fin NC} (hjk : j < k) :
    span NC (Matrix.single k j 1) = Matrix.single k j 1 ∧ span NC (Matrix.single j k 1) = Matrix.single j k 1 := by
  have hjk' : (j : ℕ) < k := hjk
  obtain ⟨h1, h2, h3⟩ := pair_index hjk' k.2
  obtain ⟨e1, e2⟩ := (init_generators_spec NC (by omega) k.2).1 j hjk
  have s1 := span_off (NC := NC) (p := k * k - 1 + 2 * j) (by omega) h2
  have s2 := span_off h1 h3
  rw [e1, toM_sym NC hjk] at s1
  rw [e2, toM_asym NC hjk] at s2
  have hs : ∀ x : ℂ, ∀ a b : Fin NC, Matrix.single a b x = x • Matrix.single a b (1 : ℂ) := fun x a b => by
    rw [Matrix.smul_single, smul_eq_mul, mul_one]
  rw [hs, hs (1 / 2) j k, span_add, span_smul, span_smul] at s1
  rw [hs, hs (-I / 2) j k, span_add, span_smul, span_smul] at s2
  have hI : I * I = -1 := I_mul_I
  generalize span NC (Matrix.single k j 1) = P at *
  generalize span NC (Matrix.single j k 1) = Q at *
  generalize Matrix.single k j (1 : ℂ) = E at *
  generalize Matrix.single j k (1 : ℂ) = F at *
  constructor
  · ext r c
    have a1 := congrFun (congrFun s1 r) c
    have a2 := congrFun (congrFun s2 r) c
    simp only [Matrix.add_apply, Matrix.smul_apply, smul_eq_mul] at a1 a2
    linear_combination a1 - I * a2 + (P r c - E r c - Q r c + F r c) / 2 * hI
  · ext r c
    have a1 := congrFun (congrFun s1 r) c
    have a2 := congrFun (congrFun s2 r) c
    simp only [Matrix.add_apply, Matrix.smul_apply, smul_eq_mul] at a1 a2
    linear_combination a1 + I * a2 - (P r c - E r c - Q r c + F r c) / 2 * hI

theorem span_zero (NC : ℕ) : span NC 0 = 0 := by
  unfold span
  simp

theorem span_sum (NC : ℕ) {ι : Type*} (s : Finset ι) (F : ι → Matrix (Fin NC) (Fin NC) ℂ) :
    span NC (∑ i ∈ s, F i) = ∑ i ∈ s, span NC (F i) := by
  classical
  induction s using Finset.induction_on with
  | empty => simp [span_zero]
  | insert a s ha ih => rw [Finset.sum_insert ha, Finset.sum_insert ha, span_add, ih]

/-- A matrix with zeros on the diagonal is found again from its components. -/
theorem span_hollow {NC : ℕ} {A : Matrix (Fin NC) (Fin NC) ℂ} (h : ∀ i, A i i = 0) : span NC A = A := by
  conv_lhs => rw [Matrix.matrix_eq_sum_single A]
  conv_rhs => rw [Matrix.matrix_eq_sum_single A]
  rw [span_sum]
  refine Finset.sum_congr rfl fun i _ => ?_
  rw [span_sum]
  refine Finset.sum_congr rfl fun j _ => ?_
  rw [show Matrix.single i j (A i j) = A i j • Matrix.single i j (1 : ℂ) by rw [Matrix.smul_single, smul_eq_mul, mul_one],
    span_smul]
  rcases lt_trichotomy i j with hij | rfl | hij
  · rw [(span_single hij).2]
  · rw [h, zero_smul, zero_smul]
  · rw [(span_single hij).1]

/-! ## C21 -/

theorem fLoop_start (t : List Struc) (a b c : Arr ℂ) (r : ℂ) : fLoop t a b c r = fLoop t a b c 0 + r := by
  unfold fLoop
  induction t generalizing r with
  | nil => simp
  | cons s t ih =>
    rw [List.foldl_cons, List.foldl_cons, ih, ih (0 + _)]
    ring

/-- The size of the components of a matrix, `2 Tr(A λ_i)`. -/
noncomputable def compSize (NC : ℕ) (A : Matrix (Fin NC) (Fin NC) ℂ) : ℝ :=
  ∑ i ∈ Finset.range (NC * NC - 1), ‖2 * (A * toM NC (init_generators NC i)).trace‖

theorem compSize_eq (NC : ℕ) (A : Arr ℂ) :
    ∑ i ∈ Finset.range (NC * NC - 1), ‖lie_dataN NC A i‖ = compSize NC (toM NC A) :=
  Finset.sum_congr rfl fun i hi => by rw [lie_dataN_apply hi]

/-- **C21 (more than three colours).** For matrices with zeros on the diagonal the contraction with `f` is `2 Tr([A, B] C)` and
the one with `d` is `2 Tr({A, B} C)`, together `4 Tr(A B C)`, up to the entries of the tables below the tolerance, for every number of colours.
Missing: the matrices with a diagonal, for which the claim fails (`C21_many_fails`). -/
theorem C21_many_partial {NC : ℕ} {A B C : Arr ℂ} (hA : ∀ i, toM NC A i i = 0) (hB : ∀ i, toM NC B i i = 0)
    (hC : ∀ i, toM NC C i i = 0) :
    ‖ifabc_ABCN NC A B C - 2 * ((toM NC A * toM NC B - toM NC B * toM NC A) * toM NC C).trace‖ ≤
      NC * (1 / 10 ^ 14) * (compSize NC (toM NC A) * compSize NC (toM NC B) * compSize NC (toM NC C)) ∧
    ‖dabc_ABCN NC A B C - 2 * ((toM NC A * toM NC B + toM NC B * toM NC A) * toM NC C).trace‖ ≤
      NC * (1 / 10 ^ 14) * (compSize NC (toM NC A) * compSize NC (toM NC B) * compSize NC (toM NC C)) ∧
    ‖ifabc_dabc_ABCN NC A B C - 4 * (toM NC A * toM NC B * toM NC C).trace‖ ≤
      2 * (NC * (1 / 10 ^ 14) * (compSize NC (toM NC A) * compSize NC (toM NC B) * compSize NC (toM NC C))) := by
  have h1 := ifabc_span NC A B C
  have h2 := dabc_span NC A B C
  rw [span_hollow hA, span_hollow hB, span_hollow hC, compSize_eq, compSize_eq, compSize_eq] at h1 h2
  refine ⟨h1, h2, ?_⟩
  have e : ifabc_dabc_ABCN NC A B C = ifabc_ABCN NC A B C + dabc_ABCN NC A B C := by
    unfold ifabc_dabc_ABCN ifabc_ABCN
    rw [fLoop_start]
    rfl
  have e2 : ifabc_dabc_ABCN NC A B C - 4 * (toM NC A * toM NC B * toM NC C).trace =
      (ifabc_ABCN NC A B C - 2 * ((toM NC A * toM NC B - toM NC B * toM NC A) * toM NC C).trace) +
      (dabc_ABCN NC A B C - 2 * ((toM NC A * toM NC B + toM NC B * toM NC A) * toM NC C).trace) := by
    rw [e, Matrix.sub_mul, Matrix.add_mul, trace_sub, trace_add]
    ring
  rw [e2]
  refine (norm_add_le _ _).trans ((add_le_add h1 h2).trans_eq ?_)
  unfold PREC_TOL
  ring

theorem gen_two {NC : ℕ} (hN : 3 < NC) :
    toM NC (init_generators NC 2) = Matrix.diagonal fun r : Fin NC => if (r : ℕ) = 0 then (1 / 2 : ℂ) else
      if (r : ℕ) = 1 then (2 ^ 64 - 1) / 2 else 0 := by
  have h := (init_generators_spec NC (k := 1) le_rfl (by omega)).2
  norm_num at h
  have h2 := toM_diagA NC ⟨1, by omega⟩
  simp only at h2
  rw [h, h2]
  have hg : gfact 1 = 1 / 2 := by
    unfold gfact
    rw [show (1 / (2 * ((1 + 1 : ℕ) : ℝ) * (((1 + 1 : ℕ) : ℝ) - 1)) : ℝ) = (1 / 2) ^ 2 by norm_num]
    exact Real.sqrt_sq (by norm_num)
  have hn : negSize 1 = 2 ^ 64 - 1 := by decide
  congr 1
  funext r
  rw [hg, hn]
  by_cases e0 : (r : ℕ) = 0
  · rw [if_pos e0, if_pos (by rw [Fin.lt_def]; simp [e0])]
    norm_num
  · rw [if_neg e0, if_neg (by rw [Fin.lt_def]; simp only; omega)]
    by_cases e1 : (r : ℕ) = 1
    · rw [if_pos e1, if_pos (Fin.ext e1)]
      norm_num
    · rw [if_neg e1, if_neg (fun h => e1 (congrArg Fin.val h))]

theorem first_pair {NC : ℕ} {z o : Fin NC} (hz : (z : ℕ) = 0) (ho : (o : ℕ) = 1) :
    toM NC (init_generators NC 0) = Matrix.single o z (1 / 2) + Matrix.single z o (1 / 2) ∧
    toM NC (init_generators NC 1) = Matrix.single o z (I / 2) + Matrix.single z o (-I / 2) := by
  have hlt : z < o := by rw [Fin.lt_def]; omega
  have h := (init_generators_spec NC (k := 1) le_rfl (ho ▸ o.2)).1 0 (by omega)
  norm_num at h
  rw [h.1, h.2, ← toM_sym NC hlt, ← toM_asym NC hlt, hz, ho]
  exact ⟨rfl, rfl⟩

theorem compSize_off {NC p : ℕ} (hp : p < NC * NC - 1) (hoff : ∀ m, 2 ≤ m → p ≠ m * m - 2) :
    compSize NC (toM NC (init_generators NC p)) = 1 := by
  unfold compSize
  rw [Finset.sum_eq_single p]
  · rw [(C22_offdiagonal_partial hp hoff).2.2 p hp, if_pos rfl]
    norm_num
  · intro q hq hne
    rw [(C22_offdiagonal_partial hp hoff).2.2 q (Finset.mem_range.1 hq), if_neg hne.symm, mul_zero, norm_zero]
  · intro h
    exact absurd (Finset.mem_range.2 hp) h

/-- `diag(1, -1, 0, …)`. -/
noncomputable def witC (NC : ℕ) : Arr ℂ := fun x => if x = 0 then 1 else if x = 1 + NC then -1 else 0

theorem toM_witC {NC : ℕ} (hN : 3 < NC) {z o : Fin NC} (hz : (z : ℕ) = 0) (ho : (o : ℕ) = 1) :
    toM NC (witC NC) = Matrix.single z z 1 - Matrix.single o o 1 := by
  ext r c
  have hc := c.2
  have h0 : (c : ℕ) + NC * r = 0 ↔ z = r ∧ z = c := by
    rw [Fin.ext_iff, Fin.ext_iff, hz]
    constructor
    · intro h
      have h1 : NC * (r : ℕ) = 0 := by omega
      rcases Nat.mul_eq_zero.1 h1 with h2 | h2 <;> omega
    · rintro ⟨h1, h2⟩
      rw [← h1, ← h2]
      simp
  have h1 : (c : ℕ) + NC * r = 1 + NC ↔ o = r ∧ o = c := by
    rw [Fin.ext_iff, Fin.ext_iff, ho]
    constructor
    · intro h
      have h2 : (r : ℕ) = 1 := by
        rcases Nat.lt_trichotomy (r : ℕ) 1 with h3 | h3 | h3
        · rw [show (r : ℕ) = 0 by omega] at h
          omega
        · exact h3
        · have := Nat.mul_le_mul_left NC (show 2 ≤ (r : ℕ) from h3)
          omega
      rw [h2] at h
      omega
    · rintro ⟨h1, h2⟩
      rw [← h1, ← h2]
      omega
  have hzo : ¬(z = r ∧ z = c) ∨ ¬(o = r ∧ o = c) := by
    by_contra h
    push Not at h
    have := congrArg Fin.val (h.1.1.trans h.2.1.symm)
    omega
  simp only [toM_apply, witC, h0, h1, Matrix.sub_apply, Matrix.single_apply]
  split_ifs <;> simp_all

theorem witC_comp {NC : ℕ} (hN : 3 < NC) {p : ℕ} (hp : p < NC * NC - 1) :
    (toM NC (witC NC) * toM NC (init_generators NC p)).trace = if p = 2 then (2 - 2 ^ 64) / 2 else 0 := by
  rw [toM_witC hN (z := ⟨0, by omega⟩) (o := ⟨1, by omega⟩) rfl rfl, Matrix.sub_mul, trace_sub, trace_single_mul',
    trace_single_mul', one_mul, one_mul]
  split_ifs with h2
  · rw [h2, gen_two hN]
    simp
    ring
  · obtain ⟨k, hk1, ⟨j, hj, e⟩ | ⟨j, hj, e⟩ | e⟩ := gen_index hp
    · have := toM_sym NC (k := k) (j := ⟨j, hj.trans k.2⟩) hj
      simp only at this
      rw [e, ((init_generators_spec NC hk1 k.2).1 j hj).1, this]
      simp [Matrix.single_apply, Fin.ext_iff]
      grind
    · have := toM_asym NC (k := k) (j := ⟨j, hj.trans k.2⟩) hj
      simp only at this
      rw [e, ((init_generators_spec NC hk1 k.2).1 j hj).2, this]
      simp [Matrix.single_apply, Fin.ext_iff]
      grind
    · rw [e, (init_generators_spec NC hk1 k.2).2, toM_diagA]
      have hk : 2 ≤ (k : ℕ) := by
        by_contra hk
        have : (k : ℕ) = 1 := by omega
        rw [this] at e
        omega
      have a0 : (⟨0, by omega⟩ : Fin NC) < k := by rw [Fin.lt_def]; simp only; omega
      have a1 : (⟨1, by omega⟩ : Fin NC) < k := by rw [Fin.lt_def]; simp only; omega
      rw [Matrix.diagonal_apply_eq, Matrix.diagonal_apply_eq, if_pos a0, if_pos a1, sub_self]

theorem comm_first {NC : ℕ} {z o : Fin NC} (hz : (z : ℕ) = 0) (ho : (o : ℕ) = 1) (M : Matrix (Fin NC) (Fin NC) ℂ) :
    ((toM NC (init_generators NC 0) * toM NC (init_generators NC 1) - toM NC (init_generators NC 1) *
      toM NC (init_generators NC 0)) * M).trace = I / 2 * (M z z - M o o) := by
  have hne : z ≠ o := fun h => by have := congrArg Fin.val h; omega
  rw [(first_pair hz ho).1, (first_pair hz ho).2]
  simp only [Matrix.add_mul, Matrix.mul_add, Matrix.sub_mul, Matrix.single_mul_single_same, trace_sub, trace_add,
    Matrix.single_mul_single_of_ne _ _ _ _ hne, Matrix.single_mul_single_of_ne _ _ _ _ hne.symm, trace_single_mul', Matrix.zero_mul,
    trace_zero]
  ring

/-- **C21 fails for more than three colours.** For every such number of colours there are Hermitian traceless matrices with
`2 Tr([A, B] C) = 2i` for which the contraction with `f` is larger than `2^126`. -/
theorem C21_many_fails {NC : ℕ} (hN : 3 < NC) (hN2 : NC < 2 ^ 64) :
    ∃ A B C : Arr ℂ, (toM NC A).IsHermitian ∧ (toM NC B).IsHermitian ∧ (toM NC C).IsHermitian ∧
      (toM NC A).trace = 0 ∧ (toM NC B).trace = 0 ∧ (toM NC C).trace = 0 ∧
      2 * ((toM NC A * toM NC B - toM NC B * toM NC A) * toM NC C).trace = 2 * I ∧
      2 ^ 126 < ‖ifabc_ABCN NC A B C‖ := by
  have hM : 2 < NC * NC - 1 := by
    have := Nat.mul_le_mul hN hN
    omega
  have off0 : ∀ m, 2 ≤ m → 0 ≠ m * m - 2 := fun m hm => by
    have := Nat.mul_le_mul hm hm
    omega
  have off1 : ∀ m, 2 ≤ m → 1 ≠ m * m - 2 := fun m hm => by
    have := Nat.mul_le_mul hm hm
    omega
  have o0 := C22_offdiagonal_partial (NC := NC) (p := 0) (by omega) off0
  have o1 := C22_offdiagonal_partial (NC := NC) (p := 1) (by omega) off1
  have hC := toM_witC hN (z := ⟨0, by omega⟩) (o := ⟨1, by omega⟩) rfl rfl
  refine ⟨init_generators NC 0, init_generators NC 1, witC NC, o0.1, o1.1, ?_, o0.2.1, o1.2.1, ?_, ?_, ?_⟩
  · rw [hC, Matrix.IsHermitian, conjTranspose_sub, conjTranspose_single, conjTranspose_single, star_one]
  · rw [hC, trace_sub, Matrix.trace_single_eq_same, Matrix.trace_single_eq_same, sub_self]
  · rw [comm_first (z := ⟨0, by omega⟩) (o := ⟨1, by omega⟩) rfl rfl, hC]
    simp
    ring
  · have h := ifabc_span NC (init_generators NC 0) (init_generators NC 1) (witC NC)
    have hs : span NC (toM NC (witC NC)) = (2 - 2 ^ 64 : ℂ) • toM NC (init_generators NC 2) := by
      unfold span
      rw [Finset.sum_eq_single 2]
      · rw [witC_comp hN hM, if_pos rfl]
        congr 1
        ring
      · intro q hq hne
        rw [witC_comp hN (Finset.mem_range.1 hq), if_neg hne, mul_zero, zero_smul]
      · intro h
        exact absurd (Finset.mem_range.2 hM) h
    have hcs : compSize NC (toM NC (witC NC)) = 2 ^ 64 - 2 := by
      unfold compSize
      rw [Finset.sum_eq_single 2]
      · rw [witC_comp hN hM, if_pos rfl, show (2 * ((2 - 2 ^ 64) / 2) : ℂ) = ((2 - 2 ^ 64 : ℝ) : ℂ) by push_cast; ring, norm_real,
          Real.norm_eq_abs, abs_of_neg (by norm_num)]
        norm_num
      · intro q hq hne
        rw [witC_comp hN (Finset.mem_range.1 hq), if_neg hne, mul_zero, norm_zero]
      · intro h
        exact absurd (Finset.mem_range.2 hM) h
    rw [compSize_eq, compSize_eq, compSize_eq, compSize_off (by omega) off0, compSize_off (by omega) off1, hcs, one_mul, one_mul,
      span_off (by omega) off0, span_off (by omega) off1, hs, Matrix.mul_smul, trace_smul,
      comm_first (z := ⟨0, by omega⟩) (o := ⟨1, by omega⟩) rfl rfl, gen_two hN] at h
    have hv : (2 * (2 - 2 ^ 64 : ℂ) • (I / 2 * ((Matrix.diagonal fun r : Fin NC => if (r : ℕ) = 0 then (1 / 2 : ℂ) else
      if (r : ℕ) = 1 then (2 ^ 64 - 1) / 2 else 0) ⟨0, by omega⟩ ⟨0, by omega⟩ - (Matrix.diagonal fun r : Fin NC =>
        if (r : ℕ) = 0 then (1 / 2 : ℂ) else if (r : ℕ) = 1 then (2 ^ 64 - 1) / 2 else 0) ⟨1, by omega⟩ ⟨1, by omega⟩))) =
        (((2 ^ 64 - 2) ^ 2 / 2 : ℝ) : ℂ) * I := by
      rw [Matrix.diagonal_apply_eq, Matrix.diagonal_apply_eq, smul_eq_mul]
      simp
      ring
    rw [hv] at h
    have hnorm : ‖(((2 ^ 64 - 2) ^ 2 / 2 : ℝ) : ℂ) * I‖ = (2 ^ 64 - 2) ^ 2 / 2 := by
      rw [norm_mul, norm_I, mul_one, norm_real, Real.norm_eq_abs, abs_of_pos (by norm_num)]
    have htri := norm_sub_norm_le ((((2 ^ 64 - 2) ^ 2 / 2 : ℝ) : ℂ) * I) (ifabc_ABCN NC (init_generators NC 0)
      (init_generators NC 1) (witC NC))
    rw [norm_sub_rev, hnorm] at htri
    have hNr : (NC : ℝ) ≤ 2 ^ 64 := by exact_mod_cast hN2.le
    have hp : PREC_TOL NC * (2 ^ 64 - 2) ≤ 2 ^ 64 * (1 / 10 ^ 14) * (2 ^ 64 - 2) := by
      unfold PREC_TOL
      gcongr
    norm_num at hp htri h ⊢
    linarith

/-- A matrix as in `C21_many_partial`, not zero: the first generator of four colours. -/
example : (∀ i, toM 4 (init_generators 4 0) i i = 0) ∧ toM 4 (init_generators 4 0) 1 0 = 1 / 2 := by
  have h := (first_pair (NC := 4) (z := 0) (o := 1) rfl rfl).1
  rw [h]
  refine ⟨fun i => ?_, ?_⟩
  · fin_cases i <;> simp [Matrix.single_apply]
  · simp [Matrix.single_apply]

end GLU.Mat
