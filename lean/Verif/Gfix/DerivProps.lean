import Verif.Gfix.DerivLemmas
import Verif.Gfix.OrProps
import Mathlib.Analysis.SpecialFunctions.Exponential
import Mathlib.Analysis.Calculus.Deriv.Star
import Mathlib.Analysis.Complex.RealDeriv

/-!
# C80: the convergence test of the gauge fixing
-/

namespace GLU.Gfix

open Complex GLU.Mat GLU.Geom GLU.Field GLU.Update GLU.Draught Matrix Finset

/-! ## The test is the mean square of the divergence -/

/-- **C80**, value: the convergence test of a special unitary field is `4/(NC V)` times the sum over the sites of the
trace of the square of the divergence. -/
theorem C80_theta {NC : ℕ} (hN : 2 ≤ NC) {L : Latt} (hL : Valid L) (scratch : Arr ℂ) {lat : Gauge}
    (hU : SUField NC L lat) {D : ℕ} (hD : D ≤ L.ND) :
    theta_test_lin NC L scratch lat D = some (4 / (NC * volume L) *
      ∑ i ∈ range (volume L), (divergence NC L lat i D * divergence NC L lat i D).trace.re) := by
  have hV : 0 < volume L := volume_pos hL
  unfold theta_test_lin fdiv
  have hne : ((NC * volume L : ℕ) : ℝ) ≠ 0 := by
    have : NC * volume L ≠ 0 := Nat.mul_ne_zero (by omega) (by omega)
    exact_mod_cast this
  rw [if_neg hne, forN_sum, zero_add,
    sum_congr rfl fun i hi => latt_deriv_eq hN hL scratch hU (mem_range.1 hi) hD, ← mul_sum]
  congr 1
  push_cast
  ring

/-! ## The divergence is the gradient of the gauge functional -/

theorem re_trace_lie {n : ℕ} {A : Matrix (Fin n) (Fin n) ℂ} (hA : A.IsHermitian) (hT : A.trace = 0)
    (U : Matrix (Fin n) (Fin n) ℂ) : (A * lieHerm U).trace.re = (A * U).trace.im := by
  have h1 : (A * Uᴴ).trace = star (A * U).trace := by
    rw [← Matrix.trace_conjTranspose, conjTranspose_mul, hA.eq, Matrix.trace_mul_comm]
  unfold lieHerm
  rw [mul_sub, mul_smul_comm, mul_smul_comm, mul_one, Matrix.trace_sub, Matrix.trace_smul, Matrix.trace_smul, hT,
    smul_zero, sub_zero, mul_sub, Matrix.trace_sub, h1]
  simp [mul_re, div_re, div_im]
  ring

theorem re_trace_left {n : ℕ} (A U : Matrix (Fin n) (Fin n) ℂ) : ((I • A) * U).trace.re = -(A * U).trace.im := by
  rw [smul_mul_assoc, Matrix.trace_smul]
  simp

theorem re_trace_right {n : ℕ} {A : Matrix (Fin n) (Fin n) ℂ} (hA : A.IsHermitian) (U : Matrix (Fin n) (Fin n) ℂ) :
    (U * (I • A)ᴴ).trace.re = (A * U).trace.im := by
  rw [conjTranspose_smul, hA.eq, mul_smul_comm, Matrix.trace_smul, Matrix.trace_mul_comm]
  simp

theorem deriv_link {n : ℕ} {G H : ℝ → Matrix (Fin n) (Fin n) ℂ} {A B U : Matrix (Fin n) (Fin n) ℂ} (hG : G 0 = 1)
    (hH : H 0 = 1) (dG : ∀ a b, HasDerivAt (fun t => G t a b) (A a b) 0)
    (dH : ∀ a b, HasDerivAt (fun t => H t a b) (B a b) 0) :
    HasDerivAt (fun t => (G t * U * (H t)ᴴ).trace.re) ((A * U).trace + (U * Bᴴ).trace).re 0 := by
  have h1 : HasDerivAt (fun t => (G t * U * (H t)ᴴ).trace) ((A * U).trace + (U * Bᴴ).trace) 0 := by
    have h2 : HasDerivAt (fun t => ∑ a, ∑ b, (∑ c, G t a c * U c b) * star (H t a b))
        (∑ a, ∑ b, ((∑ c, A a c * U c b) * star (H 0 a b) + (∑ c, G 0 a c * U c b) * star (B a b))) 0 := by
      refine HasDerivAt.fun_sum fun a _ => HasDerivAt.fun_sum fun b _ => ?_
      exact (HasDerivAt.fun_sum fun c _ => (dG a c).mul_const (U c b)).mul (dH a b).star
    have e : (∑ a, ∑ b, ((∑ c, A a c * U c b) * star (H 0 a b) + (∑ c, G 0 a c * U c b) * star (B a b))) =
        (A * U * (H 0)ᴴ).trace + (G 0 * U * Bᴴ).trace := by
      simp only [Matrix.trace, diag_apply, Matrix.mul_apply, conjTranspose_apply, sum_add_distrib]
    rw [e, hG, hH, conjTranspose_one, mul_one, one_mul] at h2
    exact h2
  exact (Complex.reCLM.hasFDerivAt.comp_hasDerivAt (0 : ℝ) h1)

/-- **C80**, gradient: along any differentiable path of gauge transformations that starts at the identity in the
direction `i A(x)`, the functional of the gauge fixing changes at the rate `sum_x tr (A(x) divergence(x))`. -/
theorem C80_gradient {NC : ℕ} {L : Latt} (hL : Valid L) {lat : Gauge} {D : ℕ} (hD : D ≤ L.ND)
    {g : ℝ → ℕ → Matrix (Fin NC) (Fin NC) ℂ} {A : ℕ → Matrix (Fin NC) (Fin NC) ℂ}
    (hA : ∀ i < volume L, (A i).IsHermitian ∧ (A i).trace = 0) (h0 : ∀ i < volume L, g 0 i = 1)
    (hd : ∀ i < volume L, ∀ a b, HasDerivAt (fun t => g t i a b) (I * A i a b) 0) {path : ℝ → Gauge}
    (hp : ∀ t, ∀ i < volume L, ∀ mu < L.ND,
      link NC (path t) i mu = g t i * link NC lat i mu * (g t (neighbor L i mu))ᴴ) :
    HasDerivAt (fun t => linkSum NC (path t) (range (volume L)) D)
      (∑ i ∈ range (volume L), (A i * divergence NC L lat i D).trace.re) 0 := by
  have h1 : (fun t => linkSum NC (path t) (range (volume L)) D) = fun t =>
      ∑ i ∈ range (volume L), ∑ mu ∈ range D, (g t i * link NC lat i mu * (g t (neighbor L i mu))ᴴ).trace.re := by
    funext t
    unfold linkSum
    refine sum_congr rfl fun i hi => sum_congr rfl fun mu hmu => ?_
    rw [mem_range] at hi hmu
    rw [hp t i hi mu (by omega)]
  rw [h1]
  have h2 : HasDerivAt (fun t => ∑ i ∈ range (volume L), ∑ mu ∈ range D,
      (g t i * link NC lat i mu * (g t (neighbor L i mu))ᴴ).trace.re)
      (∑ i ∈ range (volume L), ∑ mu ∈ range D, (((I • A i) * link NC lat i mu).trace +
        (link NC lat i mu * (I • A (neighbor L i mu))ᴴ).trace).re) 0 := by
    refine HasDerivAt.fun_sum fun i hi => HasDerivAt.fun_sum fun mu hmu => ?_
    rw [mem_range] at hi hmu
    have hn := neighbor_lt hL i (mu := mu) (by omega)
    exact deriv_link (h0 i hi) (h0 _ hn) (fun a b => by simpa using hd i hi a b) (fun a b => by simpa using hd _ hn a b)
  convert h2 using 1
  have h3 : ∀ mu < D, ∑ i ∈ range (volume L), (A (neighbor L i mu) * link NC lat i mu).trace.im =
      ∑ i ∈ range (volume L), (A i * link NC lat (back L i mu) mu).trace.im := by
    intro mu hmu
    rw [← sum_back hL (show mu < L.ND by omega)]
    refine sum_congr rfl fun i hi => ?_
    rw [(C02_inverse hL (mem_range.1 hi) (by omega)).2]
  have h4 : ∀ i ∈ range (volume L), (A i * divergence NC L lat i D).trace.re =
      ∑ mu ∈ range D, ((A i * link NC lat (back L i mu) mu).trace.im - (A i * link NC lat i mu).trace.im) := by
    intro i hi
    rw [mem_range] at hi
    unfold divergence
    rw [Finset.mul_sum, Matrix.trace_sum, re_sum]
    refine sum_congr rfl fun mu _ => ?_
    rw [mul_sub, Matrix.trace_sub, sub_re, re_trace_lie (hA i hi).1 (hA i hi).2, re_trace_lie (hA i hi).1 (hA i hi).2]
  rw [sum_congr rfl h4, sum_comm, sum_comm (s := range (volume L)) (t := range D)]
  refine sum_congr rfl fun mu hmu => ?_
  rw [mem_range] at hmu
  rw [sum_sub_distrib, ← h3 mu hmu, ← sum_sub_distrib]
  refine sum_congr rfl fun i hi => ?_
  rw [mem_range] at hi
  rw [add_re, re_trace_left, re_trace_right (hA _ (neighbor_lt hL i (by omega))).1]
  ring

/-- Entries of the exponential along a line. -/
theorem exp_entry {n : ℕ} (A : Matrix (Fin n) (Fin n) ℂ) (a b : Fin n) :
    HasDerivAt (fun t : ℝ => NormedSpace.exp (I • ((t : ℂ) • A)) a b) (I * A a b) 0 := by
  letI := Matrix.linftyOpNormedRing (n := Fin n) (α := ℂ)
  letI := Matrix.linftyOpNormedAlgebra (n := Fin n) (α := ℂ) (R := ℝ)
  have h := hasDerivAt_exp_smul_const (𝕂 := ℝ) (I • A) (0 : ℝ)
  rw [zero_smul, NormedSpace.exp_zero, one_mul] at h
  have h' : HasDerivAt (fun t : ℝ => (NormedSpace.exp (t • (I • A))) a b) ((I • A) a b) 0 := by
    let f : Matrix (Fin n) (Fin n) ℂ →ₗ[ℝ] ℂ :=
      { toFun := fun M => M a b, map_add' := fun _ _ => rfl, map_smul' := fun _ _ => rfl }
    exact (LinearMap.toContinuousLinearMap f).hasFDerivAt.comp_hasDerivAt (0 : ℝ) h
  simp only [Matrix.smul_apply, smul_eq_mul] at h'
  convert h' using 4
  rename_i t
  rw [smul_comm]
  rfl

/-! ## When the test vanishes -/

/-- The field is a critical point of the gauge functional: it does not change to first order under any gauge
transformation `exp (i t A(x))`. -/
def Critical (NC : ℕ) (L : Latt) (lat : Gauge) (D : ℕ) : Prop :=
  ∀ A : ℕ → Matrix (Fin NC) (Fin NC) ℂ, (∀ i < volume L, (A i).IsHermitian ∧ (A i).trace = 0) →
    HasDerivAt (fun t : ℝ => ∑ i ∈ range (volume L), ∑ mu ∈ range D, (NormedSpace.exp (I • ((t : ℂ) • A i)) *
      link NC lat i mu * (NormedSpace.exp (I • ((t : ℂ) • A (neighbor L i mu))))ᴴ).trace.re) 0 0

theorem exp_path {NC : ℕ} {L : Latt} (hL : Valid L) (lat : Gauge) {D : ℕ} (hD : D ≤ L.ND)
    {A : ℕ → Matrix (Fin NC) (Fin NC) ℂ} (hA : ∀ i < volume L, (A i).IsHermitian ∧ (A i).trace = 0) :
    HasDerivAt (fun t : ℝ => ∑ i ∈ range (volume L), ∑ mu ∈ range D, (NormedSpace.exp (I • ((t : ℂ) • A i)) *
      link NC lat i mu * (NormedSpace.exp (I • ((t : ℂ) • A (neighbor L i mu))))ᴴ).trace.re)
      (∑ i ∈ range (volume L), (A i * divergence NC L lat i D).trace.re) 0 := by
  have h := C80_gradient hL hD (lat := lat) (g := fun t i => NormedSpace.exp (I • ((t : ℂ) • A i))) hA
    (fun i _ => by simp) (fun i _ a b => exp_entry (A i) a b)
    (path := fun t x => arrOf (NormedSpace.exp (I • ((t : ℂ) • A x.1)) * link NC lat x.1 x.2 *
      (NormedSpace.exp (I • ((t : ℂ) • A (neighbor L x.1 x.2))))ᴴ))
    (fun t i _ mu _ => toM_arrOf _)
  have e : ∀ t : ℝ, linkSum NC (fun x => arrOf (NormedSpace.exp (I • ((t : ℂ) • A x.1)) * link NC lat x.1 x.2 *
      (NormedSpace.exp (I • ((t : ℂ) • A (neighbor L x.1 x.2))))ᴴ)) (range (volume L)) D = _ := fun t => by
    unfold linkSum
    exact sum_congr rfl fun i _ => sum_congr rfl fun mu _ => by rw [link, toM_arrOf]
  simp only [e] at h
  exact h

/-- **C80**, zero: the test is never negative, and is zero exactly for the fields that no infinitesimal gauge
transformation improves, which are exactly those the sums of the over-relaxation find stationary in every subgroup of
every site. -/
theorem C80_zero {NC : ℕ} (hN : 2 ≤ NC) {L : Latt} (hL : Valid L) (scratch : Arr ℂ) {lat : Gauge}
    (hU : SUField NC L lat) {D : ℕ} (hD : D ≤ L.ND) :
    (∃ x, theta_test_lin NC L scratch lat D = some x ∧ 0 ≤ x) ∧
    (theta_test_lin NC L scratch lat D = some 0 ↔ Critical NC L lat D) ∧
    (theta_test_lin NC L scratch lat D = some 0 ↔ ∀ i < volume L, ∀ s < NSU2SUBGROUPS NC,
      (orSum NC L lat s i D).1.im = 0 ∧ (orSum NC L lat s i D).2 = 0) := by
  have hV : 0 < volume L := volume_pos hL
  have hpos : (0 : ℝ) < 4 / (NC * volume L) := by
    have : (0 : ℝ) < NC := by exact_mod_cast (show 0 < NC by omega)
    have : (0 : ℝ) < volume L := by exact_mod_cast hV
    positivity
  have hh := fun i => divergence_herm (NC := NC) L lat i D
  have hz : theta_test_lin NC L scratch lat D = some 0 ↔ ∀ i < volume L, divergence NC L lat i D = 0 := by
    rw [C80_theta hN hL scratch hU hD, Option.some_inj, mul_eq_zero, or_iff_right hpos.ne',
      sum_eq_zero_iff_of_nonneg fun i _ => herm_sq_nonneg (hh i).1]
    exact ⟨fun h i hi => (herm_sq_zero (hh i).1).1 (h i (mem_range.2 hi)),
      fun h i hi => (herm_sq_zero (hh i).1).2 (h i (mem_range.1 hi))⟩
  refine ⟨⟨_, C80_theta hN hL scratch hU hD, mul_nonneg hpos.le (sum_nonneg fun i _ => herm_sq_nonneg (hh i).1)⟩, ?_, ?_⟩
  · rw [hz]
    constructor
    · intro h A hA
      have h1 := exp_path hL lat hD hA
      rw [sum_congr rfl fun i hi => by rw [h i (mem_range.1 hi), mul_zero, Matrix.trace_zero, zero_re],
        sum_const_zero] at h1
      exact h1
    · intro h i hi
      have h1 := (exp_path hL lat hD (A := fun i => divergence NC L lat i D) fun i _ => hh i).unique
        (h (fun i => divergence NC L lat i D) fun i _ => hh i)
      rw [sum_eq_zero_iff_of_nonneg fun i _ => herm_sq_nonneg (hh i).1] at h1
      exact (herm_sq_zero (hh i).1).1 (h1 i (mem_range.2 hi))
  · rw [hz]
    refine forall₂_congr fun i hi => ?_
    rw [divergence_eq, neg_eq_zero, lieHerm_zero_iff]
    have key : ∀ s < NSU2SUBGROUPS NC, ∀ p q : Fin NC, (p : ℕ) = (rowPair NC s).1 → (q : ℕ) = (rowPair NC s).2 →
        ((orSum NC L lat s i D).1.im = 0 ∧ (orSum NC L lat s i D).2 = 0 ↔
        (siteSum NC L lat i D p p).im = (siteSum NC L lat i D q q).im ∧
          siteSum NC L lat i D p q = star (siteSum NC L lat i D q p)) := by
      intro s hs p q hp hq
      rw [orSum_eq hs p q hp hq]
      refine and_congr ⟨fun h => ?_, fun h => ?_⟩ ⟨fun h => (sub_eq_zero.1 h).symm, fun h => sub_eq_zero.2 h.symm⟩
      · simp at h; linarith
      · simp; linarith
    have hen := C26_enumeration NC
    constructor
    · intro h s hs
      have h1 := hen.1 s hs
      exact (key s hs ⟨_, h1.1.trans h1.2⟩ ⟨_, h1.2⟩ rfl rfl).2 (h _ _ (Fin.lt_def.2 h1.1))
    · intro h p q hpq
      obtain ⟨s, ⟨hs, hr⟩, -⟩ := hen.2 p q (Fin.lt_def.1 hpq) q.2
      exact (key s hs p q (by rw [hr]) (by rw [hr])).1 (h s hs)

/-! ## The two derivatives agree -/

theorem forN_add {n : ℕ} (f : ℕ → ℝ) : forN n (fun mu r => r + f mu) 0 = ∑ mu ∈ range n, f mu := by
  rw [forN_sum, zero_add]

theorem derivSum_raw {NC : ℕ} (L : Latt) (scratch : Arr ℂ) (lat : Gauge) (i D : ℕ) {k : ℕ} (hk : k < HERMSIZE NC) :
    derivSum NC L scratch (fun _ => 0) lat i D k = ∑ mu ∈ range D,
      (Hermitian_proj_short NC scratch (lat (back L i mu, mu)) k - Hermitian_proj_short NC scratch (lat (i, mu)) k) := by
  unfold derivSum
  induction D with
  | zero => simp [forN]
  | succ D ih =>
    rw [forN, a_plus_Sxbminc_short, mapN_apply, if_pos hk, ih, sum_range_succ]
    push_cast
    ring

/-- **C80**, fast derivative: for any field the quick routine accumulates the same packed matrix as the generic one. -/
theorem C80_fast {NC : ℕ} (L : Latt) (scratch : Arr ℂ) (lat : Gauge) (i : ℕ) :
    (∀ k < HERMSIZE NC, (fast_deriv_AntiHermitian_proj NC L scratch lat i).1 k =
      derivSum NC L scratch (fun _ => 0) lat i L.ND k) ∧
    (NC ≠ 2 → (fast_deriv_AntiHermitian_proj NC L scratch lat i).2 =
      latt_deriv_AntiHermitian_proj NC L scratch (fun _ => 0) lat i L.ND) ∧
    (NC = 2 → 4 * (fast_deriv_AntiHermitian_proj NC L scratch lat i).2 =
      latt_deriv_AntiHermitian_proj NC L scratch (fun _ => 0) lat i L.ND) := by
  have first : ∀ k < HERMSIZE NC, (fast_deriv_AntiHermitian_proj NC L scratch lat i).1 k =
      derivSum NC L scratch (fun _ => 0) lat i L.ND k := by
    intro k hk
    by_cases h3 : NC = 3
    · subst h3
      rw [derivSum_raw L scratch lat i L.ND hk]
      have hk' : k < 5 := hk
      unfold fast_deriv_AntiHermitian_proj
      rw [if_pos rfl]
      simp only [Hermitian_proj_short, if_pos, Hermitian_proj_short3, add_assoc, forN_add]
      interval_cases k
      all_goals
        simp only [arr, List.getD_cons_zero, List.getD_cons_succ]
        apply Complex.ext
        all_goals
          simp [GLU.Mat.conj, re_sum, im_sum, Finset.sum_add_distrib, ← Finset.sum_div, ← Finset.mul_sum]
          try ring
    · by_cases h2 : NC = 2
      · subst h2
        rw [derivSum_raw L scratch lat i L.ND hk]
        have hk' : k < 2 := hk
        unfold fast_deriv_AntiHermitian_proj
        rw [if_neg h3, if_pos rfl]
        simp only [Hermitian_proj_short, if_neg h3, if_pos, Hermitian_proj_short2, forN_add]
        interval_cases k
        all_goals
          simp only [arr, List.getD_cons_zero, List.getD_cons_succ]
          apply Complex.ext
          all_goals
            simp [GLU.Mat.conj, re_sum, im_sum, Finset.sum_add_distrib, ← Finset.mul_sum]
            try ring
      · unfold fast_deriv_AntiHermitian_proj
        rw [if_neg h3, if_neg h2]
  refine ⟨first, fun h2 => ?_, fun h2 => ?_⟩
  · by_cases h3 : NC = 3
    · subst h3
      have e := fun k hk => (first k hk).symm
      rw [latt_deriv_AntiHermitian_proj, trace_deriv, if_pos rfl, e 0 (by decide), e 1 (by decide), e 2 (by decide),
        e 3 (by decide), e 4 (by decide)]
      unfold fast_deriv_AntiHermitian_proj
      rw [if_pos rfl]
      simp [arr]
      ring
    · unfold fast_deriv_AntiHermitian_proj
      rw [if_neg h3, if_neg h2]
      rfl
  · subst h2
    have e := fun k hk => (first k hk).symm
    rw [latt_deriv_AntiHermitian_proj, trace_deriv, if_neg (by norm_num), if_pos rfl, e 0 (by decide), e 1 (by decide)]
    unfold fast_deriv_AntiHermitian_proj
    rw [if_neg (by norm_num), if_pos rfl]
    simp [arr]
    try ring

theorem spike_su (L : Latt) : SUField 2 L spike := by
  intro i _ mu _
  unfold spike
  split_ifs
  · unfold IsSU
    rw [mem_specialUnitaryGroup_iff, mem_unitaryGroup_iff]
    constructor
    · ext a b
      fin_cases a <;> fin_cases b <;> simp [Matrix.mul_apply, Fin.sum_univ_two, arr, star_eq_conjTranspose]
    · simp [det_fin_two, arr]
  · unfold IsSU
    rw [mem_specialUnitaryGroup_iff, mem_unitaryGroup_iff]
    constructor
    · ext a b
      fin_cases a <;> fin_cases b <;> simp [Matrix.mul_apply, Fin.sum_univ_two, arr, star_eq_conjTranspose]
    · simp [det_fin_two, arr]

theorem spike_divergence : divergence 2 L2345 spike 0 4 = !![-1, 0; 0, 1] := by
  rw [divergence_eq, spike_sum]
  ext a b
  rw [Matrix.neg_apply, lieHerm_apply]
  fin_cases a <;> fin_cases b <;> simp [Fin.sum_univ_two] <;> apply Complex.ext <;> simp <;> norm_num

/-- **C80**, the two colour return value: the quick routine forgets the factor four, so the two routines, which are
called for the same purpose, return different numbers on a special unitary field. -/
theorem C80_fast_two_fails (scratch : Arr ℂ) : SUField 2 L2345 spike ∧
    latt_deriv_AntiHermitian_proj 2 L2345 scratch (fun _ => 0) spike 0 4 = 4 ∧
    (fast_deriv_AntiHermitian_proj 2 L2345 scratch spike 0).2 = 1 := by
  have h1 : latt_deriv_AntiHermitian_proj 2 L2345 scratch (fun _ => 0) spike 0 4 = 4 := by
    rw [latt_deriv_eq (by norm_num) valid_L2345 scratch (spike_su _) (by decide) (by decide), spike_divergence]
    simp [Matrix.trace, Matrix.mul_apply, Fin.sum_univ_two]
    norm_num
  refine ⟨spike_su _, h1, ?_⟩
  have h2 := (C80_fast (NC := 2) L2345 scratch spike 0).2.2 rfl
  rw [show L2345.ND = 4 from rfl, h1] at h2
  linarith

/-- The test is not always zero: the field above is not at a critical point. -/
example (scratch : Arr ℂ) : theta_test_lin 2 L2345 scratch spike 4 ≠ some 0 := by
  intro h
  have h1 := ((C80_zero (by norm_num) valid_L2345 scratch (spike_su _) (le_refl 4)).2.2.1 h) 0 (by decide) 0 (by decide)
  rw [orSum_eq (by decide) 0 1 (by decide) (by decide), spike_sum] at h1
  simp at h1

/-- and it is zero for the identity. -/
example (scratch : Arr ℂ) : theta_test_lin 2 L2345 scratch (fun _ => arr [1, 0, 0, 1]) 4 = some 0 := by
  have hU : SUField 2 L2345 fun _ => arr [1, 0, 0, 1] := fun i _ mu _ => by
    have := spike_su L2345 1 (by decide) 1 (by decide)
    simpa [spike] using this
  rw [C80_theta (by norm_num) valid_L2345 scratch hU (le_refl 4)]
  simp [divergence, link]

/-- **C80**, the functional the run reports: one minus the average link trace. -/
theorem C80_functional {NC : ℕ} (hN : 1 ≤ NC) {L : Latt} (hL : Valid L) (lat : Gauge) :
    ∃ x, links NC L lat = some x ∧ gauge_functional NC L lat = some (1 - x) := by
  refine ⟨_, links_linkSum hN hL lat, ?_⟩
  have hV : 0 < volume L := volume_pos hL
  have hnd := hL.nd
  have hne : ((L.ND * NC * volume L : ℕ) : ℝ) ≠ 0 := by
    have : L.ND * NC * volume L ≠ 0 := by
      apply Nat.mul_ne_zero (Nat.mul_ne_zero (by omega) (by omega)) (by omega)
    exact_mod_cast this
  unfold gauge_functional fdiv
  rw [if_neg hne, Option.map_some, forN_sum, zero_add]
  have e : ∑ i ∈ range (volume L), forN L.ND (fun mu t => t + (trace NC (lat (i, mu))).re) 0 =
      linkSum NC lat (range (volume L)) L.ND := by
    unfold linkSum
    refine sum_congr rfl fun i _ => ?_
    rw [forN_add]
    refine sum_congr rfl fun mu _ => ?_
    rw [C12_trace]
    rfl
  rw [e]
  congr 2
  push_cast
  ring

end GLU.Gfix
