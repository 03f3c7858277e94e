import Verif.Gfix.LogTest
import Verif.Gfix.DerivProps
import Verif.Mat.LogProps
import Verif.Mat.LogTwo

/-!
# C123: the convergence test with the logarithm
-/

namespace GLU.Gfix

open Complex GLU.Mat GLU.Geom GLU.Field GLU.Update GLU.Draught Matrix Finset

/-- The lattice divergence of a potential, over the first `D` directions. -/
noncomputable def divA {NC : ℕ} (L : Latt) (A : ℕ → ℕ → Matrix (Fin NC) (Fin NC) ℂ) (i D : ℕ) :
    Matrix (Fin NC) (Fin NC) ℂ :=
  ∑ mu ∈ range D, (A (back L i mu) mu - A i mu)

/-- The routine for the logarithm returns this matrix. -/
def Returns (NC : ℕ) (scratch U : Arr ℂ) (A : Matrix (Fin NC) (Fin NC) ℂ) : Prop :=
  A.IsHermitian ∧ A.trace = 0 ∧ ∃ P, logShort NC scratch U = some P ∧
    ∀ k < HERMSIZE NC, P k = pack_hermitian NC scratch (arrOf A) k

theorem divA_herm {NC : ℕ} {L : Latt} (hL : Valid L) {scratch : Arr ℂ} {lat : Gauge} {D : ℕ} (hD : D ≤ L.ND)
    {A : ℕ → ℕ → Matrix (Fin NC) (Fin NC) ℂ} (hA : ∀ i < volume L, ∀ mu < D, Returns NC scratch (lat (i, mu)) (A i mu))
    {i : ℕ} (hi : i < volume L) : (divA L A i D).IsHermitian ∧ (divA L A i D).trace = 0 := by
  constructor
  · unfold Matrix.IsHermitian divA
    rw [conjTranspose_sum]
    refine sum_congr rfl fun mu hmu => ?_
    have h := mem_range.1 hmu
    rw [conjTranspose_sub, (hA _ (back_lt hL i (by omega)) mu h).1, (hA i hi mu h).1]
  · unfold divA
    rw [Matrix.trace_sum]
    refine sum_eq_zero fun mu hmu => ?_
    have h := mem_range.1 hmu
    rw [Matrix.trace_sub, (hA _ (back_lt hL i (by omega)) mu h).2.1, (hA i hi mu h).2.1, sub_zero]

theorem returned_entry {NC : ℕ} {scratch P : Arr ℂ} {A : Matrix (Fin NC) (Fin NC) ℂ} (hN : 2 ≤ NC)
    (h : ∀ k < HERMSIZE NC, P k = pack_hermitian NC scratch (arrOf A) k) {r c : ℕ} (hr : r < NC - 1) (hrc : r ≤ c)
    (hc : c < NC) : P (off NC r + (c - r)) = A ⟨r, by omega⟩ ⟨c, hc⟩ := by
  have hlt := off_lt NC (show r < NC - 1 by omega) (j := c - r) (by omega)
  rw [off_last (by omega)] at hlt
  rw [h _ hlt, pack_apply _ _ _ hr hrc hc]
  have := congrFun (congrFun (toM_arrOf A) ⟨r, by omega⟩) ⟨c, hc⟩
  rw [← this, toM_apply]

theorem pack_arrOf {NC : ℕ} (hN : 2 ≤ NC) (p Q : Arr ℂ) {k : ℕ} (hk : k < HERMSIZE NC) :
    pack_hermitian NC p Q k = pack_hermitian NC p (arrOf (toM NC Q)) k := by
  obtain ⟨r, c, hr, hrc, hc, rfl⟩ := packed_cover hk
  rw [pack_apply _ _ _ hr hrc hc, pack_apply _ _ _ hr hrc hc]
  have := congrFun (congrFun (toM_arrOf (toM NC Q)) ⟨r, by omega⟩) ⟨c, hc⟩
  rw [toM_apply, toM_apply] at this
  exact this.symm

/-- What a packed matrix with the entries of a Hermitian traceless one gives. -/
theorem trace_packed {NC : ℕ} (hN : 2 ≤ NC) {P : Arr ℂ} {A : Matrix (Fin NC) (Fin NC) ℂ} (hH : A.IsHermitian)
    (hT : A.trace = 0) (h : ∀ r c, (hr : r < NC - 1) → r ≤ c → (hc : c < NC) → P (off NC r + (c - r)) =
      A ⟨r, by omega⟩ ⟨c, hc⟩) : trace_ab_herm_short NC P P = (A * A).trace.re := by
  have hh : HermTraceless NC (arrOf A) := by
    unfold HermTraceless
    rw [toM_arrOf]
    exact ⟨hH, hT⟩
  have hp : pack_hermitian NC P (arrOf A) = P := by
    funext k
    by_cases hk : k < HERMSIZE NC
    · obtain ⟨r, c, hr, hrc, hc, rfl⟩ := packed_cover hk
      rw [pack_apply _ _ _ hr hrc hc, h r c hr hrc hc]
      have := congrFun (congrFun (toM_arrOf A) ⟨r, by omega⟩) ⟨c, hc⟩
      rw [← this, toM_apply]
    · exact pack_above NC (by omega) _ _ (by omega)
  have := C12_trace_ab_herm_short hN hh hh P P
  rw [hp, toM_arrOf] at this
  rw [← this, ofReal_re]

theorem log_deriv_eq {NC : ℕ} (hN : 2 ≤ NC) {L : Latt} (hL : Valid L) {scratch : Arr ℂ} {lat : Gauge} {D : ℕ}
    (hD : D ≤ L.ND) {A : ℕ → ℕ → Matrix (Fin NC) (Fin NC) ℂ}
    (hA : ∀ i < volume L, ∀ mu < D, Returns NC scratch (lat (i, mu)) (A i mu)) {i : ℕ} (hi : i < volume L) :
    log_deriv NC L scratch lat i D =
      some (2 * (divA L A i D * divA L A i D).trace.re, ∑ mu ∈ range D, (A i mu * A i mu).trace.re) := by
  have key : ∀ d ≤ D, ∃ s, forN d (fun mu s => s.bind (log_deriv_step NC L scratch lat i mu))
      (some ((fun _ => 0, 0) : Arr ℂ × ℝ)) = some s ∧
      (∀ r c, (hr : r < NC - 1) → r ≤ c → (hc : c < NC) → s.1 (off NC r + (c - r)) =
        divA L A i d ⟨r, by omega⟩ ⟨c, hc⟩) ∧ s.2 = ∑ mu ∈ range d, (A i mu * A i mu).trace.re := by
    intro d
    induction d with
    | zero => exact fun _ => ⟨_, rfl, fun r c hr hrc hc => by simp [divA], by simp⟩
    | succ d ih =>
      intro hd
      obtain ⟨s, h1, h2, h3⟩ := ih (by omega)
      obtain ⟨a1, a2, P, a3, a4⟩ := hA i hi d (by omega)
      obtain ⟨b1, b2, P', b3, b4⟩ := hA _ (back_lt hL i (mu := d) (by omega)) d (by omega)
      refine ⟨_, by rw [forN, h1, Option.bind_some, log_deriv_step, a3, Option.bind_some, b3, Option.bind_some], ?_, ?_⟩
      · intro r c hr hrc hc
        have hlt := off_lt NC (show r < NC - 1 by omega) (j := c - r) (by omega)
        rw [off_last (by omega)] at hlt
        dsimp only
        rw [a_plus_Sxbminc_short, mapN_apply, if_pos hlt, h2 r c hr hrc hc, returned_entry hN a4 hr hrc hc,
          returned_entry hN b4 hr hrc hc]
        unfold divA
        rw [sum_range_succ, Matrix.add_apply, Matrix.sub_apply]
        simp
      · dsimp only
        rw [h3, sum_range_succ, trace_packed hN a1 a2 fun r c hr hrc hc => returned_entry hN a4 hr hrc hc]
  obtain ⟨s, h1, h2, h3⟩ := key D le_rfl
  obtain ⟨d1, d2⟩ := divA_herm hL hD hA hi
  unfold log_deriv
  rw [h1, Option.map_some, trace_deriv_eq, trace_packed hN d1 d2 h2, h3]

/-- C123: if the routine for the logarithm returns the matrices `A`, the number printed is the mean squared divergence
of `A`, up to the factor `4 / NC`; it is not negative, and zero exactly if the divergence vanishes everywhere. -/
theorem C123_test {NC : ℕ} (hN : 2 ≤ NC) {L : Latt} (hL : Valid L) {scratch : Arr ℂ} {lat : Gauge} {D : ℕ}
    (hD : D ≤ L.ND) {A : ℕ → ℕ → Matrix (Fin NC) (Fin NC) ℂ}
    (hA : ∀ i < volume L, ∀ mu < D, Returns NC scratch (lat (i, mu)) (A i mu)) :
    ∃ x, theta_test_log NC L scratch lat D = some x ∧
      x = 4 / (NC * volume L) * ∑ i ∈ range (volume L), (divA L A i D * divA L A i D).trace.re ∧ 0 ≤ x ∧
      (x = 0 ↔ ∀ i < volume L, divA L A i D = 0) := by
  have hV : 0 < volume L := volume_pos hL
  have key : ∀ n ≤ volume L, forN n (fun i s => s.bind fun tr => (log_deriv NC L scratch lat i D).map fun r => tr + r.1)
      (some (0 : ℝ)) = some (2 * ∑ i ∈ range n, (divA L A i D * divA L A i D).trace.re) := by
    intro n
    induction n with
    | zero => intro _; simp [forN]
    | succ n ih =>
      intro hn
      rw [forN, ih (by omega), Option.bind_some, log_deriv_eq hN hL hD hA (by omega), Option.map_some, sum_range_succ,
        mul_add]
  have hne : ((NC * volume L : ℕ) : ℝ) ≠ 0 := by
    have : NC * volume L ≠ 0 := Nat.mul_ne_zero (by omega) (by omega)
    exact_mod_cast this
  have hpos : ∀ i ∈ range (volume L), 0 ≤ (divA L A i D * divA L A i D).trace.re := fun i hi =>
    herm_sq_nonneg (divA_herm hL hD hA (mem_range.1 hi)).1
  have hc : 0 < 4 / ((NC : ℝ) * volume L) := by
    have h1 : (0 : ℝ) < NC := by exact_mod_cast (by omega : 0 < NC)
    have h2 : (0 : ℝ) < volume L := by exact_mod_cast hV
    positivity
  refine ⟨4 / (NC * volume L) * ∑ i ∈ range (volume L), (divA L A i D * divA L A i D).trace.re, ?_, rfl, ?_, ?_⟩
  · unfold theta_test_log fdiv
    rw [key _ le_rfl, Option.bind_some, if_neg hne]
    congr 1
    push_cast
    ring
  · exact mul_nonneg hc.le (sum_nonneg hpos)
  · rw [mul_eq_zero, or_iff_right hc.ne', sum_eq_zero_iff_of_nonneg hpos]
    constructor
    · intro h i hi
      exact (herm_sq_zero (divA_herm hL hD hA hi).1).1 (h i (mem_range.2 hi))
    · intro h i hi
      rw [h i (mem_range.1 hi)]
      simp

/-- C123, three colours: if the eigenvalues of every link are apart, the test is that of a potential `A` with
`exp(i A) = U` on every link. Missing: links with nearby eigenvalues. -/
theorem C123_three_partial {L : Latt} (hL : Valid L) (scratch : Arr ℂ) {lat : Gauge} (hU : SUField 3 L lat) {D : ℕ}
    (hD : D ≤ L.ND) (hap : ∀ i < volume L, ∀ mu < D, GLU.Mat.Apart (link 3 lat i mu) (2 / 10 ^ 13)) :
    ∃ (A : ℕ → ℕ → Matrix (Fin 3) (Fin 3) ℂ) (x : ℝ),
      (∀ i < volume L, ∀ mu < D, (A i mu).IsHermitian ∧ (A i mu).trace = 0 ∧
        NormedSpace.exp (I • A i mu) = link 3 lat i mu) ∧
      theta_test_log 3 L scratch lat D = some x ∧
      x = 4 / (3 * volume L) * ∑ i ∈ range (volume L), (divA L A i D * divA L A i D).trace.re ∧
      (x = 0 ↔ ∀ i < volume L, divA L A i D = 0) := by
  have h1 : ∀ i mu, ∃ A : Matrix (Fin 3) (Fin 3) ℂ, i < volume L → mu < D →
      Returns 3 scratch (lat (i, mu)) A ∧ NormedSpace.exp (I • A) = link 3 lat i mu := by
    intro i mu
    by_cases h : i < volume L ∧ mu < D
    · have hsu := hU i h.1 mu (by omega)
      have hone : toM 3 (lat (i, mu)) ≠ 1 := by
        intro he
        have h5 := hap i h.1 mu h.2
        unfold link at h5
        have h6 := h5 1 1 1 (by
          rw [he]
          unfold IsSpectrum3
          rw [Matrix.charpoly_one, Fintype.card_fin, map_one]
          ring)
        norm_num at h6
      obtain ⟨Q, q1, q2, q3⟩ := C104_three_partial hsu (hap i h.1 mu h.2) scratch
      obtain ⟨P, p1, p2⟩ := C104_short3 hsu hone q1 scratch
      refine ⟨toM 3 Q, fun _ _ => ⟨⟨q2.1, q2.2, P, by rw [logShort, if_pos rfl, p1], fun k hk => ?_⟩, q3⟩⟩
      rw [p2 k hk, pack_arrOf (by norm_num) _ _ hk]
    · exact ⟨0, fun h3 h4 => absurd ⟨h3, h4⟩ h⟩
  choose A hA using h1
  obtain ⟨x, x1, x2, -, x4⟩ := C123_test (by norm_num : 2 ≤ 3) hL hD (scratch := scratch) (A := A)
    fun i hi mu hmu => (hA i mu hi hmu).1
  refine ⟨A, x, fun i hi mu hmu => ?_, x1, by exact_mod_cast x2, x4⟩
  obtain ⟨h2, h3⟩ := hA i mu hi hmu
  exact ⟨h2.1, h2.2.1, h3⟩

/-- C123 fails: if one link in the directions of the test is a matrix without a logarithm for the routine, the number
printed is not defined. -/
theorem C123_undefined {NC : ℕ} (L : Latt) (scratch : Arr ℂ) {lat : Gauge} {D i mu : ℕ} (hi : i < volume L) (hmu : mu < D)
    (h : logShort NC scratch (lat (i, mu)) = none) : theta_test_log NC L scratch lat D = none := by
  have h1 : log_deriv NC L scratch lat i D = none := by
    have key : ∀ d, mu < d → forN d (fun mu s => s.bind (log_deriv_step NC L scratch lat i mu))
        (some ((fun _ => 0, 0) : Arr ℂ × ℝ)) = none := by
      intro d
      induction d with
      | zero => intro h; omega
      | succ d ih =>
        intro hd
        rw [forN]
        rcases Nat.lt_succ_iff_lt_or_eq.1 hd with h2 | h2
        · rw [ih h2]
          rfl
        · subst h2
          generalize forN mu _ _ = r
          rcases r with _ | r
          · rfl
          · rw [Option.bind_some, log_deriv_step, h]
            rfl
    unfold log_deriv
    rw [key D hmu]
    rfl
  have key : ∀ n, i < n → forN n (fun i s => s.bind fun tr => (log_deriv NC L scratch lat i D).map fun r => tr + r.1)
      (some (0 : ℝ)) = none := by
    intro n
    induction n with
    | zero => intro h; omega
    | succ n ih =>
      intro hn
      rw [forN]
      rcases Nat.lt_succ_iff_lt_or_eq.1 hn with h2 | h2
      · rw [ih h2]
        rfl
      · subst h2
        generalize forN i _ _ = r
        rcases r with _ | r
        · rfl
        · rw [Option.bind_some, h1]
          rfl
  unfold theta_test_log
  rw [key _ hi]
  rfl

/-- C123 fails for three colours on every field with a link equal to the identity, among them the unit field, which is in
Landau gauge. -/
theorem C123_identity_fails (L : Latt) (scratch : Arr ℂ) {lat : Gauge} {D i mu : ℕ} (hi : i < volume L) (hmu : mu < D)
    (h : toM 3 (lat (i, mu)) = 1) : theta_test_log 3 L scratch lat D = none := by
  apply C123_undefined L scratch hi hmu
  have hsu : IsSU 3 (lat (i, mu)) := by
    unfold IsSU
    rw [h]
    exact one_mem _
  have he : Eigenvalues_su3 (lat (i, mu)) = (1, 1, 1) := by
    obtain ⟨h0, h1, h2⟩ := spectrum_mem (C69_su3 hsu)
    have e : ∀ x : ℂ, (toM 3 (lat (i, mu))).charpoly.eval x = 0 → x = 1 := by
      intro x hx
      rw [charpoly_su3 hsu, C12_trace, h, Matrix.trace_one] at hx
      have : (x - 1) ^ 3 = 0 := by
        simp at hx
        linear_combination hx
      have := pow_eq_zero_iff (by norm_num) |>.1 this
      linear_combination this
    exact Prod.ext (e _ h0) (Prod.ext (e _ h1) (e _ h2))
  rw [logShort, if_pos rfl]
  unfold exact_log_slow_short3
  rw [he]
  simp

/-- C123, two colours: if no link is minus one the test is defined and that of a potential `A` with `exp(i A)` within
2e-9 of the link, and equal to it for angles from 1e-4 on. Missing: links equal to minus one, and small angles. -/
theorem C123_two_partial {L : Latt} (hL : Valid L) (scratch : Arr ℂ) {lat : Gauge} (hU : SUField 2 L lat) {D : ℕ}
    (hD : D ≤ L.ND) (hne : ∀ i < volume L, ∀ mu < D, link 2 lat i mu ≠ -1) :
    ∃ (A : ℕ → ℕ → Matrix (Fin 2) (Fin 2) ℂ) (x : ℝ),
      (∀ i < volume L, ∀ mu < D, (A i mu).IsHermitian ∧ (A i mu).trace = 0 ∧
        (∀ a b, ‖NormedSpace.exp (I • A i mu) a b - link 2 lat i mu a b‖ ≤ 2 / 10 ^ 9) ∧
        ((lat (i, mu) 0).re ≤ Real.cos (1 / 10 ^ 4) → NormedSpace.exp (I • A i mu) = link 2 lat i mu)) ∧
      theta_test_log 2 L scratch lat D = some x ∧
      x = 4 / (2 * volume L) * ∑ i ∈ range (volume L), (divA L A i D * divA L A i D).trace.re ∧
      (x = 0 ↔ ∀ i < volume L, divA L A i D = 0) := by
  have h1 : ∀ i mu, ∃ A : Matrix (Fin 2) (Fin 2) ℂ, i < volume L → mu < D →
      Returns 2 scratch (lat (i, mu)) A ∧
      (∀ a b, ‖NormedSpace.exp (I • A) a b - link 2 lat i mu a b‖ ≤ 2 / 10 ^ 9) ∧
      ((lat (i, mu) 0).re ≤ Real.cos (1 / 10 ^ 4) → NormedSpace.exp (I • A) = link 2 lat i mu) := by
    intro i mu
    by_cases h : i < volume L ∧ mu < D
    · obtain ⟨Q, q1, q2, q3, q4⟩ := C104_two_partial (hU i h.1 mu (by omega)) (hne i h.1 mu h.2) scratch
      obtain ⟨P, p1, p2⟩ := C104_short2 q1 scratch
      refine ⟨toM 2 Q, fun _ _ => ⟨⟨q2.1, q2.2, P, by rw [logShort, if_neg (by norm_num), if_pos rfl, p1],
        fun k hk => ?_⟩, q3, q4⟩⟩
      rw [p2 k hk, pack_arrOf (by norm_num) _ _ hk]
    · exact ⟨0, fun h3 h4 => absurd ⟨h3, h4⟩ h⟩
  choose A hA using h1
  obtain ⟨x, x1, x2, -, x4⟩ := C123_test (by norm_num : 2 ≤ 2) hL hD (scratch := scratch) (A := A)
    fun i hi mu hmu => (hA i mu hi hmu).1
  refine ⟨A, x, fun i hi mu hmu => ?_, x1, by exact_mod_cast x2, x4⟩
  obtain ⟨h2, h3, h4⟩ := hA i mu hi hmu
  exact ⟨h2.1, h2.2.1, h3, h4⟩

/-- The hypotheses of `C123_two_partial` are met by the unit field on `2 x 3 x 4 x 5`, and those of
`C123_identity_fails` too. -/
example : SUField 2 L2345 (fun _ => arr [1, 0, 0, 1]) ∧ ∀ i < volume L2345, ∀ mu < 4,
    link 2 (fun _ => arr [1, 0, 0, 1]) i mu ≠ -1 := by
  have h : toM 2 (arr [1, 0, 0, 1] : Arr ℂ) = 1 := by
    ext i j
    fin_cases i <;> fin_cases j <;> simp [toM_apply, arr]
  refine ⟨fun i _ mu _ => ?_, fun i _ mu _ he => ?_⟩
  · unfold IsSU
    rw [h]
    exact one_mem _
  · unfold link at he
    rw [h] at he
    have := congrFun (congrFun he 0) 0
    norm_num at this

example : toM 3 (arr [1, 0, 0, 0, 1, 0, 0, 0, 1] : Arr ℂ) = 1 := by
  ext i j
  fin_cases i <;> fin_cases j <;> simp [toM_apply, arr]

/-- The hypotheses of `C123_three_partial` are met by a constant field. -/
example : SUField 3 L2345 (fun _ => cyclic3) ∧ ∀ i < volume L2345, ∀ mu < 4,
    GLU.Mat.Apart (link 3 (fun _ => cyclic3) i mu) (2 / 10 ^ 13) :=
  ⟨fun _ _ _ _ => cyclic3_su, fun _ _ _ _ => cyclic3_apart⟩

end GLU.Gfix
