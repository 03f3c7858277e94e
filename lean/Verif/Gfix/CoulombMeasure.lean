import Verif.Gfix.CoulombDefined
import Verif.Gfix.FAInner

/-!
# Coulomb gauge fixing: what the convergence measure measures

C102: the number compared with the accuracy against the squared divergence of the spatial links.
-/

namespace GLU.Gfix

open Complex Matrix Finset GLU.Mat GLU.Geom GLU.Field GLU.Draught

/-- The mean over the sites of slice `t` of the squared divergence of the spatial links, divided by the number of
colours. -/
noncomputable def coulombTheta (NC : ℕ) (L : Latt) (lat : Gauge) (t : ℕ) : ℝ :=
  1 / ((NC * lcu L : ℕ) : ℝ) * ∑ i ∈ range (lcu L),
    (divergence NC L lat (lcu L * t + i) (L.ND - 1) * divergence NC L lat (lcu L * t + i) (L.ND - 1)).trace.re

/-- **C102**: the planes computed for a slice stand for `i` times the divergence of the spatial links rotated by the
matrices found so far. -/
theorem C102_planes {NC : ℕ} (hN : 2 ≤ NC) {L : Latt} (hL : Valid L) {gauge : SGauge} (hg : SUSlice NC L gauge)
    {lat : Gauge} (hU : SUField NC L lat) {t i : ℕ} (ht : t < L.dims (L.ND - 1)) (hi : i < lcu L) :
    direction NC (fun mu => steep_deriv_CG NC L lat gauge t mu i) =
      I • divergence NC L (rotated NC L gauge lat) (lcu L * t + i) (L.ND - 1) :=
  slice_direction hN hL hg hU ht hi

theorem inner_planes {NC : ℕ} (hN : 2 ≤ NC) {L : Latt} (hL : Valid L) {gauge : SGauge} (hg : SUSlice NC L gauge)
    {lat : Gauge} (hU : SUField NC L lat) {t i : ℕ} (ht : t < L.dims (L.ND - 1)) (hi : i < lcu L) :
    inner NC (fun mu => steep_deriv_CG NC L lat gauge t mu i) (fun mu => steep_deriv_CG NC L lat gauge t mu i) =
      (divergence NC L (rotated NC L gauge lat) (lcu L * t + i) (L.ND - 1) *
        divergence NC L (rotated NC L gauge lat) (lcu L * t + i) (L.ND - 1)).trace.re := by
  unfold inner
  rw [slice_direction hN hL hg hU ht hi, Matrix.smul_mul, Matrix.mul_smul, smul_smul, I_mul_I, trace_smul, smul_eq_mul]
  simp

theorem sum_PR_eq (NC : ℕ) (L : Latt) (inp old : Planes) :
    sum_PR NC L inp old = (∑ i ∈ range (lcu L), (prSite2 NC (fun mu => inp mu i) fun mu => old mu i).1,
      ∑ i ∈ range (lcu L), (prSite2 NC (fun mu => inp mu i) fun mu => old mu i).2) := by
  unfold sum_PR
  induction lcu L with
  | zero => rfl
  | succ n ih => rw [forN, ih, sum_range_succ, sum_range_succ]

/-! ## Three colours -/

/-- Three colours: what a site adds differs from the square of the direction by the sign of one product, and is between
a third and three times the square. -/
theorem C102_three (inp old : ℕ → ℂ) :
    (prSite2 3 inp old).1 = derSite 3 inp ∧
    derSite 3 inp = inner 3 inp inp + 4 * ((inp 0).re * (inp 0).im) ∧
    inner 3 inp inp ≤ 3 * derSite 3 inp ∧ derSite 3 inp ≤ 3 * inner 3 inp inp := by
  have h1 : (prSite2 3 inp old).1 = derSite 3 inp := by simp [prSite2, derSite]
  have h2 := (C82_inner_three inp old).2.1
  have h3 : derSite 3 inp = 2 * ((inp 0).re * (inp 0).re + (inp 0).im * (inp 0).im + (inp 0).re * (inp 0).im +
      ((inp 1).re * (inp 1).re + (inp 1).im * (inp 1).im) + ((inp 2).re * (inp 2).re + (inp 2).im * (inp 2).im) +
      ((inp 3).re * (inp 3).re + (inp 3).im * (inp 3).im)) := by simp [derSite]
  refine ⟨h1, h2, ?_, ?_⟩ <;>
  nlinarith [mul_self_nonneg ((inp 0).re + (inp 0).im), mul_self_nonneg ((inp 0).re - (inp 0).im),
    mul_self_nonneg (inp 1).re, mul_self_nonneg (inp 1).im, mul_self_nonneg (inp 2).re, mul_self_nonneg (inp 2).im,
    mul_self_nonneg (inp 3).re, mul_self_nonneg (inp 3).im]

/-- Both bounds are reached. -/
theorem C102_three_sharp : (∃ inp, 0 < derSite 3 inp ∧ inner 3 inp inp = 3 * derSite 3 inp) ∧
    ∃ inp, 0 < inner 3 inp inp ∧ derSite 3 inp = 3 * inner 3 inp inp := by
  have key : ∀ z : ℂ, derSite 3 (fun mu => if mu = 0 then z else 0) =
      2 * (z.re * z.re + z.im * z.im + z.re * z.im) := fun z => by simp [derSite]
  refine ⟨⟨fun mu => if mu = 0 then 1 - I else 0, ?_, ?_⟩, ⟨fun mu => if mu = 0 then 1 + I else 0, ?_, ?_⟩⟩
  · rw [key]; norm_num
  · have := (C82_inner_three (fun mu => if mu = 0 then 1 - I else 0) fun _ => 0).2.1
    rw [key] at this ⊢
    norm_num at this ⊢
    linarith
  · have := (C82_inner_three (fun mu => if mu = 0 then 1 + I else 0) fun _ => 0).2.1
    rw [key] at this
    norm_num at this
    linarith
  · have := (C82_inner_three (fun mu => if mu = 0 then 1 + I else 0) fun _ => 0).2.1
    rw [key] at this ⊢
    norm_num at this ⊢
    linarith

theorem cgLoop_last {P : FaParams} (hN : 2 ≤ P.NC) {db : ℕ × List ℕ} {lat : Gauge} {t : ℕ} {acc : ℝ} (n : ℕ) :
    ∀ {s : CgState} {q : CgState × ℕ}, SUSlice P.NC P.L s.gauge → cgLoop P db lat t acc n s = some q →
      ∃ s', SUSlice P.NC P.L s'.gauge ∧ cgStep P db lat t s' = some q.1 := by
  induction n with
  | zero =>
    intro s q hg h
    rw [cgLoop, Option.map_eq_some_iff] at h
    obtain ⟨s', h, rfl⟩ := h
    exact ⟨s, hg, h⟩
  | succ n ih =>
    intro s q hg h
    rw [cgLoop, Option.bind_eq_some_iff] at h
    obtain ⟨s', h1, h⟩ := h
    by_cases hc : acc < s'.tr
    · rw [if_pos hc, Option.map_eq_some_iff] at h
      obtain ⟨q', h, rfl⟩ := h
      exact ih (q := q') (cgStep_su hN hg h1) h
    · rw [if_neg hc] at h
      injection h with h
      subst h
      exact ⟨s, hg, h1⟩

theorem step_FACG_tr {P : FaParams} (hN : 2 ≤ P.NC) {db : ℕ × List ℕ} {lat : Gauge} {t : ℕ} {acc : ℝ} {max_iters : ℕ}
    {g g' : SGauge} {tr : ℝ} {n : ℕ} (hg : SUSlice P.NC P.L g)
    (h : steep_step_FACG P db lat t acc max_iters g = some (g', tr, n)) :
    ∃ b old, SUSlice P.NC P.L b ∧
      tr = (sum_PR P.NC P.L (P.accel (steep_deriv_CG P.NC P.L lat b t)) old).1 * GFNORM_COULOMB P := by
  unfold steep_step_FACG at h
  rw [Option.map_eq_some_iff] at h
  obtain ⟨q, h, e⟩ := h
  rw [Option.bind_eq_some_iff] at h
  obtain ⟨s, h0, h⟩ := h
  have hs : SUSlice P.NC P.L s.gauge := by
    unfold cgStart at h0
    rw [Option.map_eq_some_iff] at h0
    obtain ⟨g1, h1, rfl⟩ := h0
    exact line_search_su hN hg h1
  obtain ⟨s', h1, h2⟩ := cgLoop_last hN _ hs h
  obtain ⟨-, a, b, c⟩ := cgStep_some h2
  injection e with e1 e
  injection e with e2 e3
  refine ⟨s'.gauge, s'.in_old, h1, ?_⟩
  rw [← e2, c, b, a]

theorem steep_fix_tr {NC : ℕ} (hN : 2 ≤ NC) {L : Latt} {scratch : Arr ℂ} {f : SGauge → Option (SGauge × ℝ × ℕ)}
    {R : ℝ → Prop} (hf : ∀ g r, SUSlice NC L g → f g = some r → SUSlice NC L r.1 ∧ R r.2.1) {rand : ℕ → SGauge}
    (hr : ∀ k, SUSlice NC L (rand k)) {acc : ℝ} {max_iters : ℕ} (n : ℕ) :
    ∀ {control tot : ℕ} {flag : Bool} {gauge g : SGauge} {tr : ℝ} {its c : ℕ}, SUSlice NC L gauge →
    steep_fix NC L scratch f rand acc max_iters n control tot flag gauge = .done g tr its c → R tr := by
  induction n with
  | zero => intro _ _ _ _ _ _ _ _ _ h; cases h
  | succ n ih =>
    intro control tot flag gauge g tr its c hg h
    rw [steep_fix] at h
    cases h1 : f gauge with
    | none => rw [h1] at h; cases h
    | some r =>
      obtain ⟨g1, tr1, it1⟩ := r
      rw [h1] at h
      dsimp only at h
      obtain ⟨hp, hq⟩ := hf _ _ hg h1
      cases h2 : checkSolution NC L scratch acc g1 tr1 it1 with
      | none => rw [h2] at h; cases h
      | some r =>
        obtain ⟨g2, ok⟩ := r
        rw [h2] at h
        dsimp only at h
        have hg2 : SUSlice NC L g2 := by
          unfold checkSolution at h2
          split at h2
          · exact adequate_su (r := (g2, ok)) hN h2
          · injection h2 with h2
            injection h2 with h2
            rw [← h2]; exact hp
        split at h
        · exact ih hg2 h
        · split at h
          · exact ih (hr _) h
          · injection h with e1 e2 e3 e4
            rw [← e2]; exact hq

/-- **C102**, three colours: a slice left with the measure `tr` had, one step before, mean squared divergence at most
`3 tr`, provided the acceleration does not make the measured length smaller.  (That a further step is taken after the
measurement is the missing part.) -/
theorem C102_converged_partial {P : FaParams} (hN : P.NC = 3) (hL : Valid P.L)
    (hacc : ∀ p, sum_DER2 3 P.L p ≤ sum_DER2 3 P.L (P.accel p)) {db : ℕ × List ℕ} {rand : ℕ → ℕ → SGauge}
    (hr : ∀ t k, SUSlice P.NC P.L (rand t k)) {acc : ℝ} {max_iters passes : ℕ} {lat : Gauge}
    (hU : SUField P.NC P.L lat) {t : ℕ} (ht : t < P.L.dims (P.L.ND - 1)) {g : SGauge} {tr : ℝ} {its c : ℕ}
    (h : fixSlice P db rand acc max_iters passes lat t = .done g tr its c) :
    ∃ b, SUSlice P.NC P.L b ∧ coulombTheta P.NC P.L (rotated P.NC P.L b lat) t ≤ 3 * tr ∧
      ((∀ p, sum_DER2 3 P.L (P.accel p) ≤ sum_DER2 3 P.L p) →
        tr ≤ 3 * coulombTheta P.NC P.L (rotated P.NC P.L b lat) t) := by
  have hN2 : 2 ≤ P.NC := by omega
  refine steep_fix_tr (R := fun tr => ∃ b, SUSlice P.NC P.L b ∧
    coulombTheta P.NC P.L (rotated P.NC P.L b lat) t ≤ 3 * tr ∧
      ((∀ p, sum_DER2 3 P.L (P.accel p) ≤ sum_DER2 3 P.L p) →
        tr ≤ 3 * coulombTheta P.NC P.L (rotated P.NC P.L b lat) t)) hN2 ?_ (hr t) passes (idSlice_su P.NC P.L) h
  rintro g ⟨g', tr, n⟩ hg h1
  refine ⟨step_FACG_su hN2 hg h1, ?_⟩
  obtain ⟨b, old, hb, htr⟩ := step_FACG_tr hN2 hg h1
  refine ⟨b, hb, ?_⟩
  dsimp only
  rw [htr, sum_PR_eq]
  have hpos : (0 : ℝ) ≤ 1 / ((P.NC * lcu P.L : ℕ) : ℝ) := by positivity
  have e1 : ∀ p o : Planes, (∑ i ∈ range (lcu P.L), (prSite2 P.NC (fun mu => p mu i) fun mu => o mu i).1) =
      sum_DER2 3 P.L p := fun p o => by
    rw [sum_DER2_eq, hN]
    exact sum_congr rfl fun i _ => (C102_three _ _).1
  dsimp only
  rw [e1]
  have e2 : ∑ i ∈ range (lcu P.L), (divergence P.NC P.L (rotated P.NC P.L b lat) (lcu P.L * t + i) (P.L.ND - 1) *
      divergence P.NC P.L (rotated P.NC P.L b lat) (lcu P.L * t + i) (P.L.ND - 1)).trace.re ≤
      3 * sum_DER2 3 P.L (P.accel (steep_deriv_CG P.NC P.L lat b t)) := by
    refine le_trans ?_ (mul_le_mul_of_nonneg_left (hacc _) (by norm_num))
    rw [sum_DER2_eq, mul_sum]
    refine sum_le_sum fun i hi => ?_
    rw [← inner_planes hN2 hL hb hU ht (mem_range.1 hi), hN]
    exact (C102_three _ fun _ => 0).2.2.1
  have e3 : (∀ p, sum_DER2 3 P.L (P.accel p) ≤ sum_DER2 3 P.L p) →
      sum_DER2 3 P.L (P.accel (steep_deriv_CG P.NC P.L lat b t)) ≤ 3 * ∑ i ∈ range (lcu P.L),
        (divergence P.NC P.L (rotated P.NC P.L b lat) (lcu P.L * t + i) (P.L.ND - 1) *
          divergence P.NC P.L (rotated P.NC P.L b lat) (lcu P.L * t + i) (P.L.ND - 1)).trace.re := by
    intro ha
    refine le_trans (ha _) ?_
    rw [sum_DER2_eq, mul_sum]
    refine sum_le_sum fun i hi => ?_
    rw [← inner_planes hN2 hL hb hU ht (mem_range.1 hi), hN]
    exact (C102_three _ fun _ => 0).2.2.2
  unfold coulombTheta GFNORM_COULOMB
  refine ⟨?_, fun ha => ?_⟩
  · have := mul_le_mul_of_nonneg_left e2 hpos
    linarith
  · have := mul_le_mul_of_nonneg_left (e3 ha) hpos
    linarith

/-- Without acceleration the hypothesis on it holds. -/
example (L : Latt) (p : Planes) : sum_DER2 3 L p ≤ sum_DER2 3 L (id p) := le_rfl

/-! ## Two colours -/

/-- Two colours: the diagonal is left out of the measure, and the numerator of the Polak-Ribiere quotient is half of what
it should be. -/
theorem C102_two_site {inp old : ℕ → ℂ} (h : (inp 0).re = 0) :
    (prSite2 2 inp old).1 = inner 2 inp inp - 2 * ((inp 0).im * (inp 0).im) ∧
    (prSite2 2 inp old).2 = (inner 2 inp (fun mu => inp mu - old mu) - 2 * ((inp 0).im * (inp 0 - old 0).im)) / 2 := by
  constructor <;>
  simp [prSite2, trace_ab_herm_short, inner, direction, upper, Matrix.trace, Matrix.mul_apply, Fin.sum_univ_two, h] <;>
  ring

/-- A matrix that vanishes off the diagonal. -/
def DiagArr (NC : ℕ) (a : Arr ℂ) : Prop := ∃ d, toM NC a = Matrix.diagonal d

theorem lieHerm_diag {n : ℕ} (d : Fin n → ℂ) {r c : Fin n} (h : r ≠ c) : lieHerm (Matrix.diagonal d) r c = 0 := by
  unfold lieHerm
  rw [Matrix.diagonal_conjTranspose]
  simp [Matrix.diagonal_apply_ne _ h, Matrix.one_apply_ne h]

/-- Every spatial link of the slice is diagonal, and so are the matrices. -/
theorem divergence_diag {NC : ℕ} {L : Latt} (hL : Valid L) {gauge : SGauge} (hg : SUSlice NC L gauge)
    (hd : ∀ i < lcu L, DiagArr NC (gauge i)) {lat : Gauge} (hU : SUField NC L lat)
    (hlat : ∀ i < volume L, ∀ mu < L.ND, DiagArr NC (lat (i, mu))) {i : ℕ} (hi : i < volume L) {D : ℕ} (hD : D ≤ L.ND)
    {r c : Fin NC} (hrc : r ≠ c) : divergence NC L (rotated NC L gauge lat) i D r c = 0 := by
  have hl : ∀ i < volume L, ∀ mu < L.ND, ∃ d, link NC (rotated NC L gauge lat) i mu = Matrix.diagonal d := by
    intro i hi mu hmu
    have h := (gtransform_transformed hL (g := joined L fun _ => gauge) (fun j hj => hg _ (slice_of hL hj).2.1) hU).1 i hi
      mu hmu
    obtain ⟨d1, h1⟩ := hd _ (slice_of hL hi).2.1
    obtain ⟨d2, h2⟩ := hlat i hi mu hmu
    obtain ⟨d3, h3⟩ := hd _ (slice_of hL (neighbor_lt hL i hmu)).2.1
    unfold rotated
    rw [h]
    unfold joined link
    rw [h1, h2, h3, Matrix.diagonal_conjTranspose, Matrix.diagonal_mul_diagonal, Matrix.diagonal_mul_diagonal]
    exact ⟨_, rfl⟩
  unfold divergence
  rw [Matrix.sum_apply]
  refine sum_eq_zero fun mu hmu => ?_
  have hm : mu < L.ND := by have := mem_range.1 hmu; omega
  obtain ⟨d1, h1⟩ := hl i hi mu hm
  obtain ⟨d2, h2⟩ := hl _ (back_lt hL i hm) mu hm
  rw [h1, h2, Matrix.sub_apply, lieHerm_diag _ hrc, lieHerm_diag _ hrc, sub_zero]

theorem idSlice_diag (NC : ℕ) (L : Latt) : ∀ i < lcu L, DiagArr NC (idSlice NC i) := fun i _ =>
  ⟨fun _ => 1, by unfold idSlice; rw [C63_identity, Matrix.diagonal_one]⟩

theorem set_gauge_diag {scratch : Arr ℂ} {inp : Planes} {al : ℝ} {i : ℕ} {g : Arr ℂ} (h0 : inp 1 i = 0)
    (h : set_gauge_matrix 2 scratch inp al i = some g) : DiagArr 2 g := by
  unfold set_gauge_matrix at h
  rw [if_neg (by norm_num)] at h
  unfold gram_reunit at h
  rw [if_neg (by norm_num), if_pos rfl] at h
  have e : gaugeStep 2 scratch inp al i 2 = 0 := by simp [gaugeStep, arr, h0, conj]
  unfold gram_reunit2 at h
  dsimp only at h
  split at h
  · cases h
  · injection h with h
    refine ⟨fun k => g (k + 2 * k), ?_⟩
    rw [← h, e]
    ext r c
    fin_cases r <;> fin_cases c <;> simp [toM_apply, arr, Matrix.diagonal]

theorem exponentiate_diag {L : Latt} {scratch : Arr ℂ} {gauge g' : SGauge} {inp : Planes} {al : ℝ}
    (hg : SUSlice 2 L gauge) (hd : ∀ i < lcu L, DiagArr 2 (gauge i)) (h0 : ∀ i < lcu L, inp 1 i = 0)
    (h : exponentiate_gauge_CG 2 L scratch gauge inp al = some g') : ∀ i < lcu L, DiagArr 2 (g' i) := by
  obtain ⟨x, a, b⟩ := exponentiate_some h
  intro i hi
  obtain ⟨d1, h1⟩ := set_gauge_diag (h0 i hi) (a i hi)
  obtain ⟨d2, h2⟩ := hd i hi
  rw [b i hi]
  refine ⟨fun k => d1 k * d2 k, ?_⟩
  rw [(C11_multab_suNC (set_gauge_su le_rfl (a i hi)) (hg i hi) _).1, h1, h2, Matrix.diagonal_mul_diagonal]

theorem planes_diag {L : Latt} (hL : Valid L) {gauge : SGauge} (hg : SUSlice 2 L gauge)
    (hd : ∀ i < lcu L, DiagArr 2 (gauge i)) {lat : Gauge} (hU : SUField 2 L lat)
    (hlat : ∀ i < volume L, ∀ mu < L.ND, DiagArr 2 (lat (i, mu))) {t : ℕ} (ht : t < L.dims (L.ND - 1)) {i : ℕ}
    (hi : i < lcu L) :
    steep_deriv_CG 2 L lat gauge t 1 i = 0 ∧ (steep_deriv_CG 2 L lat gauge t 0 i).re = 0 := by
  constructor
  · have h := slice_direction le_rfl hL hg hU ht hi
    have h1 := congrFun (congrFun h 0) 1
    rw [Matrix.smul_apply, divergence_diag hL hg hd hU hlat (slice_lt ht hi) (by omega) (by decide), smul_zero] at h1
    simpa [direction, upper] using h1
  · unfold steep_deriv_CG
    rw [if_pos hi]
    simp [derivPlanes]

/-- **C102** (what the program gets wrong), two colours: if all links are diagonal the measure is zero after the first
iteration whatever the divergence is, so that the method stops there with any accuracy. -/
theorem C102_two_fails {P : FaParams} (hN : P.NC = 2) (hL : Valid P.L) (hacc : P.accel = id) (db : ℕ × List ℕ)
    {lat : Gauge} (hU : SUField 2 P.L lat) (hlat : ∀ i < volume P.L, ∀ mu < P.L.ND, DiagArr 2 (lat (i, mu))) {t : ℕ}
    (ht : t < P.L.dims (P.L.ND - 1))
    (hdiv : ∃ i < lcu P.L, divergence 2 P.L lat (lcu P.L * t + i) (P.L.ND - 1) ≠ 0) :
    ∃ g, ∀ acc, 0 < acc → ∀ rand max_iters passes, 2 ≤ max_iters →
      fixSlice P db rand acc max_iters (passes + 1) lat t = .done g 0 1 0 := by
  obtain ⟨NC, L, scratch, accel, tol, al⟩ := P
  dsimp only at hN hL hacc hU hlat ht hdiv
  subst hN hacc
  obtain ⟨s, h1, h2⟩ := cgStart_defined (P := ⟨2, L, scratch, id, tol, al⟩) (Or.inl rfl) db lat t (idSlice 2)
  have h0 : s.inold ≠ 0 := by
    intro h
    rw [h2] at h
    obtain ⟨i, hi, hne⟩ := hdiv
    exact hne (first_length (Or.inl rfl) hL hU ht h i hi)
  obtain ⟨s', h3⟩ := (cgStep_defined (P := ⟨2, L, scratch, id, tol, al⟩) (Or.inl rfl) db lat t s).2 h0
  have hsg : SUSlice 2 L s.gauge ∧ ∀ i < lcu L, DiagArr 2 (s.gauge i) := by
    unfold cgStart at h1
    rw [Option.map_eq_some_iff] at h1
    obtain ⟨g1, h1, rfl⟩ := h1
    refine ⟨line_search_su le_rfl (idSlice_su 2 L) h1, ?_⟩
    unfold line_search_Coulomb at h1
    rw [Option.bind_eq_some_iff] at h1
    obtain ⟨v, -, h1⟩ := h1
    exact exponentiate_diag (idSlice_su 2 L) (idSlice_diag 2 L)
      (fun i hi => (planes_diag hL (idSlice_su 2 L) (idSlice_diag 2 L) hU hlat ht hi).1) h1
  have htr : s'.tr = 0 := by
    obtain ⟨-, a, b, c⟩ := cgStep_some h3
    rw [c, b, a, sum_PR_eq]
    dsimp only [id]
    rw [sum_eq_zero, zero_mul]
    intro i hi
    obtain ⟨p1, p2⟩ := planes_diag hL hsg.1 hsg.2 hU hlat ht (mem_range.1 hi)
    simp [prSite2, trace_ab_herm_short, p1, p2]
  have hstep : ∀ acc, 0 < acc → ∀ max_iters, steep_step_FACG ⟨2, L, scratch, id, tol, al⟩ db lat t acc max_iters (idSlice 2)
      = some (s'.gauge, 0, 1) := by
    intro acc ha max_iters
    unfold steep_step_FACG
    rw [h1, Option.bind_some]
    cases max_iters - 1 with
    | zero => rw [cgLoop, h3, Option.map_some, Option.map_some, htr]
    | succ n => rw [cgLoop, h3, Option.bind_some, if_neg (by rw [htr]; exact not_lt.2 ha.le), Option.map_some, htr]
  obtain ⟨g, hg⟩ := adequate_defined le_rfl scratch (step_FACG_su (P := ⟨2, L, scratch, id, tol, al⟩) le_rfl (idSlice_su 2 L)
    (hstep 1 (by norm_num) 2)) 1
  refine ⟨g, fun acc ha rand max_iters passes hm => ?_⟩
  have hc : checkSolution 2 L scratch acc s'.gauge 0 1 = some (g, true) := by
    unfold checkSolution
    rw [if_pos ha]
    exact hg
  unfold fixSlice
  rw [steep_fix, hstep acc ha]
  dsimp only
  rw [hc]
  dsimp only
  rw [if_neg (by omega), if_neg]
  intro hf
  have := hf.2
  rw [Bool.or_eq_true, decide_eq_true_iff] at this
  rcases this with h | h
  · simp at h
  · omega

/-- The field with one such link in each slice. -/
example (scratch : Arr ℂ) (tol al : ℝ) (db : ℕ × List ℕ) (t : ℕ) (ht : t < 5) : ∃ g, ∀ acc, 0 < acc → ∀ rand passes,
    fixSlice ⟨2, L2345, scratch, id, tol, al⟩ db rand acc 100 (passes + 1) stripes t = .done g 0 1 0 := by
  obtain ⟨g, h⟩ := C102_two_fails (P := ⟨2, L2345, scratch, id, tol, al⟩) rfl valid_L2345 rfl db (stripes_su _)
    (fun i _ mu _ => by
      unfold stripes
      split
      · exact ⟨fun k => if k = 0 then I else -I, by ext r c; fin_cases r <;> fin_cases c <;> simp [toM_apply, arr]⟩
      · exact ⟨fun k => 1, by ext r c; fin_cases r <;> fin_cases c <;> simp [toM_apply, arr]⟩) (t := t) ht
    ⟨0, show 0 < lcu L2345 by decide, stripes_divergence ht⟩
  exact ⟨g, fun acc ha rand passes => h acc ha rand 100 passes (by norm_num)⟩

/-! ## Four or more colours -/

/-- Four or more colours: both sums leave out the diagonal. -/
theorem C102_many_site {NC : ℕ} (hN : 4 ≤ NC) {inp old : ℕ → ℂ} (hi : ImagDiag NC inp) (ho : ImagDiag NC old) :
    (prSite2 NC inp old).1 = derSite NC inp ∧
    derSite NC inp = inner NC inp inp - ∑ r : Fin NC, (direction NC inp r r * star (direction NC inp r r)).re ∧
    (prSite2 NC inp old).2 = (inner NC inp (fun mu => inp mu - old mu) -
      ∑ r : Fin NC, (direction NC inp r r * star (direction NC (fun mu => inp mu - old mu) r r)).re) / 2 := by
  obtain ⟨a, b, c⟩ := C82_inner_many hN hi ho
  refine ⟨?_, b, ?_⟩
  · unfold prSite2 derSite
    rw [if_neg (by omega), if_neg (by omega), if_neg (by omega)]
  · rw [← c]
    unfold prSite2 prSite
    rw [if_neg (by omega), if_neg (by omega), if_neg (by omega)]
    dsimp only
    norm_num
    ring

/-- **C102** (what the program gets wrong), four or more colours: if all links are diagonal the first direction is taken
to have length zero whatever the divergence is, and the program divides by it. -/
theorem C102_many_fails {P : FaParams} (hN : 4 ≤ P.NC) (_hN' : P.NC ≤ 18) (hL : Valid P.L) (hacc : P.accel = id) (db : ℕ × List ℕ)
    (rand : ℕ → ℕ → SGauge) (acc : ℝ) (max_iters passes : ℕ) {lat : Gauge} (hU : SUField P.NC P.L lat)
    (hlat : ∀ i < volume P.L, ∀ mu < P.L.ND, DiagArr P.NC (lat (i, mu))) {t : ℕ} (ht : t < P.L.dims (P.L.ND - 1)) :
    fixSlice P db rand acc max_iters (passes + 1) lat t = .undef := by
  refine fixSlice_undef _ _ _ _ _ ?_
  rw [hacc, sum_DER2_eq]
  refine sum_eq_zero fun i hi => ?_
  have hi := mem_range.1 hi
  have hg := idSlice_su P.NC P.L
  have hdir := slice_direction (show 2 ≤ P.NC by omega) hL hg hU ht hi
  have hherm := (divergence_herm (NC := P.NC) P.L (rotated P.NC P.L (idSlice P.NC) lat) (lcu P.L * t + i) (P.L.ND - 1)).1
  have himag : ImagDiag P.NC fun mu => steep_deriv_CG P.NC P.L lat (idSlice P.NC) t mu i := by
    intro h4 r hr
    have := congrFun (congrFun hdir ⟨r, by omega⟩) ⟨r, by omega⟩
    unfold direction upper at this
    rw [if_neg (by simp), if_neg (by simp), if_pos hr, if_neg (by omega), if_neg (by omega), Matrix.smul_apply] at this
    rw [this]
    have hd := herm_diag hherm ⟨r, by omega⟩
    simp [hd]
  have h1 := (C102_many_site hN himag (old := fun _ => 0) fun _ _ _ => rfl).2.1
  dsimp only [id]
  rw [h1, inner_planes (by omega) hL hg hU ht hi, herm_sq hherm, hdir, sub_eq_zero]
  refine sum_congr rfl fun a _ => ?_
  rw [sum_eq_single a]
  · rw [Matrix.smul_apply, smul_eq_mul, star_def, mul_conj, ofReal_re, normSq_eq_norm_sq, norm_mul, norm_I, one_mul]
  · intro b _ hb
    rw [divergence_diag hL hg (idSlice_diag _ _) hU hlat (slice_lt ht hi) (by omega) (Ne.symm hb)]
    simp
  · intro h
    exact absurd (mem_univ a) h

/-- Four colours: the diagonal links diag(i, -i, 1, 1) on one link of each slice. -/
example (scratch : Arr ℂ) (tol al : ℝ) (db : ℕ × List ℕ) (rand : ℕ → ℕ → SGauge) (acc : ℝ) :
    ∃ lat, SUField 4 L2345 lat ∧ divergence 4 L2345 lat 0 3 ≠ 0 ∧
      fixSlice ⟨4, L2345, scratch, id, tol, al⟩ db rand acc 100 9 lat 0 = .undef := by
  have hd : toM 4 (arr [I, 0, 0, 0, 0, -I, 0, 0, 0, 0, 1, 0, 0, 0, 0, 1]) = Matrix.diagonal ![I, -I, 1, 1] := by
    ext r c
    fin_cases r <;> fin_cases c <;> simp [toM_apply, arr]
  have h1 : toM 4 (identity 4 fun _ => 0) = Matrix.diagonal fun _ => 1 := by
    rw [C63_identity, Matrix.diagonal_one]
  have hU : SUField 4 L2345 fun l => if l.2 = 0 ∧ l.1 % 24 = 0 then
      arr [I, 0, 0, 0, 0, -I, 0, 0, 0, 0, 1, 0, 0, 0, 0, 1] else identity 4 fun _ => 0 := by
    intro i _ mu _
    dsimp only
    split
    · unfold IsSU
      rw [hd, Matrix.mem_specialUnitaryGroup_iff, Matrix.mem_unitaryGroup_iff, Matrix.star_eq_conjTranspose,
        Matrix.diagonal_conjTranspose, Matrix.diagonal_mul_diagonal, Matrix.det_diagonal]
      constructor
      · ext r c
        fin_cases r <;> fin_cases c <;> simp [Matrix.diagonal]
      · simp [Fin.prod_univ_four]
    · unfold IsSU
      rw [C63_identity]
      exact one_mem _
  refine ⟨_, hU, ?_, ?_⟩
  · intro h
    have hb : back L2345 0 0 % 24 ≠ 0 := by decide
    have := congrFun (congrFun h 0) 0
    unfold divergence at this
    rw [sum_range_succ, sum_range_succ, sum_range_one] at this
    simp [link, hb, hd, h1, lieHerm, Matrix.trace, Fin.sum_univ_four] at this
  · exact C102_many_fails (P := ⟨4, L2345, scratch, id, tol, al⟩) le_rfl (show 4 ≤ 18 by norm_num) valid_L2345 rfl db rand
      acc 100 8 hU (fun i _ mu _ => by
        dsimp only
        split
        · exact ⟨_, hd⟩
        · exact ⟨_, h1⟩) (show 0 < L2345.dims 3 by decide)

end GLU.Gfix
