import Verif.Gfix.CoulombSD
import Verif.Gfix.CoulombMeasure

/-!
# Coulomb gauge fixing by steepest descent: properties

C137: the method gives a gauge transform of the configuration, slice by slice; for two and three colours no step can be
undefined, also on a configuration that already satisfies the gauge condition, where the conjugate gradients divide by
zero (`C101_fixed_fails`).
-/

namespace GLU.Gfix

open Complex Matrix Finset GLU.Mat GLU.Geom GLU.Field GLU.Draught

theorem sdStep_su {P : FaParams} (hN : 2 ≤ P.NC) {lat : Gauge} {t : ℕ} {g : SGauge} {r : Planes × SGauge}
    (hg : SUSlice P.NC P.L g) (h : steep_step_SD P lat t g = some r) : SUSlice P.NC P.L r.2 := by
  unfold steep_step_SD at h
  rw [Option.map_eq_some_iff] at h
  obtain ⟨g', h, rfl⟩ := h
  exact exponentiate_su hN hg h

theorem sdLoop_su {P : FaParams} (hN : 2 ≤ P.NC) {lat : Gauge} {t : ℕ} {acc : ℝ} (n : ℕ) :
    ∀ {g : SGauge} {r : SGauge × ℝ × ℕ}, SUSlice P.NC P.L g → sdLoop P lat t acc n g = some r →
      SUSlice P.NC P.L r.1 := by
  induction n with
  | zero =>
    intro g r hg h
    rw [sdLoop, Option.map_eq_some_iff] at h
    obtain ⟨s, h, rfl⟩ := h
    exact sdStep_su hN hg h
  | succ n ih =>
    intro g r hg h
    rw [sdLoop, Option.bind_eq_some_iff] at h
    obtain ⟨s, h1, h⟩ := h
    have := sdStep_su hN hg h1
    dsimp only at h
    split at h
    · rw [Option.map_eq_some_iff] at h
      obtain ⟨q, h, rfl⟩ := h
      exact ih (r := q) this h
    · injection h with h; subst h; exact this

theorem sdLoop_stop {P : FaParams} {lat : Gauge} {t : ℕ} {acc : ℝ} (n : ℕ) :
    ∀ {g : SGauge} {r : SGauge × ℝ × ℕ}, sdLoop P lat t acc n g = some r →
      1 ≤ r.2.2 ∧ r.2.2 ≤ n + 1 ∧ (r.2.2 < n + 1 → r.2.1 ≤ acc) := by
  induction n with
  | zero =>
    intro g r h
    rw [sdLoop, Option.map_eq_some_iff] at h
    obtain ⟨s, -, rfl⟩ := h
    exact ⟨le_rfl, le_rfl, fun h => absurd h (lt_irrefl _)⟩
  | succ n ih =>
    intro g r h
    rw [sdLoop, Option.bind_eq_some_iff] at h
    obtain ⟨s, -, h⟩ := h
    dsimp only at h
    split at h
    · rw [Option.map_eq_some_iff] at h
      obtain ⟨q, h, rfl⟩ := h
      obtain ⟨a, b, c⟩ := ih h
      exact ⟨by simp, by simpa using b, fun h => c (by simpa using h)⟩
    · rename_i hc
      injection h with h
      subst h
      exact ⟨le_rfl, by simp, fun _ => not_lt.1 hc⟩

theorem sdStep_congr {P : FaParams} (hL : Valid P.L) {t : ℕ} (ht : t < P.L.dims (P.L.ND - 1)) {lat lat' : Gauge}
    (h : SliceAgree P.L t lat lat') : steep_step_SD P lat t = steep_step_SD P lat' t := by
  funext g
  unfold steep_step_SD
  rw [steep_deriv_congr hL ht h]

theorem sdLoop_congr {P : FaParams} (hL : Valid P.L) {t : ℕ} (ht : t < P.L.dims (P.L.ND - 1)) {lat lat' : Gauge}
    (h : SliceAgree P.L t lat lat') (acc : ℝ) (n : ℕ) : sdLoop P lat t acc n = sdLoop P lat' t acc n := by
  induction n with
  | zero => funext s; rw [sdLoop, sdLoop, sdStep_congr hL ht h]
  | succ n ih => funext s; rw [sdLoop, sdLoop, sdStep_congr hL ht h, ih]

theorem fixSliceSD_local {P : FaParams} (hL : Valid P.L) (rand : ℕ → ℕ → SGauge) (acc : ℝ) (max_iters passes : ℕ) :
    Local P.L (fixSliceSD P rand acc max_iters passes) := by
  intro t ht lat lat' h
  unfold fixSliceSD
  congr 1
  funext g
  unfold steep_step_FASD
  rw [sdLoop_congr hL ht h]

/-- **C137**, one slice: the matrices are special unitary; the loop is left when the measure is at most the accuracy, or after
eight random restarts. -/
theorem C137_slice {P : FaParams} (hN : 2 ≤ P.NC) {rand : ℕ → ℕ → SGauge} (hr : ∀ t k, SUSlice P.NC P.L (rand t k))
    {acc : ℝ} {max_iters passes : ℕ} {lat : Gauge} {t : ℕ} {g : SGauge} {tr : ℝ} {its c : ℕ}
    (h : fixSliceSD P rand acc max_iters passes lat t = .done g tr its c) :
    SUSlice P.NC P.L g ∧ 1 ≤ its ∧ c ≤ 8 ∧ (tr ≤ acc ∨ c = 8 ∧ 1e4 * acc ≤ tr) := by
  have hs : StopsConverged acc max_iters (steep_step_FASD P lat t acc max_iters) := by
    intro g g' tr n h
    obtain ⟨a, b, c⟩ := sdLoop_stop _ h
    exact ⟨a, fun h => c (show n < _ by omega)⟩
  obtain ⟨a, b, c, -⟩ := steep_fix_stop hs passes (by omega) h
  exact ⟨steep_fix_su hN (fun g r hg h => sdLoop_su hN _ hg h) (hr t) passes (idSlice_su _ _) h, a, b, c⟩

/-- **C137**: when the fixing returns, the configuration is a gauge transform of the one it was given, by matrices that were
found for each slice in the original configuration; every link is special unitary, the average plaquette is unchanged, and the
number returned is the sum of the iterations spent on the slices. -/
theorem C137_orbit {P : FaParams} (hN : 2 ≤ P.NC) (hL : Valid P.L) {alloc : Bool} {rand : ℕ → ℕ → SGauge}
    (hr : ∀ t k, SUSlice P.NC P.L (rand t k)) {acc : ℝ} {max_iters passes : ℕ} {lat lat' : Gauge} {its : ℕ}
    (hU : SUField P.NC P.L lat) (h : CoulombSD P alloc rand acc max_iters passes lat = .done lat' its) :
    Orbit P.NC P.L lat lat' ∧ SUField P.NC P.L lat' ∧ av_plaquette P.NC P.L lat' = av_plaquette P.NC P.L lat ∧
    ∃ (g : ℕ → SGauge) (tr : ℕ → ℝ) (n c : ℕ → ℕ),
      (∀ t < P.L.dims (P.L.ND - 1), fixSliceSD P rand acc max_iters passes lat t = .done (g t) (tr t) (n t) (c t)) ∧
      its = ∑ t ∈ range (P.L.dims (P.L.ND - 1)), n t ∧ Transformed P.NC P.L (joined P.L g) lat lat' := by
  suffices hm : ∃ (g : ℕ → SGauge) (tr : ℕ → ℝ) (n c : ℕ → ℕ),
      (∀ t < P.L.dims (P.L.ND - 1), fixSliceSD P rand acc max_iters passes lat t = .done (g t) (tr t) (n t) (c t)) ∧
      its = ∑ t ∈ range (P.L.dims (P.L.ND - 1)), n t ∧ SUGauge P.NC P.L (joined P.L g) ∧
      Transformed P.NC P.L (joined P.L g) lat lat' by
    obtain ⟨g, tr, n, c, h1, h2, h3, h4⟩ := hm
    have ho : Orbit P.NC P.L lat lat' := ⟨_, h3, h4⟩
    exact ⟨ho, orbit_su hL ho hU, orbit_plaquette (by omega) hL ho hU, g, tr, n, c, h1, h2, h4⟩
  unfold CoulombSD at h
  cases hcb : init_cb P.L (lcu P.L) (P.L.ND - 1) with
  | failure => rw [hcb] at h; cases h
  | outOfBounds => rw [hcb] at h; cases h
  | ok nc Ns sq =>
    rw [hcb] at h
    dsimp only at h
    split at h
    · cases h
    · cases hF : coulombRegion P.NC P.L (fixSliceSD P rand acc max_iters passes) lat with
      | running => rw [hF] at h; cases h
      | undef => rw [hF] at h; cases h
      | outside => rw [hF] at h; cases h
      | done lat1 its1 =>
        rw [hF] at h
        dsimp only at h
        obtain ⟨a, b, c⟩ := coulombRegion_spec hL (fixSliceSD_local hL rand acc max_iters passes) hF
        have hall : ∀ t, ∃ (g : SGauge) (tr : ℝ) (n c : ℕ), t < P.L.dims (P.L.ND - 1) →
            fixSliceSD P rand acc max_iters passes lat t = .done g tr n c := by
          intro t
          cases hf : fixSliceSD P rand acc max_iters passes lat t with
          | done g tr n c => exact ⟨g, tr, n, c, fun _ => rfl⟩
          | running => exact ⟨fun _ _ => 0, 0, 0, 0, fun ht => absurd (a t ht) (by rw [hf]; exact id)⟩
          | undef => exact ⟨fun _ _ => 0, 0, 0, 0, fun ht => absurd (a t ht) (by rw [hf]; exact id)⟩
        choose g tr n c' hd using hall
        have hjoin : ∀ j < volume P.L, joined P.L (fun s => (fixSliceSD P rand acc max_iters passes lat s).gauge) j
            = joined P.L g j := by
          intro j hj
          unfold joined
          beta_reduce
          rw [hd _ (slice_of hL hj).1]
          rfl
        have hSU : SUGauge P.NC P.L (joined P.L g) := by
          intro j hj
          obtain ⟨h1, h2, -⟩ := slice_of hL hj
          exact (C137_slice hN hr (hd _ h1)).1 _ h2
        obtain ⟨hT, hS⟩ := gtransform_transformed hL hSU hU
        have hlat : ∀ i < volume P.L, ∀ mu < P.L.ND, lat1 (i, mu) = gtransform P.NC P.L (joined P.L g) lat (i, mu) := by
          intro i hi mu hmu
          rw [c i hi mu hmu, gtransform_apply, gtransform_apply, if_pos ⟨hi, hmu⟩, if_pos ⟨hi, hmu⟩, hjoin i hi,
            hjoin _ (neighbor_lt hL i hmu)]
        have hS1 : SUField P.NC P.L lat1 := fun i hi mu hmu => by rw [hlat i hi mu hmu]; exact hS i hi mu hmu
        obtain ⟨lat2, h2, h3⟩ := latt_reunitU_su (show 1 < P.NC by omega) (scratch := P.scratch) hS1
        rw [h2] at h
        injection h with h4 h5
        subst h4 h5
        refine ⟨g, tr, n, c', fun t ht => hd t ht, ?_, hSU, fun i hi mu hmu => ?_⟩
        · rw [b]
          exact sum_congr rfl fun t ht => by rw [hd t (mem_range.1 ht)]; rfl
        · rw [h3 i hi mu hmu, ← hT i hi mu hmu]
          unfold link
          rw [hlat i hi mu hmu]

theorem sdLoop_last {P : FaParams} (hN : 2 ≤ P.NC) {lat : Gauge} {t : ℕ} {acc : ℝ} (n : ℕ) :
    ∀ {g : SGauge} {r : SGauge × ℝ × ℕ}, SUSlice P.NC P.L g → sdLoop P lat t acc n g = some r →
      ∃ b, SUSlice P.NC P.L b ∧
        r.2.1 = sum_DER2 P.NC P.L (P.accel (steep_deriv_CG P.NC P.L lat b t)) * (1 / ((P.NC * lcu P.L : ℕ) : ℝ)) ∧
        exponentiate_gauge_CG P.NC P.L P.scratch b (P.accel (steep_deriv_CG P.NC P.L lat b t)) P.gf_alpha = some r.1 := by
  have one : ∀ {g : SGauge} {s : Planes × SGauge}, steep_step_SD P lat t g = some s →
      s.1 = P.accel (steep_deriv_CG P.NC P.L lat g t) ∧
      exponentiate_gauge_CG P.NC P.L P.scratch g (P.accel (steep_deriv_CG P.NC P.L lat g t)) P.gf_alpha = some s.2 := by
    intro g s h
    unfold steep_step_SD at h
    rw [Option.map_eq_some_iff] at h
    obtain ⟨g', h, rfl⟩ := h
    exact ⟨rfl, h⟩
  induction n with
  | zero =>
    intro g r hg h
    rw [sdLoop, Option.map_eq_some_iff] at h
    obtain ⟨s, h, rfl⟩ := h
    obtain ⟨a, b⟩ := one h
    refine ⟨g, hg, ?_, b⟩
    rw [← a]
    rfl
  | succ n ih =>
    intro g r hg h
    rw [sdLoop, Option.bind_eq_some_iff] at h
    obtain ⟨s, h1, h⟩ := h
    have := sdStep_su hN hg h1
    dsimp only at h
    split at h
    · rw [Option.map_eq_some_iff] at h
      obtain ⟨q, h, rfl⟩ := h
      exact ih (r := q) this h
    · injection h with h
      subst h
      obtain ⟨a, b⟩ := one h1
      refine ⟨g, hg, ?_, b⟩
      rw [← a]
      rfl

/-- **C137**, what is measured: the measure with which a slice is left is the normalised length of the accelerated derivative
at the matrices `b` one step before, and a step with the derivative and the step length of the input file was taken from
there. -/
theorem C137_measure {P : FaParams} (hN : 2 ≤ P.NC) {rand : ℕ → ℕ → SGauge} (hr : ∀ t k, SUSlice P.NC P.L (rand t k))
    {acc : ℝ} {max_iters passes : ℕ} {lat : Gauge} {t : ℕ} {g : SGauge} {tr : ℝ} {its c : ℕ}
    (h : fixSliceSD P rand acc max_iters passes lat t = .done g tr its c) :
    ∃ b, SUSlice P.NC P.L b ∧
      tr = sum_DER2 P.NC P.L (P.accel (steep_deriv_CG P.NC P.L lat b t)) * (1 / ((P.NC * lcu P.L : ℕ) : ℝ)) ∧
      ∃ g', exponentiate_gauge_CG P.NC P.L P.scratch b (P.accel (steep_deriv_CG P.NC P.L lat b t)) P.gf_alpha =
        some g' := by
  refine steep_fix_tr (R := fun tr => ∃ b, SUSlice P.NC P.L b ∧
      tr = sum_DER2 P.NC P.L (P.accel (steep_deriv_CG P.NC P.L lat b t)) * (1 / ((P.NC * lcu P.L : ℕ) : ℝ)) ∧
      ∃ g', exponentiate_gauge_CG P.NC P.L P.scratch b (P.accel (steep_deriv_CG P.NC P.L lat b t)) P.gf_alpha =
        some g') hN (fun g r hg h1 => ?_) (hr t) passes (idSlice_su P.NC P.L) h
  obtain ⟨b, hb, h2, h3⟩ := sdLoop_last hN _ hg h1
  exact ⟨sdLoop_su hN _ hg h1, b, hb, h2, _, h3⟩

/-- **C137**, three colours without acceleration: the mean squared divergence one step before the end is between a third of
the measure and three times the measure. -/
theorem C137_three {P : FaParams} (hN : P.NC = 3) (hL : Valid P.L) (hacc : P.accel = id) {rand : ℕ → ℕ → SGauge}
    (hr : ∀ t k, SUSlice P.NC P.L (rand t k)) {acc : ℝ} {max_iters passes : ℕ} {lat : Gauge}
    (hU : SUField P.NC P.L lat) {t : ℕ} (ht : t < P.L.dims (P.L.ND - 1)) {g : SGauge} {tr : ℝ} {its c : ℕ}
    (h : fixSliceSD P rand acc max_iters passes lat t = .done g tr its c) :
    ∃ b, SUSlice P.NC P.L b ∧ coulombTheta P.NC P.L (rotated P.NC P.L b lat) t ≤ 3 * tr ∧
      tr ≤ 3 * coulombTheta P.NC P.L (rotated P.NC P.L b lat) t := by
  have hN2 : 2 ≤ P.NC := by omega
  obtain ⟨b, hb, htr, -⟩ := C137_measure hN2 hr h
  refine ⟨b, hb, ?_⟩
  rw [htr, hacc, id]
  have hpos : (0 : ℝ) ≤ 1 / ((P.NC * lcu P.L : ℕ) : ℝ) := by positivity
  have e2 : ∑ i ∈ range (lcu P.L), (divergence P.NC P.L (rotated P.NC P.L b lat) (lcu P.L * t + i) (P.L.ND - 1) *
      divergence P.NC P.L (rotated P.NC P.L b lat) (lcu P.L * t + i) (P.L.ND - 1)).trace.re ≤
      3 * sum_DER2 P.NC P.L (steep_deriv_CG P.NC P.L lat b t) := by
    rw [sum_DER2_eq, mul_sum]
    refine sum_le_sum fun i hi => ?_
    rw [← inner_planes hN2 hL hb hU ht (mem_range.1 hi), hN]
    exact (C102_three _ fun _ => 0).2.2.1
  have e3 : sum_DER2 P.NC P.L (steep_deriv_CG P.NC P.L lat b t) ≤ 3 * ∑ i ∈ range (lcu P.L),
      (divergence P.NC P.L (rotated P.NC P.L b lat) (lcu P.L * t + i) (P.L.ND - 1) *
        divergence P.NC P.L (rotated P.NC P.L b lat) (lcu P.L * t + i) (P.L.ND - 1)).trace.re := by
    rw [sum_DER2_eq, mul_sum]
    refine sum_le_sum fun i hi => ?_
    rw [← inner_planes hN2 hL hb hU ht (mem_range.1 hi), hN]
    exact (C102_three _ fun _ => 0).2.2.2
  unfold coulombTheta
  constructor
  · have := mul_le_mul_of_nonneg_left e2 hpos
    linarith
  · have := mul_le_mul_of_nonneg_left e3 hpos
    linarith

/-! ## No undefined step -/

theorem sdStep_defined {P : FaParams} (hN : P.NC = 2 ∨ P.NC = 3) (lat : Gauge) (t : ℕ) (g : SGauge) :
    ∃ g', steep_step_SD P lat t g = some (P.accel (steep_deriv_CG P.NC P.L lat g t), g') := by
  obtain ⟨g', h⟩ := exponentiate_defined hN P.L P.scratch g (P.accel (steep_deriv_CG P.NC P.L lat g t)) P.gf_alpha
  exact ⟨g', by unfold steep_step_SD; dsimp only; rw [h]; rfl⟩

theorem sdLoop_defined {P : FaParams} (hN : P.NC = 2 ∨ P.NC = 3) (lat : Gauge) (t : ℕ) (acc : ℝ) (n : ℕ) :
    ∀ g, ∃ r, sdLoop P lat t acc n g = some r := by
  induction n with
  | zero =>
    intro g
    obtain ⟨g', h⟩ := sdStep_defined hN lat t g
    exact ⟨_, by rw [sdLoop, h]; rfl⟩
  | succ n ih =>
    intro g
    obtain ⟨g', h⟩ := sdStep_defined hN lat t g
    rw [sdLoop, h, Option.bind_some]
    dsimp only
    split
    · obtain ⟨r, hr⟩ := ih g'
      exact ⟨_, by rw [hr]; rfl⟩
    · exact ⟨_, rfl⟩

/-- **C137**, two and three colours: whatever the configuration, fixing a slice never meets an undefined operation. -/
theorem C137_defined {P : FaParams} (hN : P.NC = 2 ∨ P.NC = 3) {rand : ℕ → ℕ → SGauge}
    (hr : ∀ t k, SUSlice P.NC P.L (rand t k)) (acc : ℝ) (max_iters passes : ℕ) (lat : Gauge) (t : ℕ) :
    fixSliceSD P rand acc max_iters passes lat t ≠ .undef := by
  have hN2 : 2 ≤ P.NC := by omega
  unfold fixSliceSD
  have key : ∀ n control tot flag g, SUSlice P.NC P.L g →
      steep_fix P.NC P.L P.scratch (steep_step_FASD P lat t acc max_iters) (rand t) acc max_iters n control tot flag g ≠
        .undef := by
    intro n
    induction n with
    | zero => intro control tot flag g _ h; cases h
    | succ n ih =>
      intro control tot flag g hg h
      obtain ⟨⟨g1, tr, k⟩, h1⟩ := sdLoop_defined hN lat t acc (max_iters - 1) g
      have hg1 : SUSlice P.NC P.L g1 := sdLoop_su (r := (g1, tr, k)) hN2 (max_iters - 1) hg h1
      have h1' : steep_step_FASD P lat t acc max_iters g = some (g1, tr, k) := by unfold steep_step_FASD; exact h1
      have h2 : ∃ g2, checkSolution P.NC P.L P.scratch acc g1 tr k = some (g2, true) ∧ SUSlice P.NC P.L g2 := by
        unfold checkSolution
        split
        · generalize (if 0 < k then k else 1) = m
          obtain ⟨g2, h2⟩ := adequate_defined hN2 P.scratch hg1 m
          exact ⟨g2, h2, adequate_su (r := (g2, true)) hN2 h2⟩
        · exact ⟨g1, rfl, hg1⟩
      obtain ⟨g2, h2, hg2⟩ := h2
      rw [steep_fix, h1'] at h
      dsimp only at h
      rw [h2] at h
      dsimp only at h
      split at h
      · exact ih _ _ _ _ hg2 h
      · split at h
        · exact ih _ _ _ _ (hr _ _) h
        · cases h
  exact key _ _ _ _ _ (idSlice_su _ _)

/-- **C137**, two and three colours: a slice that satisfies the gauge condition is left after one iteration with the measure
zero and no restart. -/
theorem C137_fixed {P : FaParams} (hN : P.NC = 2 ∨ P.NC = 3) (hL : Valid P.L)
    (h0 : P.accel (fun _ _ => 0) = fun _ _ => 0) (rand : ℕ → ℕ → SGauge) {acc : ℝ} (hacc : 0 < acc) {max_iters : ℕ}
    (hm : 2 ≤ max_iters) (passes : ℕ) {lat : Gauge} (hU : SUField P.NC P.L lat) {t : ℕ}
    (ht : t < P.L.dims (P.L.ND - 1))
    (hdiv : ∀ i < lcu P.L, divergence P.NC P.L lat (lcu P.L * t + i) (P.L.ND - 1) = 0) :
    ∃ g, fixSliceSD P rand acc max_iters (passes + 1) lat t = .done g 0 1 0 := by
  have hN2 : 2 ≤ P.NC := by omega
  have hz := slice_zero hN2 hL (idSlice_su P.NC P.L) hU ht fun i hi => by
    rw [divergence_congr (V := lat), hdiv i hi]
    intro mu hmu
    exact ⟨rotated_id hL hU (slice_lt ht hi) (by omega), rotated_id hL hU (back_lt hL _ (by omega)) (by omega)⟩
  obtain ⟨g1, h1⟩ := sdStep_defined hN lat t (idSlice P.NC)
  have h2 : sum_DER2 P.NC P.L (P.accel (steep_deriv_CG P.NC P.L lat (idSlice P.NC) t)) = 0 := by
    rw [hz, h0, sum_DER2_eq]
    exact sum_eq_zero fun i _ => derSite_zero _
  have hstep : steep_step_FASD P lat t acc max_iters (idSlice P.NC) = some (g1, 0, 1) := by
    obtain ⟨n, hn⟩ : ∃ n, max_iters - 1 = n + 1 := ⟨max_iters - 2, by omega⟩
    unfold steep_step_FASD
    rw [hn, sdLoop, h1, Option.bind_some]
    dsimp only
    rw [h2, zero_mul, if_neg (not_lt.2 hacc.le)]
  obtain ⟨g, hg⟩ := adequate_defined hN2 P.scratch (sdStep_su hN2 (idSlice_su P.NC P.L) h1) 1
  have hc : checkSolution P.NC P.L P.scratch acc g1 0 1 = some (g, true) := by
    unfold checkSolution
    rw [if_pos hacc]
    exact hg
  refine ⟨g, ?_⟩
  unfold fixSliceSD
  rw [steep_fix, hstep]
  dsimp only
  rw [hc]
  dsimp only
  rw [if_neg (by omega), if_neg]
  intro hf
  have := hf.2
  rw [Bool.or_eq_true, decide_eq_true_iff] at this
  rcases this with h | h
  · simp at h
  · omega

/-- The field of unit matrices, on which the conjugate gradients are undefined. -/
example (scratch : Arr ℂ) (tol al : ℝ) (db : ℕ × List ℕ) :
    (∃ g, fixSliceSD ⟨3, L4468, scratch, id, tol, al⟩ (fun _ _ => idSlice 3) 1 10 9 (fun _ => identity 3 fun _ => 0) 0 =
      .done g 0 1 0) ∧
    fixSlice ⟨3, L4468, scratch, id, tol, al⟩ db (fun _ _ => idSlice 3) 1 10 9 (fun _ => identity 3 fun _ => 0) 0 =
      .undef := by
  have hU : SUField 3 L4468 (fun _ => identity 3 fun _ => 0) := fun i _ mu _ => by
    unfold IsSU
    rw [C63_identity]
    exact one_mem _
  have hd : ∀ i < lcu L4468, divergence 3 L4468 (fun _ => identity 3 fun _ => 0) (lcu L4468 * 0 + i) (L4468.ND - 1) = 0 :=
    fun i _ => by
      unfold divergence
      exact sum_eq_zero fun mu _ => sub_self _
  exact ⟨C137_fixed (P := ⟨3, L4468, scratch, id, tol, al⟩) (Or.inr rfl) valid_L4468 rfl _ one_pos (by norm_num) 8 hU
    (show 0 < L4468.dims 3 by decide) hd, C101_fixed_fails (P := ⟨3, L4468, scratch, id, tol, al⟩) (show 2 ≤ 3 by decide)
    valid_L4468 rfl db _ 1 10 8 hU (show 0 < L4468.dims 3 by decide) hd⟩

end GLU.Gfix
