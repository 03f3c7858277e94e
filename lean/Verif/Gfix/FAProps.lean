import Verif.Gfix.FASteps

/-!
# C82: Fourier-accelerated Landau gauge fixing

The step stays on the gauge orbit, points uphill, and what the method reports; and where the code departs from the
method: the inner product of the conjugate gradient, the parabola of the line search, and the returned counts.
-/

namespace GLU.Gfix

open Complex Matrix Finset GLU.Mat GLU.Geom GLU.Field

/-! ## One step -/

/-- A step of any length along any planes that ends, ends on the gauge orbit of the field it started from. -/
theorem C82_step {NC : ℕ} (hN : 2 ≤ NC) {L : Latt} (hL : Valid L) {scratch : Arr ℂ} {inp : Planes} {alpha : ℝ}
    {lat lat' : Gauge} (hU : SUField NC L lat) (h : egauge_Landau NC L scratch inp alpha lat = some lat') :
    Orbit NC L lat lat' ∧ SUField NC L lat' ∧ av_plaquette NC L lat' = av_plaquette NC L lat := by
  obtain ⟨h1, h2⟩ := egauge_orbit hN hL hU h
  exact ⟨h1, h2, orbit_plaquette (by omega) hL h1 hU⟩

/-- For two to eighteen colours the step is defined whatever the length, when the stored diagonals are imaginary. -/
theorem C82_defined {NC : ℕ} (hN : 2 ≤ NC) (hN' : NC ≤ 18) {L : Latt} (hL : Valid L) (scratch : Arr ℂ) {inp : Planes}
    (hI : ∀ i < volume L, ImagDiag NC fun mu => inp mu i) (alpha : ℝ) (lat : Gauge) :
    ∃ lat', egauge_Landau NC L scratch inp alpha lat = some lat' := by
  have h1 : ∀ i < volume L, ∃ g, set_gauge_matrix NC scratch inp alpha i = some g := fun i hi => by
    obtain ⟨g, hg, -⟩ := set_gauge_defined hN hN' scratch alpha i (hI i hi)
    exact ⟨g, hg⟩
  choose! g hg using h1
  exact ⟨_, egauge_eq hL scratch hg lat⟩

theorem step_path {NC : ℕ} (hN : 2 ≤ NC) (hN' : NC ≤ 18) (scratch : Arr ℂ) {inp : Planes} {i : ℕ}
    (hI : ImagDiag NC fun mu => inp mu i) : ∃ g : ℝ → Arr ℂ,
      (∀ t, set_gauge_matrix NC scratch inp t i = some (g t)) ∧ toM NC (g 0) = 1 ∧
      ∀ a b, HasDerivAt (fun t => toM NC (g t) a b) (direction NC (fun mu => inp mu i) a b) 0 := by
  have h1 : ∀ t : ℝ, ∃ g, set_gauge_matrix NC scratch inp t i = some g := fun t => by
    obtain ⟨g, hg, -⟩ := set_gauge_defined hN hN' scratch t i hI
    exact ⟨g, hg⟩
  choose g hg using h1
  refine ⟨g, hg, ?_⟩
  have hV : ∀ t, gram_reunit NC (gaugeStep NC scratch inp t i) scratch = some (g t) := fun t => by
    have := hg t
    unfold set_gauge_matrix at this
    rwa [if_neg (by omega)] at this
  refine gram_deriv (by omega) hV (direction_skew hN hI) (direction_trace hN _) (fun k hk => ?_) fun k hk c => ?_
  · funext c
    rw [gaugeStep_lead hN scratch 0 i hI hk c]
    simp only [ofReal_zero, zero_smul, add_zero, Matrix.one_apply, unitVec, Fin.ext_iff]
    split_ifs <;> first | rfl | omega
  · have h2 : (fun t : ℝ => lead NC (gaugeStep NC scratch inp t i) k c) = fun t : ℝ =>
        if NC ≤ 3 then (1 : Matrix (Fin NC) (Fin NC) ℂ) c k + (t : ℂ) * direction NC (fun mu => inp mu i) c k
        else (1 : Matrix (Fin NC) (Fin NC) ℂ) k c + (t : ℂ) * direction NC (fun mu => inp mu i) k c := by
      funext t
      rw [gaugeStep_lead hN scratch t i hI hk c]
      rfl
    rw [h2]
    have h3 : ∀ x y : ℂ, HasDerivAt (fun t : ℝ => x + (t : ℂ) * y) y 0 := fun x y => by
      have := ((hasDerivAt_id (0 : ℝ)).ofReal_comp.mul_const y).const_add x
      simpa using this
    by_cases h : NC ≤ 3
    · simp only [if_pos h]; exact h3 _ _
    · simp only [if_neg h]; exact h3 _ _

/-- The slope of the functional along the step.  `A` is the Hermitian traceless matrix for which the planes store
`i A`. -/
theorem C82_slope {NC : ℕ} (hN : 2 ≤ NC) (hN' : NC ≤ 18) {L : Latt} (hL : Valid L) (scratch : Arr ℂ) {inp : Planes}
    {lat : Gauge} (hU : SUField NC L lat) {A : ℕ → Matrix (Fin NC) (Fin NC) ℂ}
    (hI : ∀ i < volume L, ImagDiag NC fun mu => inp mu i)
    (hA : ∀ i < volume L, direction NC (fun mu => inp mu i) = I • A i) :
    ∃ path : ℝ → Gauge, (∀ t, egauge_Landau NC L scratch inp t lat = some (path t)) ∧
      (∀ i < volume L, ∀ mu < L.ND, link NC (path 0) i mu = link NC lat i mu) ∧
      HasDerivAt (fun t => linkSum NC (path t) (range (volume L)) L.ND)
        (∑ i ∈ range (volume L), (A i * divergence NC L lat i L.ND).trace.re) 0 := by
  have h1 : ∀ i < volume L, ∃ g : ℝ → Arr ℂ,
      (∀ t, set_gauge_matrix NC scratch inp t i = some (g t)) ∧ toM NC (g 0) = 1 ∧
      ∀ a b, HasDerivAt (fun t => toM NC (g t) a b) (direction NC (fun mu => inp mu i) a b) 0 := fun i hi =>
    step_path hN hN' scratch (hI i hi)
  choose! g hg g0 gd using h1
  have hSU : ∀ t, SUGauge NC L fun i => g i t := fun t i hi => set_gauge_su hN (hg i hi t)
  refine ⟨fun t => gtransform NC L (fun i => g i t) lat, fun t => egauge_eq hL scratch (fun i hi => hg i hi t) lat,
    fun i hi mu hmu => ?_, ?_⟩
  · rw [(gtransform_transformed hL (hSU 0) hU).1 i hi mu hmu, g0 i hi, g0 _ (neighbor_lt hL i hmu), one_mul,
      conjTranspose_one, mul_one]
  · refine C80_gradient (g := fun t i => toM NC (g i t)) hL le_rfl (fun i hi => ?_) g0 (fun i hi a b => ?_)
      fun t i hi mu hmu => (gtransform_transformed hL (hSU t) hU).1 i hi mu hmu
    · have e : A i = (-I) • direction NC fun mu => inp mu i := by
        rw [hA i hi, smul_smul]; simp
      refine ⟨?_, ?_⟩
      · rw [e, Matrix.IsHermitian, conjTranspose_smul, direction_skew hN (hI i hi)]
        simp
      · rw [e, trace_smul, direction_trace hN, smul_zero]
    · have := gd i hi a b
      rw [hA i hi] at this
      exact this

/-- Without Fourier acceleration the step points uphill: the slope of the functional at the start is not negative, and
it is zero only where the functional is stationary under every gauge transformation. -/
theorem C82_uphill {NC : ℕ} (hN : 2 ≤ NC) (hN' : NC ≤ 18) {L : Latt} (hL : Valid L) (scratch : Arr ℂ) (red : Red)
    {lat : Gauge} (hU : SUField NC L lat) :
    ∃ (path : ℝ → Gauge) (slope : ℝ),
      (∀ t, egauge_Landau NC L scratch (FA_deriv NC L scratch red lat).2 t lat = some (path t)) ∧
      (∀ i < volume L, ∀ mu < L.ND, link NC (path 0) i mu = link NC lat i mu) ∧
      HasDerivAt (fun t => linkSum NC (path t) (range (volume L)) L.ND) slope 0 ∧ 0 ≤ slope ∧
      theta_test_lin NC L scratch lat L.ND = some (4 / (NC * volume L) * slope) ∧
      (slope = 0 ↔ Critical NC L lat L.ND) := by
  obtain ⟨path, h1, h2, h3⟩ := C82_slope (A := fun i => divergence NC L lat i L.ND) hN hN' hL scratch
    (inp := (FA_deriv NC L scratch red lat).2) hU (fun i hi => derivPlanes_imag hN hL scratch hU hi)
    (fun i hi => direction_deriv hN hL scratch hU hi)
  have h4 := C80_theta hN hL scratch hU le_rfl
  have hc : (0 : ℝ) < 4 / (NC * volume L) := by
    have : (0 : ℝ) < NC := by exact_mod_cast (show 0 < NC by omega)
    have : (0 : ℝ) < volume L := by exact_mod_cast volume_pos hL
    positivity
  refine ⟨path, _, h1, h2, h3, sum_nonneg fun i _ => herm_sq_nonneg (divergence_herm L lat i L.ND).1, h4, ?_⟩
  rw [← (C80_zero hN hL scratch hU le_rfl).2.1, h4]
  constructor
  · intro h; rw [h, mul_zero]
  · intro h
    rcases mul_eq_zero.1 (Option.some.inj h) with h | h
    · exact absurd h hc.ne'
    · exact h

/-- So a short enough step raises the functional of every field that is not stationary. -/
theorem C82_raises {NC : ℕ} (hN : 2 ≤ NC) (hN' : NC ≤ 18) {L : Latt} (hL : Valid L) (scratch : Arr ℂ) (red : Red)
    {lat : Gauge} (hU : SUField NC L lat) (hc : ¬ Critical NC L lat L.ND) :
    ∃ e > 0, ∀ t, 0 < t → t < e → ∃ lat',
      egauge_Landau NC L scratch (FA_deriv NC L scratch red lat).2 t lat = some lat' ∧
      linkSum NC lat (range (volume L)) L.ND < linkSum NC lat' (range (volume L)) L.ND := by
  obtain ⟨path, s, h1, h2, h3, h4, -, h6⟩ := C82_uphill hN hN' hL scratch red hU
  have hs : 0 < s := lt_of_le_of_ne h4 fun h => hc (h6.1 h.symm)
  have h7 := (hasDerivAt_iff_tendsto_slope.1 h3).eventually (lt_mem_nhds hs)
  rw [eventually_nhdsWithin_iff, Metric.eventually_nhds_iff] at h7
  obtain ⟨e, he, h7⟩ := h7
  refine ⟨e, he, fun t ht hte => ⟨_, h1 t, ?_⟩⟩
  have h8 := h7 (y := t) (by rw [Real.dist_eq, sub_zero, abs_of_pos ht]; exact hte) ht.ne'
  rw [slope_def_field, sub_zero] at h8
  have h9 : linkSum NC (path 0) (range (volume L)) L.ND = linkSum NC lat (range (volume L)) L.ND := by
    unfold linkSum
    exact sum_congr rfl fun i hi => sum_congr rfl fun mu hmu => by rw [h2 i (mem_range.1 hi) mu (mem_range.1 hmu)]
  rw [h9] at h8
  have := (div_pos_iff_of_pos_right ht).1 h8
  linarith

/-! ## The line search -/

/-- The line search measures the functional at the start and after steps of lengths 0.15 and 0.30, and steps by what
the parabola through the three values gives. -/
theorem C82_line {NC : ℕ} (hN : 2 ≤ NC) {L : Latt} (hL : Valid L) (scratch : Arr ℂ) {inp : Planes} {lat l1 l2 : Gauge}
    (hU : SUField NC L lat) (h1 : egauge_Landau NC L scratch inp 0.15 lat = some l1)
    (h2 : egauge_Landau NC L scratch inp 0.30 lat = some l2) {red : Red} (h0 : ∀ k ≤ 2, red k = 0) {r : Red × Gauge}
    (h : line_search_Landau NC L scratch red lat inp = some r) :
    egauge_Landau NC L scratch inp (approx_minimum (fun k => if k = 0 then 0 else if k = 1 then 0.15 else 0.30)
      fun k => -linkSum NC (if k = 0 then lat else if k = 1 then l1 else l2) (range (volume L)) L.ND) lat =
        some r.2 := by
  obtain ⟨g1, e1, rfl⟩ := egauge_some hL h1
  obtain ⟨g2, e2, rfl⟩ := egauge_some hL h2
  obtain ⟨red', hr, r0, r1, r2, -⟩ := lineSums_eq hN hL scratch hU e1 e2 red
  rw [h0 _ (by norm_num), zero_add] at r0 r1 r2
  unfold line_search_Landau at h
  rw [hr, Option.bind_some, Option.map_eq_some_iff] at h
  obtain ⟨lat', h, rfl⟩ := h
  rw [← h]
  congr 1
  unfold approx_minimum Lalcg
  dsimp only
  norm_num [r0, r1, r2]

/-- The parabola: with values `a x² + b x + c` at the probes the code forms `-b / (2a)`. -/
theorem approx_quadratic {x f : ℕ → ℝ} (h01 : x 0 < x 1) (h12 : x 1 < x 2) {a b c : ℝ}
    (hf : ∀ k ≤ 2, f k = a * x k ^ 2 + b * x k + c) : approx_minimum x f =
      if a = 0 then (if b < 0 then x 2 else 0.08)
      else if x 2 < -b / (2 * a) then x 2 else if -b / (2 * a) < x 0 then 0.08 else -b / (2 * a) := by
  have d01 : x 0 - x 1 ≠ 0 := by intro h; linarith
  have d02 : x 0 - x 2 ≠ 0 := by intro h; linarith
  have d12 : x 1 - x 2 ≠ 0 := by intro h; linarith
  have d10 : x 1 - x 0 ≠ 0 := by intro h; linarith
  have d20 : x 2 - x 0 ≠ 0 := by intro h; linarith
  have d21 : x 2 - x 1 ≠ 0 := by intro h; linarith
  have e1 : f 0 / ((x 0 - x 1) * (x 0 - x 2)) + f 1 / ((x 1 - x 0) * (x 1 - x 2)) +
      f 2 / ((x 2 - x 0) * (x 2 - x 1)) = a := by
    rw [hf 0 (by norm_num), hf 1 (by norm_num), hf 2 le_rfl]
    field_simp
    ring
  have e2 : x 0 * (f 1 / ((x 1 - x 0) * (x 1 - x 2)) + f 2 / ((x 2 - x 0) * (x 2 - x 1))) +
      x 1 * (f 0 / ((x 0 - x 1) * (x 0 - x 2)) + f 2 / ((x 2 - x 0) * (x 2 - x 1))) +
      x 2 * (f 0 / ((x 0 - x 1) * (x 0 - x 2)) + f 1 / ((x 1 - x 0) * (x 1 - x 2))) = -b := by
    rw [hf 0 (by norm_num), hf 1 (by norm_num), hf 2 le_rfl]
    field_simp
    ring
  unfold approx_minimum
  dsimp only
  rw [e2, e1]
  by_cases ha : a = 0
  · rw [if_pos (by rw [ha, mul_zero]), if_pos ha]
    simp only [neg_pos]
  · rw [if_neg (mul_ne_zero two_ne_zero ha), if_neg ha]

/-- **Partial.**  When the values at the probes lie on a parabola open upwards, or on a falling line, and the lowest
point is not before the first probe, the length returned is the lowest point between the first and last probes.
Missing: the other shapes, for which the claim is false, see `C82_minimum_fails`. -/
theorem C82_minimum_partial {x f : ℕ → ℝ} (h01 : x 0 < x 1) (h12 : x 1 < x 2) {a b c : ℝ}
    (hf : ∀ k ≤ 2, f k = a * x k ^ 2 + b * x k + c) (hab : 0 < a ∧ x 0 ≤ -b / (2 * a) ∨ a = 0 ∧ b < 0) :
    x 0 ≤ approx_minimum x f ∧ approx_minimum x f ≤ x 2 ∧ ∀ y, x 0 ≤ y → y ≤ x 2 →
      a * approx_minimum x f ^ 2 + b * approx_minimum x f + c ≤ a * y ^ 2 + b * y + c := by
  rw [approx_quadratic h01 h12 hf]
  rcases hab with ⟨ha, hx⟩ | ⟨rfl, hb⟩
  · rw [if_neg ha.ne']
    have hv : a * (-b / (2 * a)) = -b / 2 := by field_simp
    set v := -b / (2 * a) with hvd
    clear_value v
    have hb : b = -2 * (a * v) := by rw [hv]; ring
    subst hb
    by_cases h2 : x 2 < v
    · rw [if_pos h2]
      refine ⟨by linarith, le_rfl, fun y h0 hy => ?_⟩
      nlinarith [mul_nonneg ha.le (mul_nonneg (sub_nonneg.2 hy) (show 0 ≤ 2 * v - y - x 2 by linarith))]
    · rw [if_neg h2, if_neg (not_lt.2 hx)]
      refine ⟨hx, not_lt.1 h2, fun y h0 hy => ?_⟩
      nlinarith [mul_nonneg ha.le (sq_nonneg (y - v))]
  · rw [if_pos rfl, if_pos hb]
    refine ⟨by linarith, le_rfl, fun y h0 hy => ?_⟩
    nlinarith [mul_nonneg (neg_nonneg.2 hb.le) (sub_nonneg.2 hy)]

/-- A parabola open upwards with its lowest point inside. -/
example : approx_minimum (fun k => if k = 0 then 0 else if k = 1 then 0.15 else 0.30)
    (fun k => if k = 0 then 0.01 else if k = 1 then 0.0025 else 0.04) = 0.1 := by
  rw [approx_quadratic (a := 1) (b := -0.2) (c := 0.01) (by norm_num) (by norm_num)]
  · norm_num
  · intro k hk
    have : k = 0 ∨ k = 1 ∨ k = 2 := by omega
    rcases this with rfl | rfl | rfl <;> norm_num

/-- With the probes of the code: values on a parabola open downwards give its highest point, the worst length of all;
values that only rise give the fixed length 0.08 although the start is lowest. -/
theorem C82_minimum_fails :
    (∃ f : ℕ → ℝ, (∀ k ≤ 2, f k = -(Lalcg k - 0.15) ^ 2) ∧
      (∀ y, -(y - 0.15) ^ 2 ≤ -(approx_minimum Lalcg f - 0.15) ^ 2) ∧
      -((0 : ℝ) - 0.15) ^ 2 < -(approx_minimum Lalcg f - 0.15) ^ 2) ∧
    ∃ f : ℕ → ℝ, (∀ k ≤ 2, f k = Lalcg k) ∧ approx_minimum Lalcg f = 0.08 := by
  have l0 : Lalcg 0 = 0 := by norm_num [Lalcg]
  have l1 : Lalcg 1 = 0.15 := by norm_num [Lalcg]
  have l2 : Lalcg 2 = 0.30 := by norm_num [Lalcg]
  have h01 : Lalcg 0 < Lalcg 1 := by rw [l0, l1]; norm_num
  have h12 : Lalcg 1 < Lalcg 2 := by rw [l1, l2]; norm_num
  refine ⟨⟨fun k => -(Lalcg k - 0.15) ^ 2, fun _ _ => rfl, ?_⟩, ⟨Lalcg, fun _ _ => rfl, ?_⟩⟩
  · rw [approx_quadratic (a := -1) (b := 0.3) (c := -0.0225) h01 h12 fun k _ => by ring, l0, l2]
    have : (if (-1 : ℝ) = 0 then (if (0.3 : ℝ) < 0 then (0.30 : ℝ) else 0.08)
      else if (0.30 : ℝ) < -0.3 / (2 * -1) then (0.30 : ℝ) else if -0.3 / (2 * -1) < (0 : ℝ) then 0.08
      else -0.3 / (2 * -1)) = 0.15 := by norm_num
    rw [this]
    refine ⟨fun y => ?_, by norm_num⟩
    rw [sub_self]
    nlinarith [sq_nonneg (y - 0.15)]
  · rw [approx_quadratic (a := 0) (b := 1) (c := 0) h01 h12 fun k _ => by ring, if_pos rfl, if_neg (by norm_num)]

/-! ## Whole runs -/

theorem facgStep_tr {P : FaParams} (hN : 2 ≤ P.NC) (hL : Valid P.L) {s s' : FaState} (h : facgStep P s = some s') :
    ∃ th, theta_test_lin P.NC P.L P.scratch s.lat P.L.ND = some th ∧ s'.tr = trFraction P.NC * th := by
  obtain ⟨th, h1, h2⟩ := tr_eq (lat := s.lat) hN hL
  refine ⟨th, h1, ?_⟩
  unfold facgStep at h
  simp only [Option.bind_eq_some_iff] at h
  obtain ⟨pr, -, fr, -, h⟩ := h
  split at h
  · rw [Option.map_eq_some_iff] at h
    obtain ⟨r, -, rfl⟩ := h
    exact h2
  · rw [Option.map_eq_some_iff] at h
    obtain ⟨r, -, rfl⟩ := h
    exact h2

/-- What a run that made a step reports: `th` is a fixed fraction of the convergence test at a field `U` passed on
the way; the field returned is one step further. -/
def ReportedBefore (P : FaParams) (lat lat' : Gauge) (th : ℝ) : Prop :=
  ∃ (U : Gauge) (x : ℝ) (inp : Planes) (alpha : ℝ), Orbit P.NC P.L lat U ∧ SUField P.NC P.L U ∧
    theta_test_lin P.NC P.L P.scratch U P.L.ND = some x ∧ th = trFraction P.NC * x ∧
    egauge_Landau P.NC P.L P.scratch inp alpha U = some lat'

theorem reported_trans {P : FaParams} (hL : Valid P.L) {lat lat' lat'' : Gauge} {th : ℝ}
    (h : Orbit P.NC P.L lat lat') (h' : ReportedBefore P lat' lat'' th) : ReportedBefore P lat lat'' th := by
  obtain ⟨U, x, inp, al, h1, h2⟩ := h'
  exact ⟨U, x, inp, al, orbit_trans h h1, h2⟩

theorem line_search_step {NC : ℕ} {L : Latt} {scratch : Arr ℂ} {inp : Planes} {red : Red}
    {lat : Gauge} {r : Red × Gauge} (h : line_search_Landau NC L scratch red lat inp = some r) :
    ∃ alpha, egauge_Landau NC L scratch inp alpha lat = some r.2 := by
  unfold line_search_Landau at h
  rw [Option.bind_eq_some_iff] at h
  obtain ⟨red', -, h⟩ := h
  rw [Option.map_eq_some_iff] at h
  obtain ⟨lat', h, rfl⟩ := h
  exact ⟨_, h⟩

theorem facgStep_step {P : FaParams} {s s' : FaState} (h : facgStep P s = some s') :
    ∃ inp alpha, egauge_Landau P.NC P.L P.scratch inp alpha s.lat = some s'.lat := by
  unfold facgStep at h
  simp only [Option.bind_eq_some_iff] at h
  obtain ⟨pr, -, fr, -, h⟩ := h
  split at h
  · rw [Option.map_eq_some_iff] at h
    obtain ⟨r, h, rfl⟩ := h
    obtain ⟨al, h⟩ := line_search_step h
    exact ⟨_, al, h⟩
  · rw [Option.map_eq_some_iff] at h
    obtain ⟨r, h, rfl⟩ := h
    exact ⟨_, _, h⟩

theorem facgStep_reported {P : FaParams} (hN : 2 ≤ P.NC) (hL : Valid P.L) {s s' : FaState}
    (hU : SUField P.NC P.L s.lat) (h : facgStep P s = some s') : ReportedBefore P s.lat s'.lat s'.tr := by
  obtain ⟨th, h1, h2⟩ := facgStep_tr hN hL h
  obtain ⟨inp, al, h3⟩ := facgStep_step h
  exact ⟨s.lat, th, inp, al, orbit_refl _ _ _, hU, h1, h2, h3⟩

theorem facgLoop_spec {P : FaParams} (hN : 2 ≤ P.NC) (hL : Valid P.L) {acc : ℝ} {n : ℕ} {s s' : FaState} {k : ℕ}
    (hU : SUField P.NC P.L s.lat) (h : facgLoop P acc n s = some (s', k)) :
    Orbit P.NC P.L s.lat s'.lat ∧ SUField P.NC P.L s'.lat ∧ ReportedBefore P s.lat s'.lat s'.tr ∧
      1 ≤ k ∧ k ≤ n + 1 ∧ (k ≤ n → s'.tr ≤ acc) := by
  induction n generalizing s k with
  | zero =>
    rw [facgLoop, Option.map_eq_some_iff] at h
    obtain ⟨q, h, e⟩ := h
    cases e
    obtain ⟨h1, h2⟩ := facgStep_orbit hN hL hU h
    exact ⟨h1, h2, facgStep_reported hN hL hU h, le_rfl, le_rfl, fun h => by omega⟩
  | succ n ih =>
    rw [facgLoop, Option.bind_eq_some_iff] at h
    obtain ⟨q, h, h'⟩ := h
    obtain ⟨h1, h2⟩ := facgStep_orbit hN hL hU h
    split at h'
    · rw [Option.map_eq_some_iff] at h'
      obtain ⟨⟨q', k'⟩, h', e⟩ := h'
      cases e
      obtain ⟨a1, a2, a3, a4, a5, a6⟩ := ih h2 h'
      exact ⟨orbit_trans h1 a1, a2, reported_trans hL h1 a3, by omega, by omega, fun h => a6 (by omega)⟩
    · next hlt =>
      cases h'
      exact ⟨h1, h2, facgStep_reported hN hL hU h, le_rfl, by omega, fun _ => not_lt.1 hlt⟩

theorem facg_spec {P : FaParams} (hN : 2 ≤ P.NC) (hL : Valid P.L) {acc : ℝ} {max_iters : ℕ} {red : Red} {lat : Gauge}
    {s' : FaState} {k : ℕ} (hU : SUField P.NC P.L lat)
    (h : steep_Landau_FACG P acc max_iters red lat = some (s', k)) :
    Orbit P.NC P.L lat s'.lat ∧ SUField P.NC P.L s'.lat ∧ ReportedBefore P lat s'.lat s'.tr ∧
      1 ≤ k ∧ (k < max_iters → s'.tr ≤ acc) := by
  unfold steep_Landau_FACG at h
  rw [Option.bind_eq_some_iff] at h
  obtain ⟨q, h, h'⟩ := h
  unfold facgStart at h
  rw [Option.map_eq_some_iff] at h
  obtain ⟨r, h, rfl⟩ := h
  obtain ⟨h1, h2⟩ := steep_orbit hN hL hU h
  obtain ⟨a1, a2, a3, a4, a5, a6⟩ := facgLoop_spec hN hL (by exact h2) h'
  exact ⟨orbit_trans h1 a1, a2, reported_trans hL h1 a3, a4, fun h => a6 (by omega)⟩

theorem facgRuns_spec {P : FaParams} (hN : 2 ≤ P.NC) (hL : Valid P.L) {acc : ℝ} {max_iters n : ℕ} {red : Red}
    {lat lat' : Gauge} {iters : ℕ} {th : ℝ} (hU : SUField P.NC P.L lat)
    (h : facgRuns P acc max_iters n red lat = .done lat' iters th) :
    Orbit P.NC P.L lat lat' ∧ SUField P.NC P.L lat' ∧ ReportedBefore P lat lat' th ∧
      (1 ≤ iters ∧ iters < max_iters ∧ th ≤ acc ∨ iters = 123456789 ∧ 1000 * acc ≤ th) := by
  induction n generalizing red lat with
  | zero => rw [facgRuns] at h; cases h
  | succ n ih =>
    rw [facgRuns] at h
    split at h
    · cases h
    · next s k hs =>
      obtain ⟨a1, a2, a3, a4, a5⟩ := facg_spec hN hL hU hs
      split at h
      · split at h
        · obtain ⟨b1, b2, b3, b4⟩ := ih a2 h
          exact ⟨orbit_trans a1 b1, b2, reported_trans hL a1 b3, b4⟩
        · next hlt =>
          cases h
          exact ⟨a1, a2, a3, Or.inr ⟨rfl, not_lt.1 hlt⟩⟩
      · next hlt =>
        cases h
        exact ⟨a1, a2, a3, Or.inl ⟨a4, by omega, a5 (by omega)⟩⟩

/-- **Partial.**  Every run of the conjugate gradient that ends leaves a field on the gauge orbit of the one it was
given, with one of four meanings of the returned count.  Missing: that a run ends, that the reported value belongs to
the returned field, and that a count of zero means the accuracy was met; see `C82_alloc_fails`. -/
theorem C82_facg_partial {P : FaParams} (hN : 2 ≤ P.NC) (hL : Valid P.L) {alloc : Bool} {acc : ℝ}
    {max_iters runs : ℕ} {lat lat' : Gauge} {iters : ℕ} {th : ℝ} (hU : SUField P.NC P.L lat)
    (h : FACG P alloc acc max_iters runs lat = .done lat' iters th) :
    Orbit P.NC P.L lat lat' ∧ SUField P.NC P.L lat' ∧ av_plaquette P.NC P.L lat' = av_plaquette P.NC P.L lat ∧
    ((iters = 0 ∧ lat' = lat ∧ theta_test_lin P.NC P.L P.scratch lat P.L.ND = some th ∧ (th < acc ∨ alloc = false)) ∨
     (1 ≤ iters ∧ iters < max_iters ∧ th ≤ acc ∧ ReportedBefore P lat lat' th) ∨
     (iters = 123456789 ∧ 1000 * acc ≤ th ∧ ReportedBefore P lat lat' th)) := by
  unfold FACG at h
  split at h
  · cases h
  · next x hx =>
    have refl : Orbit P.NC P.L lat lat := orbit_refl _ _ _
    split at h
    · next hlt => cases h; exact ⟨refl, hU, rfl, Or.inl ⟨rfl, rfl, hx, Or.inl hlt⟩⟩
    · split at h
      · next ha => cases h; exact ⟨refl, hU, rfl, Or.inl ⟨rfl, rfl, hx, Or.inr ha⟩⟩
      · obtain ⟨a1, a2, a3, a4⟩ := facgRuns_spec hN hL hU h
        refine ⟨a1, a2, orbit_plaquette (by omega) hL a1 hU, Or.inr ?_⟩
        rcases a4 with ⟨b1, b2, b3⟩ | ⟨b1, b2⟩
        · exact Or.inl ⟨b1, b2, b3, a3⟩
        · exact Or.inr ⟨b1, b2, a3⟩

/-- When the planes cannot be allocated the count is zero, as for a field that needs no fixing, and the field is left
as it was whatever its convergence test. -/
theorem C82_alloc_fails {P : FaParams} (hN : 2 ≤ P.NC) (hL : Valid P.L) (acc : ℝ) (max_iters runs : ℕ) {lat : Gauge}
    (hU : SUField P.NC P.L lat) :
    ∃ th, theta_test_lin P.NC P.L P.scratch lat P.L.ND = some th ∧
      FACG P false acc max_iters runs lat = .done lat 0 th ∧ FASD P false acc max_iters runs lat = .done lat 0 th := by
  obtain ⟨th, h, -⟩ := (C80_zero hN hL P.scratch hU (le_refl P.L.ND)).1
  refine ⟨th, h, ?_, ?_⟩
  · unfold FACG; rw [h]; simp
  · unfold FASD; rw [h]; simp

/-! ### Steepest descent -/

theorem lineSums_keeps {NC : ℕ} {L : Latt} {scratch : Arr ℂ} {inp : Planes} {lat : Gauge} {red red' : Red}
    (h : lineSums NC L scratch inp lat red = some red') {k : ℕ} (hk : 2 < k) : red' k = red k := by
  unfold lineSums at h
  revert h red'
  induction volume L with
  | zero => intro red' h; cases h; rfl
  | succ n ih =>
    intro red' h
    rw [forN, Option.bind_eq_some_iff] at h
    obtain ⟨r, h, h'⟩ := h
    rw [Option.map_eq_some_iff] at h'
    obtain ⟨v, -, rfl⟩ := h'
    simp only [Red.add_apply, ih h, if_neg (show k ≠ 0 by omega), if_neg (show k ≠ 1 by omega),
      if_neg (show k ≠ 2 by omega), add_zero]

theorem fasdStep_spec {P : FaParams} (hN : 2 ≤ P.NC) (hL : Valid P.L) {lat : Gauge} {r : Gauge × ℝ}
    (hU : SUField P.NC P.L lat) (h : fasdStep P lat = some r) :
    Orbit P.NC P.L lat r.1 ∧ SUField P.NC P.L r.1 ∧ ReportedBefore P lat r.1 r.2 := by
  unfold fasdStep at h
  rw [Option.map_eq_some_iff] at h
  obtain ⟨q, h, rfl⟩ := h
  obtain ⟨h1, h2⟩ := steep_orbit hN hL hU h
  refine ⟨h1, h2, ?_⟩
  obtain ⟨th, e1, e2⟩ := tr_eq (lat := lat) hN hL
  unfold steep_Landau_FA at h
  rw [Option.map_eq_some_iff] at h
  obtain ⟨q, h, rfl⟩ := h
  obtain ⟨al, h3⟩ := line_search_step h
  refine ⟨lat, th, _, al, orbit_refl _ _ _, hU, e1, ?_, h3⟩
  unfold line_search_Landau at h
  rw [Option.bind_eq_some_iff] at h
  obtain ⟨red', h, h'⟩ := h
  rw [Option.map_eq_some_iff] at h'
  obtain ⟨l, -, rfl⟩ := h'
  rw [← e2]
  dsimp only
  rw [lineSums_keeps h (by norm_num)]

theorem fasdLoop_spec {P : FaParams} (hN : 2 ≤ P.NC) (hL : Valid P.L) {acc : ℝ} {n : ℕ} {lat lat' : Gauge} {tr : ℝ}
    {k : ℕ} (hU : SUField P.NC P.L lat) (h : fasdLoop P acc n lat = some (lat', tr, k)) :
    Orbit P.NC P.L lat lat' ∧ SUField P.NC P.L lat' ∧ ReportedBefore P lat lat' tr ∧
      1 ≤ k ∧ k ≤ n + 1 ∧ (k ≤ n → tr ≤ acc) := by
  induction n generalizing lat k with
  | zero =>
    rw [fasdLoop, Option.map_eq_some_iff] at h
    obtain ⟨q, h, e⟩ := h
    cases e
    obtain ⟨h1, h2, h3⟩ := fasdStep_spec hN hL hU h
    exact ⟨h1, h2, h3, le_rfl, le_rfl, fun h => by omega⟩
  | succ n ih =>
    rw [fasdLoop, Option.bind_eq_some_iff] at h
    obtain ⟨q, h, h'⟩ := h
    obtain ⟨h1, h2, h3⟩ := fasdStep_spec hN hL hU h
    split at h'
    · rw [Option.map_eq_some_iff] at h'
      obtain ⟨⟨l, t, k'⟩, h', e⟩ := h'
      cases e
      obtain ⟨a1, a2, a3, a4, a5, a6⟩ := ih h2 h'
      exact ⟨orbit_trans h1 a1, a2, reported_trans hL h1 a3, Nat.le_add_left _ _, Nat.succ_le_succ a5,
        fun h => a6 (Nat.le_of_succ_le_succ h)⟩
    · next hlt =>
      cases h'
      exact ⟨h1, h2, h3, le_rfl, by omega, fun _ => not_lt.1 hlt⟩

theorem fasdRuns_spec {P : FaParams} (hN : 2 ≤ P.NC) (hL : Valid P.L) {acc : ℝ} {max_iters n : ℕ}
    {lat lat' : Gauge} {iters : ℕ} {th : ℝ} (hU : SUField P.NC P.L lat)
    (h : fasdRuns P acc max_iters n lat = .done lat' iters th) :
    Orbit P.NC P.L lat lat' ∧ SUField P.NC P.L lat' ∧ ReportedBefore P lat lat' th ∧
      (1 ≤ iters ∧ iters < max_iters ∧ th ≤ acc ∨ 123456789 < iters ∧ 1000 * acc ≤ th) := by
  induction n generalizing lat with
  | zero => rw [fasdRuns] at h; cases h
  | succ n ih =>
    rw [fasdRuns] at h
    split at h
    · cases h
    · next s tr k hs =>
      obtain ⟨a1, a2, a3, a4, a5, a6⟩ := fasdLoop_spec hN hL hU hs
      split at h
      · split at h
        · obtain ⟨b1, b2, b3, b4⟩ := ih a2 h
          exact ⟨orbit_trans a1 b1, b2, reported_trans hL a1 b3, b4⟩
        · next hlt =>
          cases h
          exact ⟨a1, a2, a3, Or.inr ⟨by omega, not_lt.1 hlt⟩⟩
      · next hlt =>
        cases h
        exact ⟨a1, a2, a3, Or.inl ⟨a4, by omega, a6 (by omega)⟩⟩

/-- **Partial.**  The same for steepest descent.  Missing as before; and the count of a failed run is above 123456789,
so it is never the value the caller compares with (`Landau.c:278`): a failed run of steepest descent is not restarted. -/
theorem C82_fasd_partial {P : FaParams} (hN : 2 ≤ P.NC) (hL : Valid P.L) {alloc : Bool} {acc : ℝ}
    {max_iters runs : ℕ} {lat lat' : Gauge} {iters : ℕ} {th : ℝ} (hU : SUField P.NC P.L lat)
    (h : FASD P alloc acc max_iters runs lat = .done lat' iters th) :
    Orbit P.NC P.L lat lat' ∧ SUField P.NC P.L lat' ∧ av_plaquette P.NC P.L lat' = av_plaquette P.NC P.L lat ∧
    ((iters = 0 ∧ lat' = lat ∧ theta_test_lin P.NC P.L P.scratch lat P.L.ND = some th ∧ (th < acc ∨ alloc = false)) ∨
     (1 ≤ iters ∧ iters < max_iters ∧ th ≤ acc ∧ ReportedBefore P lat lat' th) ∨
     (123456789 < iters ∧ 1000 * acc ≤ th ∧ ReportedBefore P lat lat' th)) := by
  unfold FASD at h
  split at h
  · cases h
  · next x hx =>
    have refl : Orbit P.NC P.L lat lat := orbit_refl _ _ _
    split at h
    · next hlt => cases h; exact ⟨refl, hU, rfl, Or.inl ⟨rfl, rfl, hx, Or.inl hlt⟩⟩
    · split at h
      · next ha => cases h; exact ⟨refl, hU, rfl, Or.inl ⟨rfl, rfl, hx, Or.inr ha⟩⟩
      · obtain ⟨a1, a2, a3, a4⟩ := fasdRuns_spec hN hL hU h
        refine ⟨a1, a2, orbit_plaquette (by omega) hL a1 hU, Or.inr ?_⟩
        rcases a4 with ⟨b1, b2, b3⟩ | ⟨b1, b2⟩
        · exact Or.inl ⟨b1, b2, b3, a3⟩
        · exact Or.inr ⟨b1, b2, a3⟩

/-- With at most one iteration allowed, no run that makes a step reports success. -/
theorem C82_one_iteration_fails {P : FaParams} (hN : 2 ≤ P.NC) (hL : Valid P.L) {alloc : Bool} {acc : ℝ}
    {max_iters runs : ℕ} (hm : max_iters ≤ 1) {lat lat' : Gauge} {iters : ℕ} {th : ℝ} (hU : SUField P.NC P.L lat)
    (h : FACG P alloc acc max_iters runs lat = .done lat' iters th) : iters = 0 ∨ iters = 123456789 := by
  rcases (C82_facg_partial hN hL hU h).2.2.2 with ⟨h, -⟩ | ⟨h1, h2, -⟩ | ⟨h, -⟩
  · exact Or.inl h
  · omega
  · exact Or.inr h

/-- Steepest descent without Fourier acceleration, for two to eighteen colours, never meets undefined behaviour. -/
theorem C82_fasd_defined {P : FaParams} (hN : 2 ≤ P.NC) (hN' : P.NC ≤ 18) (hL : Valid P.L)
    (hacc : P.accel = id) {alloc : Bool} {acc : ℝ} {max_iters runs : ℕ} {lat : Gauge} (hU : SUField P.NC P.L lat) :
    FASD P alloc acc max_iters runs lat ≠ .undef := by
  have step : ∀ lat, SUField P.NC P.L lat → ∃ r, fasdStep P lat = some r := by
    intro lat hU
    have hI : ∀ red, ∀ i < volume P.L, ImagDiag P.NC fun mu => (FA_deriv P.NC P.L P.scratch red lat).2 mu i :=
      fun red i hi => derivPlanes_imag hN hL P.scratch hU hi
    have h1 : ∀ al : ℝ, ∀ i < volume P.L, ∃ g,
        set_gauge_matrix P.NC P.scratch (FA_deriv P.NC P.L P.scratch (fun _ => 0) lat).2 al i = some g :=
      fun al i hi => by
        obtain ⟨g, hg, -⟩ := set_gauge_defined hN hN' P.scratch al i (hI _ i hi)
        exact ⟨g, hg⟩
    choose! g hg using h1
    obtain ⟨red', hr, -⟩ := lineSums_eq hN hL P.scratch hU (hg 0.15) (hg 0.30)
      (FA_deriv P.NC P.L P.scratch (fun _ => 0) lat).1
    refine ⟨?_, ?_⟩
    rotate_left
    · unfold fasdStep steep_Landau_FA line_search_Landau
      dsimp only
      rw [hacc, id, hr, Option.bind_some, egauge_eq hL P.scratch (hg _), Option.map_some, Option.map_some,
        Option.map_some]
  have loop : ∀ n lat, SUField P.NC P.L lat → ∃ r, fasdLoop P acc n lat = some r := by
    intro n
    induction n with
    | zero =>
      intro lat hU
      obtain ⟨r, hr⟩ := step lat hU
      exact ⟨_, by rw [fasdLoop, hr]; rfl⟩
    | succ n ih =>
      intro lat hU
      obtain ⟨r, hr⟩ := step lat hU
      rw [fasdLoop, hr, Option.bind_some]
      split
      · obtain ⟨q, hq⟩ := ih r.1 (fasdStep_spec hN hL hU hr).2.1
        exact ⟨_, by rw [hq]; rfl⟩
      · exact ⟨_, rfl⟩
  have runsOk : ∀ n lat, SUField P.NC P.L lat → fasdRuns P acc max_iters n lat ≠ .undef := by
    intro n
    induction n with
    | zero => intro lat _ h; rw [fasdRuns] at h; cases h
    | succ n ih =>
      intro lat hU h
      obtain ⟨⟨l, t, k⟩, hr⟩ := loop (max_iters - 1) lat hU
      rw [fasdRuns, steep_Landau_FASD, hr] at h
      dsimp only at h
      split at h
      · split at h
        · exact ih l (fasdLoop_spec hN hL hU hr).2.1 h
        · cases h
      · cases h
  unfold FASD
  obtain ⟨th, h, -⟩ := (C80_zero hN hL P.scratch hU (le_refl P.L.ND)).1
  rw [h]
  dsimp only
  split
  · exact fun h => by cases h
  · split
    · exact fun h => by cases h
    · exact runsOk runs lat hU

end GLU.Gfix
