import Verif.Gfix.FAInner

/-!
# C82: when the Fourier-accelerated conjugate gradient is defined
-/

namespace GLU.Gfix

open Complex Matrix Finset GLU.Mat GLU.Geom GLU.Field

theorem imagDiag_small {NC : ℕ} (h : NC ≤ 3) (inp : ℕ → ℂ) : ImagDiag NC inp := fun h4 => by omega

theorem egauge_defined_small {NC : ℕ} (hN : 2 ≤ NC) (hN' : NC ≤ 3) {L : Latt} (hL : Valid L) (scratch : Arr ℂ)
    (inp : Planes) (alpha : ℝ) (lat : Gauge) : ∃ lat', egauge_Landau NC L scratch inp alpha lat = some lat' :=
  C82_defined hN (by omega) hL scratch (fun _ _ => imagDiag_small hN' _) alpha lat

theorem line_search_defined_small {NC : ℕ} (hN : 2 ≤ NC) (hN' : NC ≤ 3) {L : Latt} (hL : Valid L) (scratch : Arr ℂ)
    (inp : Planes) (red : Red) {lat : Gauge} (hU : SUField NC L lat) :
    ∃ r, line_search_Landau NC L scratch red lat inp = some r ∧ ∀ k, 2 < k → r.1 k = red k := by
  have h1 : ∀ al : ℝ, ∀ i < volume L, ∃ g, set_gauge_matrix NC scratch inp al i = some g := fun al i _ => by
    obtain ⟨g, hg, -⟩ := set_gauge_defined hN (by omega) scratch al i (imagDiag_small hN' fun mu => inp mu i)
    exact ⟨g, hg⟩
  choose! g hg using h1
  obtain ⟨red', hr, -, -, -, hk⟩ := lineSums_eq hN hL scratch hU (hg 0.15) (hg 0.30) red
  refine ⟨(red', ?_), ?_, hk⟩
  rotate_left
  · unfold line_search_Landau
    rw [hr, Option.bind_some, egauge_eq hL scratch (hg _), Option.map_some]

/-- The length used by the code is that of a norm for two and three colours. -/
theorem prSite_pos {NC : ℕ} (hN : NC = 2 ∨ NC = 3) (inp old : ℕ → ℂ) :
    0 ≤ (prSite NC inp old).1 ∧ ((prSite NC inp old).1 = 0 → direction NC inp = 0) ∧
    (prSite NC inp old).1 ≤ derSite NC inp := by
  rcases hN with rfl | rfl
  · have hv : (prSite 2 inp old).1 = 2 * ((inp 0).im * (inp 0).im) +
      2 * ((inp 1).re * (inp 1).re + (inp 1).im * (inp 1).im) := by simp [prSite]
    have hd : derSite 2 inp = 2 * ((inp 0).re * (inp 0).re + (inp 0).im * (inp 0).im +
      ((inp 1).re * (inp 1).re + (inp 1).im * (inp 1).im)) := by simp [derSite]
    rw [hv, hd]
    refine ⟨by nlinarith [mul_self_nonneg (inp 0).im, mul_self_nonneg (inp 1).re, mul_self_nonneg (inp 1).im],
      fun h => ?_, by nlinarith [mul_self_nonneg (inp 0).re]⟩
    have a0 : (inp 0).im = 0 := by
      apply mul_self_eq_zero.1
      nlinarith [mul_self_nonneg (inp 0).im, mul_self_nonneg (inp 1).re, mul_self_nonneg (inp 1).im]
    have a1 : (inp 1).re = 0 := by
      apply mul_self_eq_zero.1
      nlinarith [mul_self_nonneg (inp 0).im, mul_self_nonneg (inp 1).re, mul_self_nonneg (inp 1).im]
    have a2 : (inp 1).im = 0 := by
      apply mul_self_eq_zero.1
      nlinarith [mul_self_nonneg (inp 0).im, mul_self_nonneg (inp 1).re, mul_self_nonneg (inp 1).im]
    have a3 : inp 1 = 0 := Complex.ext a1 a2
    ext r c
    fin_cases r <;> fin_cases c <;> simp [direction, upper, a0, a3]
  · have hv : (prSite 3 inp old).1 = 2 * ((inp 0).re * (inp 0).re + (inp 0).im * (inp 0).im + (inp 0).re * (inp 0).im) +
      2 * ((inp 1).re * (inp 1).re + (inp 1).im * (inp 1).im) +
      2 * ((inp 2).re * (inp 2).re + (inp 2).im * (inp 2).im) +
      2 * ((inp 3).re * (inp 3).re + (inp 3).im * (inp 3).im) := by simp [prSite]
    have hd : derSite 3 inp = (prSite 3 inp old).1 := by rw [hv]; simp [derSite]; ring
    rw [hd, hv]
    have q0 : 0 ≤ (inp 0).re * (inp 0).re + (inp 0).im * (inp 0).im + (inp 0).re * (inp 0).im := by
      nlinarith [mul_self_nonneg ((inp 0).re + (inp 0).im), mul_self_nonneg (inp 0).re, mul_self_nonneg (inp 0).im]
    have q : ∀ k, 0 ≤ (inp k).re * (inp k).re + (inp k).im * (inp k).im := fun k =>
      add_nonneg (mul_self_nonneg _) (mul_self_nonneg _)
    have q1 := q 1
    have q2 := q 2
    have q3 := q 3
    refine ⟨by linarith, fun h => ?_, le_rfl⟩
    have z : ∀ k, (inp k).re * (inp k).re + (inp k).im * (inp k).im = 0 → inp k = 0 := fun k hk =>
      Complex.ext (mul_self_eq_zero.1 (by nlinarith [mul_self_nonneg (inp k).re, mul_self_nonneg (inp k).im]))
        (mul_self_eq_zero.1 (by nlinarith [mul_self_nonneg (inp k).re, mul_self_nonneg (inp k).im]))
    have a1 := z 1 (by linarith)
    have a2 := z 2 (by linarith)
    have a3 := z 3 (by linarith)
    have e0 : (inp 0).re * (inp 0).re + (inp 0).im * (inp 0).im + (inp 0).re * (inp 0).im = 0 := by linarith
    have a0 := z 0 (by
      nlinarith [mul_self_nonneg ((inp 0).re + (inp 0).im), mul_self_nonneg (inp 0).re, mul_self_nonneg (inp 0).im])
    ext r c
    fin_cases r <;> fin_cases c <;> simp [direction, upper, a0, a1, a2, a3, Finset.sum_range_succ]

theorem sum_PR3_three (NC : ℕ) (L : Latt) (red : Red) (inp old : Planes) :
    sum_PR3 NC L red inp old 3 = red 3 + ∑ i ∈ range (volume L), (prSite NC (fun mu => inp mu i) fun mu => old mu i).1 := by
  unfold sum_PR3
  induction volume L with
  | zero => simp [forN]
  | succ n ih =>
    rw [forN, sum_range_succ, ← add_assoc, ← ih]
    simp [Red.add_apply]

theorem sum_DER3_three (NC : ℕ) (L : Latt) (red : Red) (inp : Planes) :
    sum_DER3 NC L red inp 3 = red 3 + ∑ i ∈ range (volume L), derSite NC fun mu => inp mu i := by
  unfold sum_DER3
  induction volume L with
  | zero => simp [forN]
  | succ n ih =>
    rw [forN, sum_range_succ, ← add_assoc, ← ih]
    simp [Red.add_apply]

theorem FA_deriv_keeps (NC : ℕ) (L : Latt) (scratch : Arr ℂ) (red : Red) (lat : Gauge) {k : ℕ} (hk : k ≠ 5) :
    (FA_deriv NC L scratch red lat).1 k = red k := by
  unfold FA_deriv
  dsimp only
  induction volume L with
  | zero => rfl
  | succ n ih => rw [forN, Red.add_apply, ih, if_neg hk, add_zero]

/-- The acceleration does not turn a direction into zero. -/
def Faithful (NC : ℕ) (L : Latt) (accel : Planes → Planes) : Prop := ∀ inp : Planes,
  (∀ i < volume L, direction NC (fun mu => accel inp mu i) = 0) → ∀ i < volume L, direction NC (fun mu => inp mu i) = 0

theorem faithful_id {P : FaParams} (h : P.accel = id) : Faithful P.NC P.L P.accel := by
  rw [h]; exact fun _ h => h

/-- The length of the direction is positive where the functional is not stationary. -/
theorem length_pos {NC : ℕ} (hN : NC = 2 ∨ NC = 3) {L : Latt} (hL : Valid L) (scratch : Arr ℂ) (red : Red)
    {accel : Planes → Planes} (hacc : Faithful NC L accel)
    {lat : Gauge} (hU : SUField NC L lat) (hc : ¬ Critical NC L lat L.ND) (old : Planes) :
    0 < ∑ i ∈ range (volume L),
      (prSite NC (fun mu => accel (FA_deriv NC L scratch red lat).2 mu i) fun mu => old mu i).1 := by
  have hN2 : 2 ≤ NC := by omega
  by_contra hn
  apply hc
  rw [← (C80_zero hN2 hL scratch hU le_rfl).2.1, C80_theta hN2 hL scratch hU le_rfl]
  have h0 : ∑ i ∈ range (volume L),
      (prSite NC (fun mu => accel (FA_deriv NC L scratch red lat).2 mu i) fun mu => old mu i).1 = 0 :=
    le_antisymm (not_lt.1 hn) (sum_nonneg fun i _ => (prSite_pos hN _ _).1)
  rw [sum_eq_zero_iff_of_nonneg fun i _ => (prSite_pos hN _ _).1] at h0
  rw [sum_eq_zero, mul_zero]
  intro i hi
  have h1 := hacc _ (fun i hi => (prSite_pos hN _ _).2.1 (h0 i (mem_range.2 hi))) i (mem_range.1 hi)
  have h2 : direction NC (fun mu => (FA_deriv NC L scratch red lat).2 mu i) = I • divergence NC L lat i L.ND :=
    direction_deriv hN2 hL scratch hU (mem_range.1 hi)
  rw [h1] at h2
  have h3 : divergence NC L lat i L.ND = 0 := by
    have := congrArg (fun M => (-I) • M) h2
    simp only [smul_zero, smul_smul] at this
    simpa using this.symm
  rw [h3]
  simp

theorem not_critical_of_tr {P : FaParams} (hN : 2 ≤ P.NC) (hL : Valid P.L) {lat : Gauge} (hU : SUField P.NC P.L lat)
    {x : ℝ} (h : theta_test_lin P.NC P.L P.scratch lat P.L.ND = some x) (hx : 0 < trFraction P.NC * x) :
    ¬ Critical P.NC P.L lat P.L.ND := by
  intro hc
  rw [← (C80_zero hN hL P.scratch hU le_rfl).2.1, h] at hc
  rw [Option.some.inj hc, mul_zero] at hx
  exact lt_irrefl _ hx

theorem facgStep_defined {P : FaParams} (hN : P.NC = 2 ∨ P.NC = 3) (hL : Valid P.L) (hacc : Faithful P.NC P.L P.accel)
    {s : FaState} (hU : SUField P.NC P.L s.lat) (h0 : 0 < s.inold) :
    ∃ s', facgStep P s = some s' ∧ (¬ Critical P.NC P.L s.lat P.L.ND → 0 < s'.inold) := by
  have hN2 : 2 ≤ P.NC := by omega
  have hN3 : P.NC ≤ 3 := by omega
  have hin : ¬ Critical P.NC P.L s.lat P.L.ND →
      0 < sum_PR3 P.NC P.L (FA_deriv P.NC P.L P.scratch (fun _ => 0) s.lat).1
        (P.accel (FA_deriv P.NC P.L P.scratch (fun _ => 0) s.lat).2) s.in_old 3 := fun hc => by
    rw [sum_PR3_three, FA_deriv_keeps _ _ _ _ _ (by norm_num), zero_add]
    exact length_pos hN hL P.scratch _ hacc hU hc s.in_old
  have hd : ∀ x, fdiv x s.inold = some (x / s.inold) := fun x => by unfold fdiv; rw [if_neg h0.ne']
  unfold facgStep
  dsimp only
  rw [hd, hd, Option.bind_some, Option.bind_some]
  split
  · obtain ⟨r, hr, -⟩ := line_search_defined_small hN2 hN3 hL P.scratch (fun idx j =>
      P.accel (FA_deriv P.NC P.L P.scratch (fun _ => 0) s.lat).2 idx j + _ * s.sn idx j) _ hU
    rw [hr, Option.map_some]
    exact ⟨_, rfl, hin⟩
  · obtain ⟨r, hr⟩ := egauge_defined_small hN2 hN3 hL P.scratch (fun idx j =>
      P.accel (FA_deriv P.NC P.L P.scratch (fun _ => 0) s.lat).2 idx j + _ * s.sn idx j) P.gf_alpha s.lat
    rw [hr, Option.map_some]
    exact ⟨_, rfl, hin⟩

theorem facgLoop_defined {P : FaParams} (hN : P.NC = 2 ∨ P.NC = 3) (hL : Valid P.L) (hacc : Faithful P.NC P.L P.accel)
    {acc : ℝ} (ha : 0 ≤ acc) (n : ℕ) {s : FaState} (hU : SUField P.NC P.L s.lat) (h0 : 0 < s.inold) :
    ∃ r, facgLoop P acc n s = some r := by
  induction n generalizing s with
  | zero =>
    obtain ⟨s', h, -⟩ := facgStep_defined hN hL hacc hU h0
    exact ⟨_, by rw [facgLoop, h]; rfl⟩
  | succ n ih =>
    obtain ⟨s', h, h1⟩ := facgStep_defined hN hL hacc hU h0
    rw [facgLoop, h, Option.bind_some]
    split
    · next hlt =>
      obtain ⟨th, h2, h3⟩ := facgStep_tr (by omega) hL h
      have hc : ¬ Critical P.NC P.L s.lat P.L.ND :=
        not_critical_of_tr (by omega) hL hU h2 (by rw [← h3]; linarith)
      obtain ⟨q, hq⟩ := ih (facgStep_orbit (by omega) hL hU h).2 (h1 hc)
      exact ⟨_, by rw [hq]; rfl⟩
    · exact ⟨_, rfl⟩

/-- A run of the conjugate gradient started at a field that is not stationary never divides by zero, if the acceleration does
not turn a direction into zero. -/
theorem facg_defined {P : FaParams} (hN : P.NC = 2 ∨ P.NC = 3) (hL : Valid P.L) (hacc : Faithful P.NC P.L P.accel) {acc : ℝ}
    (ha : 0 ≤ acc) (max_iters : ℕ) {red : Red} (hr : 0 ≤ red 3) {lat : Gauge} (hU : SUField P.NC P.L lat)
    (hc : ¬ Critical P.NC P.L lat P.L.ND) : ∃ r, steep_Landau_FACG P acc max_iters red lat = some r := by
  obtain ⟨r, h1, hk⟩ := line_search_defined_small (show 2 ≤ P.NC by omega) (by omega) hL P.scratch
    (P.accel (FA_deriv P.NC P.L P.scratch red lat).2) (FA_deriv P.NC P.L P.scratch red lat).1 hU
  have h2 : steep_Landau_FA P red lat = some (r.1, P.accel (FA_deriv P.NC P.L P.scratch red lat).2, r.2) := by
    unfold steep_Landau_FA
    dsimp only
    rw [h1, Option.map_some]
  unfold steep_Landau_FACG facgStart
  rw [h2, Option.map_some, Option.bind_some]
  refine facgLoop_defined hN hL hacc ha _ (steep_orbit (by omega) hL hU h2).2 ?_
  dsimp only
  rw [sum_DER3_three, hk 3 (by norm_num), FA_deriv_keeps _ _ _ _ _ (by norm_num)]
  have h3 := length_pos hN hL P.scratch red hacc hU hc fun _ _ => 0
  have h4 : ∑ i ∈ range (volume P.L),
      (prSite P.NC (fun mu => P.accel (FA_deriv P.NC P.L P.scratch red lat).2 mu i) fun mu => (fun _ _ => 0 : Planes) mu i).1 ≤
      ∑ i ∈ range (volume P.L), derSite P.NC fun mu => P.accel (FA_deriv P.NC P.L P.scratch red lat).2 mu i :=
    sum_le_sum fun i _ => (prSite_pos hN _ _).2.2
  linarith

/-- Two and three colours, no Fourier acceleration: a run of the conjugate gradient started at a field that is not
stationary never divides by zero. -/
theorem C82_facg_defined {P : FaParams} (hN : P.NC = 2 ∨ P.NC = 3) (hL : Valid P.L) (hacc : P.accel = id) {acc : ℝ}
    (ha : 0 ≤ acc) (max_iters : ℕ) {red : Red} (hr : 0 ≤ red 3) {lat : Gauge} (hU : SUField P.NC P.L lat)
    (hc : ¬ Critical P.NC P.L lat P.L.ND) : ∃ r, steep_Landau_FACG P acc max_iters red lat = some r :=
  facg_defined hN hL (faithful_id hacc) ha max_iters hr hU hc

theorem spike_not_critical : ¬ Critical 2 L2345 spike 4 := by
  intro h
  have h1 := ((C80_zero (by norm_num) valid_L2345 (fun _ => 0) (spike_su _) (le_refl 4)).2.1).2 h
  have h2 := ((C80_zero (by norm_num) valid_L2345 (fun _ => 0) (spike_su _) (le_refl 4)).2.2.1 h1) 0 (by decide) 0
    (by decide)
  rw [orSum_eq (by decide) 0 1 (by decide) (by decide), spike_sum] at h2
  simp [col3] at h2

/-- With one iteration allowed and accuracy zero the conjugate gradient gives up with the count 123456789 on every
field that is not stationary, having moved the field along its gauge orbit. -/
theorem run_gives_up {P : FaParams} (hN : P.NC = 2 ∨ P.NC = 3) (hL : Valid P.L) (hacc : P.accel = id) {lat : Gauge}
    (hU : SUField P.NC P.L lat) (hc : ¬ Critical P.NC P.L lat P.L.ND) : ∃ lat' th,
    FACG P true 0 1 1 lat = .done lat' 123456789 th ∧ 0 ≤ th := by
  have hN2 : 2 ≤ P.NC := by omega
  obtain ⟨⟨s, k⟩, h⟩ := C82_facg_defined hN hL hacc (le_refl (0 : ℝ)) 1 (red := fun _ => 0) le_rfl hU hc
  obtain ⟨h1, h2, ⟨U, x, -, -, h3, h4, h5, h6, -⟩, h7, -⟩ := facg_spec hN2 hL hU h
  obtain ⟨y, hy, hy0⟩ := (C80_zero hN2 hL P.scratch hU (le_refl P.L.ND)).1
  obtain ⟨z, hz, hz0⟩ := (C80_zero hN2 hL P.scratch h4 (le_refl P.L.ND)).1
  have hx : 0 ≤ x := by
    rw [h5] at hz
    rw [Option.some.inj hz]; exact hz0
  have htr : 0 ≤ s.tr := by
    rw [h6]
    have : (0 : ℝ) ≤ trFraction P.NC := by unfold trFraction; split <;> norm_num
    exact mul_nonneg this hx
  refine ⟨s.lat, s.tr, ?_, htr⟩
  unfold FACG
  rw [hy]
  dsimp only
  rw [if_neg (not_lt.2 hy0), if_neg (by simp), facgRuns, h]
  dsimp only
  rw [if_pos h7, if_neg (by rw [mul_zero]; exact not_lt.2 htr)]

/-- A run of two colours on the lattice 2 x 3 x 4 x 5. -/
theorem spike_run (scratch : Arr ℂ) (tol al : ℝ) : ∃ lat' th,
    FACG ⟨2, L2345, scratch, id, tol, al⟩ true 0 1 1 spike = .done lat' 123456789 th ∧ 0 ≤ th :=
  run_gives_up (P := ⟨2, L2345, scratch, id, tol, al⟩) (Or.inl rfl) valid_L2345 rfl (spike_su _) spike_not_critical

end GLU.Gfix
