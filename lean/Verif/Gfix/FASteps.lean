import Verif.Gfix.FALemmas
import Verif.Gfix.Orbit

/-!
# One Fourier-accelerated step
-/

namespace GLU.Gfix

open Complex Matrix Finset GLU.Mat GLU.Geom GLU.Field

theorem forN_some {σ : Type*} {n : ℕ} {f : ℕ → Option σ → Option σ} {g : ℕ → σ → σ}
    (h : ∀ i < n, ∀ s, f i (some s) = some (g i s)) (s : σ) : forN n f (some s) = some (forN n g s) := by
  induction n with
  | zero => rfl
  | succ n ih => rw [forN, forN, ih fun i hi => h i (by omega), h n (by omega)]

theorem forN_none {σ : Type*} {n : ℕ} {f : ℕ → Option σ → Option σ} (h : ∀ i < n, f i none = none) :
    forN n f none = none := by
  induction n with
  | zero => rfl
  | succ n ih => rw [forN, ih fun i hi => h i (by omega), h n (by omega)]

/-- If a loop ends with a value then every pass did. -/
theorem forN_some_inv {σ : Type*} {n : ℕ} {f : ℕ → Option σ → Option σ} {s r : σ} (hn : ∀ i < n, f i none = none)
    (h : forN n f (some s) = some r) : ∀ i < n, ∃ x y, f i (some x) = some y := by
  induction n generalizing r with
  | zero => intro i hi; omega
  | succ n ih =>
    rw [forN] at h
    cases h1 : forN n f (some s) with
    | none => rw [h1, hn n (by omega)] at h; cases h
    | some x =>
      intro i hi
      rcases Nat.lt_succ_iff_lt_or_eq.1 hi with h2 | rfl
      · exact ih (fun i hi => hn i (by omega)) h1 i h2
      · exact ⟨x, r, by rw [← h1]; exact h⟩

theorem egauge_eq {NC : ℕ} {L : Latt} (hL : Valid L) (scratch : Arr ℂ) {inp : Planes} {alpha : ℝ} {g : ℕ → Arr ℂ}
    (hg : ∀ i < volume L, set_gauge_matrix NC scratch inp alpha i = some (g i)) (lat : Gauge) :
    egauge_Landau NC L scratch inp alpha lat = some (gtransform NC L g lat) := by
  unfold egauge_Landau gtransform
  refine forN_some (fun i hi s => ?_) lat
  rw [Option.bind_some, hg i hi, Option.bind_some]
  refine forN_some (fun mu hmu s => ?_) s
  rw [Option.bind_some, hg _ (neighbor_lt hL i hmu)]
  rfl

theorem egauge_some {NC : ℕ} {L : Latt} (hL : Valid L) {scratch : Arr ℂ} {inp : Planes} {alpha : ℝ} {lat lat' : Gauge}
    (h : egauge_Landau NC L scratch inp alpha lat = some lat') :
    ∃ g : ℕ → Arr ℂ, (∀ i < volume L, set_gauge_matrix NC scratch inp alpha i = some (g i)) ∧
      lat' = gtransform NC L g lat := by
  have h1 : ∀ i < volume L, ∃ g, set_gauge_matrix NC scratch inp alpha i = some g := by
    intro i hi
    obtain ⟨x, y, hxy⟩ := forN_some_inv (fun i _ => rfl) h i hi
    rw [Option.bind_some] at hxy
    cases hc : set_gauge_matrix NC scratch inp alpha i with
    | none => rw [hc] at hxy; cases hxy
    | some g => exact ⟨g, rfl⟩
  choose! g hg using h1
  refine ⟨g, hg, ?_⟩
  rw [egauge_eq hL scratch hg] at h
  exact (Option.some.inj h).symm

theorem set_gauge_su {NC : ℕ} (hN : 2 ≤ NC) {scratch : Arr ℂ} {inp : Planes} {alpha : ℝ} {i : ℕ} {g : Arr ℂ}
    (h : set_gauge_matrix NC scratch inp alpha i = some g) : IsSU NC g := by
  unfold set_gauge_matrix at h
  split at h
  · cases h
  · exact C15_special_unitary (by omega) h

theorem egauge_orbit {NC : ℕ} (hN : 2 ≤ NC) {L : Latt} (hL : Valid L) {scratch : Arr ℂ} {inp : Planes} {alpha : ℝ}
    {lat lat' : Gauge} (hU : SUField NC L lat) (h : egauge_Landau NC L scratch inp alpha lat = some lat') :
    Orbit NC L lat lat' ∧ SUField NC L lat' := by
  obtain ⟨g, hg, rfl⟩ := egauge_some hL h
  have hSU : SUGauge NC L g := fun i hi => set_gauge_su hN (hg i hi)
  obtain ⟨h1, h2⟩ := gtransform_transformed hL hSU hU
  exact ⟨⟨g, hSU, h1⟩, h2⟩

/-! ## The line search -/

/-- The functional after a step of length `alpha`: the sum of the real traces of the transformed links. -/
noncomputable def stepSum (NC : ℕ) (L : Latt) (g : ℕ → Arr ℂ) (lat : Gauge) : ℝ :=
  ∑ i ∈ range (volume L), ∑ mu ∈ range L.ND, (toM NC (g i) * link NC lat i mu * (toM NC (g (neighbor L i mu)))ᴴ).trace.re

theorem stepSum_eq {NC : ℕ} {L : Latt} (hL : Valid L) {g : ℕ → Arr ℂ} (hg : SUGauge NC L g) {lat : Gauge}
    (hU : SUField NC L lat) : stepSum NC L g lat = linkSum NC (gtransform NC L g lat) (range (volume L)) L.ND := by
  unfold stepSum linkSum
  refine sum_congr rfl fun i hi => sum_congr rfl fun mu hmu => ?_
  rw [(gtransform_transformed hL hg hU).1 i (mem_range.1 hi) mu (mem_range.1 hmu)]

theorem lineSite_eq {NC : ℕ} (hN : 2 ≤ NC) {L : Latt} (hL : Valid L) (scratch : Arr ℂ) {inp : Planes} {lat : Gauge}
    (hU : SUField NC L lat) {g1 g2 : ℕ → Arr ℂ}
    (h1 : ∀ i < volume L, set_gauge_matrix NC scratch inp 0.15 i = some (g1 i))
    (h2 : ∀ i < volume L, set_gauge_matrix NC scratch inp 0.30 i = some (g2 i)) {i : ℕ} (hi : i < volume L) :
    lineSite NC L scratch inp lat i = some (∑ mu ∈ range L.ND, (link NC lat i mu).trace.re,
      ∑ mu ∈ range L.ND, (toM NC (g1 i) * link NC lat i mu * (toM NC (g1 (neighbor L i mu)))ᴴ).trace.re,
      ∑ mu ∈ range L.ND, (toM NC (g2 i) * link NC lat i mu * (toM NC (g2 (neighbor L i mu)))ᴴ).trace.re) := by
  unfold lineSite
  rw [h1 i hi, Option.bind_some, h2 i hi, Option.bind_some]
  have key : ∀ n ≤ L.ND, forN n (fun mu o => o.bind fun v =>
      (set_gauge_matrix NC scratch inp 0.15 (neighbor L i mu)).bind fun B1 =>
      (set_gauge_matrix NC scratch inp 0.30 (neighbor L i mu)).map fun B2 =>
        (v.1 + (trace NC (lat (i, mu))).re, v.2.1 + Re_trace_abc_dag_suNC NC (g1 i) (lat (i, mu)) B1,
          v.2.2 + Re_trace_abc_dag_suNC NC (g2 i) (lat (i, mu)) B2)) (some ((0 : ℝ), (0 : ℝ), (0 : ℝ))) =
      some (∑ mu ∈ range n, (link NC lat i mu).trace.re,
        ∑ mu ∈ range n, (toM NC (g1 i) * link NC lat i mu * (toM NC (g1 (neighbor L i mu)))ᴴ).trace.re,
        ∑ mu ∈ range n, (toM NC (g2 i) * link NC lat i mu * (toM NC (g2 (neighbor L i mu)))ᴴ).trace.re) := by
    intro n hn
    induction n with
    | zero => rfl
    | succ n ih =>
      have hnb := neighbor_lt hL i (mu := n) (by omega)
      rw [forN, ih (by omega), Option.bind_some, h1 _ hnb, Option.bind_some, h2 _ hnb, Option.map_some,
        C12_trace, C12_Re_trace_abc_dag_suNC (set_gauge_su hN (h1 i hi)) (hU i hi n (by omega)),
        C12_Re_trace_abc_dag_suNC (set_gauge_su hN (h2 i hi)) (hU i hi n (by omega)), sum_range_succ, sum_range_succ,
        sum_range_succ]
      rfl
  exact key L.ND le_rfl

theorem Red.add_apply (red : Red) (n : ℕ) (x : ℝ) (k : ℕ) : red.add n x k = red k + if k = n then x else 0 := by
  unfold Red.add
  rw [Function.update_apply]
  split
  · next h => rw [h]
  · rw [add_zero]

/-- What the line search adds to the three sums: the functional at the three probes. -/
theorem lineSums_eq {NC : ℕ} (hN : 2 ≤ NC) {L : Latt} (hL : Valid L) (scratch : Arr ℂ) {inp : Planes} {lat : Gauge}
    (hU : SUField NC L lat) {g1 g2 : ℕ → Arr ℂ}
    (h1 : ∀ i < volume L, set_gauge_matrix NC scratch inp 0.15 i = some (g1 i))
    (h2 : ∀ i < volume L, set_gauge_matrix NC scratch inp 0.30 i = some (g2 i)) (red : Red) :
    ∃ red', lineSums NC L scratch inp lat red = some red' ∧
      red' 0 = red 0 + linkSum NC lat (range (volume L)) L.ND ∧
      red' 1 = red 1 + linkSum NC (gtransform NC L g1 lat) (range (volume L)) L.ND ∧
      red' 2 = red 2 + linkSum NC (gtransform NC L g2 lat) (range (volume L)) L.ND ∧
      ∀ k, 2 < k → red' k = red k := by
  rw [← stepSum_eq hL (fun i hi => set_gauge_su hN (h1 i hi)) hU,
    ← stepSum_eq hL (fun i hi => set_gauge_su hN (h2 i hi)) hU]
  unfold stepSum linkSum lineSums
  have key : ∀ n ≤ volume L, ∃ red', forN n (fun i o => o.bind fun red =>
      (lineSite NC L scratch inp lat i).map fun v => ((red.add 0 v.1).add 1 v.2.1).add 2 v.2.2) (some red) = some red' ∧
      red' 0 = red 0 + ∑ i ∈ range n, ∑ mu ∈ range L.ND, (link NC lat i mu).trace.re ∧
      red' 1 = red 1 + ∑ i ∈ range n, ∑ mu ∈ range L.ND,
        (toM NC (g1 i) * link NC lat i mu * (toM NC (g1 (neighbor L i mu)))ᴴ).trace.re ∧
      red' 2 = red 2 + ∑ i ∈ range n, ∑ mu ∈ range L.ND,
        (toM NC (g2 i) * link NC lat i mu * (toM NC (g2 (neighbor L i mu)))ᴴ).trace.re ∧
      ∀ k, 2 < k → red' k = red k := by
    intro n hn
    induction n with
    | zero => exact ⟨red, rfl, by simp, by simp, by simp, fun _ _ => rfl⟩
    | succ n ih =>
      obtain ⟨r, hr, e0, e1, e2, e3⟩ := ih (by omega)
      rw [forN, hr, Option.bind_some, lineSite_eq hN hL scratch hU h1 h2 (by omega), Option.map_some]
      refine ⟨_, rfl, ?_, ?_, ?_, fun k hk => ?_⟩
      · simp only [Red.add_apply, e0, sum_range_succ]; norm_num; ring
      · simp only [Red.add_apply, e1, sum_range_succ]; norm_num; ring
      · simp only [Red.add_apply, e2, sum_range_succ]; norm_num; ring
      · simp only [Red.add_apply, e3 k hk, if_neg (show k ≠ 0 by omega), if_neg (show k ≠ 1 by omega),
          if_neg (show k ≠ 2 by omega), add_zero]
  exact key (volume L) le_rfl

theorem line_search_orbit {NC : ℕ} (hN : 2 ≤ NC) {L : Latt} (hL : Valid L) {scratch : Arr ℂ} {inp : Planes} {red : Red}
    {lat : Gauge} {r : Red × Gauge} (hU : SUField NC L lat)
    (h : line_search_Landau NC L scratch red lat inp = some r) : Orbit NC L lat r.2 ∧ SUField NC L r.2 := by
  unfold line_search_Landau at h
  rw [Option.bind_eq_some_iff] at h
  obtain ⟨red', -, h⟩ := h
  rw [Option.map_eq_some_iff] at h
  obtain ⟨lat', h, rfl⟩ := h
  exact egauge_orbit hN hL hU h

theorem steep_orbit {P : FaParams} (hN : 2 ≤ P.NC) (hL : Valid P.L) {red : Red} {lat : Gauge}
    {r : Red × Planes × Gauge} (hU : SUField P.NC P.L lat) (h : steep_Landau_FA P red lat = some r) :
    Orbit P.NC P.L lat r.2.2 ∧ SUField P.NC P.L r.2.2 := by
  unfold steep_Landau_FA at h
  rw [Option.map_eq_some_iff] at h
  obtain ⟨q, h, rfl⟩ := h
  exact line_search_orbit hN hL hU h

theorem facgStep_orbit {P : FaParams} (hN : 2 ≤ P.NC) (hL : Valid P.L) {s s' : FaState}
    (hU : SUField P.NC P.L s.lat) (h : facgStep P s = some s') :
    Orbit P.NC P.L s.lat s'.lat ∧ SUField P.NC P.L s'.lat := by
  unfold facgStep at h
  simp only [Option.bind_eq_some_iff] at h
  obtain ⟨pr, -, fr, -, h⟩ := h
  split at h
  · rw [Option.map_eq_some_iff] at h
    obtain ⟨r, h, rfl⟩ := h
    exact line_search_orbit hN hL hU h
  · rw [Option.map_eq_some_iff] at h
    obtain ⟨r, h, rfl⟩ := h
    exact egauge_orbit hN hL hU h

/-- The sum of the squared divergence kept in `red[5]`. -/
theorem FA_deriv_tr (NC : ℕ) (L : Latt) (scratch : Arr ℂ) (red : Red) (lat : Gauge) :
    (FA_deriv NC L scratch red lat).1 5 =
      red 5 + ∑ i ∈ range (volume L), (fast_deriv_AntiHermitian_proj NC L scratch lat i).2 := by
  unfold FA_deriv
  dsimp only
  have : ∀ n, forN n (fun i (red : Red) => red.add 5 (fast_deriv_AntiHermitian_proj NC L scratch lat i).2) red 5 =
      red 5 + ∑ i ∈ range n, (fast_deriv_AntiHermitian_proj NC L scratch lat i).2 := by
    intro n
    induction n with
    | zero => simp [forN]
    | succ n ih => rw [forN, Red.add_apply, ih, if_pos rfl, sum_range_succ, add_assoc]
  exact this _

/-- The fraction of the convergence test that the Fourier-accelerated methods compare with the accuracy. -/
noncomputable def trFraction (NC : ℕ) : ℝ := if NC = 2 then 1 / 8 else 1 / 2

theorem tr_eq {P : FaParams} (hN : 2 ≤ P.NC) (hL : Valid P.L) {lat : Gauge} :
    ∃ th, theta_test_lin P.NC P.L P.scratch lat P.L.ND = some th ∧
      (FA_deriv P.NC P.L P.scratch (fun _ => 0) lat).1 5 * GFNORM_LANDAU P = trFraction P.NC * th := by
  have hV : 0 < volume P.L := volume_pos hL
  have hne : ((P.NC * volume P.L : ℕ) : ℝ) ≠ 0 := by
    have : P.NC * volume P.L ≠ 0 := Nat.mul_ne_zero (by omega) (by omega)
    exact_mod_cast this
  refine ⟨_, by unfold theta_test_lin fdiv; rw [if_neg hne], ?_⟩
  rw [FA_deriv_tr, forN_sum, zero_add, zero_add]
  unfold GFNORM_LANDAU trFraction
  by_cases h2 : P.NC = 2
  · rw [if_pos h2, ← sum_congr rfl fun i _ => (C80_fast P.L P.scratch lat i).2.2 h2, ← mul_sum]
    field_simp
    ring
  · rw [if_neg h2, ← sum_congr rfl fun i _ => (C80_fast P.L P.scratch lat i).2.1 h2]
    field_simp

end GLU.Gfix
