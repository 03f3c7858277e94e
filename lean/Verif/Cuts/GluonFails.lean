import Verif.Cuts.GluonLandau
import Verif.Field.ChargeProps
import Verif.Geom.Props
import Mathlib.Tactic.IntervalCases

/-!
# Gluon propagators: whole measurement, odd extents and examples (C91)
-/

namespace GLU.Cuts

open Complex Finset Matrix GLU.Mat GLU.Geom GLU.Field

/-- C91: under the hypotheses of `C91_propagators_partial`, the measurement on a field in lattice Landau gauge writes
zero for every longitudinal propagator. -/
theorem C91_landau_output_partial {NC : ℕ} {L : Latt} (hL : Valid L) (he : EvenDims L L.ND)
    {sign : ℝ} (hs : sign = 1 ∨ sign = -1) (tol : ℝ) (log : Arr ℂ → Arr ℂ) (U : Gauge)
    (hlog : ∀ x < volume L, ∀ mu < L.ND, (toM NC (log (U (x, mu))))ᴴ = toM NC (log (U (x, mu))))
    (hA : Landau L fun x mu => toM NC (log (U (x, mu))))
    {keep : (ℕ → ℤ) → Bool} (hk : Local L.ND keep) (heven : ∀ n, keep (fun mu => -n mu) = keep n)
    (hb : ∀ n, keep n = true → InZone L L.ND n → ∀ mu < L.ND, 2 * n mu ≠ -(L.dims mu : ℤ))
    (h0 : keep (fun _ => 0) = true)
    (htol : ∀ n, keep n = true → InZone L L.ND n → (∃ mu < L.ND, n mu ≠ 0) →
      tol ≤ normSq L.ND (latMom true L n))
    (junk : ℕ → ℝ × ℝ) :
    ∃ D, gluon_props NC tol true L sign log keep junk U = some D ∧
      ∀ k < (get_mom_veclist L keep L.ND).length, (D k).2 = 0 := by
  obtain ⟨D, h1, h2⟩ := C91_propagators_partial hL he hs true tol log U hlog hk heven hb h0 htol junk
  exact ⟨D, h1, fun k h => by rw [h2 k h]; exact (C91_landau hL hs hA _).1⟩

/-! ### An odd extent -/

/-- The cut keeping 0 and `± (1, -1, 0, 0)`. -/
def keepDiag : (ℕ → ℤ) → Bool := fun n => decide (n 0 * n 0 ≤ 1 ∧ n 0 = -n 1 ∧ n 2 = 0 ∧ n 3 = 0)

theorem valid_L3444 : Valid L3444 := C03_odd_extent_fails.1

/-- A field in Landau gauge: the curl of a function that is one at the origin. -/
noncomputable def curlField (x mu : ℕ) : Matrix (Fin 2) (Fin 2) ℂ :=
  let phi : ℕ → ℂ := fun x => if x = 0 then 1 else 0
  let S : Matrix (Fin 2) (Fin 2) ℂ := Matrix.diagonal ![1, -1]
  if mu = 0 then (phi x - phi (back L3444 x 1)) • S
  else if mu = 1 then -((phi x - phi (back L3444 x 0)) • S) else 0

theorem curl_landau : Landau L3444 curlField := by
  intro x _
  show ∑ mu ∈ range 4, _ = _
  simp only [sum_range_succ, sum_range_zero, zero_add]
  have hc := (C02_commute valid_L3444 (i := x) (mu := 0) (nu := 1) (by decide) (by decide)).2.2
  unfold curlField
  simp only [one_ne_zero, if_true, if_false]
  rw [hc]
  norm_num
  module

theorem curl_herm (x mu : ℕ) : (curlField x mu)ᴴ = curlField x mu := by
  unfold curlField
  have hS : (Matrix.diagonal ![(1 : ℂ), -1])ᴴ = Matrix.diagonal ![(1 : ℂ), -1] := by
    rw [diagonal_conjTranspose]
    congr 1
    funext i
    fin_cases i <;> simp
  dsimp only
  split
  · rw [conjTranspose_smul, hS]
    congr 1
    split <;> split <;> simp
  · split
    · rw [conjTranspose_neg, conjTranspose_smul, hS]
      congr 2
      split <;> split <;> simp
    · simp

theorem curl_FT (n : ℕ → ℤ) (hn : n 0 = 1) : fieldFT L3444 1 curlField n 1 ≠ 0 := by
  have hsum : ∑ x ∈ range (volume L3444), wave L3444 1 n x • curlField x 1 =
      -((wave L3444 1 n 0 - wave L3444 1 n (neighbor L3444 0 0)) •
        (Matrix.diagonal ![(1 : ℂ), -1] : Matrix (Fin 2) (Fin 2) ℂ)) := by
    have h1 : ∀ x, wave L3444 1 n x • curlField x 1 = -((wave L3444 1 n x * (if x = 0 then 1 else 0)) •
        (Matrix.diagonal ![(1 : ℂ), -1] : Matrix (Fin 2) (Fin 2) ℂ)) +
        (wave L3444 1 n x * (if back L3444 x 0 = 0 then 1 else 0)) •
        (Matrix.diagonal ![(1 : ℂ), -1] : Matrix (Fin 2) (Fin 2) ℂ) := by
      intro x
      unfold curlField
      simp only [one_ne_zero, if_true, if_false]
      module
    simp only [h1]
    rw [sum_add_distrib, sum_neg_distrib]
    have h2 : ∑ x ∈ range (volume L3444), (wave L3444 1 n x * (if back L3444 x 0 = 0 then 1 else 0)) •
        (Matrix.diagonal ![(1 : ℂ), -1] : Matrix (Fin 2) (Fin 2) ℂ) =
        ∑ x ∈ range (volume L3444), (wave L3444 1 n (neighbor L3444 x 0) * (if x = 0 then 1 else 0)) •
        (Matrix.diagonal ![(1 : ℂ), -1] : Matrix (Fin 2) (Fin 2) ℂ) := by
      rw [← sum_neighbor_gen valid_L3444 (by decide : 0 < L3444.ND)]
      refine sum_congr rfl fun x hx => ?_
      rw [(C02_inverse valid_L3444 (mem_range.1 hx) (by decide)).1]
    rw [h2]
    have h3 : (0 : ℕ) ∈ range (volume L3444) := mem_range.2 (by decide)
    simp only [mul_ite, mul_one, mul_zero, ite_smul, zero_smul, sum_ite_eq', h3, if_true]
    module
  rw [fieldFT_wave L3444 1 curlField n (by decide), hsum, wave_neighbor valid_L3444 (Or.inl rfl) n 0 (by decide)]
  intro h
  rw [smul_eq_zero] at h
  rcases h with h | h
  · exact Complex.exp_ne_zero _ h
  · rw [neg_eq_zero, smul_eq_zero] at h
    rcases h with h | h
    · have h4 : wave L3444 1 n 0 ≠ 0 := Complex.exp_ne_zero _
      have h5 : exp (((1 * momentum L3444 n 0 : ℝ) : ℂ) * I) = 1 := by
        apply mul_left_cancel₀ h4
        rw [mul_one]
        exact (sub_eq_zero.1 h).symm
      rw [Complex.exp_eq_one_iff] at h5
      obtain ⟨z, hz⟩ := h5
      have h6 : (2 * Real.pi * I : ℂ) ≠ 0 := by simp [Real.pi_ne_zero]
      have h7 : (1 : ℂ) / 3 = z := by
        apply mul_left_cancel₀ h6
        have hm : momentum L3444 n 0 = 2 * Real.pi * (1 / 3) := by
          unfold momentum
          rw [hn, show L3444.dims 0 = 3 from rfl]
          push_cast
          ring
        rw [hm] at hz
        push_cast at hz
        linear_combination hz
      have h8 : (1 : ℂ) = 3 * z := by rw [← h7]; norm_num
      have h9 : (1 : ℤ) = 3 * z := by exact_mod_cast h8
      omega
    · have := congrFun (congrFun h 0) 0
      simp at this

/-- C91 fails on a lattice with an odd extent: the projectors are given a momentum that is not the one of the list.
On `3 x 4 x 4 x 4`, with the three momenta 0 and `± (1, -1, 0, 0)`, the measurement writes a non-zero longitudinal
propagator for a field in Landau gauge, whose longitudinal propagators are all zero. -/
theorem C91_odd_fails {tol : ℝ} (h0 : 0 < tol) (h1 : tol ≤ 1) (junk : ℕ → ℝ × ℝ) :
    (∀ n, (propagators true L3444 1 curlField n).2 = 0) ∧
    (get_mom_veclist L3444 keepDiag 4).length = 3 ∧
    ∃ D, gluon_props 2 tol true L3444 1 id keepDiag junk (fun l => arrOf (curlField l.1 l.2)) = some D ∧
      (D 0).2 ≠ 0 := by
  have hlen : (get_mom_veclist L3444 keepDiag 4).length = 3 := by decide +kernel
  refine ⟨fun n => (C91_landau valid_L3444 (Or.inl rfl) curl_landau n).1, hlen, ?_⟩
  have hlt : 0 < (get_mom_veclist L3444 keepDiag 4).length := by omega
  have hk : Local L3444.ND keepDiag := by
    intro n n' h
    unfold keepDiag
    rw [h 0 (by decide), h 1 (by decide), h 2 (by decide), h 3 (by decide)]
  have hidx : ((get_mom_veclist L3444 keepDiag 4)[0]?).map (fun v => (v.idx, v.MOM 0, v.MOM 1, v.MOM 2, v.MOM 3)) =
      some (10, 1, -1, 0, 0) := by decide +kernel
  have hv := List.getElem_mem hlt
  have hget := veclist_get valid_L3444 hk hv
  have hpw : (get_mom_veclist L3444 keepDiag 4).Pairwise fun v w => v.idx ≠ w.idx :=
    (C59_list valid_L3444 (Or.inl rfl) keepDiag hk).2.2.imp fun h => h.1
  unfold gluon_props compute_veclist
  simp only [Bool.false_eq_true, if_false]
  rw [show L3444.ND = 4 from rfl]
  rw [if_neg (by omega)]
  dsimp only
  unfold compute_gluon_prop
  dsimp only
  rw [List.getElem?_eq_getElem (show (get_mom_veclist L3444 keepDiag 4).length / 2 <
    (get_mom_veclist L3444 keepDiag 4).length by omega)]
  dsimp only
  refine ⟨_, rfl, ?_⟩
  rw [if_neg (by omega), Function.update_of_ne (by omega), List.getElem?_eq_getElem hlt]
  dsimp only
  rw [if_pos (by omega)]
  rw [List.getElem?_eq_getElem hlt] at hidx
  simp only [Option.map_some, Option.some.injEq, Prod.mk.injEq] at hidx
  obtain ⟨e0, e1, e2, e3, e4⟩ := hidx
  dsimp only
  set v := (get_mom_veclist L3444 keepDiag 4)[0] with hvdef
  set B := correct_pspace_landau 2 L3444 1 (get_mom_veclist L3444 keepDiag 4) 4
    (mom_gauge 2 L3444 1 id fun l => arrOf (curlField l.1 l.2)) with hB
  have hF : ∀ mu < 4, toM 2 (B (v.idx, mu)) = fieldFT L3444 1 curlField v.MOM mu := by
    intro mu hmu
    have := field_eq (NC := 2) valid_L3444 (Or.inl rfl) id (fun l => arrOf (curlField l.1 l.2)) hpw hv hget.2.2.1
      hget.2.2.2 hmu
    simp only [id, toM_arrOf] at this
    exact this
  refine mul_ne_zero ?_ ?_
  · rw [project_eq]
    dsimp only
    rw [long_sum]
    have hpc : 0 < psq_calc tol true L3444 v.idx := by
      unfold psq_calc
      dsimp only
      split
      · exact one_pos
      · linarith
    refine div_ne_zero ?_ hpc.ne'
    have hm : ∀ mu, mu = 0 ∨ mu = 2 ∨ mu = 3 → psq_mom true L3444 v.idx mu = latMom true L3444 v.MOM mu := by
      intro mu hmu
      unfold psq_mom latMom momentum twiddle
      dsimp only
      rw [e0]
      rcases hmu with rfl | rfl | rfl
      · rw [e1, show TwoPI_mpipi_momconv L3444 10 L3444.ND 0 = 1 by decide]
        simp only [if_true]; congr 2; push_cast; ring
      · rw [e3, show TwoPI_mpipi_momconv L3444 10 L3444.ND 2 = 0 by decide]
        simp only [if_true]; congr 2; push_cast; ring
      · rw [e4, show TwoPI_mpipi_momconv L3444 10 L3444.ND 3 = 0 by decide]
        simp only [if_true]; congr 2; push_cast; ring
    have hm1 : psq_mom true L3444 v.idx 1 = -2 := by
      unfold psq_mom twiddle
      dsimp only
      rw [e0, show TwoPI_mpipi_momconv L3444 10 L3444.ND 1 = -2 by decide, if_pos rfl,
        show L3444.dims 1 = 4 from rfl]
      have : (((-2 : ℤ) : ℝ) * (2 * Real.pi / ((4 : ℕ) : ℝ)) * 0.5) = -(Real.pi / 2) := by push_cast; ring
      rw [this, Real.sin_neg, Real.sin_pi_div_two]
      norm_num
    have hl1 : latMom true L3444 v.MOM 1 = -√2 := by
      unfold latMom momentum
      rw [e2, if_pos rfl, show L3444.dims 1 = 4 from rfl]
      have : (2 * Real.pi * ((-1 : ℤ) : ℝ) / ((4 : ℕ) : ℝ) / 2) = -(Real.pi / 4) := by push_cast; ring
      rw [this, Real.sin_neg, Real.sin_pi_div_four]
      ring
    have hland := landau_FT valid_L3444 (sign := 1) (Or.inl rfl) curl_landau v.MOM
    have hBsum : ∑ mu ∈ range L3444.ND, (psq_mom true L3444 v.idx mu : ℂ) • toM 2 (B (v.idx, mu)) =
        ((-2 + √2 : ℝ) : ℂ) • fieldFT L3444 1 curlField v.MOM 1 := by
      have hs : ∑ mu ∈ range L3444.ND, (psq_mom true L3444 v.idx mu : ℂ) • toM 2 (B (v.idx, mu)) =
          ∑ mu ∈ range L3444.ND, (latMom true L3444 v.MOM mu : ℂ) • fieldFT L3444 1 curlField v.MOM mu +
          ((-2 + √2 : ℝ) : ℂ) • fieldFT L3444 1 curlField v.MOM 1 := by
        rw [show L3444.ND = 4 from rfl]
        simp only [sum_range_succ, sum_range_zero, zero_add]
        rw [hF 0 (by decide), hF 1 (by decide), hF 2 (by decide), hF 3 (by decide), hm 0 (by decide),
          hm 2 (by decide), hm 3 (by decide), hm1, hl1]
        push_cast
        module
      rw [hs, hland, zero_add]
    rw [hBsum, re_trace_sq]
    have hne : ((-2 + √2 : ℝ) : ℂ) • fieldFT L3444 1 curlField v.MOM 1 ≠ 0 := by
      refine smul_ne_zero ?_ (curl_FT v.MOM e1)
      have h2 : √2 < 2 := by
        rw [Real.sqrt_lt' (by norm_num)]; norm_num
      have h3 : (-2 + √2 : ℝ) ≠ 0 := by linarith
      exact_mod_cast h3
    intro hzero
    apply hne
    ext a b
    have h5 := (sum_eq_zero_iff_of_nonneg (fun a _ => sum_nonneg fun b _ => sq_nonneg _)).1 hzero a (mem_univ a)
    have h6 := (sum_eq_zero_iff_of_nonneg (fun b _ => sq_nonneg _)).1 h5 b (mem_univ b)
    simpa using h6
  · have : (0 : ℝ) < volume L3444 := by
      exact_mod_cast (by decide : 0 < volume L3444)
    refine div_ne_zero two_ne_zero (mul_ne_zero (by norm_num) this.ne')

/-! ### The hypotheses are met -/

/-- The momenta of `4 x 4 x 6 x 8` with `n^2 <= 1`. -/
def keepUnit : (ℕ → ℤ) → Bool := fun n => decide (n 0 * n 0 + n 1 * n 1 + n 2 * n 2 + n 3 * n 3 ≤ 1)

theorem keepUnit_le {n : ℕ → ℤ} (h : keepUnit n = true) {mu : ℕ} (hmu : mu < 4) : n mu * n mu ≤ 1 := by
  unfold keepUnit at h
  have h := of_decide_eq_true h
  have := mul_self_nonneg (n 0); have := mul_self_nonneg (n 1); have := mul_self_nonneg (n 2)
  have := mul_self_nonneg (n 3)
  interval_cases mu <;> linarith

/-- Every hypothesis of `C91_propagators_partial` and `C91_landau_output_partial` is met on `4 x 4 x 6 x 8`. -/
theorem keepUnit_ok : Valid L4468 ∧ EvenDims L4468 L4468.ND ∧ Local L4468.ND keepUnit ∧
    (∀ n, keepUnit (fun mu => -n mu) = keepUnit n) ∧
    (∀ n, keepUnit n = true → InZone L4468 L4468.ND n → ∀ mu < L4468.ND, 2 * n mu ≠ -(L4468.dims mu : ℤ)) ∧
    keepUnit (fun _ => 0) = true ∧
    (∀ n, keepUnit n = true → InZone L4468 L4468.ND n → (∃ mu < L4468.ND, n mu ≠ 0) →
      3e-14 ≤ normSq L4468.ND (latMom true L4468 n)) ∧
    (get_mom_veclist L4468 keepUnit 4).length = 9 := by
  refine ⟨valid_L4468, ?_, ?_, ?_, ?_, by decide, ?_, by decide +kernel⟩
  · intro mu hmu
    have : mu < 4 := hmu
    interval_cases mu <;> decide
  · intro n n' h
    unfold keepUnit
    rw [h 0 (by decide), h 1 (by decide), h 2 (by decide), h 3 (by decide)]
  · intro n
    unfold keepUnit
    simp only [neg_mul_neg]
  · intro n hn _ mu hmu he
    have h1 := keepUnit_le hn hmu
    have h2 : 4 ≤ L4468.dims mu := by
      have : mu < 4 := hmu
      interval_cases mu <;> decide
    have h3 : n mu ≤ -2 := by omega
    nlinarith
  · rintro n hn _ ⟨mu, hmu, hne⟩
    have h1 := keepUnit_le hn hmu
    have hd : 4 ≤ L4468.dims mu ∧ L4468.dims mu ≤ 8 := by
      have : mu < 4 := hmu
      interval_cases mu <;> decide
    have h2 : n mu = 1 ∨ n mu = -1 := by
      have ha : n mu ≤ 1 := by nlinarith
      have hb : -1 ≤ n mu := by nlinarith
      omega
    have hd1 : (4 : ℝ) ≤ L4468.dims mu := by exact_mod_cast hd.1
    have hd2 : (L4468.dims mu : ℝ) ≤ 8 := by exact_mod_cast hd.2
    have hpi := Real.pi_pos
    have hsin : 1 / 4 ≤ Real.sin (Real.pi / L4468.dims mu) := by
      refine le_trans ?_ (Real.mul_le_sin (by positivity) (by
        rw [div_le_div_iff₀ (by linarith) two_pos]; nlinarith))
      rw [show 2 / Real.pi * (Real.pi / L4468.dims mu) = 2 / L4468.dims mu by field_simp,
        div_le_div_iff₀ (by norm_num) (by linarith)]
      linarith
    have hsq : (1 / 16 : ℝ) ≤ latMom true L4468 n mu ^ 2 := by
      unfold latMom momentum
      rw [if_pos rfl]
      have e : ∀ s : ℝ, 2 * Real.pi * s / L4468.dims mu / 2 = s * (Real.pi / L4468.dims mu) := fun s => by ring
      rw [e]
      rcases h2 with h | h <;> rw [h]
      · push_cast; rw [one_mul]; nlinarith
      · push_cast; rw [neg_one_mul, Real.sin_neg]; nlinarith
    have : latMom true L4468 n mu ^ 2 ≤ normSq L4468.ND (latMom true L4468 n) :=
      single_le_sum (f := fun mu => latMom true L4468 n mu ^ 2) (fun nu _ => sq_nonneg _) (mem_range.2 hmu)
    norm_num
    linarith

/-- The linear definition of the gauge field is Hermitian on every SU(NC) link. -/
example {NC : ℕ} (hN : 1 ≤ NC) (Q : Arr ℂ) {U : Arr ℂ} (hU : QuatForm NC U) :
    (toM NC (Hermitian_proj NC Q U))ᴴ = toM NC (Hermitian_proj NC Q U) := (C70_algebra hN Q hU).1

end GLU.Cuts
