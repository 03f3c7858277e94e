import Verif.Update.HaarLemmas
import Verif.Update.DrawCreutz

/-!
# C130: the updates leave the Boltzmann distribution of a link unchanged
-/

namespace GLU.Update.Haar

open MeasureTheory Set ENNReal Matrix GLU.Mat GLU.Update.Draw

/-! ## Overrelaxation -/

open Classical in
/-- Overrelaxation in a subgroup, as a map of the group; a link whose projection is undefined is left alone. `S` is the
conjugate of the staple. -/
noncomputable def orMap {NC : ℕ} {p q : Fin NC} (h : p ≠ q) (S : Matrix (Fin NC) (Fin NC) ℂ) (V : SU NC) : SU NC :=
  if quat p q (V.1 * S) ≠ 0 then embSU h ((proj (quat p q (V.1 * S)))⁻¹ * (proj (quat p q (V.1 * S)))⁻¹) * V else V

theorem quat_set {NC : ℕ} (p q : Fin NC) (S : Matrix (Fin NC) (Fin NC) ℂ) :
    MeasurableSet {V : SU NC | quat p q (V.1 * S) ≠ 0} :=
  (quat_measurable p q S) (measurableSet_singleton (0 : ℂ × ℂ)).compl

theorem orMap_measurable {NC : ℕ} {p q : Fin NC} (h : p ≠ q) (S : Matrix (Fin NC) (Fin NC) ℂ) : Measurable (orMap h S) := by
  have hp := proj_measurable.comp (quat_measurable p q S)
  exact Measurable.ite (quat_set p q S) (((embSU_measurable h).comp (hp.inv.mul hp.inv)).mul measurable_id) measurable_id

theorem orMap_haar {NC : ℕ} {p q : Fin NC} (h : p ≠ q) (S : Matrix (Fin NC) (Fin NC) ℂ) {f : SU NC → ℝ≥0∞}
    (hf : Measurable f) : ∫⁻ V, f (orMap h S V) ∂haar NC = ∫⁻ V, f V ∂haar NC := by
  rw [coset h hf, coset (f := fun V => f (orMap h S V)) h (hf.comp (orMap_measurable h S))]
  refine lintegral_congr fun V => ?_
  have hm : Measurable fun g => f (embSU h g * V) :=
    hf.comp (((embSU_measurable h)).mul measurable_const)
  by_cases hz : quat p q (V.1 * S) ≠ 0
  · have e : ∀ g : SU 2, orMap h S (embSU h g * V) =
        embSU h ((proj (quat p q (V.1 * S)))⁻¹ * g⁻¹ * (proj (quat p q (V.1 * S)))⁻¹) * V := by
      intro g
      have e1 : ((embSU h g * V).1 * S) = (embSU h g).1 * (V.1 * S) := Matrix.mul_assoc _ _ _
      unfold orMap
      rw [e1, if_pos ((quat_ne h g _).2 hz), proj_mul h g hz, ← mul_assoc, ← embSU_mul]
      congr 2
      group
    simp only [e]
    have s1 : ∀ s : SU 2, ∫⁻ g, f (embSU h (s⁻¹ * g⁻¹ * s⁻¹) * V) ∂haar 2 = ∫⁻ g, f (embSU h g * V) ∂haar 2 := by
      intro s
      rw [haar_inv 2 (f := fun g => f (embSU h (s⁻¹ * g * s⁻¹) * V)) (hm.comp (by fun_prop)),
        lintegral_mul_left_eq_self (μ := haar 2) (fun g => f (embSU h (g * s⁻¹) * V)) s⁻¹,
        haar_right 2 hm]
    exact s1 _
  · refine lintegral_congr fun g => ?_
    have e1 : ((embSU h g * V).1 * S) = (embSU h g).1 * (V.1 * S) := Matrix.mul_assoc _ _ _
    unfold orMap
    rw [e1, if_neg (fun hh => hz ((quat_ne h g _).1 hh))]

theorem re_trace_emb {NC : ℕ} {p q : Fin NC} (h : p ≠ q) (g : SU 2) {W : Matrix (Fin NC) (Fin NC) ℂ}
    (hz : quat p q W ≠ 0) :
    (Matrix.trace ((embSU h g).1 * W)).re = ((Matrix.trace W).re - (W p p).re - (W q q).re) +
      ((g * proj (quat p q W)).1 0 0).re * √(Complex.normSq (quat p q W).1 + Complex.normSq (quat p q W).2) := by
  show (Matrix.trace (subgroupMatrix p q (g.1 0 0) (g.1 0 1) * W)).re = _
  have hp : √(Complex.normSq (quat p q W).1 + Complex.normSq (quat p q W).2) ≠ 0 := by
    intro e
    have := unit_norm hz
    rw [e] at this
    simp at this
  have e : ((g * proj (quat p q W)).1 0 0).re = (g.1 0 0 * ((quat p q W).1 *
      ((1 / √(Complex.normSq (quat p q W).1 + Complex.normSq (quat p q W).2) : ℝ) : ℂ)) + g.1 0 1 * -star ((quat p q W).2 *
      ((1 / √(Complex.normSq (quat p q W).1 + Complex.normSq (quat p q W).2) : ℝ) : ℂ))).re := by
    show ((g.1 * (proj (quat p q W)).1) 0 0).re = _
    unfold proj
    rw [dif_pos hz]
    show ((g.1 * su2M _ _) 0 0).re = _
    simp only [Matrix.mul_apply, Fin.sum_univ_two, su2M]
    rfl
  rw [e, trace_rotated h]
  generalize √(Complex.normSq (quat p q W).1 + Complex.normSq (quat p q W).2) = m at *
  unfold quat
  generalize g.1 0 0 = a
  generalize g.1 0 1 = b
  simp
  field_simp
  ring

theorem orMap_trace {NC : ℕ} {p q : Fin NC} (h : p ≠ q) (S : Matrix (Fin NC) (Fin NC) ℂ) (V : SU NC) :
    (Matrix.trace ((orMap h S V).1 * S)).re = (Matrix.trace (V.1 * S)).re := by
  unfold orMap
  split
  · next hz =>
    have e : ∀ g : SU 2, (embSU h g * V).1 * S = (embSU h g).1 * (V.1 * S) := fun g => Matrix.mul_assoc _ _ _
    have e1 : embSU h 1 = 1 := by
      have := embSU_mul h 1 1
      rw [one_mul] at this
      exact (mul_eq_left.1 this.symm)
    have h1 := re_trace_emb h 1 hz
    rw [← e, e1, one_mul, one_mul] at h1
    rw [e, re_trace_emb h _ hz, inv_mul_cancel_right]
    refine Eq.trans ?_ h1.symm
    congr 2
  · rfl

theorem proj_normalise {NC : ℕ} {p q : Fin NC} {W : Matrix (Fin NC) (Fin NC) ℂ} {s0 s1 : ℂ} {k : ℝ}
    (h : normalise (W p p) (W p q) (W q p) (W q q) = some (s0, s1, k)) :
    quat p q W ≠ 0 ∧ (proj (quat p q W)).1 = su2M s0 s1 ∧
      k = 1 / √(Complex.normSq (quat p q W).1 + Complex.normSq (quat p q W).2) := by
  have hk : k = 1 / √(Complex.normSq (quat p q W).1 + Complex.normSq (quat p q W).2) := normalise_scale h
  have hz : quat p q W ≠ 0 := by
    intro e
    have : normalise (W p p) (W p q) (W q p) (W q q) = none :=
      normalise_none.2 ⟨congrArg Prod.fst e, congrArg Prod.snd e⟩
    rw [this] at h
    cases h
  refine ⟨hz, ?_, hk⟩
  obtain ⟨-, h0, h1, -⟩ := normalise_some h
  unfold proj
  rw [dif_pos hz]
  show su2M _ _ = _
  rw [h0, h1, hk]
  rfl

theorem micro_square {s0 s1 : ℂ} : su2M (microcanonical s0 s1).1 (microcanonical s0 s1).2 =
    (su2M s0 s1)ᴴ * (su2M s0 s1)ᴴ := by
  ext i j
  fin_cases i <;> fin_cases j <;> apply Complex.ext <;>
    simp [su2M, microcanonical, Matrix.mul_apply, Fin.sum_univ_two, conjTranspose_apply] <;> ring

theorem or_model {NC i : ℕ} (hN : 2 ≤ NC) (hi : i < NSU2SUBGROUPS NC) {p q : Fin NC} (h : p ≠ q)
    (hp : (p : ℕ) = (rowsOf NC i).1) (hq : (q : ℕ) = (rowsOf NC i).2) {U st : Arr ℂ} {V : SU NC} (hU : toM NC U = V.1)
    {s : ℂ × ℂ × ℝ} (hs : only_subgroup NC U st i = some s) :
    toM NC (su2_rotate NC U (microcanonical s.1 s.2.1).1 (microcanonical s.1 s.2.1).2 i) =
      (orMap h (toM NC st)ᴴ V).1 := by
  obtain ⟨s0, s1, k⟩ := s
  rw [only_subgroup_eq hN hi p q hp hq, hU] at hs
  obtain ⟨hz, hpr, -⟩ := proj_normalise hs
  have hSU : IsSU NC U := by unfold IsSU; rw [hU]; exact V.2
  rw [rotate_eq hN hi p q hp hq U _ _ fun _ => hSU, hU]
  unfold orMap
  rw [if_pos hz]
  show _ = (embSU h ((proj (quat p q (V.1 * (toM NC st)ᴴ)))⁻¹ * (proj (quat p q (V.1 * (toM NC st)ᴴ)))⁻¹)).1 * V.1
  congr 1
  have e : ((proj (quat p q (V.1 * (toM NC st)ᴴ)))⁻¹ * (proj (quat p q (V.1 * (toM NC st)ᴴ)))⁻¹).1 =
      su2M (microcanonical s0 s1).1 (microcanonical s0 s1).2 := by
    show (proj (quat p q (V.1 * (toM NC st)ᴴ))).1ᴴ * (proj (quat p q (V.1 * (toM NC st)ᴴ))).1ᴴ = _
    rw [hpr, micro_square]
  show subgroupMatrix p q _ _ = subgroupMatrix p q _ _
  rw [e]
  simp [su2M]

theorem boltz_measurable {NC : ℕ} (c : ℝ) (S : Matrix (Fin NC) (Fin NC) ℂ) :
    Measurable fun V : SU NC => ENNReal.ofReal (Real.exp (c * (Matrix.trace (V.1 * S)).re)) := by
  have : Continuous fun V : SU NC => (Matrix.trace (V.1 * S)).re :=
    Complex.continuous_re.comp (continuous_subtype_val.matrix_mul continuous_const).matrix_trace
  have := this.measurable
  fun_prop

/-- **C130**: overrelaxation of a link is a map of the group that leaves the invariant measure unchanged, and it keeps the
weight of the link; hence it leaves the Boltzmann distribution unchanged. -/
theorem C130_overrelax {NC : ℕ} (hN : 2 ≤ NC) (st : Arr ℂ) : ∃ T : SU NC → SU NC, MeasurePreserving T (haar NC) (haar NC) ∧
    (∀ (U U' : Arr ℂ) (V : SU NC), toM NC U = V.1 → overrelax NC U st = some U' → toM NC U' = (T V).1) ∧
    ∀ (beta : ℝ) (f : SU NC → ℝ≥0∞), Measurable f →
      ∫⁻ V, ENNReal.ofReal (Real.exp (beta / NC * (Matrix.trace (V.1 * (toM NC st)ᴴ)).re)) * f (T V) ∂haar NC =
      ∫⁻ V, ENNReal.ofReal (Real.exp (beta / NC * (Matrix.trace (V.1 * (toM NC st)ᴴ)).re)) * f V ∂haar NC := by
  have main : ∀ n ≤ NSU2SUBGROUPS NC, ∃ T : SU NC → SU NC, MeasurePreserving T (haar NC) (haar NC) ∧
      (∀ V : SU NC, (Matrix.trace ((T V).1 * (toM NC st)ᴴ)).re = (Matrix.trace (V.1 * (toM NC st)ᴴ)).re) ∧
      (∀ (U U' : Arr ℂ) (V : SU NC), toM NC U = V.1 → forN n (fun i U => U.bind fun U =>
        (only_subgroup NC U st i).map fun s =>
          let t := microcanonical s.1 s.2.1
          su2_rotate NC U t.1 t.2 i) (some U) = some U' → toM NC U' = (T V).1) := by
    intro n
    induction n with
    | zero =>
      refine fun _ => ⟨id, MeasurePreserving.id _, fun _ => rfl, ?_⟩
      rintro U U' V hU ⟨⟩
      exact hU
    | succ n ih =>
      intro hn
      obtain ⟨T, hT, htr, hm⟩ := ih (by omega)
      have hi : n < NSU2SUBGROUPS NC := hn
      obtain ⟨h1, h2, h3⟩ := rowsOf_spec hN hi
      have hne : (⟨_, h1⟩ : Fin NC) ≠ ⟨_, h2⟩ := fun e => h3 (congrArg Fin.val e)
      have hor : MeasurePreserving (orMap hne (toM NC st)ᴴ) (haar NC) (haar NC) := by
        refine ⟨orMap_measurable hne _, ?_⟩
        refine Measure.ext_of_lintegral _ fun f hf => ?_
        rw [lintegral_map hf (orMap_measurable hne _), orMap_haar hne _ hf]
      refine ⟨orMap hne (toM NC st)ᴴ ∘ T, hor.comp hT, fun V => (orMap_trace hne _ (T V)).trans (htr V), fun U U' V hU hU' => ?_⟩
      rw [show ∀ (f : ℕ → Option (Arr ℂ) → Option (Arr ℂ)) s, forN (n + 1) f s = f n (forN n f s) from
        fun _ _ => rfl] at hU'
      obtain ⟨W, hW, hs⟩ := Option.bind_eq_some_iff.1 hU'
      obtain ⟨s, hs', rfl⟩ := Option.map_eq_some_iff.1 hs
      exact or_model hN hi hne rfl rfl (hm U W V hU hW) hs'
  obtain ⟨T, hT, htr, hm⟩ := main _ le_rfl
  refine ⟨T, hT, hm, fun beta f hf => ?_⟩
  have hB : Measurable fun V : SU NC =>
      ENNReal.ofReal (Real.exp (beta / NC * (Matrix.trace (V.1 * (toM NC st)ᴴ)).re)) := boltz_measurable _ _
  refine Eq.trans ?_ (hT.lintegral_comp (hB.mul hf))
  refine lintegral_congr fun V => ?_
  simp only [Pi.mul_apply, htr]

/-! ## Heat bath -/

/-- The Boltzmann weight of a link; `S` is the conjugate of the staple. -/
noncomputable def boltz (NC : ℕ) (beta : ℝ) (S : Matrix (Fin NC) (Fin NC) ℂ) (V : SU NC) : ℝ≥0∞ :=
  ENNReal.ofReal (Real.exp (beta / NC * (Matrix.trace (V.1 * S)).re))

/-- The `NORM` of a link in a subgroup. -/
noncomputable def normG {NC : ℕ} (p q : Fin NC) (beta : ℝ) (S : Matrix (Fin NC) (Fin NC) ℂ) (V : SU NC) : ℝ :=
  NC / beta / √(Complex.normSq (quat p q (V.1 * S)).1 + Complex.normSq (quat p q (V.1 * S)).2)

open Classical in
/-- The link after the element `x` has been drawn in the subgroup; a link whose projection is undefined is left alone. -/
noncomputable def hbMap {NC : ℕ} {p q : Fin NC} (h : p ≠ q) (S : Matrix (Fin NC) (Fin NC) ℂ) (V : SU NC) (x : SU 2) :
    SU NC :=
  if quat p q (V.1 * S) ≠ 0 then embSU h (x * (proj (quat p q (V.1 * S)))⁻¹) * V else V

/-- The weight of an element of SU(2) with a given `NORM`. -/
noncomputable def wt (n : ℝ) (x : SU 2) : ℝ≥0∞ := ENNReal.ofReal (Real.exp ((x.1 0 0).re / n))

theorem wt_measurable : Measurable fun y : ℝ × SU 2 => wt y.1 y.2 := by
  have : Measurable fun y : ℝ × SU 2 => (y.2.1 0 0).re :=
    Complex.measurable_re.comp ((measurable_entry 0 0).comp measurable_snd)
  unfold wt
  fun_prop

theorem normG_measurable {NC : ℕ} (p q : Fin NC) (beta : ℝ) (S : Matrix (Fin NC) (Fin NC) ℂ) :
    Measurable (normG p q beta S) := by
  have h1 : Measurable fun V : SU NC => Complex.normSq (quat p q (V.1 * S)).1 :=
    Complex.continuous_normSq.measurable.comp (measurable_fst.comp (quat_measurable p q S))
  have h2 : Measurable fun V : SU NC => Complex.normSq (quat p q (V.1 * S)).2 :=
    Complex.continuous_normSq.measurable.comp (measurable_snd.comp (quat_measurable p q S))
  unfold normG
  fun_prop

theorem hbMap_measurable {NC : ℕ} {p q : Fin NC} (h : p ≠ q) (S : Matrix (Fin NC) (Fin NC) ℂ) :
    Measurable fun y : SU NC × SU 2 => hbMap h S y.1 y.2 := by
  have hp := (proj_measurable.comp (quat_measurable p q S)).comp (measurable_fst : Measurable fun y : SU NC × SU 2 => y.1)
  exact Measurable.ite (measurable_fst (quat_set p q S))
    (((embSU_measurable h).comp (measurable_snd.mul hp.inv)).mul measurable_fst) measurable_fst

/-- The average of `f` over the links after a heat bath in the subgroup. -/
noncomputable def bath {NC : ℕ} {p q : Fin NC} (h : p ≠ q) (beta : ℝ) (S : Matrix (Fin NC) (Fin NC) ℂ)
    (f : SU NC → ℝ≥0∞) (V : SU NC) : ℝ≥0∞ :=
  (∫⁻ x, wt (normG p q beta S V) x * f (hbMap h S V x) ∂haar 2) / ∫⁻ x, wt (normG p q beta S V) x ∂haar 2

theorem bath_measurable {NC : ℕ} {p q : Fin NC} (h : p ≠ q) (beta : ℝ) (S : Matrix (Fin NC) (Fin NC) ℂ)
    {f : SU NC → ℝ≥0∞} (hf : Measurable f) : Measurable (bath h beta S f) := by
  have h1 : Measurable fun y : SU NC × SU 2 => wt (normG p q beta S y.1) y.2 :=
    wt_measurable.comp (((normG_measurable p q beta S).comp measurable_fst).prodMk measurable_snd)
  have h2 : Measurable fun y : SU NC × SU 2 => wt (normG p q beta S y.1) y.2 * f (hbMap h S y.1 y.2) :=
    h1.mul (hf.comp (hbMap_measurable h S))
  exact h2.lintegral_prod_right'.div h1.lintegral_prod_right'

theorem wt_total (n : ℝ) : ∫⁻ x, wt n x ∂haar 2 ≠ 0 ∧ ∫⁻ x, wt n x ∂haar 2 ≠ ⊤ := by
  have hb : ∀ x : SU 2, |(x.1 0 0).re| ≤ 1 := fun x =>
    (Complex.abs_re_le_norm _).trans (entry_norm_bound_of_unitary x.2.1 0 0)
  have hd : ∀ x : SU 2, |(x.1 0 0).re / n| ≤ |1 / n| := by
    intro x
    rw [abs_div, abs_div, abs_one]
    exact div_le_div_of_nonneg_right (hb x) (abs_nonneg n)
  constructor
  · have : ∫⁻ _ : SU 2, ENNReal.ofReal (Real.exp (-|1 / n|)) ∂haar 2 ≤ ∫⁻ x, wt n x ∂haar 2 :=
      lintegral_mono fun x => ENNReal.ofReal_le_ofReal (Real.exp_le_exp.2 (by have := abs_le.1 (hd x); linarith))
    rw [lintegral_const, measure_univ, mul_one] at this
    have h0 : 0 < ENNReal.ofReal (Real.exp (-|1 / n|)) := ENNReal.ofReal_pos.2 (Real.exp_pos _)
    exact (h0.trans_le this).ne'
  · have : ∫⁻ x, wt n x ∂haar 2 ≤ ∫⁻ _ : SU 2, ENNReal.ofReal (Real.exp |1 / n|) ∂haar 2 :=
      lintegral_mono fun x => ENNReal.ofReal_le_ofReal (Real.exp_le_exp.2 (by have := abs_le.1 (hd x); linarith))
    rw [lintegral_const, measure_univ, mul_one] at this
    exact (this.trans_lt ENNReal.ofReal_lt_top).ne

/-- **C130**: a heat bath in a subgroup leaves the Boltzmann distribution of the link unchanged. -/
theorem C130_bath {NC : ℕ} {p q : Fin NC} (h : p ≠ q) {beta : ℝ} (S : Matrix (Fin NC) (Fin NC) ℂ)
    {f : SU NC → ℝ≥0∞} (hf : Measurable f) :
    ∫⁻ V, boltz NC beta S V * bath h beta S f V ∂haar NC = ∫⁻ V, boltz NC beta S V * f V ∂haar NC := by
  have hB : Measurable (boltz NC beta S) := boltz_measurable _ _
  rw [coset (f := fun V => boltz NC beta S V * bath h beta S f V) h (hB.mul (bath_measurable h beta S hf)),
    coset (f := fun V => boltz NC beta S V * f V) h (hB.mul hf)]
  refine lintegral_congr fun V => ?_
  have e1 : ∀ g, ((embSU h g * V).1 * S) = (embSU h g).1 * (V.1 * S) := fun g => Matrix.mul_assoc _ _ _
  have hn : ∀ g, normG p q beta S (embSU h g * V) = normG p q beta S V := by
    intro g
    unfold normG
    rw [e1, quat_norm]
  by_cases hz : quat p q (V.1 * S) ≠ 0
  · set n := normG p q beta S V with hn'
    set s := proj (quat p q (V.1 * S)) with hs
    have hmap : ∀ g x, hbMap h S (embSU h g * V) x = embSU h (x * s⁻¹) * V := by
      intro g x
      unfold hbMap
      rw [e1, if_pos ((quat_ne h g _).2 hz), proj_mul h g hz, ← mul_assoc, ← embSU_mul, ← hs]
      congr 2
      group
    set R := beta / NC * ((Matrix.trace (V.1 * S)).re - ((V.1 * S) p p).re - ((V.1 * S) q q).re)
    have hb : ∀ g, boltz NC beta S (embSU h g * V) = ENNReal.ofReal (Real.exp R) * wt n (g * s) := by
      intro g
      unfold boltz wt
      rw [← ENNReal.ofReal_mul (Real.exp_pos _).le, ← Real.exp_add, e1, re_trace_emb h g hz, mul_add]
      congr 3
      rw [hn']
      unfold normG
      rw [← hs]
      simp only [div_eq_mul_inv, mul_inv, inv_inv]
      ring
    have hK : ∀ g, bath h beta S f (embSU h g * V) =
        (∫⁻ x, wt n x * f (embSU h (x * s⁻¹) * V) ∂haar 2) / ∫⁻ x, wt n x ∂haar 2 := by
      intro g
      unfold bath
      rw [hn]
      simp only [hmap]
    simp only [hb, hK]
    have hw : Measurable (wt n) := wt_measurable.comp (measurable_const.prodMk measurable_id)
    have hw' : Measurable fun g => wt n (g * s) := hw.comp (by fun_prop)
    have hws : Measurable fun g => ENNReal.ofReal (Real.exp R) * wt n (g * s) := hw'.const_mul _
    rw [lintegral_mul_const _ hws, lintegral_const_mul _ hw', haar_right 2 hw, mul_assoc,
      ENNReal.mul_div_cancel (wt_total n).1 (wt_total n).2]
    have hF : Measurable fun x => wt n x * f (embSU h (x * s⁻¹) * V) :=
      hw.mul (hf.comp (((embSU_measurable h).comp (by fun_prop)).mul measurable_const))
    have hF' : Measurable fun x => wt n (x * s) * f (embSU h (x * s * s⁻¹) * V) := hF.comp (by fun_prop)
    rw [← haar_right 2 hF s, ← lintegral_const_mul _ hF']
    refine lintegral_congr fun g => ?_
    rw [mul_inv_cancel_right, mul_assoc]
  · refine lintegral_congr fun g => ?_
    have hmap : ∀ x, hbMap h S (embSU h g * V) x = embSU h g * V := by
      intro x
      unfold hbMap
      rw [e1, if_neg (fun hh => hz ((quat_ne h g _).1 hh))]
    unfold bath
    simp only [hmap]
    have hw : Measurable (wt (normG p q beta S (embSU h g * V))) :=
      wt_measurable.comp (measurable_const.prodMk measurable_id)
    rw [lintegral_mul_const _ hw, mul_comm (∫⁻ x, wt _ x ∂haar 2) (f _), mul_div_assoc,
      ENNReal.div_self (wt_total _).1 (wt_total _).2, mul_one]

end GLU.Update.Haar
