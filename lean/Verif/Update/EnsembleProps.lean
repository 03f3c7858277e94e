import Verif.Update.EnsembleLemmas

/-!
# C131: the updates leave the distribution of the whole lattice unchanged
-/

namespace GLU.Update.Haar

open MeasureTheory Set ENNReal Matrix GLU.Mat GLU.Geom GLU.Field GLU.Draught GLU.Update.Draw

/-- The Boltzmann weight of a configuration in the Wilson action. -/
noncomputable def boltzConf {NC : ℕ} {L : Latt} (beta : ℝ) (c : Conf NC L) : ℝ≥0∞ :=
  ENNReal.ofReal (Real.exp (beta / NC * total c))

theorem boltzConf_meas {NC : ℕ} {L : Latt} (beta : ℝ) : Measurable (boltzConf beta : Conf NC L → ℝ≥0∞) := by
  have := total_meas (NC := NC) (L := L)
  unfold boltzConf
  fun_prop

/-! ## Overrelaxation -/

open Classical in
/-- Overrelaxation of the links of one direction at some sites, as a map of the configurations. -/
noncomputable def orConf {NC : ℕ} (hN : 2 ≤ NC) {L : Latt} (mu : ℕ) (S : Set ℕ) (c : Conf NC L) : Conf NC L := fun l =>
  if (l.2 : ℕ) = mu ∧ (l.1 : ℕ) ∈ S then orLink hN (stap c l.1 l.2)ᴴ (c l) else c l

theorem orConf_meas {NC : ℕ} (hN : 2 ≤ NC) {L : Latt} (mu : ℕ) (S : Set ℕ) :
    Measurable (orConf hN mu S : Conf NC L → Conf NC L) := by
  refine measurable_pi_iff.2 fun l => ?_
  unfold orConf
  split
  · exact orLink_joint hN (stap_meas _ _).star (measurable_pi_apply l)
  · exact measurable_pi_apply l

theorem orConf_differ {NC : ℕ} (hN : 2 ≤ NC) {L : Latt} (mu : ℕ) (S : Set ℕ) (c : Conf NC L) :
    Differ mu S c (orConf hN mu S c) := fun l hl => if_neg hl

theorem orConf_total {NC : ℕ} (hN : 2 ≤ NC) {L : Latt} (hL : Valid L) {mu : ℕ} (hmu : mu < L.ND) {S : Set ℕ}
    (hS : Apart L S) (c : Conf NC L) : total (orConf hN mu S c) = total c := by
  rw [differ_total hL hmu hS (orConf_differ hN mu S c)]
  rw [Finset.sum_eq_zero, add_zero]
  intro i _
  by_cases hi : (i : ℕ) ∈ S
  · have e : orConf hN mu S c (i, ⟨mu, hmu⟩) = orLink hN (stap c i mu)ᴴ (c (i, ⟨mu, hmu⟩)) := if_pos ⟨rfl, hi⟩
    rw [e, orLink_trace, sub_self]
  · have e : orConf hN mu S c (i, ⟨mu, hmu⟩) = c (i, ⟨mu, hmu⟩) := if_neg fun h => hi h.2
    rw [e, sub_self]

open Classical in
theorem orConf_prior {NC : ℕ} (hN : 2 ≤ NC) {L : Latt} {mu : ℕ} {S : Set ℕ} (hS : Apart L S) :
    MeasurePreserving (orConf hN mu S : Conf NC L → Conf NC L) (prior NC L) (prior NC L) := by
  refine ⟨orConf_meas hN mu S, Measure.ext_of_lintegral _ fun F hF => ?_⟩
  rw [lintegral_map hF (orConf_meas hN mu S)]
  let s : Finset (Links L) := Finset.univ.filter fun l => (l.2 : ℕ) = mu ∧ (l.1 : ℕ) ∈ S
  have hmem : ∀ l : Links L, l ∈ s ↔ (l.2 : ℕ) = mu ∧ (l.1 : ℕ) ∈ S := fun l => by simp [s]
  refine lintegral_eq_of_lmarginal_eq (μ := fun _ => haar NC) s (hF.comp (orConf_meas hN mu S)) hF ?_
  funext c
  unfold lmarginal
  have hT : MeasurePreserving (fun (y : ∀ _ : s, SU NC) (l : s) => orLink hN (stap c l.1.1 l.1.2)ᴴ (y l))
      (Measure.pi fun _ : s => haar NC) (Measure.pi fun _ : s => haar NC) :=
    measurePreserving_pi _ _ fun l => orLink_haar hN _
  have hF' : Measurable fun y : ∀ _ : s, SU NC => F (Function.updateFinset c s y) :=
    hF.comp measurable_updateFinset
  rw [← hT.lintegral_comp hF']
  refine lintegral_congr fun y => ?_
  show F (orConf hN mu S _) = F _
  congr 1
  have hd : Differ mu S c (Function.updateFinset c s y) := by
    intro l hl
    exact dif_neg fun h => hl ((hmem l).1 h)
  funext l
  by_cases hl : (l.2 : ℕ) = mu ∧ (l.1 : ℕ) ∈ S
  · have hls := (hmem l).2 hl
    unfold orConf
    rw [if_pos hl]
    have e1 : stap (Function.updateFinset c s y) l.1 l.2 = stap c l.1 l.2 := by
      have := differ_stap hS hd hl.2
      rw [← hl.1] at this
      exact this
    rw [e1]
    simp only [Function.updateFinset, dif_pos hls]
  · have hls : l ∉ s := fun h => hl ((hmem l).1 h)
    unfold orConf
    rw [if_neg hl]
    simp only [Function.updateFinset, dif_neg hls]

/-- **C131**: the overrelaxation of the lattice, by any number of threads in any schedule, is one map of the
configurations; it leaves the product of the invariant measures and the Boltzmann distribution of the whole lattice
unchanged. -/
theorem C131_overrelax {NC : ℕ} (hN : 2 ≤ NC) {L : Latt} (hL : Valid L) {nc : ℕ} {Ns : ℕ → ℕ} {sq : ℕ → List ℕ}
    (hd : ∀ mu < L.ND, L.dims mu % 2 = 1 → L.dims mu % 3 ≠ 1) (hcb : init_cb L (volume L) L.ND = .ok nc Ns sq) :
    ∃ T : Conf NC L → Conf NC L, MeasurePreserving T (prior NC L) (prior NC L) ∧
      (∀ (f f' : Gauge) (c : Conf NC L), Holds f c → OrLattice NC L nc sq f (L.ND * nc) f' → Holds f' (T c)) ∧
      ∀ (beta : ℝ) (F : Conf NC L → ℝ≥0∞), Measurable F →
        ∫⁻ c, ENNReal.ofReal (Real.exp (beta / NC * squares NC L (toField c))) * F (T c) ∂prior NC L =
        ∫⁻ c, ENNReal.ofReal (Real.exp (beta / NC * squares NC L (toField c))) * F c ∂prior NC L := by
  have key : ∀ n ≤ L.ND * nc, ∃ T : Conf NC L → Conf NC L, MeasurePreserving T (prior NC L) (prior NC L) ∧
      (∀ c, total (T c) = total c) ∧
      (∀ (f f' : Gauge) (c : Conf NC L), Holds f c → OrLattice NC L nc sq f n f' → Holds f' (T c)) := by
    intro n
    induction n with
    | zero =>
      refine fun _ => ⟨id, MeasurePreserving.id _, fun _ => rfl, ?_⟩
      rintro f f' c hc ⟨⟩
      exact hc
    | succ n ih =>
      intro hn
      obtain ⟨T, hT, htot, hm⟩ := ih (by omega)
      have hnc : 0 < nc := by
        rcases Nat.eq_zero_or_pos nc with e | e
        · subst e; simp at hn
        · exact e
      have hc := Nat.mod_lt n hnc
      have hmu : n / nc < L.ND := (Nat.div_lt_iff_lt_mul hnc).2 (by omega)
      have hS : Apart L {i | i ∈ sq (n % nc)} := C08_neighbours_differ_partial hL hd hcb _ hc
      refine ⟨orConf hN (n / nc) {i | i ∈ sq (n % nc)} ∘ T, (orConf_prior hN hS).comp hT,
        fun c => (orConf_total hN hL hmu hS _).trans (htot c), fun f f' c hc' h => ?_⟩
      cases h with
      | pass hg hp =>
        rename_i g
        have hg' := hm f g c hc' hg
        obtain ⟨h1, h2⟩ := orColour_link hL hd hcb hc hmu hp
        intro l
        show _ = (orConf hN (n / nc) {i | i ∈ sq (n % nc)} (T c) l).1
        unfold orConf
        split
        · next hl =>
          have e := orLink_model hN (hg' l) (by rw [hl.1]; exact h1 l.1 hl.2)
          rw [stap_eq hL hg' l.1.2 hmu] at e
          rw [hl.1]
          exact e
        · next hl =>
          rw [h2 (l.1, l.2) (by simp only [mem_setOf_eq] at hl; tauto)]
          exact hg' l
  obtain ⟨T, hT, htot, hm⟩ := key _ le_rfl
  refine ⟨T, hT, hm, fun beta F hF => ?_⟩
  refine Eq.trans ?_ (hT.lintegral_comp ((boltzConf_meas beta).mul hF))
  refine lintegral_congr fun c => ?_
  show _ = boltzConf beta (T c) * F (T c)
  unfold boltzConf
  rw [htot]
  rfl

/-! ## Heat bath -/

/-- The step of the heat bath on one link in one subgroup: what it does to the field, that averages over the draws are
measurable functions of the configuration, and that the Boltzmann distribution is kept. -/
theorem heat_step {NC i : ℕ} (hN : 2 ≤ NC) (hi : i < NSU2SUBGROUPS NC) {L : Latt} (hL : Valid L)
    (h2 : ∀ mu < L.ND, 2 ≤ L.dims mu) (beta : ℝ) (l : Links L) :
    ∃ (N : Conf NC L → ℝ) (T : Conf NC L → ℝ → ℝ → ℝ → Conf NC L),
    (∀ (f : Gauge) (c : Conf NC L), Holds f c → ∀ (s0 s1 : ℂ) (k : ℝ),
      only_subgroup NC (f (l.1, l.2)) (staple NC L f l.1 l.2 L.ND) i = some (s0, s1, k) →
      N c = NC / beta * k ∧ ∀ d r1 r2 : ℝ, 0 ≤ d → d ≤ 2 → 0 ≤ r1 → r1 ≤ 1 →
        Holds (Function.update f ((l.1 : ℕ), (l.2 : ℕ))
          (su2_rotate NC (f (l.1, l.2)) (su2From d r1 r2 s0 s1).1 (su2From d r1 r2 s0 s1).2 i)) (T c d r1 r2)) ∧
    ∀ F : Conf NC L → ℝ≥0∞, Measurable F →
      (Measurable fun c => (∫⁻ a in Ioo (-1 : ℝ) 1, ENNReal.ofReal (weight (N c) a) *
            ∫⁻ r1, ∫⁻ r2, F (T c (1 - a) r1 r2) ∂unit ∂unit) /
          ∫⁻ a in Ioo (-1 : ℝ) 1, ENNReal.ofReal (weight (N c) a)) ∧
      ∫⁻ c, ENNReal.ofReal (Real.exp (beta / NC * squares NC L (toField c))) *
        ((∫⁻ a in Ioo (-1 : ℝ) 1, ENNReal.ofReal (weight (N c) a) *
            ∫⁻ r1, ∫⁻ r2, F (T c (1 - a) r1 r2) ∂unit ∂unit) /
          ∫⁻ a in Ioo (-1 : ℝ) 1, ENNReal.ofReal (weight (N c) a)) ∂prior NC L =
      ∫⁻ c, ENNReal.ofReal (Real.exp (beta / NC * squares NC L (toField c))) * F c ∂prior NC L := by
  have hne := rows_ne hN hi
  generalize hp : (⟨_, (rowsOf_spec hN hi).1⟩ : Fin NC) = p at hne
  generalize hq : (⟨_, (rowsOf_spec hN hi).2.1⟩ : Fin NC) = q at hne
  have hp' : (p : ℕ) = (rowsOf NC i).1 := by rw [← hp]
  have hq' : (q : ℕ) = (rowsOf NC i).2 := by rw [← hq]
  have hS : Apart L {(l.1 : ℕ)} := apart_one hL h2 l.1.2
  refine ⟨fun c => normG p q beta (stap c l.1 l.2)ᴴ (c l), fun c d r1 r2 => Function.update c l
    (hbMap hne (stap c l.1 l.2)ᴴ (c l) (drawn d r1 r2)), fun f c hc s0 s1 k hs => ?_, fun F hF => ?_⟩
  · have hst := stap_eq hL hc l.1.2 l.2.2
    obtain ⟨h1, h3⟩ := hb_model hN hi hne hp' hq' (beta := beta) (hc l) hs
    rw [hst] at h1 h3
    refine ⟨h1, fun d r1 r2 hd0 hd2 hr0 hr1 l' => ?_⟩
    show _ = (Function.update c l (hbMap hne (stap c l.1 l.2)ᴴ (c l) (drawn d r1 r2)) l').1
    by_cases e : l' = l
    · subst e
      rw [Function.update_self, Function.update_self]
      exact h3 d r1 r2 hd0 hd2 hr0 hr1
    · rw [Function.update_of_ne e, Function.update_of_ne]
      · exact hc l'
      · intro e'
        refine e (Prod.ext (Fin.ext (congrArg Prod.fst e')) (Fin.ext (congrArg Prod.snd e')))
  · have hdif : ∀ (c : Conf NC L) (v : SU NC), Differ l.2 {(l.1 : ℕ)} c (Function.update c l v) := by
      intro c v l' hl'
      refine Function.update_of_ne (fun e => hl' ?_) _ _
      subst e
      exact ⟨rfl, rfl⟩
    have hst : ∀ (c : Conf NC L) (v : SU NC), stap (Function.update c l v) l.1 l.2 = stap c l.1 l.2 := fun c v =>
      differ_stap hS (hdif c v) rfl
    have hupd : ∀ c : Conf NC L, Measurable fun v => Function.update c l v := fun c => measurable_update c
    have hFc : ∀ c : Conf NC L, Measurable fun v => F (Function.update c l v) := fun c => hF.comp (hupd c)
    have step : ∀ c : Conf NC L, (∫⁻ a in Ioo (-1 : ℝ) 1, ENNReal.ofReal (weight (normG p q beta (stap c l.1 l.2)ᴴ (c l)) a) *
            ∫⁻ r1, ∫⁻ r2, F (Function.update c l (hbMap hne (stap c l.1 l.2)ᴴ (c l) (drawn (1 - a) r1 r2))) ∂unit ∂unit) /
          ∫⁻ a in Ioo (-1 : ℝ) 1, ENNReal.ofReal (weight (normG p q beta (stap c l.1 l.2)ᴴ (c l)) a) =
        bath hne beta (stap c l.1 l.2)ᴴ (fun v => F (Function.update c l v)) (c l) := fun c =>
      bath_code hne beta (stap c l.1 l.2)ᴴ (c l) (hFc c)
    have hK : Measurable fun c : Conf NC L => bath hne beta (stap c l.1 l.2)ᴴ (fun v => F (Function.update c l v)) (c l) := by
      have hs1 : EMeas fun y : Conf NC L × SU 2 => (stap y.1 l.1 l.2)ᴴ := fun i j =>
        ((stap_meas (l.1 : ℕ) (l.2 : ℕ)).star i j).comp measurable_fst
      have hv1 : Measurable fun y : Conf NC L × SU 2 => y.1 l := (measurable_pi_apply l).comp measurable_fst
      have w1 : Measurable fun y : Conf NC L × SU 2 => wt (normG p q beta (stap y.1 l.1 l.2)ᴴ (y.1 l)) y.2 :=
        wt_measurable.comp ((normG_joint p q beta hs1 hv1).prodMk measurable_snd)
      have u1 : Measurable fun y : Conf NC L × SU 2 => Function.update y.1 l (hbMap hne (stap y.1 l.1 l.2)ᴴ (y.1 l) y.2) := by
        refine measurable_pi_iff.2 fun l' => ?_
        by_cases e : l' = l
        · subst e
          simp only [Function.update_self]
          exact hbMap_joint hne hs1 hv1 measurable_snd
        · simp only [Function.update_of_ne e]
          exact (measurable_pi_apply l').comp measurable_fst
      have w2 : Measurable fun y : Conf NC L × SU 2 => wt (normG p q beta (stap y.1 l.1 l.2)ᴴ (y.1 l)) y.2 *
          F (Function.update y.1 l (hbMap hne (stap y.1 l.1 l.2)ᴴ (y.1 l) y.2)) := w1.mul (hF.comp u1)
      exact w2.lintegral_prod_right'.div w1.lintegral_prod_right'
    have hB := boltzConf_meas (NC := NC) (L := L) beta
    have main : ∫⁻ c, boltzConf beta c * bath hne beta (stap c l.1 l.2)ᴴ (fun v => F (Function.update c l v)) (c l) ∂prior NC L =
        ∫⁻ c, boltzConf beta c * F c ∂prior NC L := by
      refine lintegral_eq_of_lmarginal_eq (μ := fun _ => haar NC) {l} (hB.mul hK) (hB.mul hF) ?_
      rw [lmarginal_singleton, lmarginal_singleton]
      funext c
      have hb : ∀ v, boltzConf beta (Function.update c l v) =
          ENNReal.ofReal (Real.exp (beta / NC * (total c - (Matrix.trace ((c l).1 * (stap c l.1 l.2)ᴴ)).re))) *
            boltz NC beta (stap c l.1 l.2)ᴴ v := by
        intro v
        unfold boltzConf boltz
        rw [← ENNReal.ofReal_mul (Real.exp_pos _).le, ← Real.exp_add, ← mul_add,
          differ_total hL l.2.2 hS (hdif c v), Finset.sum_eq_single l.1]
        · rw [show ((l.1, ⟨(l.2 : ℕ), l.2.2⟩) : Links L) = l from rfl, Function.update_self]
          congr 3
          ring
        · intro j _ hj
          rw [Function.update_of_ne (fun e => hj (congrArg Prod.fst e)), sub_self]
        · intro h
          exact absurd (Finset.mem_univ _) h
      simp only [hb, hst, Function.update_self, Function.update_idem, mul_assoc]
      rw [lintegral_const_mul' _ _ ENNReal.ofReal_ne_top, lintegral_const_mul' _ _ ENNReal.ofReal_ne_top,
        C130_bath hne (beta := beta) (stap c l.1 l.2)ᴴ (hFc c)]
    refine ⟨?_, Eq.trans (lintegral_congr fun c => ?_) main⟩
    · simp only [step]
      exact hK
    · simp only [step]
      rfl

/-- **C131**: the step of the heat bath on one link in one subgroup, with the random numbers of the law of C129, leaves the
Boltzmann distribution of the whole lattice unchanged. -/
theorem C131_heat {NC i : ℕ} (hN : 2 ≤ NC) (hi : i < NSU2SUBGROUPS NC) {L : Latt} (hL : Valid L)
    (h2 : ∀ mu < L.ND, 2 ≤ L.dims mu) (beta : ℝ) (l : Links L) :
    ∃ (N : Conf NC L → ℝ) (T : Conf NC L → ℝ → ℝ → ℝ → Conf NC L),
    (∀ (f : Gauge) (c : Conf NC L), Holds f c → ∀ (s0 s1 : ℂ) (k : ℝ),
      only_subgroup NC (f (l.1, l.2)) (staple NC L f l.1 l.2 L.ND) i = some (s0, s1, k) →
      N c = NC / beta * k ∧ ∀ d r1 r2 : ℝ, 0 ≤ d → d ≤ 2 → 0 ≤ r1 → r1 ≤ 1 →
        Holds (Function.update f ((l.1 : ℕ), (l.2 : ℕ))
          (su2_rotate NC (f (l.1, l.2)) (su2From d r1 r2 s0 s1).1 (su2From d r1 r2 s0 s1).2 i)) (T c d r1 r2)) ∧
    ∀ F : Conf NC L → ℝ≥0∞, Measurable F →
      ∫⁻ c, ENNReal.ofReal (Real.exp (beta / NC * squares NC L (toField c))) *
        ((∫⁻ a in Ioo (-1 : ℝ) 1, ENNReal.ofReal (weight (N c) a) *
            ∫⁻ r1, ∫⁻ r2, F (T c (1 - a) r1 r2) ∂unit ∂unit) /
          ∫⁻ a in Ioo (-1 : ℝ) 1, ENNReal.ofReal (weight (N c) a)) ∂prior NC L =
      ∫⁻ c, ENNReal.ofReal (Real.exp (beta / NC * squares NC L (toField c))) * F c ∂prior NC L := by
  obtain ⟨N, T, h1, h3⟩ := heat_step hN hi hL h2 beta l
  exact ⟨N, T, h1, fun F hF => (h3 F hF).2⟩

/-- The average of `F` over the draws of the steps `os`, one after the other from the configuration `c`. The step `o` takes
`c` to `T o c (1 - a) r1 r2`, where `a` has the density of C129 for `N o c` and the other two numbers are uniform. -/
noncomputable def after {NC : ℕ} {L : Latt} {O : Type} (N : O → Conf NC L → ℝ) (T : O → Conf NC L → ℝ → ℝ → ℝ → Conf NC L) :
    List O → (Conf NC L → ℝ≥0∞) → Conf NC L → ℝ≥0∞
  | [], F, c => F c
  | o :: os, F, c => (∫⁻ a in Ioo (-1 : ℝ) 1, ENNReal.ofReal (weight (N o c) a) *
        ∫⁻ r1, ∫⁻ r2, after N T os F (T o c (1 - a) r1 r2) ∂unit ∂unit) /
      ∫⁻ a in Ioo (-1 : ℝ) 1, ENNReal.ofReal (weight (N o c) a)

/-- **C131**: any sequence of steps of the heat bath on links and subgroups, as in a sweep of the lattice, followed by any
number of sweeps of overrelaxation, leaves the Boltzmann distribution of the whole lattice unchanged. -/
theorem C131_update {NC : ℕ} (hN : 2 ≤ NC) {L : Latt} (hL : Valid L) (h2 : ∀ mu < L.ND, 2 ≤ L.dims mu) {nc : ℕ} {Ns : ℕ → ℕ}
    {sq : ℕ → List ℕ} (hd : ∀ mu < L.ND, L.dims mu % 2 = 1 → L.dims mu % 3 ≠ 1)
    (hcb : init_cb L (volume L) L.ND = .ok nc Ns sq) (beta : ℝ) :
    ∃ (N : Links L × Fin (NSU2SUBGROUPS NC) → Conf NC L → ℝ)
      (T : Links L × Fin (NSU2SUBGROUPS NC) → Conf NC L → ℝ → ℝ → ℝ → Conf NC L) (R : Conf NC L → Conf NC L),
    (∀ (l : Links L) (i : Fin (NSU2SUBGROUPS NC)) (f : Gauge) (c : Conf NC L), Holds f c → ∀ (s0 s1 : ℂ) (k : ℝ),
      only_subgroup NC (f (l.1, l.2)) (staple NC L f l.1 l.2 L.ND) i = some (s0, s1, k) →
      N (l, i) c = NC / beta * k ∧ ∀ d r1 r2 : ℝ, 0 ≤ d → d ≤ 2 → 0 ≤ r1 → r1 ≤ 1 →
        Holds (Function.update f ((l.1 : ℕ), (l.2 : ℕ))
          (su2_rotate NC (f (l.1, l.2)) (su2From d r1 r2 s0 s1).1 (su2From d r1 r2 s0 s1).2 i)) (T (l, i) c d r1 r2)) ∧
    (∀ (k : ℕ) (f f' : Gauge) (c : Conf NC L), Holds f c → OrMany NC L nc sq f k f' → Holds f' (R^[k] c)) ∧
    ∀ (os : List (Links L × Fin (NSU2SUBGROUPS NC))) (k : ℕ) (F : Conf NC L → ℝ≥0∞), Measurable F →
      ∫⁻ c, ENNReal.ofReal (Real.exp (beta / NC * squares NC L (toField c))) *
        after N T os (fun c => F (R^[k] c)) c ∂prior NC L =
      ∫⁻ c, ENNReal.ofReal (Real.exp (beta / NC * squares NC L (toField c))) * F c ∂prior NC L := by
  obtain ⟨R, hR, hRm, hRb⟩ := C131_overrelax (NC := NC) hN hL hd hcb
  choose N T h1 h3 using fun o : Links L × Fin (NSU2SUBGROUPS NC) => heat_step hN o.2.2 hL h2 beta o.1
  refine ⟨N, T, R, fun l i => h1 (l, i), ?_, ?_⟩
  · intro k f f' c hc h
    induction h with
    | start => exact hc
    | sweep _ hs ih =>
      rw [Function.iterate_succ_apply']
      exact hRm _ _ _ ih hs
  · intro os k F hF
    have hk : ∀ k, ∫⁻ c, ENNReal.ofReal (Real.exp (beta / NC * squares NC L (toField c))) * F (R^[k] c) ∂prior NC L =
        ∫⁻ c, ENNReal.ofReal (Real.exp (beta / NC * squares NC L (toField c))) * F c ∂prior NC L := by
      intro k
      induction k with
      | zero => rfl
      | succ k ih =>
        rw [← ih]
        exact hRb beta (fun c => F (R^[k] c)) (hF.comp (hR.measurable.iterate k))
    have hG : Measurable fun c => F (R^[k] c) := hF.comp (hR.measurable.iterate k)
    rw [← hk k]
    have key : (Measurable fun c => after N T os (fun c => F (R^[k] c)) c) ∧
        ∫⁻ c, ENNReal.ofReal (Real.exp (beta / NC * squares NC L (toField c))) *
          after N T os (fun c => F (R^[k] c)) c ∂prior NC L =
        ∫⁻ c, ENNReal.ofReal (Real.exp (beta / NC * squares NC L (toField c))) * F (R^[k] c) ∂prior NC L := by
      induction os with
      | nil => exact ⟨hG, rfl⟩
      | cons o os ih =>
        obtain ⟨m, e⟩ := h3 o _ ih.1
        exact ⟨m, e.trans ih.2⟩
    exact key.2

theorem holds_cold : Holds (fun _ => arr [1, 0, 0, 1]) (fun _ => 1 : Conf 2 L2345) := by
  intro l
  show _ = (1 : Matrix (Fin 2) (Fin 2) ℂ)
  ext i j
  fin_cases i <;> fin_cases j <;> simp [toM, arr]

/-- A configuration and a sweep that the theorem on overrelaxation applies to. -/
example : ∃ nc Ns sq, init_cb L2345 (volume L2345) 4 = .ok nc Ns sq ∧
    Holds (fun _ => arr [1, 0, 0, 1]) (fun _ => 1 : Conf 2 L2345) ∧
    ∃ f', OrLattice 2 L2345 nc sq (fun _ => arr [1, 0, 0, 1]) (L2345.ND * nc) f' := by
  obtain ⟨nc, Ns, sq, h⟩ := (C07_success_iff valid_L2345 (le_refl L2345.ND)).2.2 ⟨0, by decide, by decide⟩
  have h' : init_cb L2345 (volume L2345) L2345.ND = .ok nc Ns sq := by rw [volume_eq _ valid_L2345.nd]; exact h
  obtain ⟨f', h1, -⟩ := C127_cold valid_L2345 (by decide) (by decide) h'
    (f := fun _ => arr [1, 0, 0, 1]) (fun i _ mu _ => by
      ext i j
      fin_cases i <;> fin_cases j <;> simp [toM, arr]) 1
  cases h1 with
  | sweep h0 hs =>
    cases h0
    exact ⟨nc, Ns, sq, h', holds_cold, f', hs⟩

/-- A link of a configuration that the theorem on the heat bath applies to. -/
example : (∀ mu < L2345.ND, 2 ≤ L2345.dims mu) ∧ ∃ s, only_subgroup 2 (arr [1, 0, 0, 1])
    (staple 2 L2345 (fun _ => arr [1, 0, 0, 1]) 0 0 L2345.ND) 0 = some s := by
  refine ⟨by decide, Option.ne_none_iff_exists'.1 fun h => ?_⟩
  have hU : ∀ i < volume L2345, ∀ mu < L2345.ND, toM 2 ((fun _ => arr [1, 0, 0, 1] : Gauge) (i, mu)) = 1 := by
    intro i _ mu _
    ext i j
    fin_cases i <;> fin_cases j <;> simp [toM, arr]
  have hst := cold_staple valid_L2345 (f := fun _ => arr [1, 0, 0, 1]) hU (i := 0) (mu := 0) (by decide) (by decide)
  rw [only_subgroup_eq (by decide) (by decide) 0 1 (by decide) (by decide), hst, hU 0 (by decide) 0 (by decide),
    normalise_none] at h
  have := h.1
  norm_num [L2345] at this

end GLU.Update.Haar
