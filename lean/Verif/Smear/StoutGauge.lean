import Verif.Smear.StoutProps

/-!
# C68: stout smearing commutes with gauge transformations
-/

namespace GLU.Smear

open GLU.Geom GLU.Sched GLU.Mat GLU.Field Complex Matrix

/-- Unitary on every site. -/
def UnitaryG {NC : ℕ} (L : Latt) (g : ℕ → Matrix (Fin NC) (Fin NC) ℂ) : Prop :=
  ∀ i < volume L, (g i)ᴴ * g i = 1 ∧ g i * (g i)ᴴ = 1

theorem exp_unitary_conj {n : ℕ} {G : Matrix (Fin n) (Fin n) ℂ} (h1 : Gᴴ * G = 1) (h2 : G * Gᴴ = 1)
    (A : Matrix (Fin n) (Fin n) ℂ) : NormedSpace.exp (G * A * Gᴴ) = G * NormedSpace.exp A * Gᴴ := by
  have := Matrix.exp_units_conj (⟨G, Gᴴ, h2, h1⟩ : (Matrix (Fin n) (Fin n) ℂ)ˣ) A
  exact this

theorem force_gauge {L : Latt} (hL : Valid L) {NC : ℕ} {g : ℕ → Matrix (Fin NC) (Fin NC) ℂ} (hg : UnitaryG L g)
    (U : MField NC) {i mu dir : ℕ} (hi : i < volume L) (hmu : mu < L.ND) (hdir : dir ≤ L.ND) :
    force L dir (gaugeM L g U) i mu = g i * force L dir U i mu * (g i)ᴴ := by
  have hs : stapleM L dir (gaugeM L g U) i mu =
      g i * stapleM L dir U i mu * (g (neighbor L i mu))ᴴ := by
    unfold stapleM
    rw [Matrix.mul_sum, Matrix.sum_mul]
    refine Finset.sum_congr rfl fun nu hnu => ?_
    rw [Finset.mem_erase, Finset.mem_range] at hnu
    have hn : nu < L.ND := by omega
    have hb := back_lt hL i hn
    have e : neighbor L (neighbor L (back L i nu) mu) nu = neighbor L i mu := by
      rw [(C02_commute hL hmu hn).1, (C02_inverse hL hi hn).2]
    unfold gaugeM
    rw [(C02_inverse hL hi hn).2, e, (C02_commute hL hmu hn).1]
    have c1 := cancel_left (hg _ (neighbor_lt hL i hn)).1
    have c2 := cancel_left (hg _ (neighbor_lt hL (neighbor L i nu) hmu)).1
    have c2' := cancel_left (hg _ (neighbor_lt hL (neighbor L i mu) hn)).1
    have c3 := cancel_left (hg _ hb).1
    have c4 := cancel_left (hg _ (neighbor_lt hL (back L i nu) hmu)).1
    simp only [conjTranspose_mul, conjTranspose_conjTranspose, Matrix.mul_assoc, c1, c2, c2', c3, c4,
      Matrix.mul_add, Matrix.add_mul]
  have hF : stapleM L dir (gaugeM L g U) i mu * (gaugeM L g U i mu)ᴴ =
      g i * (stapleM L dir U i mu * (U i mu)ᴴ) * (g i)ᴴ := by
    rw [hs]
    unfold gaugeM
    have c := cancel_left (hg _ (neighbor_lt hL i hmu)).1
    simp only [conjTranspose_mul, conjTranspose_conjTranspose, Matrix.mul_assoc, c]
  unfold force
  rw [hF, lieHerm_conj (hg i hi).1 (hg i hi).2]

/-- Multiplying by exponentials of a field that transforms locally commutes with the transformation. -/
theorem expUpdate_gauge {L : Latt} {NC : ℕ} {g : ℕ → Matrix (Fin NC) (Fin NC) ℂ} (hg : UnitaryG L g)
    {A A' U U' : MField NC} (hA : Agree L A' fun i mu => g i * A i mu * (g i)ᴴ)
    (hU : Agree L U' (gaugeM L g U)) (dir : ℕ) :
    Agree L (expUpdate dir A' U') (gaugeM L g (expUpdate dir A U)) := by
  intro i hi mu hmu
  have h := hA i hi mu hmu
  have h' := hU i hi mu hmu
  unfold gaugeM at h' ⊢
  unfold expUpdate
  split
  · have e : I • (g i * A i mu * (g i)ᴴ) = g i * (I • A i mu) * (g i)ᴴ := by
      rw [Matrix.mul_smul, Matrix.smul_mul]
    rw [h, h', e, exp_unitary_conj (hg i hi).1 (hg i hi).2]
    have c := cancel_left (hg i hi).1
    simp only [Matrix.mul_assoc, c]
  · exact h'

theorem stoutSmear_gauge {L : Latt} (hL : Valid L) {NC : ℕ} {g : ℕ → Matrix (Fin NC) (Fin NC) ℂ}
    (hg : UnitaryG L g) (U : MField NC) {dir : ℕ} (hdir : dir ≤ L.ND) (α : ℝ) :
    Agree L (stoutSmear L dir α (gaugeM L g U)) (gaugeM L g (stoutSmear L dir α U)) := by
  refine expUpdate_gauge hg (fun i hi mu hmu => ?_) (fun _ _ _ _ => rfl) dir
  dsimp only
  rw [force_gauge hL hg U hi hmu hdir, Matrix.mul_smul, Matrix.smul_mul]

/-- Smearing any number of times and transforming commute. -/
theorem stoutSmear_gauge_iter {L : Latt} (hL : Valid L) {NC : ℕ} {g : ℕ → Matrix (Fin NC) (Fin NC) ℂ}
    (hg : UnitaryG L g) (U : MField NC) {dir : ℕ} (hdir : dir ≤ L.ND) (α : ℝ) (n : ℕ) :
    Agree L ((stoutSmear L dir α)^[n] (gaugeM L g U)) (gaugeM L g ((stoutSmear L dir α)^[n] U)) := by
  induction n with
  | zero => exact fun _ _ _ _ => rfl
  | succ n ih =>
    rw [Function.iterate_succ_apply', Function.iterate_succ_apply']
    exact fun i hi mu hmu => (stoutSmear_congr hL ih hdir α i hi mu hmu).trans
      (stoutSmear_gauge hL hg _ hdir α i hi mu hmu)

/-! ## The code -/

theorem unitaryG_of_su {NC : ℕ} {L : Latt} {g : ℕ → Arr ℂ} (hg : SUGauge NC L g) :
    UnitaryG L fun i => toM NC (g i) := fun i hi =>
  ⟨su_star_mul (hg i hi), mem_unitaryGroup_iff.1 (mem_specialUnitaryGroup_iff.1 (hg i hi)).1⟩

theorem mfield_gtransform {NC : ℕ} {L : Latt} (hL : Valid L) {g : ℕ → Arr ℂ} {U : Gauge} (hg : SUGauge NC L g)
    (hU : SUField NC L U) :
    Agree L (mfield NC (gtransform NC L g U)) (gaugeM L (fun i => toM NC (g i)) (mfield NC U)) :=
  (C31_action hL hg hU).2

theorem iter_congr {L : Latt} (hL : Valid L) {NC : ℕ} {U V : MField NC} (h : Agree L U V) {dir : ℕ}
    (hdir : dir ≤ L.ND) (α : ℝ) (n : ℕ) : Agree L ((stoutSmear L dir α)^[n] U) ((stoutSmear L dir α)^[n] V) := by
  induction n with
  | zero => exact h
  | succ n ih =>
    rw [Function.iterate_succ_apply', Function.iterate_succ_apply']
    exact stoutSmear_congr hL ih hdir α

/-- **C68**, gauge covariance: where the exponential is exact, smearing the transformed field any
number of times gives the transformed smeared field. -/
theorem C68_gauge_partial {NC : ℕ} (hN : 1 ≤ NC) {L : Latt} (hL : Valid L) {g : ℕ → Arr ℂ} {U : Gauge}
    (hg : SUGauge NC L g) (hU : SUField NC L U) (α al : ℝ) (smiters : ℕ)
    (hE : ∀ k < smiters, ∀ i < volume L, ∀ mu < L.ND,
      ExpExact NC ((α : ℂ) • force L L.ND ((stoutSmear L L.ND α)^[k] (mfield NC U)) i mu) ∧
      ExpExact NC ((α : ℂ) • force L L.ND ((stoutSmear L L.ND α)^[k] (mfield NC (gtransform NC L g U))) i mu))
    {s s' : St (Option (Arr ℂ)) Unit} (hs : s.lat = fun l => some (U l))
    (hs' : s'.lat = fun l => some (gtransform NC L g U l)) :
    ∃ V V', (smear4D L (stoutLink NC L α al L.ND) smiters s).lat = (fun l => some (V l)) ∧
      (smear4D L (stoutLink NC L α al L.ND) smiters s').lat = (fun l => some (V' l)) ∧
      SUField NC L V ∧ SUField NC L V' ∧
      Agree L (mfield NC V') (mfield NC (gtransform NC L g V)) := by
  obtain ⟨V, v1, v2, v3⟩ := C68_smear4D_partial hN hL hU α al smiters
    (fun k hk i hi mu hmu => (hE k hk i hi mu hmu).1) hs
  obtain ⟨V', w1, w2, w3⟩ := C68_smear4D_partial hN hL (C31_action hL hg hU).1 α al smiters
    (fun k hk i hi mu hmu => (hE k hk i hi mu hmu).2) hs'
  refine ⟨V, V', v1, w1, v2, w2, fun i hi mu hmu => ?_⟩
  rw [w3 i hi mu hmu, iter_congr hL (mfield_gtransform hL hg hU) (le_refl _) α smiters i hi mu hmu,
    stoutSmear_gauge_iter hL (unitaryG_of_su hg) (mfield NC U) (le_refl _) α smiters i hi mu hmu,
    mfield_gtransform hL hg v2 i hi mu hmu]
  unfold gaugeM
  rw [v3 i hi mu hmu]

/-- **C68**, one iteration for three colours, no condition on the exponents: every link of the
smeared field is within `2*10^-16` of stout smearing. -/
theorem C68_sweep_three_partial {L : Latt} (hL : Valid L) {U : Gauge} (hU : SUField 3 L U) (α al : ℝ)
    {s : St (Option (Arr ℂ)) Unit} (hs : s.lat = fun l => some (U l)) :
    ∃ V, (smear4D L (stoutLink 3 L α al L.ND) 1 s).lat = (fun l => some (V l)) ∧
      ∀ i < volume L, ∀ mu < L.ND, ∀ a b,
        ‖mfield 3 V i mu a b - stoutSmear L L.ND α (mfield 3 U) i mu a b‖ ≤ 2 / 10 ^ 16 := by
  have h := (C33_smear4D_code hL (opsO 3) id (some (zero_mat 3 scratch))
    (fun s u => s.bind fun s => u.bind fun u => project_STOUT 3 s u α al) 1 s).1
  have hl : ∀ l : Loc, ∃ V, (smear4D L (stoutLink 3 L α al L.ND) 1 s).lat l = some V ∧
      (l.1 < volume L ∧ l.2 < L.ND → ∀ a b, ‖toM 3 V a b -
        stoutSmear L L.ND α (mfield 3 U) l.1 l.2 a b‖ ≤ 2 / 10 ^ 16) := by
    rintro ⟨i, mu⟩
    unfold stoutLink
    rw [h, Function.iterate_one, hs]
    unfold simultaneous
    dsimp only
    by_cases h : i < volume L ∧ mu < L.ND
    · rw [if_pos h]
      obtain ⟨V, v1, v2, _⟩ := C68_link_three_partial (hU i h.1 mu h.2) (staple 3 L U i mu L.ND) α al
      refine ⟨V, ?_, fun _ a b => ?_⟩
      · rw [← v1]
        unfold smearLink
        dsimp only
        rw [staples_some]
        rfl
      · have := v2 a b
        rw [stapleM_code hL hU h.1 h.2 (le_refl _)] at this
        simpa only [stoutSmear, expUpdate, if_pos h.2, force, mfield] using this
    · rw [if_neg h]
      exact ⟨_, rfl, fun hr => absurd hr h⟩
  choose V h1 h2 using hl
  exact ⟨V, funext h1, fun i hi mu hmu => h2 (i, mu) ⟨hi, hmu⟩⟩

theorem conj_bound {G H E : Matrix (Fin 3) (Fin 3) ℂ} (hG : G ∈ specialUnitaryGroup (Fin 3) ℂ)
    (hH : H ∈ specialUnitaryGroup (Fin 3) ℂ) {ε : ℝ} (hE : ∀ i j, ‖E i j‖ ≤ ε) (i j : Fin 3) :
    ‖(G * E * H) i j‖ ≤ 9 * ε := by
  have hε : 0 ≤ ε := le_trans (norm_nonneg _) (hE 0 0)
  have h1 : ∀ i j, ‖(G * E) i j‖ ≤ 3 * ε := by
    intro i j
    rw [Matrix.mul_apply, Fin.sum_univ_three]
    refine norm_add₃_le.trans ?_
    rw [norm_mul, norm_mul, norm_mul]
    have h : ∀ k, ‖G i k‖ * ‖E k j‖ ≤ 1 * ε := fun k =>
      mul_le_mul (su_entry_le hG i k) (hE k j) (norm_nonneg _) (by norm_num)
    linarith [h 0, h 1, h 2]
  rw [Matrix.mul_apply, Fin.sum_univ_three]
  refine norm_add₃_le.trans ?_
  rw [norm_mul, norm_mul, norm_mul]
  have h : ∀ k, ‖(G * E) i k‖ * ‖H k j‖ ≤ 3 * ε * 1 := fun k =>
    mul_le_mul (h1 i k) (su_entry_le hH k j) (norm_nonneg _) (by positivity)
  linarith [h 0, h 1, h 2]

/-- **C68**, gauge covariance of one iteration for three colours, no condition on the exponents:
smearing and transforming commute up to `2*10^-15` in every entry. -/
theorem C68_gauge_sweep_three_partial {L : Latt} (hL : Valid L) {g : ℕ → Arr ℂ} {U : Gauge}
    (hg : SUGauge 3 L g) (hU : SUField 3 L U) (α al : ℝ)
    {s s' : St (Option (Arr ℂ)) Unit} (hs : s.lat = fun l => some (U l))
    (hs' : s'.lat = fun l => some (gtransform 3 L g U l)) :
    ∃ V V', (smear4D L (stoutLink 3 L α al L.ND) 1 s).lat = (fun l => some (V l)) ∧
      (smear4D L (stoutLink 3 L α al L.ND) 1 s').lat = (fun l => some (V' l)) ∧
      ∀ i < volume L, ∀ mu < L.ND, ∀ a b, ‖mfield 3 V' i mu a b -
        gaugeM L (fun i => toM 3 (g i)) (mfield 3 V) i mu a b‖ ≤ 2 / 10 ^ 15 := by
  obtain ⟨V, v1, v2⟩ := C68_sweep_three_partial hL hU α al hs
  obtain ⟨V', w1, w2⟩ := C68_sweep_three_partial hL (C31_action hL hg hU).1 α al hs'
  refine ⟨V, V', v1, w1, fun i hi mu hmu a b => ?_⟩
  have h1 := w2 i hi mu hmu a b
  rw [stoutSmear_congr hL (mfield_gtransform hL hg hU) (le_refl _) α i hi mu hmu,
    stoutSmear_gauge hL (unitaryG_of_su hg) (mfield 3 U) (le_refl _) α i hi mu hmu] at h1
  have h2 := conj_bound (hg i hi) (isSU_star (hg _ (neighbor_lt hL i hmu)))
    (E := stoutSmear L L.ND α (mfield 3 U) i mu - mfield 3 V i mu) (fun a b => by
      rw [Matrix.sub_apply, norm_sub_rev]; exact v2 i hi mu hmu a b) a b
  rw [Matrix.mul_sub, Matrix.sub_mul, Matrix.sub_apply] at h2
  have e := norm_add_le
    (mfield 3 V' i mu a b - gaugeM L (fun i => toM 3 (g i)) (stoutSmear L L.ND α (mfield 3 U)) i mu a b)
    (gaugeM L (fun i => toM 3 (g i)) (stoutSmear L L.ND α (mfield 3 U)) i mu a b -
      gaugeM L (fun i => toM 3 (g i)) (mfield 3 V) i mu a b)
  rw [sub_add_sub_cancel] at e
  refine e.trans ((add_le_add h1 h2).trans (by norm_num))

end GLU.Smear
