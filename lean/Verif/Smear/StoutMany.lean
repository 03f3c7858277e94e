import Verif.Smear.StoutLipschitz
import Verif.Mat.ExpManyProps

/-!
# C68: stout smearing for more than three colours

The distance of the smeared links from the specification `stoutSmear`, from the distance of the exponential (C20) and a
bound on the force.
-/

namespace GLU.Smear

open GLU.Geom GLU.Sched GLU.Mat GLU.Field Complex Matrix
open scoped Matrix.Norms.L2Operator

/-- The diagonal entries of `P` are at most `K` in every orthonormal basis. -/
def LoopBound {n : ℕ} (P : Matrix (Fin n) (Fin n) ℂ) (K : ℝ) : Prop :=
  ∀ V ∈ unitaryGroup (Fin n) ℂ, ∀ i, ‖(Vᴴ * P * V) i i‖ ≤ K

theorem loopBound_unitary {n : ℕ} {P : Matrix (Fin n) (Fin n) ℂ} (hP : P ∈ unitaryGroup (Fin n) ℂ) :
    LoopBound P 1 := fun V hV i =>
  unitary_entry_le (mem_unitaryGroup_iff.1 (mul_mem (mul_mem (Unitary.star_mem hV) hP) hV)) i i

theorem loopBound_add {n : ℕ} {P R : Matrix (Fin n) (Fin n) ℂ} {K J : ℝ} (hP : LoopBound P K) (hR : LoopBound R J) :
    LoopBound (P + R) (K + J) := fun V hV i => by
  rw [Matrix.mul_add, Matrix.add_mul, Matrix.add_apply]
  exact (norm_add_le _ _).trans (add_le_add (hP V hV i) (hR V hV i))

theorem loopBound_sum {n : ℕ} {ι : Type*} (s : Finset ι) {P : ι → Matrix (Fin n) (Fin n) ℂ} {K : ℝ}
    (hP : ∀ k ∈ s, LoopBound (P k) K) : LoopBound (∑ k ∈ s, P k) (s.card * K) := fun V hV i => by
  rw [Matrix.mul_sum, Matrix.sum_mul, Matrix.sum_apply]
  refine (norm_sum_le _ _).trans ((Finset.sum_le_sum fun k hk => hP k hk V hV i).trans (le_of_eq ?_))
  simp

/-- The eigenvalues of the traceless Hermitian part. -/
theorem eigen_lieHerm {n : ℕ} {P : Matrix (Fin n) (Fin n) ℂ} {K : ℝ} (hP : LoopBound P K) (α : ℝ)
    (h : ((α : ℂ) • lieHerm P).IsHermitian) (i : Fin n) : |h.eigenvalues i| ≤ |α| * (2 * K) := by
  obtain ⟨V, h1, h2, h3⟩ := herm_diag h
  set e := h.eigenvalues
  have hV : V ∈ unitaryGroup (Fin n) ℂ := mem_unitaryGroup_iff.2 h1
  have hn : (0 : ℝ) < n := by
    have := i.pos
    exact_mod_cast this
  have he : (e i : ℂ) = (Vᴴ * ((α : ℂ) • lieHerm P) * V) i i := by
    rw [h3]
    have : Vᴴ * (V * diagonal (fun i => (e i : ℂ)) * Vᴴ) * V = diagonal (fun i => (e i : ℂ)) := by
      calc _ = (Vᴴ * V) * diagonal (fun i => (e i : ℂ)) * (Vᴴ * V) := by simp only [Matrix.mul_assoc]
        _ = _ := by rw [h2, Matrix.one_mul, Matrix.mul_one]
    rw [this, diagonal_apply_eq]
  have hs : (Vᴴ * Pᴴ * V) i i = star ((Vᴴ * P * V) i i) := by
    rw [← conjTranspose_apply, conjTranspose_mul, conjTranspose_mul, conjTranspose_conjTranspose, Matrix.mul_assoc]
  have ht : ‖Matrix.trace P‖ ≤ n * K := by
    unfold Matrix.trace
    refine (norm_sum_le _ _).trans ((Finset.sum_le_sum (g := fun _ => K) fun k _ => ?_).trans (le_of_eq (by simp)))
    have := hP 1 (one_mem _) k
    rwa [conjTranspose_one, Matrix.one_mul, Matrix.mul_one] at this
  have ht' : ‖Matrix.trace (P - Pᴴ)‖ ≤ 2 * (n * K) := by
    rw [trace_sub, trace_conjTranspose]
    refine (norm_sub_le _ _).trans ?_
    rw [norm_star]
    linarith
  have hex : (Vᴴ * ((α : ℂ) • lieHerm P) * V) i i = (α : ℂ) * ((-I / 2) * ((Vᴴ * P * V) i i - star ((Vᴴ * P * V) i i)) -
      (-I / 2) * Matrix.trace (P - Pᴴ) / n) := by
    unfold lieHerm
    rw [Matrix.mul_smul, Matrix.smul_mul, Matrix.smul_apply, smul_eq_mul, Matrix.mul_sub, Matrix.sub_mul,
      Matrix.mul_smul, Matrix.smul_mul, Matrix.mul_smul, Matrix.smul_mul, Matrix.mul_one, h2, Matrix.sub_apply,
      Matrix.smul_apply, Matrix.smul_apply, one_apply_eq, Matrix.mul_sub, Matrix.sub_mul, Matrix.sub_apply, hs,
      smul_eq_mul, smul_eq_mul, mul_one]
  have hI : ‖(-I / 2 : ℂ)‖ = 1 / 2 := by
    rw [norm_div, norm_neg, norm_I]
    norm_num
  have hn' : ‖(e i : ℂ)‖ = |e i| := by rw [norm_real, Real.norm_eq_abs]
  rw [← hn', he, hex, norm_mul, norm_real, Real.norm_eq_abs]
  refine mul_le_mul_of_nonneg_left ?_ (abs_nonneg α)
  refine (norm_sub_le _ _).trans ?_
  rw [norm_div, norm_mul, norm_mul, hI, norm_natCast]
  have hp := hP V hV i
  have e1 : ‖(Vᴴ * P * V) i i - star ((Vᴴ * P * V) i i)‖ ≤ 2 * K := by
    refine (norm_sub_le _ _).trans ?_
    rw [norm_star]
    linarith
  have e2 : 1 / 2 * ‖Matrix.trace (P - Pᴴ)‖ / n ≤ K := by
    rw [div_le_iff₀ hn]
    linarith
  linarith

/-- The error of one exponential with eigenvalues up to `ρ`. -/
noncomputable def expErr (NC : ℕ) (ρ : ℝ) : ℝ := (NC + 1) * (ρ ^ 9 / (2 ^ 24 * 25401600))

/-- **C68**, more than three colours, one link: for a special unitary link and any staple the projected link is special
unitary and, if the eigenvalues of the exponent are at most `ρ`, within `(NC + 1) ρ⁹ / (2²⁴ · 25401600)` of
`exp( i α F ) U` in the operator norm. -/
theorem C68_link_many {NC : ℕ} (hN : 3 < NC) {link : Arr ℂ} (hU : IsSU NC link) (staple : Arr ℂ) (α al : ℝ) :
    ∃ V, project_STOUT NC staple link α al = some V ∧ IsSU NC V ∧
      ∀ (h : ((α : ℂ) • lieHerm (toM NC staple * (toM NC link)ᴴ)).IsHermitian) (ρ : ℝ),
        (∀ i, |h.eigenvalues i| ≤ ρ) →
        ‖toM NC V - NormedSpace.exp (I • (α : ℂ) • lieHerm (toM NC staple * (toM NC link)ᴴ)) * toM NC link‖ ≤
          expErr NC ρ := by
  have hq : QuatForm NC (multab_dag NC staple link fun _ => 0) := fun h => by omega
  obtain ⟨he, hh⟩ := toM_expArg (by omega) α al hq
  obtain ⟨E, h1, h2, h3⟩ := C20_many_norm hN hh (multab_dag NC staple link fun _ => 0)
  obtain ⟨m1, m2⟩ := C11_multab_suNC h2 hU scratch
  refine ⟨multab_suNC NC E link scratch, ?_, m2, fun h ρ hρ => ?_⟩
  · unfold expArg at h1
    simp only [project_STOUT, h1, Option.map_some]
  · rw [m1, ← Matrix.sub_mul, op_mul_unitary (mem_specialUnitaryGroup_iff.1 hU).1]
    have := h3 ρ (fun k => ?_)
    · rwa [he] at this
    · have e : hh.1.eigenvalues = h.eigenvalues := by congr 1
      rw [e]
      exact hρ k

/-- The staple times the daggered link is a sum of closed loops. -/
theorem staple_loops {L : Latt} (hL : Valid L) {NC : ℕ} {U : Gauge} (hU : SUField NC L U) {i mu dir : ℕ}
    (hi : i < volume L) (hmu : mu < dir) (hdir : dir ≤ L.ND) :
    LoopBound (stapleM L dir (mfield NC U) i mu * (mfield NC U i mu)ᴴ) (2 * (dir - 1 : ℕ)) := by
  have hu : ∀ j < volume L, ∀ nu < L.ND, mfield NC U j nu ∈ unitaryGroup (Fin NC) ℂ := fun j hj nu hnu =>
    (mem_specialUnitaryGroup_iff.1 (hU j hj nu hnu)).1
  unfold stapleM
  rw [Finset.sum_mul]
  have hc : ((Finset.range dir).erase mu).card = dir - 1 := by
    rw [Finset.card_erase_of_mem (Finset.mem_range.2 hmu), Finset.card_range]
  rw [mul_comm (2 : ℝ), ← hc]
  refine loopBound_sum _ fun nu hnu => ?_
  rw [Finset.mem_erase, Finset.mem_range] at hnu
  have hn : nu < L.ND := by omega
  have hm : mu < L.ND := by omega
  have hb := back_lt hL i hn
  rw [Matrix.add_mul, show (2 : ℝ) = 1 + 1 by norm_num]
  have hend := Unitary.star_mem (hu i hi mu hm)
  exact loopBound_add
    (loopBound_unitary (mul_mem (mul_mem (mul_mem (hu i hi nu hn) (hu _ (neighbor_lt hL i hn) mu hm))
      (Unitary.star_mem (hu _ (neighbor_lt hL i hm) nu hn))) hend))
    (loopBound_unitary (mul_mem (mul_mem (mul_mem (Unitary.star_mem (hu _ hb nu hn)) (hu _ hb mu hm))
      (hu _ (neighbor_lt hL _ hm) nu hn)) hend))

theorem suField_unit {NC : ℕ} {L : Latt} {U : Gauge} (hU : SUField NC L U) : UnitF L (mfield NC U) :=
  fun i hi mu hmu => (mem_specialUnitaryGroup_iff.1 (hU i hi mu hmu)).1

/-- The error of one iteration. -/
noncomputable def sweepErr (NC dir : ℕ) (α : ℝ) : ℝ := expErr NC (|α| * (4 * (dir - 1 : ℕ)))

theorem sweepErr_nonneg (NC dir : ℕ) (α : ℝ) : 0 ≤ sweepErr NC dir α := by
  unfold sweepErr expErr
  positivity

theorem sim_many {NC : ℕ} (hN : 3 < NC) {L : Latt} (hL : Valid L) {U : Gauge} (hU : SUField NC L U) {dir : ℕ}
    (hdir : dir ≤ L.ND) (α al : ℝ) (z : Loc → Unit) :
    ∃ V, (simultaneous L dir (stoutLink NC L α al dir) (fun l => some (U l), z)).1 = (fun l => some (V l)) ∧
      SUField NC L V ∧ FieldNear L (sweepErr NC dir α) (mfield NC V) (stoutSmear L dir α (mfield NC U)) := by
  have hl : ∀ l : Loc, ∃ V, (simultaneous L dir (stoutLink NC L α al dir) (fun l => some (U l), z)).1 l = some V ∧
      (l.1 < volume L ∧ l.2 < L.ND → IsSU NC V ∧
        ‖toM NC V - stoutSmear L dir α (mfield NC U) l.1 l.2‖ ≤ sweepErr NC dir α) := by
    rintro ⟨i, mu⟩
    unfold simultaneous
    dsimp only
    by_cases h : i < volume L ∧ mu < dir
    · rw [if_pos h]
      obtain ⟨V, v1, v2, v3⟩ := C68_link_many hN (hU i h.1 mu (by omega)) (staple NC L U i mu dir) α al
      refine ⟨V, ?_, fun _ => ⟨v2, ?_⟩⟩
      · rw [← v1]
        unfold stoutLink smearLink
        dsimp only
        rw [staples_some]
        rfl
      · have hm := stapleM_code hL hU h.1 h.2 hdir
        have hb : LoopBound (toM NC (staple NC L U i mu dir) * (toM NC (U (i, mu)))ᴴ) (2 * (dir - 1 : ℕ)) := by
          rw [hm]
          exact staple_loops hL hU h.1 h.2 hdir
        have hH := smul_isHermitian (lieHerm_isHermitian (toM NC (staple NC L U i mu dir) * (toM NC (U (i, mu)))ᴴ)) α
        have := v3 hH _ (eigen_lieHerm hb α hH)
        rw [hm, show (2 : ℝ) * (2 * (dir - 1 : ℕ)) = 4 * (dir - 1 : ℕ) by ring] at this
        simpa only [stoutSmear, expUpdate, if_pos h.2, force, mfield, sweepErr] using this
    · rw [if_neg h]
      refine ⟨_, rfl, fun hr => ⟨hU i hr.1 mu hr.2, ?_⟩⟩
      simp only [stoutSmear, expUpdate, if_neg (show ¬ mu < dir from fun h' => h ⟨hr.1, h'⟩), mfield, sub_self, norm_zero]
      exact sweepErr_nonneg _ _ _
  choose V h1 h2 using hl
  exact ⟨V, funext h1, fun i hi mu hmu => (h2 (i, mu) ⟨hi, hmu⟩).1, fun i hi mu hmu => (h2 (i, mu) ⟨hi, hmu⟩).2⟩

theorem stoutSmear_iter_unit {L : Latt} {NC : ℕ} {U : MField NC} (hU : UnitF L U) (dir : ℕ) (α : ℝ) (n : ℕ) :
    UnitF L ((stoutSmear L dir α)^[n] U) := by
  induction n with
  | zero => exact hU
  | succ n ih =>
    rw [Function.iterate_succ_apply']
    exact stoutSmear_unit ih dir α

/-- The error after `n` iterations: each adds its own and spreads those before it. -/
noncomputable def iterErr (NC dir : ℕ) (α : ℝ) (n : ℕ) : ℝ :=
  sweepErr NC dir α * ∑ k ∈ Finset.range n, spread dir α ^ k

theorem sim_many_iter {NC : ℕ} (hN : 3 < NC) {L : Latt} (hL : Valid L) {U : Gauge} (hU : SUField NC L U) {dir : ℕ}
    (hdir : dir ≤ L.ND) (α al : ℝ) (n : ℕ) (z : Loc → Unit) :
    ∃ V, ((simultaneous L dir (stoutLink NC L α al dir))^[n] (fun l => some (U l), z)).1 = (fun l => some (V l)) ∧
      SUField NC L V ∧ FieldNear L (iterErr NC dir α n) (mfield NC V) ((stoutSmear L dir α)^[n] (mfield NC U)) := by
  induction n with
  | zero => exact ⟨U, rfl, hU, fun _ _ _ _ => by simp [iterErr]⟩
  | succ n ih =>
    obtain ⟨V, v1, v2, v3⟩ := ih
    rw [Function.iterate_succ_apply', Function.iterate_succ_apply']
    have e : (simultaneous L dir (stoutLink NC L α al dir))^[n] (fun l => some (U l), z) =
        (fun l => some (V l), ((simultaneous L dir (stoutLink NC L α al dir))^[n] (fun l => some (U l), z)).2) :=
      Prod.ext v1 rfl
    rw [e]
    obtain ⟨W, w1, w2, w3⟩ := sim_many hN hL v2 hdir α al
      ((simultaneous L dir (stoutLink NC L α al dir))^[n] (fun l => some (U l), z)).2
    refine ⟨W, w1, w2, fun i hi mu hmu => ?_⟩
    have h0 : 0 ≤ iterErr NC dir α n := by
      unfold iterErr spread
      exact mul_nonneg (sweepErr_nonneg _ _ _) (Finset.sum_nonneg fun k _ => by positivity)
    have hn := stoutSmear_near hL (by omega) h0 (suField_unit v2) (stoutSmear_iter_unit (suField_unit hU) dir α n) v3
      hdir α i hi mu hmu
    have hw := w3 i hi mu hmu
    have e1 : iterErr NC dir α (n + 1) = sweepErr NC dir α + spread dir α * iterErr NC dir α n := by
      unfold iterErr
      rw [Finset.sum_range_succ', pow_zero, ← mul_assoc, mul_comm (spread dir α), mul_assoc, Finset.mul_sum]
      simp only [pow_succ']
      ring
    rw [e1]
    calc _ = ‖(mfield NC W i mu - stoutSmear L dir α (mfield NC V) i mu) + (stoutSmear L dir α (mfield NC V) i mu -
          stoutSmear L dir α ((stoutSmear L dir α)^[n] (mfield NC U)) i mu)‖ := by congr 1; abel
      _ ≤ _ := norm_add_le _ _
      _ ≤ _ := add_le_add hw hn

/-- **C68**, more than three colours, any number of iterations, no condition on the field: `smear4D` keeps the field
special unitary, and every link is within `ε (1 + Λ + ... + Λⁿ⁻¹)` of `n` iterations of stout smearing in the operator
norm, with `ε = (NC + 1) (4 (ND - 1) |α|)⁹ / (2²⁴ · 25401600)` and `Λ = 1 + 16 (ND - 1) |α|`. -/
theorem C68_smear4D_many {NC : ℕ} (hN : 3 < NC) {L : Latt} (hL : Valid L) {U : Gauge} (hU : SUField NC L U) (α al : ℝ)
    (smiters : ℕ) {s : St (Option (Arr ℂ)) Unit} (hs : s.lat = fun l => some (U l)) :
    ∃ V, (smear4D L (stoutLink NC L α al L.ND) smiters s).lat = (fun l => some (V l)) ∧ SUField NC L V ∧
      ∀ i < volume L, ∀ mu < L.ND,
        ‖mfield NC V i mu - (stoutSmear L L.ND α)^[smiters] (mfield NC U) i mu‖ ≤
          (NC + 1) * ((|α| * (4 * (L.ND - 1 : ℕ))) ^ 9 / (2 ^ 24 * 25401600)) *
            ∑ k ∈ Finset.range smiters, (1 + 16 * (L.ND - 1 : ℕ) * |α|) ^ k := by
  have h := (C33_smear4D_code hL (opsO NC) id (some (zero_mat NC scratch))
    (fun s u => s.bind fun s => u.bind fun u => project_STOUT NC s u α al) smiters s).1
  obtain ⟨V, v1, v2, v3⟩ := sim_many_iter hN hL hU (le_refl _) α al smiters s.z
  refine ⟨V, ?_, v2, v3⟩
  rw [← v1, ← hs]
  exact h

/-- **C68**, spatial smearing: as `C68_smear4D_many` for `smear3D` in three or more dimensions. -/
theorem C68_smear3D_many {NC : ℕ} (hN : 3 < NC) {L : Latt} (hL : Valid L) (hD : 3 ≤ L.ND) {U : Gauge}
    (hU : SUField NC L U) (α al : ℝ) (smiters : ℕ) {s : St (Option (Arr ℂ)) Unit} (hs : s.lat = fun l => some (U l)) :
    ∃ V, (smear3D L (stoutLink NC L α al (L.ND - 1)) smiters s).lat = (fun l => some (V l)) ∧ SUField NC L V ∧
      ∀ i < volume L, ∀ mu < L.ND,
        ‖mfield NC V i mu - (stoutSmear L (L.ND - 1) α)^[smiters] (mfield NC U) i mu‖ ≤
          (NC + 1) * ((|α| * (4 * (L.ND - 1 - 1 : ℕ))) ^ 9 / (2 ^ 24 * 25401600)) *
            ∑ k ∈ Finset.range smiters, (1 + 16 * (L.ND - 1 - 1 : ℕ) * |α|) ^ k := by
  have hr := (C33_updates_spatial hL (opsO NC) id (some (zero_mat NC scratch))
    (fun s u => s.bind fun s => u.bind fun u => project_STOUT NC s u α al)).1
  have h := C33_smear3D hL hr smiters s
  rw [if_neg (by omega)] at h
  obtain ⟨V, v1, v2, v3⟩ := sim_many_iter hN hL hU (Nat.sub_le _ _) α al smiters s.z
  refine ⟨V, ?_, v2, v3⟩
  rw [← v1, ← hs]
  exact congrArg Prod.fst h

/-- **C68**, gauge covariance for more than three colours, any number of iterations, no condition on the field:
smearing and transforming commute up to twice the error of `C68_smear4D_many`. -/
theorem C68_gauge_many {NC : ℕ} (hN : 3 < NC) {L : Latt} (hL : Valid L) {g : ℕ → Arr ℂ} {U : Gauge}
    (hg : SUGauge NC L g) (hU : SUField NC L U) (α al : ℝ) (smiters : ℕ)
    {s s' : St (Option (Arr ℂ)) Unit} (hs : s.lat = fun l => some (U l))
    (hs' : s'.lat = fun l => some (gtransform NC L g U l)) :
    ∃ V V', (smear4D L (stoutLink NC L α al L.ND) smiters s).lat = (fun l => some (V l)) ∧
      (smear4D L (stoutLink NC L α al L.ND) smiters s').lat = (fun l => some (V' l)) ∧
      SUField NC L V ∧ SUField NC L V' ∧
      ∀ i < volume L, ∀ mu < L.ND, ‖mfield NC V' i mu - gaugeM L (fun i => toM NC (g i)) (mfield NC V) i mu‖ ≤
        2 * ((NC + 1) * ((|α| * (4 * (L.ND - 1 : ℕ))) ^ 9 / (2 ^ 24 * 25401600)) *
          ∑ k ∈ Finset.range smiters, (1 + 16 * (L.ND - 1 : ℕ) * |α|) ^ k) := by
  obtain ⟨V, v1, v2, v3⟩ := C68_smear4D_many hN hL hU α al smiters hs
  obtain ⟨V', w1, w2, w3⟩ := C68_smear4D_many hN hL (C31_action hL hg hU).1 α al smiters hs'
  refine ⟨V, V', v1, w1, v2, w2, fun i hi mu hmu => ?_⟩
  have h1 := w3 i hi mu hmu
  rw [iter_congr hL (mfield_gtransform hL hg hU) (le_refl _) α smiters i hi mu hmu,
    stoutSmear_gauge_iter hL (unitaryG_of_su hg) (mfield NC U) (le_refl _) α smiters i hi mu hmu] at h1
  have h2 := v3 i hi mu hmu
  have hgi : toM NC (g i) ∈ unitaryGroup (Fin NC) ℂ := (mem_specialUnitaryGroup_iff.1 (hg i hi)).1
  have hgn : star (toM NC (g (neighbor L i mu))) ∈ unitaryGroup (Fin NC) ℂ :=
    Unitary.star_mem (mem_specialUnitaryGroup_iff.1 (hg _ (neighbor_lt hL i hmu))).1
  have e : ‖gaugeM L (fun i => toM NC (g i)) ((stoutSmear L L.ND α)^[smiters] (mfield NC U)) i mu -
      gaugeM L (fun i => toM NC (g i)) (mfield NC V) i mu‖ =
      ‖(stoutSmear L L.ND α)^[smiters] (mfield NC U) i mu - mfield NC V i mu‖ := by
    unfold gaugeM
    rw [← Matrix.sub_mul, ← Matrix.mul_sub, ← star_eq_conjTranspose, op_mul_unitary hgn, op_unitary_mul hgi]
  rw [norm_sub_rev] at h2
  calc _ = ‖(mfield NC V' i mu - gaugeM L (fun i => toM NC (g i)) ((stoutSmear L L.ND α)^[smiters] (mfield NC U)) i mu) +
        (gaugeM L (fun i => toM NC (g i)) ((stoutSmear L L.ND α)^[smiters] (mfield NC U)) i mu -
        gaugeM L (fun i => toM NC (g i)) (mfield NC V) i mu)‖ := by congr 1; abel
    _ ≤ _ := norm_add_le _ _
    _ ≤ _ := add_le_add h1 (e.trans_le h2)
    _ = _ := by ring

/-- A field of four colours that is not constant, on a lattice with unequal sides. -/
example : ∃ (L : Latt) (U : Gauge), Valid L ∧ SUField 4 L U ∧ mfield 4 U 0 0 ≠ 1 ∧ mfield 4 U 1 0 = 1 := by
  have hone : toM 4 (fun x => if x = 0 ∨ x = 5 ∨ x = 10 ∨ x = 15 then (1 : ℂ) else 0) = 1 := by
    ext i j
    fin_cases i <;> fin_cases j <;> simp [toM_apply]
  have hD : toM 4 (fun x => if x = 0 then I else if x = 5 then -I else if x = 10 ∨ x = 15 then 1 else 0) =
      diagonal ![I, -I, 1, 1] := by
    ext i j
    fin_cases i <;> fin_cases j <;> simp [toM_apply]
  refine ⟨⟨2, fun mu => mu + 2⟩, fun l => if l = (0, 0) then
      (fun x => if x = 0 then I else if x = 5 then -I else if x = 10 ∨ x = 15 then 1 else 0)
      else fun x => if x = 0 ∨ x = 5 ∨ x = 10 ∨ x = 15 then 1 else 0,
    ⟨by norm_num, by norm_num, by norm_num [Finset.prod_range_succ]⟩, fun i _ mu _ => ?_, ?_, ?_⟩
  · unfold IsSU
    by_cases h : (i, mu) = (0, 0)
    · simp only [h, if_true]
      rw [hD, mem_specialUnitaryGroup_iff, mem_unitaryGroup_iff, star_eq_conjTranspose, diagonal_conjTranspose,
        diagonal_mul_diagonal, det_diagonal, Fin.prod_univ_four]
      refine ⟨?_, by simp⟩
      rw [← diagonal_one]
      congr 1
      funext k
      fin_cases k <;> simp
    · simp only [h, if_false]
      rw [hone]
      exact one_mem _
  · unfold mfield
    simp only [if_true]
    rw [hD]
    intro h
    have := congrFun (congrFun h 2) 2
    have h0 := congrFun (congrFun h 0) 0
    simp at h0
    have := congrArg Complex.re h0
    simp at this
  · unfold mfield
    simp only [Prod.mk.injEq, one_ne_zero, false_and, if_false]
    exact hone

end GLU.Smear
