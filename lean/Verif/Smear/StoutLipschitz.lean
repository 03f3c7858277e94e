import Verif.Smear.StoutGauge
import Verif.Mat.OpNorm

/-!
# How far stout smearing spreads two near fields

In the operator norm, for unitary fields.
-/

namespace GLU.Smear

open GLU.Geom GLU.Sched GLU.Mat GLU.Field Complex Matrix
open scoped Matrix.Norms.L2Operator

/-- Every link is unitary. -/
def UnitF {NC : ℕ} (L : Latt) (U : MField NC) : Prop :=
  ∀ i < volume L, ∀ mu < L.ND, U i mu ∈ unitaryGroup (Fin NC) ℂ

/-- Every link is within `δ` of the other field's. -/
def FieldNear {NC : ℕ} (L : Latt) (δ : ℝ) (U V : MField NC) : Prop := ∀ i < volume L, ∀ mu < L.ND, ‖U i mu - V i mu‖ ≤ δ

theorem lieHerm_isHermitian {n : ℕ} (P : Matrix (Fin n) (Fin n) ℂ) : (lieHerm P).IsHermitian := lieHerm_hermitian P

theorem smul_isHermitian {n : ℕ} {A : Matrix (Fin n) (Fin n) ℂ} (hA : A.IsHermitian) (α : ℝ) :
    ((α : ℂ) • A).IsHermitian := by
  unfold IsHermitian
  rw [conjTranspose_smul, hA.eq]
  simp

theorem lieHerm_sub {n : ℕ} (P R : Matrix (Fin n) (Fin n) ℂ) : lieHerm P - lieHerm R = lieHerm (P - R) := by
  unfold lieHerm
  rw [conjTranspose_sub, trace_sub, trace_sub, trace_sub, trace_sub, trace_sub]
  ext i j
  simp only [Matrix.sub_apply, Matrix.smul_apply, smul_eq_mul]
  ring

theorem norm_lieHerm_le {n : ℕ} (hn : 0 < n) (P : Matrix (Fin n) (Fin n) ℂ) : ‖lieHerm P‖ ≤ 2 * ‖P‖ := by
  have hn' : (0 : ℝ) < n := by exact_mod_cast hn
  have hI : ‖(-I / 2 : ℂ)‖ = 1 / 2 := by
    rw [norm_div, norm_neg, norm_I]
    norm_num
  have hd : ‖P - Pᴴ‖ ≤ 2 * ‖P‖ := by
    refine (norm_sub_le _ _).trans ?_
    rw [l2_opNorm_conjTranspose]
    linarith
  have ht : ‖Matrix.trace (P - Pᴴ)‖ ≤ n * (2 * ‖P‖) := by
    unfold Matrix.trace
    refine (norm_sum_le _ _).trans ((Finset.sum_le_sum (g := fun _ => 2 * ‖P‖) fun k _ =>
      (entry_le_op _ k k).trans hd).trans (le_of_eq (by simp)))
  have h1 : ‖(1 : Matrix (Fin n) (Fin n) ℂ)‖ ≤ 1 := by
    rw [← diagonal_one, l2_opNorm_diagonal, pi_norm_le_iff_of_nonneg zero_le_one]
    intro i
    simp
  unfold lieHerm
  refine (norm_sub_le _ _).trans ?_
  rw [norm_smul, norm_smul, hI, norm_div, norm_mul, hI, norm_natCast]
  have e2 : 1 / 2 * ‖Matrix.trace (P - Pᴴ)‖ / n ≤ ‖P‖ := by
    rw [div_le_iff₀ hn']
    linarith
  have e3 : 1 / 2 * ‖Matrix.trace (P - Pᴴ)‖ / n * ‖(1 : Matrix (Fin n) (Fin n) ℂ)‖ ≤ ‖P‖ * 1 :=
    mul_le_mul e2 h1 (norm_nonneg _) (norm_nonneg _)
  linarith

theorem mul_near {n : ℕ} {A A' B B' : Matrix (Fin n) (Fin n) ℂ} (hA : A' ∈ unitaryGroup (Fin n) ℂ)
    (hB : B ∈ unitaryGroup (Fin n) ℂ) : ‖A * B - A' * B'‖ ≤ ‖A - A'‖ + ‖B - B'‖ := by
  have e : A * B - A' * B' = (A - A') * B + A' * (B - B') := by noncomm_ring
  rw [e]
  refine (norm_add_le _ _).trans ?_
  rw [op_mul_unitary hB, op_unitary_mul hA]

theorem star_near {n : ℕ} (A A' : Matrix (Fin n) (Fin n) ℂ) : ‖Aᴴ - A'ᴴ‖ = ‖A - A'‖ := by
  rw [← conjTranspose_sub, l2_opNorm_conjTranspose]

/-- The force depends on the field with a constant that counts links of loops. -/
theorem force_near {L : Latt} (hL : Valid L) {NC : ℕ} (hN : 0 < NC) {U V : MField NC} {δ : ℝ} (hU : UnitF L U)
    (hV : UnitF L V) (h : FieldNear L δ U V) {i mu dir : ℕ} (hi : i < volume L) (hmu : mu < dir) (hdir : dir ≤ L.ND) :
    ‖force L dir U i mu - force L dir V i mu‖ ≤ 16 * (dir - 1 : ℕ) * δ := by
  unfold force
  rw [lieHerm_sub]
  refine (norm_lieHerm_le hN _).trans ?_
  unfold stapleM
  rw [Finset.sum_mul, Finset.sum_mul, ← Finset.sum_sub_distrib]
  have hc : ((Finset.range dir).erase mu).card = dir - 1 := by
    rw [Finset.card_erase_of_mem (Finset.mem_range.2 hmu), Finset.card_range]
  have hs : ∀ nu ∈ (Finset.range dir).erase mu,
      ‖(U i nu * U (neighbor L i nu) mu * (U (neighbor L i mu) nu)ᴴ +
        (U (back L i nu) nu)ᴴ * U (back L i nu) mu * U (neighbor L (back L i nu) mu) nu) * (U i mu)ᴴ -
      (V i nu * V (neighbor L i nu) mu * (V (neighbor L i mu) nu)ᴴ +
        (V (back L i nu) nu)ᴴ * V (back L i nu) mu * V (neighbor L (back L i nu) mu) nu) * (V i mu)ᴴ‖ ≤ 8 * δ := by
    intro nu hnu
    rw [Finset.mem_erase, Finset.mem_range] at hnu
    have hn : nu < L.ND := by omega
    have hm : mu < L.ND := by omega
    have hb := back_lt hL i hn
    have n1 := neighbor_lt hL i hn
    have n2 := neighbor_lt hL i hm
    have n3 := neighbor_lt hL (back L i nu) hm
    have four : ∀ {A B C D A' B' C' D' : Matrix (Fin NC) (Fin NC) ℂ}, A' ∈ unitaryGroup (Fin NC) ℂ →
        B' ∈ unitaryGroup (Fin NC) ℂ → C' ∈ unitaryGroup (Fin NC) ℂ → B ∈ unitaryGroup (Fin NC) ℂ →
        C ∈ unitaryGroup (Fin NC) ℂ → D ∈ unitaryGroup (Fin NC) ℂ → ‖A - A'‖ ≤ δ → ‖B - B'‖ ≤ δ → ‖C - C'‖ ≤ δ →
        ‖D - D'‖ ≤ δ → ‖A * B * C * D - A' * B' * C' * D'‖ ≤ 4 * δ := by
      intro A B C D A' B' C' D' hA' hB' hC' hB hC hD h1 h2 h3 h4
      have k1 := mul_near (B' := B') (A := A) hA' hB
      have k2 := mul_near (B' := C') (A := A * B) (mul_mem hA' hB') hC
      have k3 := mul_near (B' := D') (A := A * B * C) (mul_mem (mul_mem hA' hB') hC') hD
      linarith
    rw [Matrix.add_mul, Matrix.add_mul, add_sub_add_comm]
    refine (norm_add_le _ _).trans ?_
    have f1 := four (hV i hi nu hn) (hV _ n1 mu hm) (Unitary.star_mem (hV _ n2 nu hn)) (hU _ n1 mu hm)
      (Unitary.star_mem (hU _ n2 nu hn)) (Unitary.star_mem (hU i hi mu hm)) (h i hi nu hn) (h _ n1 mu hm)
      ((star_near _ _).trans_le (h _ n2 nu hn)) ((star_near _ _).trans_le (h i hi mu hm))
    have f2 := four (Unitary.star_mem (hV _ hb nu hn)) (hV _ hb mu hm) (hV _ n3 nu hn) (hU _ hb mu hm)
      (hU _ n3 nu hn) (Unitary.star_mem (hU i hi mu hm)) ((star_near _ _).trans_le (h _ hb nu hn)) (h _ hb mu hm)
      (h _ n3 nu hn) ((star_near _ _).trans_le (h i hi mu hm))
    have f := add_le_add f1 f2
    rw [show (8 : ℝ) * δ = 4 * δ + 4 * δ by ring]
    exact f
  have := (norm_sum_le _ _).trans (Finset.sum_le_sum hs)
  rw [Finset.sum_const, hc, nsmul_eq_mul] at this
  linarith

theorem exp_unit {n : ℕ} {A : Matrix (Fin n) (Fin n) ℂ} (hA : A.IsHermitian) :
    NormedSpace.exp (I • A) ∈ unitaryGroup (Fin n) ℂ := by
  have := exp_herm_unitary hA 1
  rwa [one_smul] at this

theorem expUpdate_unit {L : Latt} {NC : ℕ} {dir : ℕ} {A U : MField NC} (hA : ∀ i mu, (A i mu).IsHermitian)
    (hU : UnitF L U) : UnitF L (expUpdate dir A U) := by
  intro i hi mu hmu
  unfold expUpdate
  split_ifs
  · exact mul_mem (exp_unit (hA i mu)) (hU i hi mu hmu)
  · exact hU i hi mu hmu

theorem expUpdate_near {L : Latt} {NC : ℕ} {dir : ℕ} {A B U V : MField NC} (hA : ∀ i mu, (A i mu).IsHermitian)
    (hB : ∀ i mu, (B i mu).IsHermitian) (hU : UnitF L U) {γ δ : ℝ} (hγ : 0 ≤ γ)
    (hAB : ∀ i < volume L, ∀ mu < dir, ‖A i mu - B i mu‖ ≤ γ) (h : FieldNear L δ U V) :
    FieldNear L (γ + δ) (expUpdate dir A U) (expUpdate dir B V) := by
  intro i hi mu hmu
  unfold expUpdate
  split_ifs with hd
  · refine (mul_near (exp_unit (hB i mu)) (hU i hi mu hmu)).trans (add_le_add ?_ (h i hi mu hmu))
    exact (exp_herm_lipschitz (hA i mu) (hB i mu)).trans (hAB i hi mu hd)
  · exact (h i hi mu hmu).trans (by linarith)

/-- The factor by which an iteration of stout smearing may spread two fields. -/
noncomputable def spread (dir : ℕ) (α : ℝ) : ℝ := 1 + 16 * (dir - 1 : ℕ) * |α|

theorem stoutSmear_unit {L : Latt} {NC : ℕ} {U : MField NC} (hU : UnitF L U) (dir : ℕ) (α : ℝ) :
    UnitF L (stoutSmear L dir α U) :=
  expUpdate_unit (fun _ _ => smul_isHermitian (lieHerm_isHermitian _) α) hU

theorem stoutSmear_near {L : Latt} (hL : Valid L) {NC : ℕ} (hN : 0 < NC) {U V : MField NC} {δ : ℝ} (hδ : 0 ≤ δ)
    (hU : UnitF L U) (hV : UnitF L V) (h : FieldNear L δ U V) {dir : ℕ} (hdir : dir ≤ L.ND) (α : ℝ) :
    FieldNear L (spread dir α * δ) (stoutSmear L dir α U) (stoutSmear L dir α V) := by
  have key := expUpdate_near (L := L) (dir := dir) (A := fun i mu => (α : ℂ) • force L dir U i mu)
    (B := fun i mu => (α : ℂ) • force L dir V i mu)
    (fun _ _ => smul_isHermitian (lieHerm_isHermitian _) α) (fun _ _ => smul_isHermitian (lieHerm_isHermitian _) α)
    hU (γ := |α| * (16 * (dir - 1 : ℕ) * δ)) (by positivity) (fun i hi mu hmu => by
      rw [← smul_sub, norm_smul, norm_real, Real.norm_eq_abs]
      exact mul_le_mul_of_nonneg_left (force_near hL hN hU hV h hi hmu hdir) (abs_nonneg α)) h
  intro i hi mu hmu
  refine (key i hi mu hmu).trans (le_of_eq ?_)
  unfold spread
  ring

end GLU.Smear
