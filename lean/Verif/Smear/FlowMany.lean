import Verif.Smear.StoutMany
import Verif.Smear.FlowProps

/-!
# C68: the Wilson flow for more than three colours

The distance of `step_distance`, over any number of steps, from the third order integrator `flowStep`.
-/

namespace GLU.Smear

open GLU.Geom GLU.Sched GLU.Mat GLU.Field Complex Matrix
open scoped Matrix.Norms.L2Operator

/-! ## Packed matrices -/

/-- The upper triangle of the traceless Hermitian `H`, row by row and without the last entry, is in `Z`. -/
def Packs {NC : ℕ} (Z : Arr ℂ) (H : Matrix (Fin NC) (Fin NC) ℂ) : Prop :=
  H.IsHermitian ∧ H.trace = 0 ∧ ∀ (r c : ℕ) (_ : r < NC - 1) (_ : r ≤ c) (hc : c < NC),
    Z (off NC r + (c - r)) = H ⟨r, by omega⟩ ⟨c, hc⟩

theorem packs_zero (NC : ℕ) : Packs (fun _ => 0) (0 : Matrix (Fin NC) (Fin NC) ℂ) :=
  ⟨isHermitian_zero, by simp, fun _ _ _ _ _ => rfl⟩

theorem pos_lt {NC r c : ℕ} (hr : r < NC - 1) (hrc : r ≤ c) (hc : c < NC) : off NC r + (c - r) < HERMSIZE NC := by
  rw [← off_last (by omega)]
  exact off_lt NC hr (by omega)

theorem forN_each {α : Type*} (n : ℕ) (f : ℕ → α → α) (Z : ℕ → α) {k : ℕ} (hk : k < n) :
    forN n (fun k Z => Function.update Z k (f k (Z k))) Z k = f k (Z k) := by
  have := forN_inv (fun m (s : ℕ → α) => (k < m → s k = f k (Z k)) ∧ (m ≤ k → s k = Z k)) (n := n)
    (body := fun k Z => Function.update Z k (f k (Z k))) (s := Z) ⟨by omega, fun _ => rfl⟩
    (fun m _ s hs => by
      beta_reduce
      by_cases h : k = m
      · subst h
        rw [Function.update_self, hs.2 le_rfl]
        exact ⟨fun _ => rfl, by omega⟩
      · rw [Function.update_of_ne h]
        exact ⟨fun h' => hs.1 (by omega), fun h' => hs.2 (by omega)⟩)
  exact this.1 hk

theorem packs_set {NC : ℕ} (hN : 3 < NC) {Z U : Arr ℂ} {H : Matrix (Fin NC) (Fin NC) ℂ} (hZ : Packs Z H) (m : ℝ) :
    Packs (set_zmatrix NC Z (Hermitian_proj_short NC scratch U) m) (H + (m : ℂ) • lieHerm (toM NC U)) := by
  have hq : QuatForm NC U := fun h => by omega
  refine ⟨hZ.1.add (smul_isHermitian (lieHerm_isHermitian _) m), ?_, fun r c hr hrc hc => ?_⟩
  · rw [trace_add, trace_smul, hZ.2.1, lieHerm_traceless, smul_zero, add_zero]
  · have hk := pos_lt hr hrc hc
    unfold set_zmatrix TRUE_HERM
    rw [if_neg (by omega), if_neg (by omega), if_neg (by omega)]
    have hk' : off NC r + (c - r) < NC * (NC + 1) / 2 - 1 := hk
    rw [forN_each _ (fun k z => z + m * Hermitian_proj_short NC scratch U k) Z hk', hZ.2.2 r c hr hrc hc,
      C70_hermitian_short (by omega) scratch scratch scratch hq _ hk, pack_apply NC _ _ hr hrc hc, Matrix.add_apply,
      Matrix.smul_apply, ← C70_hermitian (by omega) scratch hq]
    rfl

theorem packs_scale {NC : ℕ} (hN : 3 < NC) {Z : Arr ℂ} {H : Matrix (Fin NC) (Fin NC) ℂ} (hZ : Packs Z H) (α : ℝ)
    (a : Arr ℂ) : Packs (scaleZ NC Z α a) ((α : ℂ) • H) := by
  refine ⟨smul_isHermitian hZ.1 α, by rw [trace_smul, hZ.2.1, smul_zero], fun r c hr hrc hc => ?_⟩
  have hk := pos_lt hr hrc hc
  have hk' : off NC r + (c - r) < NC * (NC + 1) / 2 - 1 := hk
  unfold scaleZ
  rw [if_neg (by omega), if_neg (by omega), forN_each _ (fun k _ => Z k * α) a hk', hZ.2.2 r c hr hrc hc,
    Matrix.smul_apply, smul_eq_mul, mul_comm]

/-- The row major array of a matrix. -/
def flat {NC : ℕ} (H : Matrix (Fin NC) (Fin NC) ℂ) : Arr ℂ := fun n =>
  if h : n / NC < NC ∧ n % NC < NC then H ⟨n / NC, h.1⟩ ⟨n % NC, h.2⟩ else 0

theorem toM_flat {NC : ℕ} (H : Matrix (Fin NC) (Fin NC) ℂ) : toM NC (flat H) = H := by
  ext i j
  have hp : 0 < NC := i.pos
  have h1 : ((j : ℕ) + NC * i) / NC = i := by
    rw [Nat.add_mul_div_left _ _ hp, Nat.div_eq_of_lt j.2, zero_add]
  have h2 : ((j : ℕ) + NC * i) % NC = j := by
    rw [Nat.add_mul_mod_self_left, Nat.mod_eq_of_lt j.2]
  simp only [toM_apply, flat, h1, h2]
  rw [dif_pos ⟨i.2, j.2⟩]

theorem rebuild_packs {NC : ℕ} (hN : 3 < NC) {Y : Arr ℂ} {H : Matrix (Fin NC) (Fin NC) ℂ} (hY : Packs Y H) (g : Arr ℂ) :
    toM NC (rebuild_hermitian NC g Y) = H := by
  have hh : HermTraceless NC (flat H) := by
    unfold HermTraceless
    rw [toM_flat]
    exact ⟨hY.1, hY.2.1⟩
  have e : pack_hermitian NC Y (flat H) = Y := by
    funext k
    have := tri_inv NC (NC - 1) (fun i j (s : ℕ × Arr ℂ) => s.1 = off NC i + (j - i) ∧ s.2 = Y)
      (body := fun i j s => (s.1 + 1, Function.update s.2 s.1 (flat H (j + i * NC)))) (s := (0, Y))
      (by omega) ⟨rfl, rfl⟩
      (fun i hi j hij hj s hs => by
        obtain ⟨h1, h2⟩ := hs
        refine ⟨by simp only [h1]; omega, ?_⟩
        have h3 : flat H (j + i * NC) = Y (off NC i + (j - i)) := by
          rw [hY.2.2 i j hi hij hj, mul_comm]
          exact congrFun (congrFun (toM_flat H) ⟨i, by omega⟩) ⟨j, hj⟩
        dsimp only
        rw [h1, h2, h3, Function.update_eq_self])
      (fun i hi s hs => ⟨by rw [hs.1]; simp [off], hs.2⟩)
    exact congrFun this.2 k
  have := C13_rebuild_pack (NC := NC) (by omega) hh g Y
  rwa [e, toM_flat] at this

/-! ## One link -/

theorem eigen_le_norm {n : ℕ} {A : Matrix (Fin n) (Fin n) ℂ} (hA : A.IsHermitian) (i : Fin n) :
    |hA.eigenvalues i| ≤ ‖A‖ := by
  obtain ⟨V, h1, h2, h3⟩ := herm_diag hA
  have hV : V ∈ unitaryGroup (Fin n) ℂ := mem_unitaryGroup_iff.2 h1
  have e : Vᴴ * A * V = diagonal (fun i => (hA.eigenvalues i : ℂ)) := by
    conv_lhs => rw [h3]
    calc _ = (Vᴴ * V) * diagonal (fun i => (hA.eigenvalues i : ℂ)) * (Vᴴ * V) := by simp only [Matrix.mul_assoc]
      _ = _ := by rw [h2, Matrix.one_mul, Matrix.mul_one]
  have h := entry_le_op (Vᴴ * A * V) i i
  rw [op_mul_unitary hV, ← star_eq_conjTranspose, op_unitary_mul (Unitary.star_mem hV), star_eq_conjTranspose, e,
    diagonal_apply_eq, norm_real, Real.norm_eq_abs] at h
  exact h

/-- The projection of the flow. -/
theorem flow_link_many {NC : ℕ} (hN : 3 < NC) {link : Arr ℂ} (hU : IsSU NC link) {Z : Arr ℂ}
    {H : Matrix (Fin NC) (Fin NC) ℂ} (hZ : Packs Z H) (α : ℝ) :
    ∃ V, project_STOUT_wflow_short NC Z link α = some V ∧ IsSU NC V ∧ ∀ ρ : ℝ, |α| * ‖H‖ ≤ ρ →
      ‖toM NC V - NormedSpace.exp (I • (α : ℂ) • H) * toM NC link‖ ≤ expErr NC ρ := by
  have hY := packs_scale hN hZ α scratch
  have hr := rebuild_packs hN hY scratch
  have hh : HermTraceless NC (rebuild_hermitian NC scratch (scaleZ NC Z α scratch)) := by
    unfold HermTraceless
    rw [hr]
    exact ⟨hY.1, hY.2.1⟩
  obtain ⟨E, h1, h2, h3⟩ := C20_many_norm hN hh scratch
  obtain ⟨m1, m2⟩ := C11_multab_suNC h2 hU scratch
  refine ⟨multab_suNC NC E link scratch, ?_, m2, fun ρ hρ => ?_⟩
  · unfold project_STOUT_wflow_short exponentiate_short
    rw [if_neg (by omega), if_neg (by omega), h1, Option.map_some]
  · rw [m1, ← Matrix.sub_mul, op_mul_unitary (mem_specialUnitaryGroup_iff.1 hU).1]
    have := h3 ρ (fun k => (eigen_le_norm hh.1 k).trans (le_trans (le_of_eq ?_) hρ))
    · rwa [hr] at this
    · rw [hr, norm_smul, norm_real, Real.norm_eq_abs]

/-! ## Whole fields -/

theorem norm_unit_le {n : ℕ} {A : Matrix (Fin n) (Fin n) ℂ} (hA : A ∈ unitaryGroup (Fin n) ℂ) : ‖A‖ ≤ 1 := by
  have := op_mul_unitary hA 1
  rw [Matrix.one_mul] at this
  rw [this]
  have h := op_conj_diag (n := n) (V := 1) (by simp) (d := fun _ => 1) zero_le_one (fun _ => by simp)
  rwa [diagonal_one, Matrix.one_mul, conjTranspose_one, Matrix.mul_one] at h

/-- Bound on the force. -/
noncomputable def forceMax (L : Latt) : ℝ := 4 * (L.ND - 1 : ℕ)

/-- Lipschitz constant of the force. -/
noncomputable def forceLip (L : Latt) : ℝ := 16 * (L.ND - 1 : ℕ)

theorem norm_force_le {L : Latt} (hL : Valid L) {NC : ℕ} (hN : 0 < NC) {U : MField NC} (hu : UnitF L U) {i mu : ℕ}
    (hi : i < volume L) (hm : mu < L.ND) : ‖force L L.ND U i mu‖ ≤ forceMax L := by
  unfold force forceMax
  refine (norm_lieHerm_le hN _).trans ?_
  unfold stapleM
  rw [← star_eq_conjTranspose, op_mul_unitary (Unitary.star_mem (hu i hi mu hm))]
  have hc : ((Finset.range L.ND).erase mu).card = L.ND - 1 := by
    rw [Finset.card_erase_of_mem (Finset.mem_range.2 hm), Finset.card_range]
  have : ‖∑ nu ∈ (Finset.range L.ND).erase mu, (U i nu * U (neighbor L i nu) mu * (U (neighbor L i mu) nu)ᴴ +
      (U (back L i nu) nu)ᴴ * U (back L i nu) mu * U (neighbor L (back L i nu) mu) nu)‖ ≤
      ((Finset.range L.ND).erase mu).card • (2 : ℝ) := by
    refine norm_sum_le_of_le _ (fun nu hnu => ?_) |>.trans (le_of_eq (by rw [Finset.sum_const]))
    rw [Finset.mem_erase, Finset.mem_range] at hnu
    have hn : nu < L.ND := by omega
    have hb := back_lt hL i hn
    refine (norm_add_le _ _).trans ?_
    have a1 := norm_unit_le (mul_mem (mul_mem (hu i hi nu hn) (hu _ (neighbor_lt hL i hn) mu hm))
      (Unitary.star_mem (hu _ (neighbor_lt hL i hm) nu hn)))
    have a2 := norm_unit_le (mul_mem (mul_mem (Unitary.star_mem (hu _ hb nu hn)) (hu _ hb mu hm))
      (hu _ (neighbor_lt hL (back L i nu) hm) nu hn))
    rw [star_eq_conjTranspose] at a1 a2
    linarith
  rw [hc, nsmul_eq_mul] at this
  linarith

/-- One substep. -/
theorem sim_flow_many {NC : ℕ} (hN : 3 < NC) {L : Latt} (hL : Valid L) {U : Gauge} (hU : SUField NC L U)
    {Z : Loc → Arr ℂ} {H : MField NC} (hZ : ∀ i < volume L, ∀ mu < L.ND, Packs (Z (i, mu)) (H i mu)) (m dt : ℝ) :
    ∃ (V : Gauge) (Z' : Loc → Arr ℂ), simultaneous L L.ND (flowStout NC L m dt) (fun l => some (U l), fun l => some (Z l)) =
        (fun l => some (V l), fun l => some (Z' l)) ∧ SUField NC L V ∧
      (∀ i < volume L, ∀ mu < L.ND, Packs (Z' (i, mu)) (H i mu + (m : ℂ) • force L L.ND (mfield NC U) i mu)) ∧
      ∀ ρ : ℝ, (∀ i < volume L, ∀ mu < L.ND, |dt| * ‖H i mu + (m : ℂ) • force L L.ND (mfield NC U) i mu‖ ≤ ρ) →
      FieldNear L (expErr NC ρ) (mfield NC V) (expUpdate L.ND (fun i mu => (dt : ℂ) • (H i mu +
        (m : ℂ) • force L L.ND (mfield NC U) i mu)) (mfield NC U)) := by
  have hl : ∀ l : Loc, ∃ V Z',
      (simultaneous L L.ND (flowStout NC L m dt) (fun l => some (U l), fun l => some (Z l))).1 l = some V ∧
      (simultaneous L L.ND (flowStout NC L m dt) (fun l => some (U l), fun l => some (Z l))).2 l = some Z' ∧
      (l.1 < volume L ∧ l.2 < L.ND → IsSU NC V ∧
        Packs Z' (H l.1 l.2 + (m : ℂ) • force L L.ND (mfield NC U) l.1 l.2) ∧
        ∀ ρ : ℝ, |dt| * ‖H l.1 l.2 + (m : ℂ) • force L L.ND (mfield NC U) l.1 l.2‖ ≤ ρ →
        ‖toM NC V - expUpdate L.ND (fun i mu => (dt : ℂ) • (H i mu +
          (m : ℂ) • force L L.ND (mfield NC U) i mu)) (mfield NC U) l.1 l.2‖ ≤ expErr NC ρ) := by
    rintro ⟨i, mu⟩
    unfold simultaneous
    dsimp only
    by_cases h : i < volume L ∧ mu < L.ND
    · rw [if_pos h, if_pos h]
      have hm := stapleM_code hL hU h.1 h.2 (le_refl _)
      have hz := packs_set hN (U := multab_dag NC (staple NC L U i mu L.ND) (U (i, mu)) scratch) (hZ i h.1 mu h.2) m
      rw [C10_multab_dag, hm] at hz
      obtain ⟨V, v1, v2, v3⟩ := flow_link_many hN (hU i h.1 mu h.2) hz dt
      refine ⟨V, set_zmatrix NC (Z (i, mu)) (Hermitian_proj_short NC scratch
          (multab_dag NC (staple NC L U i mu L.ND) (U (i, mu)) scratch)) m, ?_, ?_, fun _ => ⟨v2, hz, fun ρ hρ => ?_⟩⟩
      · rw [← v1]
        unfold flowStout flowLink
        dsimp only
        rw [staples_some]
        rfl
      · unfold flowStout flowLink
        dsimp only
        rw [staples_some]
        rfl
      · simp only [expUpdate, if_pos h.2]
        exact v3 ρ hρ
    · rw [if_neg h, if_neg h]
      exact ⟨_, _, rfl, rfl, fun hr => absurd hr h⟩
  choose V Z' h1 h2 h3 using hl
  exact ⟨V, Z', Prod.ext (funext h1) (funext h2), fun i hi mu hmu => (h3 (i, mu) ⟨hi, hmu⟩).1,
    fun i hi mu hmu => (h3 (i, mu) ⟨hi, hmu⟩).2.1,
    fun ρ hρ i hi mu hmu => (h3 (i, mu) ⟨hi, hmu⟩).2.2 ρ (hρ i hi mu hmu)⟩

theorem FieldNear.trans {NC : ℕ} {L : Latt} {δ ε : ℝ} {U V W : MField NC} (h : FieldNear L δ U V) (h' : FieldNear L ε V W) :
    FieldNear L (δ + ε) U W := fun i hi mu hmu =>
  (norm_sub_le_norm_sub_add_norm_sub _ (V i mu) _).trans (add_le_add (h i hi mu hmu) (h' i hi mu hmu))

theorem norm_comb {n : ℕ} {A B C : Matrix (Fin n) (Fin n) ℂ} {a b c : ℝ} (hA : ‖A‖ ≤ a) (hB : ‖B‖ ≤ b) (hC : ‖C‖ ≤ c)
    (x y z t : ℝ) : ‖(t : ℂ) • ((x : ℂ) • A + (y : ℂ) • B + (z : ℂ) • C)‖ ≤ |t| * (|x| * a + |y| * b + |z| * c) := by
  rw [norm_smul, norm_real, Real.norm_eq_abs]
  refine mul_le_mul_of_nonneg_left ((norm_add₃_le).trans ?_) (abs_nonneg _)
  rw [norm_smul, norm_smul, norm_smul, norm_real, norm_real, norm_real, Real.norm_eq_abs, Real.norm_eq_abs,
    Real.norm_eq_abs]
  gcongr

theorem quarter_pos : 0 < quarter := by
  unfold quarter
  norm_num

/-- The exponents of the integrator, with the coefficients of the three forces. -/
noncomputable def comb {NC : ℕ} (t x y z : ℝ) (A B C : MField NC) : MField NC :=
  fun i mu => (t : ℂ) • ((x : ℂ) • A i mu + (y : ℂ) • B i mu + (z : ℂ) • C i mu)

theorem comb_herm {NC : ℕ} {L : Latt} (t x y z : ℝ) (A B C : MField NC) (i mu : ℕ) :
    (comb t x y z (force L L.ND A) (force L L.ND B) (force L L.ND C) i mu).IsHermitian :=
  smul_isHermitian (((smul_isHermitian (lieHerm_isHermitian _) x).add (smul_isHermitian (lieHerm_isHermitian _) y)).add
    (smul_isHermitian (lieHerm_isHermitian _) z)) t

/-- Two updates with forces of near fields. -/
theorem comb_near {NC : ℕ} (hN : 0 < NC) {L : Latt} (hL : Valid L) (t x y z : ℝ) {U0 U1 U2 W0 W1 W2 : MField NC}
    (u0 : UnitF L U0) (u1 : UnitF L U1) (u2 : UnitF L U2) (w0 : UnitF L W0) (w1 : UnitF L W1) (w2 : UnitF L W2)
    {d0 d1 d2 : ℝ} (h0 : FieldNear L d0 U0 W0) (h1 : FieldNear L d1 U1 W1) (h2 : FieldNear L d2 U2 W2)
    (p0 : 0 ≤ d0) (p1 : 0 ≤ d1) (p2 : 0 ≤ d2) {X Y : MField NC} (hX : UnitF L X) {δ : ℝ} (hXY : FieldNear L δ X Y) :
    FieldNear L (|t| * (|x| * (forceLip L * d0) + |y| * (forceLip L * d1) + |z| * (forceLip L * d2)) + δ)
      (expUpdate L.ND (comb t x y z (force L L.ND U0) (force L L.ND U1) (force L L.ND U2)) X)
      (expUpdate L.ND (comb t x y z (force L L.ND W0) (force L L.ND W1) (force L L.ND W2)) Y) := by
  have hp : 0 ≤ forceLip L := by unfold forceLip; positivity
  refine expUpdate_near (comb_herm _ _ _ _ _ _ _) (comb_herm _ _ _ _ _ _ _) hX (by positivity) (fun i hi mu hmu => ?_) hXY
  have e : comb t x y z (force L L.ND U0) (force L L.ND U1) (force L L.ND U2) i mu -
      comb t x y z (force L L.ND W0) (force L L.ND W1) (force L L.ND W2) i mu =
      (t : ℂ) • ((x : ℂ) • (force L L.ND U0 i mu - force L L.ND W0 i mu) +
        (y : ℂ) • (force L L.ND U1 i mu - force L L.ND W1 i mu) +
        (z : ℂ) • (force L L.ND U2 i mu - force L L.ND W2 i mu)) := by
    unfold comb
    module
  rw [e]
  exact norm_comb (force_near hL hN u0 w0 h0 hi hmu le_rfl) (force_near hL hN u1 w1 h1 hi hmu le_rfl)
    (force_near hL hN u2 w2 h2 hi hmu le_rfl) x y z t

/-- The distance after one step of `step_distance`, from a distance `δ` before it. -/
noncomputable def flowErr (NC : ℕ) (L : Latt) (dt δ : ℝ) : ℝ :=
  let δ1 := expErr NC (|dt| * (quarter * forceMax L)) + |dt| * (quarter * (forceLip L * δ)) + δ
  let δ2 := expErr NC (|dt| * (49 / 36 * forceMax L)) +
    |dt| * (17 / 36 * (forceLip L * δ) + 8 / 9 * (forceLip L * δ1)) + δ1
  expErr NC (|dt| * (19 / 9 * forceMax L)) +
    |dt| * (17 / 36 * (forceLip L * δ) + 8 / 9 * (forceLip L * δ1) + 3 / 4 * (forceLip L * δ2)) + δ2

/-- The integrator in terms of `comb`. -/
theorem flowStep_comb {NC : ℕ} (L : Latt) (dt : ℝ) (W : MField NC) :
    flowStep L quarter dt W =
      let F := force (NC := NC) L L.ND
      let W1 := expUpdate L.ND (comb dt quarter 0 0 (F W) (F W) (F W)) W
      let W2 := expUpdate L.ND (comb dt (-(17 / 36)) (8 / 9) 0 (F W) (F W1) (F W1)) W1
      expUpdate L.ND (comb dt (17 / 36) (-(8 / 9)) (3 / 4) (F W) (F W1) (F W2)) W2 := by
  have a1 : ∀ A : MField NC, (fun i mu => (dt * quarter : ℂ) • A i mu) = comb dt quarter 0 0 A A A := fun A => by
    funext i mu
    unfold comb
    push_cast
    module
  have a2 : ∀ A B : MField NC, (fun i mu => (dt : ℂ) • ((8 / 9 : ℂ) • B i mu - (17 / 36 : ℂ) • A i mu)) =
      comb dt (-(17 / 36)) (8 / 9) 0 A B B := fun A B => by
    funext i mu
    unfold comb
    push_cast
    module
  have a3 : ∀ A B C : MField NC, (fun i mu => (dt : ℂ) • ((3 / 4 : ℂ) • C i mu - (8 / 9 : ℂ) • B i mu +
      (17 / 36 : ℂ) • A i mu)) = comb dt (17 / 36) (-(8 / 9)) (3 / 4) A B C := fun A B C => by
    funext i mu
    unfold comb
    push_cast
    module
  unfold flowStep
  dsimp only
  rw [a1, a2, a3]

theorem expErr_nonneg {NC : ℕ} {ρ : ℝ} (h : 0 ≤ ρ) : 0 ≤ expErr NC ρ := by
  unfold expErr
  positivity

/-- Three substeps of either implementation. -/
theorem flow_three_many {NC : ℕ} (hN : 3 < NC) {L : Latt} (hL : Valid L) {U : Gauge} (hU : SUField NC L U)
    (Z : Loc → Arr ℂ) (dt : ℝ) {W : MField NC} (hW : UnitF L W) {δ : ℝ} (hδ : 0 ≤ δ) (hn : FieldNear L δ (mfield NC U) W) :
    ∃ (V : Gauge) (Z' : Loc → Arr ℂ), simultaneous L L.ND (flowStout NC L (-3.0 / 4.0) (-dt)) (simultaneous L L.ND
      (flowStout NC L (8.0 / 9.0) dt) (simultaneous L L.ND (flowStout NC L (-17.0 / 36.0)
        (-0.52941176470588235294 * dt)) (fun l => some (U l), clearZ L fun l => some (Z l)))) =
        (fun l => some (V l), fun l => some (Z' l)) ∧ SUField NC L V ∧
      FieldNear L (flowErr NC L dt δ) (mfield NC V) (flowStep L quarter dt W) := by
  have hN0 : 0 < NC := by omega
  have hK : 0 ≤ forceMax L := by unfold forceMax; positivity
  have hΛ : 0 ≤ forceLip L := by unfold forceLip; positivity
  have hq := quarter_pos
  obtain ⟨Z0, c1, c2⟩ := clearZ_some L Z
  rw [c1]
  have hZ0 : ∀ i < volume L, ∀ mu < L.ND, Packs (Z0 (i, mu)) ((fun _ _ => 0 : MField NC) i mu) := fun i hi mu hmu => by
    rw [c2 i hi mu hmu]
    exact packs_zero NC
  obtain ⟨V1, Z1, e1, s1, k1, w1⟩ := sim_flow_many hN hL hU hZ0 (-17.0 / 36.0) (-0.52941176470588235294 * dt)
  rw [e1]
  obtain ⟨V2, Z2, e2, s2, k2, w2⟩ := sim_flow_many hN hL s1 (H := fun i mu => 0 + ((-17.0 / 36.0 : ℝ) : ℂ) •
    force L L.ND (mfield NC U) i mu) k1 (8.0 / 9.0) dt
  rw [e2]
  obtain ⟨V3, Z3, e3, s3, k3, w3⟩ := sim_flow_many hN hL s2 (H := fun i mu => 0 + ((-17.0 / 36.0 : ℝ) : ℂ) •
    force L L.ND (mfield NC U) i mu + ((8.0 / 9.0 : ℝ) : ℂ) • force L L.ND (mfield NC V1) i mu) k2 (-3.0 / 4.0) (-dt)
  rw [e3]
  refine ⟨V3, Z3, rfl, s3, ?_⟩
  have uU := suField_unit hU
  have u1 := suField_unit s1
  have u2 := suField_unit s2
  have fU := fun i hi mu hmu => norm_force_le (i := i) (mu := mu) hL hN0 uU hi hmu
  have f1 := fun i hi mu hmu => norm_force_le (i := i) (mu := mu) hL hN0 u1 hi hmu
  have f2 := fun i hi mu hmu => norm_force_le (i := i) (mu := mu) hL hN0 u2 hi hmu
  -- the exponents of the code
  have r1 : (-17.0 / 36.0 : ℝ) = -(17 / 36) := by norm_num
  have r2 : (8.0 / 9.0 : ℝ) = 8 / 9 := by norm_num
  have r3 : (-3.0 / 4.0 : ℝ) = -(3 / 4) := by norm_num
  have a0 : (fun i mu => ((-0.52941176470588235294 * dt : ℝ) : ℂ) • ((0 : Matrix (Fin NC) (Fin NC) ℂ) +
      ((-17.0 / 36.0 : ℝ) : ℂ) • force L L.ND (mfield NC U) i mu)) = comb dt quarter 0 0 (force L L.ND (mfield NC U))
      (force L L.ND (mfield NC U)) (force L L.ND (mfield NC U)) := by
    funext i mu
    unfold comb quarter
    rw [r1]
    push_cast
    module
  have a1 : (fun i mu => ((dt : ℝ) : ℂ) • ((0 : Matrix (Fin NC) (Fin NC) ℂ) +
      ((-17.0 / 36.0 : ℝ) : ℂ) • force L L.ND (mfield NC U) i mu + ((8.0 / 9.0 : ℝ) : ℂ) • force L L.ND (mfield NC V1) i mu)) =
      comb dt (-(17 / 36)) (8 / 9) 0 (force L L.ND (mfield NC U)) (force L L.ND (mfield NC V1))
        (force L L.ND (mfield NC V1)) := by
    funext i mu
    unfold comb
    simp only [r1, r2]
    push_cast
    module
  have a2 : (fun i mu => ((-dt : ℝ) : ℂ) • ((0 : Matrix (Fin NC) (Fin NC) ℂ) +
      ((-17.0 / 36.0 : ℝ) : ℂ) • force L L.ND (mfield NC U) i mu + ((8.0 / 9.0 : ℝ) : ℂ) • force L L.ND (mfield NC V1) i mu +
      ((-3.0 / 4.0 : ℝ) : ℂ) • force L L.ND (mfield NC V2) i mu)) =
      comb dt (17 / 36) (-(8 / 9)) (3 / 4) (force L L.ND (mfield NC U)) (force L L.ND (mfield NC V1))
        (force L L.ND (mfield NC V2)) := by
    funext i mu
    unfold comb
    simp only [r1, r2, r3]
    push_cast
    module
  have nrm : ∀ (t : ℝ) (A : Matrix (Fin NC) (Fin NC) ℂ), |t| * ‖A‖ = ‖(t : ℂ) • A‖ := fun t A => by
    rw [norm_smul, norm_real, Real.norm_eq_abs]
  have n1 := w1 (|dt| * (quarter * forceMax L)) (fun i hi mu hmu => by
    rw [nrm, show _ = _ from congrFun (congrFun a0 i) mu]
    refine (norm_comb (fU i hi mu hmu) (fU i hi mu hmu) (fU i hi mu hmu) quarter 0 0 dt).trans (le_of_eq ?_)
    rw [abs_of_pos hq, abs_zero]
    ring)
  have n2 := w2 (|dt| * (49 / 36 * forceMax L)) (fun i hi mu hmu => by
    rw [nrm, show _ = _ from congrFun (congrFun a1 i) mu]
    refine (norm_comb (fU i hi mu hmu) (f1 i hi mu hmu) (f1 i hi mu hmu) _ _ _ dt).trans (le_of_eq ?_)
    rw [abs_neg, abs_zero, abs_of_pos (show (0 : ℝ) < 17 / 36 by norm_num),
      abs_of_pos (show (0 : ℝ) < 8 / 9 by norm_num)]
    ring)
  have n3 := w3 (|dt| * (19 / 9 * forceMax L)) (fun i hi mu hmu => by
    rw [nrm, show _ = _ from congrFun (congrFun a2 i) mu]
    refine (norm_comb (fU i hi mu hmu) (f1 i hi mu hmu) (f2 i hi mu hmu) _ _ _ dt).trans (le_of_eq ?_)
    rw [abs_neg, abs_of_pos (show (0 : ℝ) < 17 / 36 by norm_num), abs_of_pos (show (0 : ℝ) < 8 / 9 by norm_num),
      abs_of_pos (show (0 : ℝ) < 3 / 4 by norm_num)]
    ring)
  rw [a0] at n1
  rw [a1] at n2
  rw [a2] at n3
  rw [flowStep_comb]
  dsimp only
  set W1 := expUpdate L.ND (comb dt quarter 0 0 (force L L.ND W) (force L L.ND W) (force L L.ND W)) W with hW1
  have uW1 : UnitF L W1 := expUpdate_unit (comb_herm _ _ _ _ _ _ _) hW
  set W2 := expUpdate L.ND (comb dt (-(17 / 36)) (8 / 9) 0 (force L L.ND W) (force L L.ND W1) (force L L.ND W1)) W1 with hW2
  have uW2 : UnitF L W2 := expUpdate_unit (comb_herm _ _ _ _ _ _ _) uW1
  unfold flowErr
  dsimp only
  set δ1 := expErr NC (|dt| * (quarter * forceMax L)) + |dt| * (quarter * (forceLip L * δ)) + δ with hδ1
  have pδ1 : 0 ≤ δ1 := by
    have := expErr_nonneg (NC := NC) (ρ := |dt| * (quarter * forceMax L)) (by positivity)
    positivity
  have g1 : FieldNear L δ1 (mfield NC V1) W1 := by
    have := n1.trans (comb_near hN0 hL dt quarter 0 0 uU uU uU hW hW hW hn hn hn hδ hδ hδ uU hn)
    rw [abs_of_pos hq, abs_zero, zero_mul, add_zero, add_zero, ← add_assoc] at this
    exact this
  set δ2 := expErr NC (|dt| * (49 / 36 * forceMax L)) +
    |dt| * (17 / 36 * (forceLip L * δ) + 8 / 9 * (forceLip L * δ1)) + δ1 with hδ2
  have pδ2 : 0 ≤ δ2 := by
    have := expErr_nonneg (NC := NC) (ρ := |dt| * (49 / 36 * forceMax L)) (by positivity)
    positivity
  have g2 : FieldNear L δ2 (mfield NC V2) W2 := by
    have := n2.trans (comb_near hN0 hL dt (-(17 / 36)) (8 / 9) 0 uU u1 u1 hW uW1 uW1 hn g1 g1 hδ pδ1 pδ1 u1 g1)
    rw [abs_neg, abs_zero, zero_mul, add_zero, ← add_assoc, abs_of_pos (show (0 : ℝ) < 17 / 36 by norm_num),
      abs_of_pos (show (0 : ℝ) < 8 / 9 by norm_num)] at this
    exact this
  have := n3.trans (comb_near hN0 hL dt (17 / 36) (-(8 / 9)) (3 / 4) uU u1 u2 hW uW1 uW2 hn g1 g2 hδ pδ1 pδ2 u2 g2)
  rw [abs_neg, ← add_assoc, abs_of_pos (show (0 : ℝ) < 17 / 36 by norm_num),
      abs_of_pos (show (0 : ℝ) < 8 / 9 by norm_num), abs_of_pos (show (0 : ℝ) < 3 / 4 by norm_num)] at this
  exact this

/-- **C68**, the flow for more than three colours: after any number of steps both implementations hold the same field, its
links are special unitary, and each is within `flowErr` applied that often to zero of the third order integrator in the
operator norm. -/
theorem C68_flow_many {NC : ℕ} (hN : 3 < NC) {L : Latt} (hL : Valid L) {U : Gauge} (hU : SUField NC L U) (dt : ℝ) (n : ℕ)
    {s : St (Option (Arr ℂ)) (Option (Arr ℂ))} (hs : s.lat = fun l => some (U l)) {Z : Loc → Arr ℂ}
    (hz : s.z = fun l => some (Z l)) :
    ∃ V, ((step_distance NC L (RK3step L) dt)^[n] s).lat = (fun l => some (V l)) ∧
      ((step_distance NC L (sweep L L.ND) dt)^[n] s).lat = (fun l => some (V l)) ∧ SUField NC L V ∧
      FieldNear L ((flowErr NC L dt)^[n] 0) (mfield NC V) ((flowStep L quarter dt)^[n] (mfield NC U)) := by
  have hr : ∀ m t, Reads L (Adjacent (extent L)) (flowStout NC L m t) := fun m t =>
    (C33_updates_local (M := Option (Arr ℂ)) (Z := Option (Arr ℂ)) hL (opsO NC) id (some (zero_mat NC scratch)) (fun s _ => s)
      (fun z s u => z.bind fun z => s.bind fun s => u.map fun u =>
        set_zmatrix NC z (Hermitian_proj_short NC scratch (multab_dag NC s u scratch)) m)
      (fun z _ => z) (fun z u => z.bind fun z => u.bind fun u => project_STOUT_wflow_short NC z u t)).2.2.1
  have st1 : ∀ s, ((step_distance NC L (RK3step L) dt s).lat, (step_distance NC L (RK3step L) dt s).z) =
      simultaneous L L.ND (flowStout NC L (-3.0 / 4.0) (-dt)) (simultaneous L L.ND
        (flowStout NC L (8.0 / 9.0) dt) (simultaneous L L.ND (flowStout NC L (-17.0 / 36.0)
        (-0.52941176470588235294 * dt)) (s.lat, clearZ L s.z))) := fun s => by
    unfold step_distance
    dsimp only
    rw [RK3step_eq, RK3step_eq, RK3step_eq]
  have st2 : ∀ s, ((step_distance NC L (sweep L L.ND) dt s).lat, (step_distance NC L (sweep L L.ND) dt s).z) =
      simultaneous L L.ND (flowStout NC L (-3.0 / 4.0) (-dt)) (simultaneous L L.ND
        (flowStout NC L (8.0 / 9.0) dt) (simultaneous L L.ND (flowStout NC L (-17.0 / 36.0)
        (-0.52941176470588235294 * dt)) (s.lat, clearZ L s.z))) := fun s => by
    unfold step_distance
    dsimp only
    rw [sweep_eq hL le_rfl (hr _ _), sweep_eq hL le_rfl (hr _ _), sweep_eq hL le_rfl (hr _ _)]
  have hE : ∀ n, 0 ≤ (flowErr NC L dt)^[n] 0 := by
    intro n
    induction n with
    | zero => exact le_rfl
    | succ n ih =>
      rw [Function.iterate_succ_apply']
      have hK : 0 ≤ forceMax L := by unfold forceMax; positivity
      have hΛ : 0 ≤ forceLip L := by unfold forceLip; positivity
      have hq := quarter_pos
      have x1 := expErr_nonneg (NC := NC) (ρ := |dt| * (quarter * forceMax L)) (by positivity)
      have x2 := expErr_nonneg (NC := NC) (ρ := |dt| * (49 / 36 * forceMax L)) (by positivity)
      have x3 := expErr_nonneg (NC := NC) (ρ := |dt| * (19 / 9 * forceMax L)) (by positivity)
      unfold flowErr
      positivity
  have main : ∀ n, ∃ (V : Gauge) (Z' : Loc → Arr ℂ),
      ((step_distance NC L (RK3step L) dt)^[n] s).lat = (fun l => some (V l)) ∧
      ((step_distance NC L (sweep L L.ND) dt)^[n] s).lat = (fun l => some (V l)) ∧
      ((step_distance NC L (RK3step L) dt)^[n] s).z = (fun l => some (Z' l)) ∧
      ((step_distance NC L (sweep L L.ND) dt)^[n] s).z = (fun l => some (Z' l)) ∧ SUField NC L V ∧
      UnitF L ((flowStep L quarter dt)^[n] (mfield NC U)) ∧
      FieldNear L ((flowErr NC L dt)^[n] 0) (mfield NC V) ((flowStep L quarter dt)^[n] (mfield NC U)) := by
    intro n
    induction n with
    | zero => exact ⟨U, Z, hs, hs, hz, hz, hU, suField_unit hU, fun i _ mu _ => by simp⟩
    | succ n ih =>
      obtain ⟨V, Z1, h1, h2, h3, h4, h5, h6, h7⟩ := ih
      obtain ⟨V', Z2, v1, v2, v3⟩ := flow_three_many hN hL h5 Z1 dt h6 (hE n) h7
      simp only [Function.iterate_succ_apply']
      have y1 := st1 ((step_distance NC L (RK3step L) dt)^[n] s)
      have y2 := st2 ((step_distance NC L (sweep L L.ND) dt)^[n] s)
      rw [h1, h3, v1] at y1
      rw [h2, h4, v1] at y2
      refine ⟨V', Z2, congrArg Prod.fst y1, congrArg Prod.fst y2, congrArg Prod.snd y1, congrArg Prod.snd y2, v2, ?_, v3⟩
      rw [flowStep_comb]
      exact expUpdate_unit (comb_herm _ _ _ _ _ _ _) (expUpdate_unit (comb_herm _ _ _ _ _ _ _)
        (expUpdate_unit (comb_herm _ _ _ _ _ _ _) h6))
  obtain ⟨V, _, h1, h2, _, _, h5, _, h7⟩ := main n
  exact ⟨V, h1, h2, h5, h7⟩

theorem flowStep_gauge_iter {L : Latt} (hL : Valid L) {NC : ℕ} {g : ℕ → Matrix (Fin NC) (Fin NC) ℂ} (hg : UnitaryG L g)
    {U V : MField NC} (h : Agree L V (gaugeM L g U)) (q dt : ℝ) (n : ℕ) :
    Agree L ((flowStep L q dt)^[n] V) (gaugeM L g ((flowStep L q dt)^[n] U)) := by
  induction n with
  | zero => exact h
  | succ n ih =>
    rw [Function.iterate_succ_apply', Function.iterate_succ_apply']
    intro i hi mu hmu
    rw [flowStep_congr hL ih q dt i hi mu hmu, flowStep_gauge hL hg _ q dt i hi mu hmu]

/-- **C68**, gauge covariance of the flow for more than three colours, any number of steps, no condition on the field:
flowing and transforming commute up to twice the error of `C68_flow_many`. -/
theorem C68_flow_gauge_many {NC : ℕ} (hN : 3 < NC) {L : Latt} (hL : Valid L) {g : ℕ → Arr ℂ} {U : Gauge}
    (hg : SUGauge NC L g) (hU : SUField NC L U) (dt : ℝ) (n : ℕ) {s s' : St (Option (Arr ℂ)) (Option (Arr ℂ))}
    (hs : s.lat = fun l => some (U l)) {Z Z' : Loc → Arr ℂ} (hz : s.z = fun l => some (Z l))
    (hs' : s'.lat = fun l => some (gtransform NC L g U l)) (hz' : s'.z = fun l => some (Z' l)) :
    ∃ V V', ((step_distance NC L (RK3step L) dt)^[n] s).lat = (fun l => some (V l)) ∧
      ((step_distance NC L (RK3step L) dt)^[n] s').lat = (fun l => some (V' l)) ∧ SUField NC L V ∧ SUField NC L V' ∧
      ∀ i < volume L, ∀ mu < L.ND, ‖mfield NC V' i mu - gaugeM L (fun i => toM NC (g i)) (mfield NC V) i mu‖ ≤
        2 * (flowErr NC L dt)^[n] 0 := by
  obtain ⟨V, v1, _, v2, v3⟩ := C68_flow_many hN hL hU dt n hs hz
  obtain ⟨V', w1, _, w2, w3⟩ := C68_flow_many hN hL (C31_action hL hg hU).1 dt n hs' hz'
  refine ⟨V, V', v1, w1, v2, w2, fun i hi mu hmu => ?_⟩
  have h1 := w3 i hi mu hmu
  rw [flowStep_gauge_iter hL (unitaryG_of_su hg) (mfield_gtransform hL hg hU) quarter dt n i hi mu hmu] at h1
  have h2 := v3 i hi mu hmu
  have hgi : toM NC (g i) ∈ unitaryGroup (Fin NC) ℂ := (mem_specialUnitaryGroup_iff.1 (hg i hi)).1
  have hgn : star (toM NC (g (neighbor L i mu))) ∈ unitaryGroup (Fin NC) ℂ :=
    Unitary.star_mem (mem_specialUnitaryGroup_iff.1 (hg _ (neighbor_lt hL i hmu))).1
  have e : ‖gaugeM L (fun i => toM NC (g i)) ((flowStep L quarter dt)^[n] (mfield NC U)) i mu -
      gaugeM L (fun i => toM NC (g i)) (mfield NC V) i mu‖ =
      ‖(flowStep L quarter dt)^[n] (mfield NC U) i mu - mfield NC V i mu‖ := by
    unfold gaugeM
    rw [← Matrix.sub_mul, ← Matrix.mul_sub, ← star_eq_conjTranspose, op_mul_unitary hgn, op_unitary_mul hgi]
  rw [norm_sub_rev] at h2
  calc _ = ‖(mfield NC V' i mu - gaugeM L (fun i => toM NC (g i)) ((flowStep L quarter dt)^[n] (mfield NC U)) i mu) +
        (gaugeM L (fun i => toM NC (g i)) ((flowStep L quarter dt)^[n] (mfield NC U)) i mu -
        gaugeM L (fun i => toM NC (g i)) (mfield NC V) i mu)‖ := by congr 1; abel
    _ ≤ _ := norm_add_le _ _
    _ ≤ _ := add_le_add h1 (e.trans_le h2)
    _ = _ := by ring

/-- Four colours in four dimensions and steps of a hundredth: one step is exact to eighteen digits. -/
example {L : Latt} (hD : L.ND = 4) : flowErr 4 L (1 / 100) 0 < 1 / 10 ^ 18 := by
  unfold flowErr expErr forceMax forceLip quarter
  rw [hD, abs_of_pos (by norm_num)]
  norm_num

end GLU.Smear
