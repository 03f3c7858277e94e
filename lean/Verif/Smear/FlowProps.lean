import Verif.Smear.StoutGauge
import Verif.Mat.PackProps

/-!
# C68: one step of the Wilson flow
-/

namespace GLU.Smear

open GLU.Geom GLU.Sched GLU.Mat GLU.Field Complex Matrix

/-- The matrix the accumulated packed matrix stands for. -/
noncomputable def zHerm (NC : ℕ) (Z : Arr ℂ) : Arr ℂ :=
  if NC = 3 then arr [((Z 0).re : ℂ), Z 1, Z 2, conj (Z 1), ((Z 0).im : ℂ), Z 3, conj (Z 2), conj (Z 3),
    -((Z 0).re : ℂ) - (Z 0).im]
  else arr [((Z 0).re : ℂ), Z 1, conj (Z 1), -((Z 0).re : ℂ)]

theorem zHerm_herm {NC : ℕ} (hN : NC = 2 ∨ NC = 3) (Z : Arr ℂ) : HermTraceless NC (zHerm NC Z) := by
  rcases hN with rfl | rfl
  · refine ⟨?_, ?_⟩
    · ext i j
      fin_cases i <;> fin_cases j <;> simp [zHerm, arr, toM_apply, conj]
    · simp [Matrix.trace, Fin.sum_univ_two, zHerm, arr, toM_apply]
  · refine ⟨?_, ?_⟩
    · ext i j
      fin_cases i <;> fin_cases j <;> simp [zHerm, arr, toM_apply, conj]
    · simp [Matrix.trace, Fin.sum_univ_three, zHerm, arr, toM_apply]

theorem zHerm_zero {NC : ℕ} (hN : NC = 2 ∨ NC = 3) : toM NC (zHerm NC fun _ => 0) = 0 := by
  rcases hN with rfl | rfl <;>
  · ext i j
    fin_cases i <;> fin_cases j <;> simp [zHerm, arr, toM_apply, conj]

theorem zHerm_set {NC : ℕ} (hN : NC = 2 ∨ NC = 3) (Z : Arr ℂ) {U : Arr ℂ} (hU : QuatForm NC U) (m : ℝ) :
    toM NC (zHerm NC (set_zmatrix NC Z (Hermitian_proj_short NC scratch U) m)) =
      toM NC (zHerm NC Z) + (m : ℂ) • lieHerm (toM NC U) := by
  rw [← C70_hermitian (by omega) scratch hU]
  have hs := C70_hermitian_short (by omega) scratch scratch scratch hU
  have hh := C70_algebra (by omega) scratch hU
  rcases hN with rfl | rfl
  · obtain ⟨i0, h2, h3⟩ := herm2_facts hh
    obtain ⟨p0, p1⟩ := pack2_apply scratch (Hermitian_proj 2 scratch U)
    have s0 := hs 0 (by simp [HERMSIZE]); have s1 := hs 1 (by simp [HERMSIZE])
    rw [p0] at s0; rw [p1] at s1
    have r0 : ((Hermitian_proj 2 scratch U 0).re : ℂ) = Hermitian_proj 2 scratch U 0 :=
      Complex.ext rfl (by simpa using i0.symm)
    ext i j
    fin_cases i <;> fin_cases j <;>
      simp [zHerm, set_zmatrix, arr, toM_apply, conj, s0, s1, h2, h3, r0]
    ring
  · obtain ⟨i0, i4, i8, h3, h6, h7, h8⟩ := herm3_facts hh
    obtain ⟨p0, p1, p2, p3, p4⟩ := pack3_apply scratch (Hermitian_proj 3 scratch U)
    have s0 := hs 0 (by simp [HERMSIZE]); have s1 := hs 1 (by simp [HERMSIZE])
    have s2 := hs 2 (by simp [HERMSIZE]); have s3 := hs 3 (by simp [HERMSIZE])
    have s4 := hs 4 (by simp [HERMSIZE])
    rw [p0] at s0; rw [p1] at s1; rw [p2] at s2; rw [p3] at s3; rw [p4] at s4
    have r0 : ((Hermitian_proj 3 scratch U 0).re : ℂ) = Hermitian_proj 3 scratch U 0 :=
      Complex.ext rfl (by simpa using i0.symm)
    have r4 : ((Hermitian_proj 3 scratch U 4).re : ℂ) = Hermitian_proj 3 scratch U 4 :=
      Complex.ext rfl (by simpa using i4.symm)
    ext i j
    fin_cases i <;> fin_cases j <;>
      simp [zHerm, set_zmatrix, arr, toM_apply, conj, s0, s1, s2, s3, s4, h3, h6, h7, h8, r0, r4, i0, i4]
    ring

/-- The packed exponential of the scaled accumulated matrix. -/
theorem short_scaleZ {NC : ℕ} (hN : NC = 2 ∨ NC = 3) (Z : Arr ℂ) (α : ℝ) (g g' : Arr ℂ) :
    exponentiate_short NC (scaleZ NC Z α g) g' = exponentiate NC (scaleHerm NC α (zHerm NC Z)) g' := by
  have hh := zHerm_herm hN Z
  have hh' := hermTraceless_smul hh (toM_scaleHerm α hh)
  rcases hN with rfl | rfl
  · rw [← C20_short_two hh' scratch g' g']
    simp [exponentiate_short, exponentiate_short2, pack2_apply, scaleZ, scaleHerm, zHerm, arr]
  · rw [← C20_short_three hh' scratch g' g']
    simp [exponentiate_short, exponentiate_short3, pack3_apply, scaleZ, scaleHerm, zHerm, arr]

/-- The projection of the flow, exponential exact. -/
theorem flow_exact {NC : ℕ} (hN : NC = 2 ∨ NC = 3) {link : Arr ℂ} (hU : IsSU NC link) (Z : Arr ℂ) (α : ℝ)
    (hE : ExpExact NC ((α : ℂ) • toM NC (zHerm NC Z))) :
    ∃ V, project_STOUT_wflow_short NC Z link α = some V ∧ IsSU NC V ∧
      toM NC V = NormedSpace.exp (I • (α : ℂ) • toM NC (zHerm NC Z)) * toM NC link := by
  have hh := zHerm_herm hN Z
  have he := toM_scaleHerm α hh
  have hh' := hermTraceless_smul hh he
  obtain ⟨E, h1, h2⟩ := hE _ scratch he
  have hsu : IsSU NC E := by
    unfold IsSU
    rw [h2, ← he]
    exact C20_exp_special_unitary hh'
  obtain ⟨m1, m2⟩ := C11_multab_suNC hsu hU scratch
  refine ⟨multab_suNC NC E link scratch, ?_, m2, by rw [m1, h2]⟩
  unfold project_STOUT_wflow_short
  rw [short_scaleZ hN, h1, Option.map_some]

/-! ## Whole fields -/

/-- The accumulated matrices of a field. -/
noncomputable def zfield (NC : ℕ) (Z : Loc → Arr ℂ) : MField NC := fun i mu => toM NC (zHerm NC (Z (i, mu)))

/-- One substep: accumulate the force, then multiply by the exponential. -/
theorem sim_flow {NC : ℕ} (hN : NC = 2 ∨ NC = 3) {L : Latt} (hL : Valid L) {U : Gauge} (hU : SUField NC L U)
    (Z : Loc → Arr ℂ) (m dt : ℝ)
    (hE : ∀ i < volume L, ∀ mu < L.ND, ExpExact NC ((dt : ℂ) • (zfield NC Z i mu +
      (m : ℂ) • force L L.ND (mfield NC U) i mu))) :
    ∃ V Z', simultaneous L L.ND (flowStout NC L m dt) (fun l => some (U l), fun l => some (Z l)) =
        (fun l => some (V l), fun l => some (Z' l)) ∧ SUField NC L V ∧
      Agree L (zfield NC Z') (fun i mu => zfield NC Z i mu + (m : ℂ) • force L L.ND (mfield NC U) i mu) ∧
      Agree L (mfield NC V) (expUpdate L.ND (fun i mu => (dt : ℂ) • (zfield NC Z i mu +
        (m : ℂ) • force L L.ND (mfield NC U) i mu)) (mfield NC U)) := by
  have hl : ∀ l : Loc, ∃ V Z',
      (simultaneous L L.ND (flowStout NC L m dt) (fun l => some (U l), fun l => some (Z l))).1 l = some V ∧
      (simultaneous L L.ND (flowStout NC L m dt) (fun l => some (U l), fun l => some (Z l))).2 l = some Z' ∧
      (l.1 < volume L ∧ l.2 < L.ND → IsSU NC V ∧
        toM NC (zHerm NC Z') = zfield NC Z l.1 l.2 + (m : ℂ) • force L L.ND (mfield NC U) l.1 l.2 ∧
        toM NC V = expUpdate L.ND (fun i mu => (dt : ℂ) • (zfield NC Z i mu +
          (m : ℂ) • force L L.ND (mfield NC U) i mu)) (mfield NC U) l.1 l.2) := by
    rintro ⟨i, mu⟩
    unfold simultaneous
    dsimp only
    by_cases h : i < volume L ∧ mu < L.ND
    · rw [if_pos h, if_pos h]
      have hS := quat_staple hL hU h.1 h.2 (le_refl _)
      have hm := stapleM_code hL hU h.1 h.2 (le_refl _)
      have hu := hU i h.1 mu h.2
      have hq : QuatForm NC (multab_dag NC (staple NC L U i mu L.ND) (U (i, mu)) scratch) := by
        intro h2
        subst h2
        exact quatForm_mul_dag hS (quatForm_su hu) _ rfl
      have hz := zHerm_set hN (Z (i, mu)) hq m
      rw [C10_multab_dag, hm] at hz
      obtain ⟨V, v1, v2, v3⟩ := flow_exact hN hu (set_zmatrix NC (Z (i, mu)) (Hermitian_proj_short NC scratch
          (multab_dag NC (staple NC L U i mu L.ND) (U (i, mu)) scratch)) m) dt (by
        rw [hz]; exact hE i h.1 mu h.2)
      refine ⟨V, set_zmatrix NC (Z (i, mu)) (Hermitian_proj_short NC scratch
          (multab_dag NC (staple NC L U i mu L.ND) (U (i, mu)) scratch)) m, ?_, ?_, fun _ => ⟨v2, ?_, ?_⟩⟩
      · rw [← v1]
        unfold flowStout flowLink
        dsimp only
        rw [staples_some]
        rfl
      · unfold flowStout flowLink
        dsimp only
        rw [staples_some]
        rfl
      · exact hz
      · rw [v3, hz]
        simp only [expUpdate, if_pos h.2]
        rfl
    · rw [if_neg h, if_neg h]
      exact ⟨_, _, rfl, rfl, fun hr => absurd hr h⟩
  choose V Z' h1 h2 h3 using hl
  exact ⟨V, Z', Prod.ext (funext h1) (funext h2), fun i hi mu hmu => (h3 (i, mu) ⟨hi, hmu⟩).1,
    fun i hi mu hmu => (h3 (i, mu) ⟨hi, hmu⟩).2.1, fun i hi mu hmu => (h3 (i, mu) ⟨hi, hmu⟩).2.2⟩

theorem clearZ_some (L : Latt) (Z : Loc → Arr ℂ) : ∃ Z' : Loc → Arr ℂ,
    clearZ L (fun l => some (Z l)) = (fun l => some (Z' l)) ∧
    ∀ i < volume L, ∀ mu < L.ND, Z' (i, mu) = fun _ => 0 := by
  have key : ∀ n, ∃ Z' : Loc → Arr ℂ, forN n (fun i z => forN L.ND (fun mu z =>
      Function.update z (i, mu) (some fun _ => (0 : ℂ))) z) (fun l => some (Z l)) = (fun l => some (Z' l)) ∧
      ∀ i < n, ∀ mu < L.ND, Z' (i, mu) = fun _ => 0 := by
    intro n
    induction n with
    | zero => exact ⟨Z, rfl, fun i hi => by omega⟩
    | succ n ih =>
      obtain ⟨Z1, h1, h2⟩ := ih
      rw [forN, h1]
      have inner : ∀ d, ∃ Z' : Loc → Arr ℂ, forN d (fun mu z =>
          Function.update z (n, mu) (some fun _ => (0 : ℂ))) (fun l => some (Z1 l)) = (fun l => some (Z' l)) ∧
          (∀ mu < d, Z' (n, mu) = fun _ => 0) ∧ ∀ i < n, ∀ mu < L.ND, Z' (i, mu) = fun _ => 0 := by
        intro d
        induction d with
        | zero => exact ⟨Z1, rfl, fun mu hmu => by omega, h2⟩
        | succ d ihd =>
          obtain ⟨Z2, k1, k2, k3⟩ := ihd
          refine ⟨Function.update Z2 (n, d) fun _ => 0, ?_, fun mu hmu => ?_, fun i hi mu hmu => ?_⟩
          · rw [forN, k1]
            funext l
            by_cases hl : l = (n, d)
            · subst hl; simp
            · rw [Function.update_of_ne hl, Function.update_of_ne hl]
          · by_cases hl : mu = d
            · subst hl; rw [Function.update_self]
            · rw [Function.update_of_ne (by simpa using hl)]; exact k2 mu (by omega)
          · rw [Function.update_of_ne (by intro he; have := (Prod.mk.inj he).1; omega)]
            exact k3 i hi mu hmu
      obtain ⟨Z2, k1, k2, k3⟩ := inner L.ND
      refine ⟨Z2, k1, fun i hi mu hmu => ?_⟩
      by_cases hin : i = n
      · subst hin; exact k2 mu hmu
      · exact k3 i (by omega) mu hmu
  exact key (volume L)

/-- Coefficient of the first substep: the decimal in the source times `17/36`. -/
noncomputable def quarter : ℝ := 0.52941176470588235294 * (17 / 36)

/-- It is a quarter to twenty digits. -/
theorem quarter_close : |quarter - 1 / 4| < 1 / 10 ^ 20 := by
  unfold quarter
  rw [abs_lt]
  constructor <;> norm_num

/-- The exponents of the three substeps of `flowStep`. -/
noncomputable def flowArgs {NC : ℕ} (L : Latt) (quarter dt : ℝ) (U : MField NC) : MField NC × MField NC × MField NC :=
  let Z0 := force L L.ND U
  let A0 : MField NC := fun i mu => (dt * quarter : ℂ) • Z0 i mu
  let W1 := expUpdate L.ND A0 U
  let Z1 := force L L.ND W1
  let A1 : MField NC := fun i mu => (dt : ℂ) • ((8 / 9 : ℂ) • Z1 i mu - (17 / 36 : ℂ) • Z0 i mu)
  let W2 := expUpdate L.ND A1 W1
  let Z2 := force L L.ND W2
  (A0, A1, fun i mu => (dt : ℂ) • ((3 / 4 : ℂ) • Z2 i mu - (8 / 9 : ℂ) • Z1 i mu + (17 / 36 : ℂ) • Z0 i mu))

/-- Three substeps of either implementation, one after the other. -/
theorem flow_three {NC : ℕ} (hN : NC = 2 ∨ NC = 3) {L : Latt} (hL : Valid L) {U : Gauge} (hU : SUField NC L U)
    (Z : Loc → Arr ℂ) (dt : ℝ)
    (hE : ∀ i < volume L, ∀ mu < L.ND, ExpExact NC ((flowArgs L quarter dt (mfield NC U)).1 i mu) ∧
      ExpExact NC ((flowArgs L quarter dt (mfield NC U)).2.1 i mu) ∧
      ExpExact NC ((flowArgs L quarter dt (mfield NC U)).2.2 i mu)) :
    ∃ V, (simultaneous L L.ND (flowStout NC L (-3.0 / 4.0) (-dt)) (simultaneous L L.ND
      (flowStout NC L (8.0 / 9.0) dt) (simultaneous L L.ND (flowStout NC L (-17.0 / 36.0)
        (-0.52941176470588235294 * dt)) (fun l => some (U l), clearZ L fun l => some (Z l))))).1 =
        (fun l => some (V l)) ∧ SUField NC L V ∧ Agree L (mfield NC V) (flowStep L quarter dt (mfield NC U)) := by
  obtain ⟨Z', c1, c2⟩ := clearZ_some L Z
  rw [c1]
  have z0 : ∀ i < volume L, ∀ mu < L.ND, zfield NC Z' i mu = 0 := fun i hi mu hmu => by
    unfold zfield; rw [c2 i hi mu hmu, zHerm_zero hN]
  have a0 : ∀ i < volume L, ∀ mu < L.ND, ((-0.52941176470588235294 * dt : ℝ) : ℂ) • (zfield NC Z' i mu +
      ((-17.0 / 36.0 : ℝ) : ℂ) • force L L.ND (mfield NC U) i mu) =
      (flowArgs L quarter dt (mfield NC U)).1 i mu := fun i hi mu hmu => by
    rw [z0 i hi mu hmu, zero_add, smul_smul]
    unfold flowArgs quarter
    dsimp only
    congr 1
    push_cast
    norm_num
    ring
  obtain ⟨V1, Z1, e1, s1, k1, w1⟩ := sim_flow hN hL hU Z' (-17.0 / 36.0) (-0.52941176470588235294 * dt)
    (fun i hi mu hmu => by rw [a0 i hi mu hmu]; exact (hE i hi mu hmu).1)
  rw [e1]
  have g1 : Agree L (mfield NC V1) (expUpdate L.ND (flowArgs L quarter dt (mfield NC U)).1 (mfield NC U)) := by
    intro i hi mu hmu
    rw [w1 i hi mu hmu]
    unfold expUpdate
    rw [if_pos hmu, if_pos hmu]
    beta_reduce
    rw [a0 i hi mu hmu]
  have a1 : ∀ i < volume L, ∀ mu < L.ND, (dt : ℂ) • (zfield NC Z1 i mu +
      ((8.0 / 9.0 : ℝ) : ℂ) • force L L.ND (mfield NC V1) i mu) =
      (flowArgs L quarter dt (mfield NC U)).2.1 i mu := fun i hi mu hmu => by
    rw [k1 i hi mu hmu]
    beta_reduce
    rw [z0 i hi mu hmu, zero_add, force_congr hL g1 hi hmu (le_refl _)]
    unfold flowArgs
    dsimp only
    congr 1
    rw [sub_eq_add_neg, ← neg_smul, add_comm]
    congr 2 <;> norm_num
  obtain ⟨V2, Z2, e2, s2, k2, w2⟩ := sim_flow hN hL s1 Z1 (8.0 / 9.0) dt
    (fun i hi mu hmu => by rw [a1 i hi mu hmu]; exact (hE i hi mu hmu).2.1)
  rw [e2]
  have g2 : Agree L (mfield NC V2) (expUpdate L.ND (flowArgs L quarter dt (mfield NC U)).2.1
      (expUpdate L.ND (flowArgs L quarter dt (mfield NC U)).1 (mfield NC U))) := by
    intro i hi mu hmu
    rw [w2 i hi mu hmu]
    unfold expUpdate
    rw [if_pos hmu, if_pos hmu, if_pos hmu]
    beta_reduce
    rw [a1 i hi mu hmu, g1 i hi mu hmu]
    unfold expUpdate
    rw [if_pos hmu]
  have a2 : ∀ i < volume L, ∀ mu < L.ND, ((-dt : ℝ) : ℂ) • (zfield NC Z2 i mu +
      ((-3.0 / 4.0 : ℝ) : ℂ) • force L L.ND (mfield NC V2) i mu) =
      (flowArgs L quarter dt (mfield NC U)).2.2 i mu := fun i hi mu hmu => by
    rw [k2 i hi mu hmu]
    beta_reduce
    rw [k1 i hi mu hmu]
    beta_reduce
    rw [z0 i hi mu hmu, zero_add, force_congr hL g1 hi hmu (le_refl _),
      force_congr hL g2 hi hmu (le_refl _)]
    unfold flowArgs
    dsimp only
    rw [Complex.ofReal_neg, neg_smul, ← smul_neg]
    congr 1
    rw [neg_add, neg_add, ← neg_smul, ← neg_smul, ← neg_smul, sub_eq_add_neg, ← neg_smul]
    have n1 : (-((-17.0 / 36.0 : ℝ) : ℂ)) = 17 / 36 := by norm_num
    have n2 : (-((8.0 / 9.0 : ℝ) : ℂ)) = -(8 / 9) := by norm_num
    have n3 : (-((-3.0 / 4.0 : ℝ) : ℂ)) = 3 / 4 := by norm_num
    rw [n1, n2, n3]
    abel
  obtain ⟨V3, Z3, e3, s3, k3, w3⟩ := sim_flow hN hL s2 Z2 (-3.0 / 4.0) (-dt)
    (fun i hi mu hmu => by rw [a2 i hi mu hmu]; exact (hE i hi mu hmu).2.2)
  rw [e3]
  refine ⟨V3, rfl, s3, fun i hi mu hmu => ?_⟩
  rw [w3 i hi mu hmu]
  unfold expUpdate
  rw [if_pos hmu]
  beta_reduce
  rw [a2 i hi mu hmu, g2 i hi mu hmu]
  unfold flowStep flowArgs expUpdate
  simp only [if_pos hmu]

/-- **C68**, the flow: where the exponential is exact, `step_distance` is one step of the third
order integrator on a special unitary field. -/
theorem C68_flow_step_partial {NC : ℕ} (hN : NC = 2 ∨ NC = 3) {L : Latt} (hL : Valid L) {U : Gauge}
    (hU : SUField NC L U) (dt : ℝ)
    (hE : ∀ i < volume L, ∀ mu < L.ND, ExpExact NC ((flowArgs L quarter dt (mfield NC U)).1 i mu) ∧
      ExpExact NC ((flowArgs L quarter dt (mfield NC U)).2.1 i mu) ∧
      ExpExact NC ((flowArgs L quarter dt (mfield NC U)).2.2 i mu))
    {s : St (Option (Arr ℂ)) (Option (Arr ℂ))} (hs : s.lat = fun l => some (U l)) {Z : Loc → Arr ℂ}
    (hz : s.z = fun l => some (Z l)) :
    ∃ V, (step_distance NC L (RK3step L) dt s).lat = (fun l => some (V l)) ∧
      (step_distance NC L (sweep L L.ND) dt s).lat = (fun l => some (V l)) ∧ SUField NC L V ∧
      Agree L (mfield NC V) (flowStep L quarter dt (mfield NC U)) := by
  obtain ⟨V, v1, v2, v3⟩ := flow_three hN hL hU Z dt hE
  have hr : ∀ m t, Reads L (Adjacent (extent L)) (flowStout NC L m t) := fun m t =>
    (C33_updates_local (M := Option (Arr ℂ)) (Z := Option (Arr ℂ)) hL (opsO NC) id (some (zero_mat NC scratch)) (fun s _ => s)
      (fun z s u => z.bind fun z => s.bind fun s => u.map fun u =>
        set_zmatrix NC z (Hermitian_proj_short NC scratch (multab_dag NC s u scratch)) m)
      (fun z _ => z) (fun z u => z.bind fun z => u.bind fun u => project_STOUT_wflow_short NC z u t)).2.2.1
  refine ⟨V, ?_, ?_, v2, v3⟩
  · rw [← v1, ← hs, ← hz]
    unfold step_distance
    dsimp only
    have h1 := RK3step_eq L (flowStout NC L (-17.0 / 36.0) (-0.52941176470588235294 * dt))
      { s with z := clearZ L s.z }
    rw [← h1, ← RK3step_eq, ← RK3step_eq]
  · rw [← v1, ← hs, ← hz]
    unfold step_distance
    dsimp only
    have h1 := sweep_eq hL le_rfl (hr (-17.0 / 36.0) (-0.52941176470588235294 * dt)) { s with z := clearZ L s.z }
    rw [← h1, ← sweep_eq hL le_rfl (hr _ _), ← sweep_eq hL le_rfl (hr _ _)]

/-! ## Gauge covariance -/

/-- A relation between fields kept by the force, by linear combinations and by the update is kept
by a flow step. -/
theorem flowStep_rel {L : Latt} {NC : ℕ} {RF RU : MField NC → MField NC → Prop}
    (hf : ∀ {U V}, RU U V → RF (force L L.ND U) (force L L.ND V))
    (hs : ∀ (c : ℂ) {A B : MField NC}, RF A B → RF (fun i mu => c • A i mu) (fun i mu => c • B i mu))
    (ha : ∀ {A B A' B' : MField NC}, RF A B → RF A' B' →
      RF (fun i mu => A i mu + A' i mu) (fun i mu => B i mu + B' i mu))
    (hd : ∀ {A B A' B' : MField NC}, RF A B → RF A' B' →
      RF (fun i mu => A i mu - A' i mu) (fun i mu => B i mu - B' i mu))
    (hu : ∀ {A B U V : MField NC}, RF A B → RU U V → RU (expUpdate L.ND A U) (expUpdate L.ND B V))
    {U V : MField NC} (h : RU U V) (q dt : ℝ) : RU (flowStep L q dt U) (flowStep L q dt V) := by
  have f0 := hf h
  have w1 := hu (hs (dt * q : ℂ) f0) h
  have f1 := hf w1
  have w2 := hu (hs (dt : ℂ) (hd (hs (8 / 9 : ℂ) f1) (hs (17 / 36 : ℂ) f0))) w1
  have f2 := hf w2
  exact hu (hs (dt : ℂ) (ha (hd (hs (3 / 4 : ℂ) f2) (hs (8 / 9 : ℂ) f1)) (hs (17 / 36 : ℂ) f0))) w2

theorem flowStep_congr {L : Latt} (hL : Valid L) {NC : ℕ} {U V : MField NC} (h : Agree L U V) (q dt : ℝ) :
    Agree L (flowStep L q dt U) (flowStep L q dt V) := by
  refine flowStep_rel (RF := Agree L) (RU := Agree L) (fun h i hi mu hmu => force_congr hL h hi hmu (le_refl _))
    (fun c A B h i hi mu hmu => ?_) (fun {A B A' B'} h h' i hi mu hmu => ?_)
    (fun {A B A' B'} h h' i hi mu hmu => ?_) (fun {A B U V} h h' i hi mu hmu => ?_) h q dt
  · beta_reduce; rw [h i hi mu hmu]
  · beta_reduce; rw [h i hi mu hmu, h' i hi mu hmu]
  · beta_reduce; rw [h i hi mu hmu, h' i hi mu hmu]
  · unfold expUpdate; rw [h i hi mu hmu, h' i hi mu hmu]

theorem flowStep_gauge {L : Latt} (hL : Valid L) {NC : ℕ} {g : ℕ → Matrix (Fin NC) (Fin NC) ℂ}
    (hg : UnitaryG L g) (U : MField NC) (q dt : ℝ) :
    Agree L (flowStep L q dt (gaugeM L g U)) (gaugeM L g (flowStep L q dt U)) := by
  refine flowStep_rel (RF := fun A B => Agree L B fun i mu => g i * A i mu * (g i)ᴴ)
    (RU := fun A B => Agree L B (gaugeM L g A)) (fun h i hi mu hmu => ?_)
    (fun c A B h i hi mu hmu => ?_) (fun {A B A' B'} h h' i hi mu hmu => ?_)
    (fun {A B A' B'} h h' i hi mu hmu => ?_) (fun {A B U V} h h' => expUpdate_gauge hg h h' L.ND)
    (fun _ _ _ _ => rfl) q dt
  · rw [force_congr hL h hi hmu (le_refl _), force_gauge hL hg _ hi hmu (le_refl _)]
  · beta_reduce; rw [h i hi mu hmu, Matrix.mul_smul, Matrix.smul_mul]
  · beta_reduce; rw [h i hi mu hmu, h' i hi mu hmu, Matrix.mul_add, Matrix.add_mul]
  · beta_reduce; rw [h i hi mu hmu, h' i hi mu hmu, Matrix.mul_sub, Matrix.sub_mul]

/-- The exponential is exact in all three substeps of a flow step. -/
def FlowExact (NC : ℕ) (L : Latt) (dt : ℝ) (U : MField NC) : Prop :=
  ∀ i < volume L, ∀ mu < L.ND, ExpExact NC ((flowArgs L quarter dt U).1 i mu) ∧
    ExpExact NC ((flowArgs L quarter dt U).2.1 i mu) ∧ ExpExact NC ((flowArgs L quarter dt U).2.2 i mu)

theorem agree_link {NC : ℕ} {L : Latt} {U V : Gauge} (h : Agree L (mfield NC U) (mfield NC V)) :
    ∀ i < volume L, ∀ mu < L.ND, link NC U i mu = link NC V i mu := h

/-- Fields with the same links have the same average plaquette. -/
theorem agree_plaquette {NC : ℕ} (hN : 1 ≤ NC) {L : Latt} (hL : Valid L) {U V : Gauge} (hU : SUField NC L U)
    (hV : SUField NC L V) (h : Agree L (mfield NC U) (mfield NC V)) : av_plaquette NC L U = av_plaquette NC L V := by
  have hl := agree_link h
  have hs : ∀ i ∈ Finset.range (volume L), ∀ mu ∈ Finset.range L.ND, ∀ nu ∈ Finset.range mu,
      square NC L U i mu nu = square NC L V i mu nu := by
    intro i hi mu hmu nu hnu
    rw [Finset.mem_range] at hi hmu hnu
    have hn : nu < L.ND := by omega
    unfold square
    rw [hl i hi mu hmu, hl _ (neighbor_lt hL i hmu) nu hn, hl _ (neighbor_lt hL i hn) mu hmu, hl i hi nu hn]
  have hsum : (∑ i ∈ Finset.range (volume L), ∑ mu ∈ Finset.range L.ND, ∑ nu ∈ Finset.range mu,
        (Matrix.trace (square NC L U i mu nu)).re / NC) =
      ∑ i ∈ Finset.range (volume L), ∑ mu ∈ Finset.range L.ND, ∑ nu ∈ Finset.range mu,
        (Matrix.trace (square NC L V i mu nu)).re / NC :=
    Finset.sum_congr rfl fun i hi => Finset.sum_congr rfl fun mu hmu => Finset.sum_congr rfl fun nu hnu => by
      rw [hs i hi mu hmu nu hnu]
  rw [C29_average hN hL hU, C29_average hN hL hV, hsum]

theorem flow_agree {NC : ℕ} {L : Latt} (hL : Valid L) {g : ℕ → Arr ℂ} {U V V' : Gauge}
    (hg : SUGauge NC L g) (hU : SUField NC L U) (hV : SUField NC L V) (q dt : ℝ)
    (v3 : Agree L (mfield NC V) (flowStep L q dt (mfield NC U)))
    (w3 : Agree L (mfield NC V') (flowStep L q dt (mfield NC (gtransform NC L g U)))) :
    Agree L (mfield NC V') (mfield NC (gtransform NC L g V)) := by
  intro i hi mu hmu
  rw [w3 i hi mu hmu, flowStep_congr hL (mfield_gtransform hL hg hU) q dt i hi mu hmu,
    flowStep_gauge hL (unitaryG_of_su hg) (mfield NC U) q dt i hi mu hmu,
    mfield_gtransform hL hg hV i hi mu hmu]
  unfold gaugeM
  rw [v3 i hi mu hmu]

/-- **C68**, gauge covariance of the flow: where the exponential is exact, a flow step of the
transformed field gives the transformed flowed field, and the average plaquette measured on it is
the same number. -/
theorem C68_flow_gauge_partial {NC : ℕ} (hN : NC = 2 ∨ NC = 3) {L : Latt} (hL : Valid L) {g : ℕ → Arr ℂ} {U : Gauge}
    (hg : SUGauge NC L g) (hU : SUField NC L U) (dt : ℝ)
    (hE : FlowExact NC L dt (mfield NC U)) (hE' : FlowExact NC L dt (mfield NC (gtransform NC L g U)))
    {s s' : St (Option (Arr ℂ)) (Option (Arr ℂ))} {Z Z' : Loc → Arr ℂ}
    (hs : s.lat = fun l => some (U l)) (hz : s.z = fun l => some (Z l))
    (hs' : s'.lat = fun l => some (gtransform NC L g U l)) (hz' : s'.z = fun l => some (Z' l)) :
    ∃ V V', (step_distance NC L (RK3step L) dt s).lat = (fun l => some (V l)) ∧
      (step_distance NC L (RK3step L) dt s').lat = (fun l => some (V' l)) ∧
      Agree L (mfield NC V') (mfield NC (gtransform NC L g V)) ∧
      av_plaquette NC L V' = av_plaquette NC L V := by
  obtain ⟨V, v1, _, v2, v3⟩ := C68_flow_step_partial hN hL hU dt hE hs hz
  obtain ⟨V', w1, _, w2, w3⟩ := C68_flow_step_partial hN hL (C31_action hL hg hU).1 dt hE' hs' hz'
  have ha := flow_agree hL hg hU v2 quarter dt v3 w3
  exact ⟨V, V', v1, w1, ha, (agree_plaquette (by omega) hL w2 (C31_action hL hg v2).1 ha).trans
    (C29_gauge_invariant hL hg v2).1⟩

/-! ## Pure gauge fields do not move -/

theorem lieHerm_of_herm {n : ℕ} {A : Matrix (Fin n) (Fin n) ℂ} (h : Aᴴ = A) : lieHerm A = 0 := by
  unfold lieHerm
  rw [h]
  simp

/-- The force on a pure gauge field is zero. -/
theorem force_pure_gauge {L : Latt} (hL : Valid L) {NC : ℕ} {g : ℕ → Matrix (Fin NC) (Fin NC) ℂ} (hg : UnitaryG L g)
    {i mu dir : ℕ} (hi : i < volume L) (hmu : mu < L.ND) (hdir : dir ≤ L.ND) :
    force L dir (gaugeM L g fun _ _ => 1) i mu = 0 := by
  rw [force_gauge hL hg _ hi hmu hdir]
  have : force L dir (fun _ _ => (1 : Matrix (Fin NC) (Fin NC) ℂ)) i mu = 0 := by
    unfold force
    refine lieHerm_of_herm ?_
    unfold stapleM
    simp only [conjTranspose_one, Matrix.mul_one]
    rw [conjTranspose_sum]
    refine Finset.sum_congr rfl fun nu _ => ?_
    rw [conjTranspose_add, conjTranspose_one]
  rw [this]
  simp

/-- **C68**: stout smearing leaves a pure gauge field unchanged, however often it is applied. -/
theorem C68_pure_gauge {NC : ℕ} (hN : NC = 2 ∨ NC = 3) {L : Latt} (hL : Valid L) {g : ℕ → Arr ℂ} (hg : SUGauge NC L g)
    {U : Gauge} (hp : Agree L (mfield NC U) (gaugeM L (fun i => toM NC (g i)) fun _ _ => 1))
    (α al : ℝ) (smiters : ℕ) {s : St (Option (Arr ℂ)) Unit} (hs : s.lat = fun l => some (U l)) :
    ∃ V, (smear4D L (stoutLink NC L α al L.ND) smiters s).lat = (fun l => some (V l)) ∧
      Agree L (mfield NC V) (mfield NC U) := by
  have hU : SUField NC L U := by
    intro i hi mu hmu
    have := hp i hi mu hmu
    unfold mfield gaugeM at this
    unfold IsSU
    rw [this, Matrix.mul_one]
    exact isSU_mul (hg i hi) (isSU_star (hg _ (neighbor_lt hL i hmu)))
  have hz : ∀ {W : MField NC}, Agree L W (gaugeM L (fun i => toM NC (g i)) fun _ _ => 1) →
      ∀ i < volume L, ∀ mu < L.ND, force L L.ND W i mu = 0 := fun hW i hi mu hmu => by
    rw [force_congr hL hW hi hmu (le_refl _), force_pure_gauge hL (unitaryG_of_su hg) hi hmu (le_refl _)]
  have hit : ∀ k, Agree L ((stoutSmear L L.ND α)^[k] (mfield NC U)) (mfield NC U) := by
    intro k
    induction k with
    | zero => exact fun _ _ _ _ => rfl
    | succ k ih =>
      rw [Function.iterate_succ_apply']
      intro i hi mu hmu
      rw [stoutSmear_congr hL ih (le_refl _) α i hi mu hmu]
      simp only [stoutSmear, expUpdate, if_pos hmu, hz hp i hi mu hmu, smul_zero, NormedSpace.exp_zero, one_mul]
  obtain ⟨V, v1, _, v3⟩ := C68_smear4D_partial (by omega) hL hU α al smiters (fun k _ i hi mu hmu => by
    rw [hz (fun i hi mu hmu => (hit k i hi mu hmu).trans (hp i hi mu hmu)) i hi mu hmu, smul_zero]
    rcases hN with rfl | rfl
    · exact expExact_two_zero
    · exact expExact_three_zero) hs
  exact ⟨V, v1, fun i hi mu hmu => (v3 i hi mu hmu).trans (hit smiters i hi mu hmu)⟩

/-! ## Non-vacuity -/

theorem separated_two {A : Matrix (Fin 2) (Fin 2) ℂ} (hA : A.IsHermitian) (hT : Matrix.trace A = 0) {r : ℝ}
    (hr : 0 ≤ r) (h : A * A = ((r * r : ℝ) : ℂ) • 1) : Separated hA (2 * r) := by
  obtain ⟨V, h1, h2, h3⟩ := herm_diag hA
  set e := hA.eigenvalues with he
  have hsum : e 0 + e 1 = 0 := by
    have := hT
    rw [h3, Matrix.trace_mul_comm, ← Matrix.mul_assoc, h2, Matrix.one_mul, trace_diagonal, Fin.sum_univ_two] at this
    exact_mod_cast this
  have hd : diagonal (fun i => (e i : ℂ) * (e i : ℂ)) = ((r * r : ℝ) : ℂ) • (1 : Matrix (Fin 2) (Fin 2) ℂ) := by
    rw [h3] at h
    have := congrArg (fun M => Vᴴ * M * V) h
    simp only [Matrix.mul_assoc, h2, Matrix.mul_one, Matrix.mul_smul, Matrix.smul_mul, Matrix.one_mul] at this
    simp only [← Matrix.mul_assoc, h2, Matrix.one_mul] at this
    rw [diagonal_mul_diagonal] at this
    exact this
  have hsq : e 0 * e 0 = r * r := by
    have := congrFun (congrFun hd 0) 0
    rw [diagonal_apply_eq, Matrix.smul_apply, Matrix.one_apply_eq, smul_eq_mul, mul_one] at this
    exact_mod_cast this
  have habs : |e 0| = r := by
    rw [← abs_of_nonneg hr]
    exact sq_eq_sq_iff_abs_eq_abs _ _ |>.1 (by rw [sq, sq]; exact hsq)
  have h01 : 2 * r ≤ |e 0 - e 1| := by
    rw [show e 1 = -e 0 by linarith, sub_neg_eq_add, ← two_mul, abs_mul, habs]; simp
  intro i j hij
  fin_cases i <;> fin_cases j <;> simp at hij ⊢
  · exact h01
  · rw [abs_sub_comm]; exact h01

/-- **C68**: the packed form used by the logarithmic flow loses nothing: the matrix rebuilt from it is the
traceless Hermitian matrix that was packed. -/
theorem C68_short_log {NC : ℕ} (hN : 2 ≤ NC) {Q : Arr ℂ} (hQ : HermTraceless NC Q) (a p : Arr ℂ) :
    toM NC (rebuild_hermitian NC a (make_short_log NC p Q)) = toM NC Q := by
  rw [← C13_rebuild_pack hN hQ a p]
  have hp : ∀ r c, r < NC - 1 → r ≤ c → c < NC → _ := fun r c h1 h2 h3 => pack_apply NC p Q h1 h2 h3
  unfold make_short_log
  split_ifs with h3 h2
  · subst h3
    have p0 := hp 0 0; have p1 := hp 0 1; have p2 := hp 0 2; have p3 := hp 1 1; have p4 := hp 1 2
    simp [off] at p0 p1 p2 p3 p4
    simp [rebuild_hermitian, rebuild_hermitian3, arr, p0, p1, p2, p3, p4]
  · subst h2
    have p0 := hp 0 0; have p1 := hp 0 1
    simp [off] at p0 p1
    simp [rebuild_hermitian, rebuild_hermitian2, arr, p0, p1]
  · rfl

end GLU.Smear
