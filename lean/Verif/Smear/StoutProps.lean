import Verif.Smear.StoutLemmas

/-!
# C68: stout smearing and the Wilson flow step

The specification is in terms of matrices: the smeared link is `exp( i α F ) U` with the force
`F` the traceless Hermitian part of `S U† / i`, `S` the staple.
-/

namespace GLU.Smear

open GLU.Geom GLU.Sched GLU.Mat GLU.Field Complex Matrix

/-! ## Specification -/

/-- A field of matrices: site, direction. -/
abbrev MField (NC : ℕ) := ℕ → ℕ → Matrix (Fin NC) (Fin NC) ℂ

/-- The sum over the other directions of the two three-link paths around the link. -/
def stapleM {NC : ℕ} (L : Latt) (dir : ℕ) (U : MField NC) (i mu : ℕ) : Matrix (Fin NC) (Fin NC) ℂ :=
  ∑ nu ∈ (Finset.range dir).erase mu,
    (U i nu * U (neighbor L i nu) mu * (U (neighbor L i mu) nu)ᴴ +
      (U (back L i nu) nu)ᴴ * U (back L i nu) mu * U (neighbor L (back L i nu) mu) nu)

/-- The force on a link. -/
noncomputable def force {NC : ℕ} (L : Latt) (dir : ℕ) (U : MField NC) : MField NC := fun i mu =>
  lieHerm (stapleM L dir U i mu * (U i mu)ᴴ)

/-- Every link in the first `dir` directions multiplied by `exp( i A )`. -/
noncomputable def expUpdate {NC : ℕ} (dir : ℕ) (A U : MField NC) : MField NC := fun i mu =>
  if mu < dir then NormedSpace.exp (I • A i mu) * U i mu else U i mu

/-- One iteration of stout smearing. -/
noncomputable def stoutSmear {NC : ℕ} (L : Latt) (dir : ℕ) (α : ℝ) (U : MField NC) : MField NC :=
  expUpdate dir (fun i mu => (α : ℂ) • force L dir U i mu) U

/-- Gauge transformation. -/
def gaugeM {NC : ℕ} (L : Latt) (g : ℕ → Matrix (Fin NC) (Fin NC) ℂ) (U : MField NC) : MField NC :=
  fun i mu => g i * U i mu * (g (neighbor L i mu))ᴴ

/-- One step of the third order Runge-Kutta integrator for `dU/dt = i F(U) U` (Luescher, JHEP
1008 (2010) 071, appendix C). -/
noncomputable def flowStep {NC : ℕ} (L : Latt) (quarter : ℝ) (dt : ℝ) (U : MField NC) : MField NC :=
  let Z0 := force L L.ND U
  let W1 := expUpdate L.ND (fun i mu => (dt * quarter : ℂ) • Z0 i mu) U
  let Z1 := force L L.ND W1
  let W2 := expUpdate L.ND (fun i mu => (dt : ℂ) • ((8 / 9 : ℂ) • Z1 i mu - (17 / 36 : ℂ) • Z0 i mu)) W1
  let Z2 := force L L.ND W2
  expUpdate L.ND (fun i mu => (dt : ℂ) • ((3 / 4 : ℂ) • Z2 i mu - (8 / 9 : ℂ) • Z1 i mu +
    (17 / 36 : ℂ) • Z0 i mu)) W2

/-! ## One link -/

/-- **C68**, three colours: for a special unitary link and any staple the projection is defined
and every entry is within `2*10^-16` of `exp( i α F ) U`; it equals it, and is special unitary,
when the eigenvalues of the exponent are not closer than `1/10`. Missing for equality: the
series of the exponential for near eigenvalues. -/
theorem C68_link_three_partial {link : Arr ℂ} (hU : IsSU 3 link) (staple : Arr ℂ) (α al : ℝ) :
    ∃ V, project_STOUT 3 staple link α al = some V ∧
      (∀ i j, ‖toM 3 V i j - (NormedSpace.exp (I • (α : ℂ) • lieHerm (toM 3 staple * (toM 3 link)ᴴ)) *
        toM 3 link) i j‖ ≤ 2 / 10 ^ 16) ∧
      ∀ h : ((α : ℂ) • lieHerm (toM 3 staple * (toM 3 link)ᴴ)).IsHermitian, Separated h (1 / 10) →
        toM 3 V = NormedSpace.exp (I • (α : ℂ) • lieHerm (toM 3 staple * (toM 3 link)ᴴ)) * toM 3 link ∧
        IsSU 3 V := by
  have hq : QuatForm 3 (multab_dag 3 staple link fun _ => 0) := fun h => by omega
  obtain ⟨he, hh⟩ := toM_expArg (by norm_num) α al hq
  obtain ⟨E, h1, h2, h3⟩ := C20_three_partial hh (multab_dag 3 staple link fun _ => 0)
  rw [he] at h2
  have hsu := C20_exp_special_unitary hh
  rw [he] at hsu
  refine ⟨multab_suNC 3 E link scratch, ?_, fun i j => ?_, fun h hs => ?_⟩
  · unfold expArg at h1
    simp only [project_STOUT, h1, Option.map_some]
  · refine (suMul3_close scratch (by norm_num) hsu hU h2 i j).trans (by norm_num)
  · obtain ⟨e1, e2⟩ := h3 (separated_congr he.symm h hh.1 hs)
    rw [he] at e1
    obtain ⟨m1, m2⟩ := C11_multab_suNC e2 hU scratch
    exact ⟨by rw [m1, e1], m2⟩

/-- **C68**, two colours: as `C68_link_three_partial`, for a staple that is a real combination of special
unitary matrices; the tolerance is that of the two colour exponential. -/
theorem C68_link_two_partial {link : Arr ℂ} (hU : IsSU 2 link) {staple : Arr ℂ} (hS : QuatForm 2 staple) (α al : ℝ) :
    ∃ V, project_STOUT 2 staple link α al = some V ∧
      (∀ i j, ‖toM 2 V i j - (NormedSpace.exp (I • (α : ℂ) • lieHerm (toM 2 staple * (toM 2 link)ᴴ)) *
        toM 2 link) i j‖ ≤ 4 / 10 ^ 9) ∧
      ∀ h : ((α : ℂ) • lieHerm (toM 2 staple * (toM 2 link)ᴴ)).IsHermitian, Separated h (2 / 10 ^ 4) →
        toM 2 V = NormedSpace.exp (I • (α : ℂ) • lieHerm (toM 2 staple * (toM 2 link)ᴴ)) * toM 2 link ∧
        IsSU 2 V := by
  have hq : QuatForm 2 (multab_dag 2 staple link fun _ => 0) := quatForm_mul_dag hS (quatForm_su hU) _
  obtain ⟨he, hh⟩ := toM_expArg (by norm_num) α al hq
  obtain ⟨E, h1, h2, h3⟩ := C20_two_partial hh (multab_dag 2 staple link fun _ => 0)
  rw [he] at h2
  have hsu := C20_exp_special_unitary hh
  rw [he] at hsu
  refine ⟨multab_suNC 2 E link scratch, ?_, fun i j => ?_, fun h hs => ?_⟩
  · unfold expArg at h1
    simp only [project_STOUT, h1, Option.map_some]
  · refine (suMul2_close scratch hsu hU h2 i j).trans (by norm_num)
  · obtain ⟨e1, e2⟩ := h3 (separated_congr he.symm h hh.1 hs)
    rw [he] at e1
    obtain ⟨m1, m2⟩ := C11_multab_suNC e2 hU scratch
    exact ⟨by rw [m1, e1], m2⟩

/-- **C68**, more than three colours: the projected link is special unitary. Missing: the
distance of the exponential from the routine's result. -/
theorem C68_link_many_partial {NC : ℕ} (hN : 3 < NC) {link : Arr ℂ} (hU : IsSU NC link) (staple : Arr ℂ)
    (α al : ℝ) : ∃ V, project_STOUT NC staple link α al = some V ∧ IsSU NC V := by
  have hq : QuatForm NC (multab_dag NC staple link fun _ => 0) := fun h => by omega
  obtain ⟨he, hh⟩ := toM_expArg (by omega) α al hq
  obtain ⟨E, h1, h2⟩ := C20_many_partial hN hh (multab_dag NC staple link fun _ => 0)
  refine ⟨multab_suNC NC E link scratch, ?_, (C11_multab_suNC h2 hU scratch).2⟩
  unfold expArg at h1
  simp only [project_STOUT, h1, Option.map_some]

/-! ## Whole fields -/

/-- The matrices of a field in memory. -/
def mfield (NC : ℕ) (U : Gauge) : MField NC := fun i mu => toM NC (U (i, mu))

/-- Two fields agree on the links of the lattice. -/
def Agree {NC : ℕ} (L : Latt) (U V : MField NC) : Prop := ∀ i < volume L, ∀ mu < L.ND, U i mu = V i mu

theorem stapleM_code {L : Latt} (hL : Valid L) {NC : ℕ} {U : Gauge} (hU : SUField NC L U) {i mu dir : ℕ}
    (hi : i < volume L) (hmu : mu < dir) (hdir : dir ≤ L.ND) :
    toM NC (staple NC L U i mu dir) = stapleM L dir (mfield NC U) i mu :=
  C32_staple hL hU hi hmu hdir

theorem force_congr {L : Latt} (hL : Valid L) {NC : ℕ} {U V : MField NC} (h : Agree L U V) {i mu dir : ℕ}
    (hi : i < volume L) (hmu : mu < L.ND) (hdir : dir ≤ L.ND) : force L dir U i mu = force L dir V i mu := by
  unfold force stapleM
  rw [h i hi mu hmu]
  congr 2
  refine Finset.sum_congr rfl fun nu hnu => ?_
  rw [Finset.mem_erase, Finset.mem_range] at hnu
  have hn : nu < L.ND := by omega
  have hb := back_lt hL i hn
  rw [h i hi nu hn, h _ (neighbor_lt hL i hn) mu hmu, h _ (neighbor_lt hL i hmu) nu hn, h _ hb nu hn,
    h _ hb mu hmu, h _ (neighbor_lt hL _ hmu) nu hn]

theorem stoutSmear_congr {L : Latt} (hL : Valid L) {NC : ℕ} {U V : MField NC} (h : Agree L U V) {dir : ℕ}
    (hdir : dir ≤ L.ND) (α : ℝ) : Agree L (stoutSmear L dir α U) (stoutSmear L dir α V) := by
  intro i hi mu hmu
  unfold stoutSmear expUpdate
  simp only [force_congr hL h hi hmu hdir, h i hi mu hmu]

/-- One link of a field, exponential exact. -/
theorem link_exact {NC : ℕ} (hN : 1 ≤ NC) {link staple : Arr ℂ} (hU : IsSU NC link)
    (hS : QuatForm NC staple) (α al : ℝ)
    (hE : ExpExact NC ((α : ℂ) • lieHerm (toM NC staple * (toM NC link)ᴴ))) :
    ∃ V, project_STOUT NC staple link α al = some V ∧ IsSU NC V ∧
      toM NC V = NormedSpace.exp (I • (α : ℂ) • lieHerm (toM NC staple * (toM NC link)ᴴ)) * toM NC link := by
  have hq : QuatForm NC (multab_dag NC staple link fun _ => 0) := by
    intro h
    subst h
    exact quatForm_mul_dag hS (quatForm_su hU) _ rfl
  obtain ⟨he, hh⟩ := toM_expArg hN α al hq
  obtain ⟨E, h1, h2⟩ := hE _ (multab_dag NC staple link fun _ => 0) he
  have hsu : IsSU NC E := by
    unfold IsSU
    rw [h2, ← he]
    exact C20_exp_special_unitary hh
  obtain ⟨m1, m2⟩ := C11_multab_suNC hsu hU scratch
  refine ⟨multab_suNC NC E link scratch, ?_, m2, by rw [m1, h2]⟩
  unfold expArg at h1
  simp only [project_STOUT, h1, Option.map_some]

theorem sim_stout {NC : ℕ} (hN : 1 ≤ NC) {L : Latt} (hL : Valid L) {U : Gauge} (hU : SUField NC L U) {dir : ℕ}
    (hdir : dir ≤ L.ND) (α al : ℝ)
    (hE : ∀ i < volume L, ∀ mu < dir, ExpExact NC ((α : ℂ) • force L dir (mfield NC U) i mu))
    (z : Loc → Unit) :
    ∃ V, (simultaneous L dir (stoutLink NC L α al dir) (fun l => some (U l), z)).1 = (fun l => some (V l)) ∧
      SUField NC L V ∧ Agree L (mfield NC V) (stoutSmear L dir α (mfield NC U)) := by
  have hl : ∀ l : Loc, ∃ V, (simultaneous L dir (stoutLink NC L α al dir) (fun l => some (U l), z)).1 l = some V ∧
      (l.1 < volume L ∧ l.2 < L.ND → IsSU NC V ∧
        toM NC V = stoutSmear L dir α (mfield NC U) l.1 l.2) := by
    rintro ⟨i, mu⟩
    unfold simultaneous
    dsimp only
    by_cases h : i < volume L ∧ mu < dir
    · rw [if_pos h]
      have hS := quat_staple hL hU h.1 h.2 hdir
      have hm := stapleM_code hL hU h.1 h.2 hdir
      obtain ⟨V, v1, v2, v3⟩ := link_exact hN (hU i h.1 mu (by omega)) hS α al (by
        have := hE i h.1 mu h.2
        unfold force at this
        rw [hm]; exact this)
      refine ⟨V, ?_, fun _ => ⟨v2, ?_⟩⟩
      · rw [← v1]
        unfold stoutLink smearLink
        dsimp only
        rw [staples_some]
        rfl
      · rw [v3, hm]
        simp only [stoutSmear, expUpdate, if_pos h.2, force, mfield]
    · rw [if_neg h]
      refine ⟨_, rfl, fun hr => ⟨hU i hr.1 mu hr.2, ?_⟩⟩
      simp only [stoutSmear, expUpdate, if_neg (show ¬ mu < dir from fun h' => h ⟨hr.1, h'⟩), mfield]
  choose V h1 h2 using hl
  exact ⟨V, funext h1, fun i hi mu hmu => (h2 (i, mu) ⟨hi, hmu⟩).1, fun i hi mu hmu => (h2 (i, mu) ⟨hi, hmu⟩).2⟩

theorem sim_stout_iter {NC : ℕ} (hN : 1 ≤ NC) {L : Latt} (hL : Valid L) {U : Gauge} (hU : SUField NC L U) {dir : ℕ}
    (hdir : dir ≤ L.ND) (α al : ℝ) (n : ℕ)
    (hE : ∀ k < n, ∀ i < volume L, ∀ mu < dir,
      ExpExact NC ((α : ℂ) • force L dir ((stoutSmear L dir α)^[k] (mfield NC U)) i mu))
    (z : Loc → Unit) :
    ∃ V, ((simultaneous L dir (stoutLink NC L α al dir))^[n] (fun l => some (U l), z)).1 = (fun l => some (V l)) ∧
      SUField NC L V ∧ Agree L (mfield NC V) ((stoutSmear L dir α)^[n] (mfield NC U)) := by
  induction n with
  | zero => exact ⟨U, rfl, hU, fun _ _ _ _ => rfl⟩
  | succ n ih =>
    obtain ⟨V, v1, v2, v3⟩ := ih fun k hk => hE k (by omega)
    rw [Function.iterate_succ_apply', Function.iterate_succ_apply']
    have e : (simultaneous L dir (stoutLink NC L α al dir))^[n] (fun l => some (U l), z) =
        (fun l => some (V l), ((simultaneous L dir (stoutLink NC L α al dir))^[n] (fun l => some (U l), z)).2) :=
      Prod.ext v1 rfl
    rw [e]
    obtain ⟨W, w1, w2, w3⟩ := sim_stout hN hL v2 hdir α al (fun i hi mu hmu => by
      rw [force_congr hL v3 hi (by omega) hdir]
      exact hE n (by omega) i hi mu hmu) ((simultaneous L dir (stoutLink NC L α al dir))^[n] (fun l => some (U l), z)).2
    exact ⟨W, w1, w2, fun i hi mu hmu => (w3 i hi mu hmu).trans (stoutSmear_congr hL v3 hdir α i hi mu hmu)⟩

/-- **C68**, iterations: where the exponential is exact, `smear4D` with stout projection performs `smiters`
iterations of stout smearing on a special unitary field, which stays special unitary. Missing for the full claim:
the series of the exponential for near eigenvalues, and more than three colours (where no exponent but those
summing to the Pade approximant is exact). -/
theorem C68_smear4D_partial {NC : ℕ} (hN : 1 ≤ NC) {L : Latt} (hL : Valid L) {U : Gauge} (hU : SUField NC L U)
    (α al : ℝ) (smiters : ℕ)
    (hE : ∀ k < smiters, ∀ i < volume L, ∀ mu < L.ND,
      ExpExact NC ((α : ℂ) • force L L.ND ((stoutSmear L L.ND α)^[k] (mfield NC U)) i mu))
    {s : St (Option (Arr ℂ)) Unit} (hs : s.lat = fun l => some (U l)) :
    ∃ V, (smear4D L (stoutLink NC L α al L.ND) smiters s).lat = (fun l => some (V l)) ∧ SUField NC L V ∧
      Agree L (mfield NC V) ((stoutSmear L L.ND α)^[smiters] (mfield NC U)) := by
  have h := (C33_smear4D_code hL (opsO NC) id (some (zero_mat NC scratch))
    (fun s u => s.bind fun s => u.bind fun u => project_STOUT NC s u α al) smiters s).1
  obtain ⟨V, v1, v2⟩ := sim_stout_iter hN hL hU (le_refl _) α al smiters hE s.z
  refine ⟨V, ?_, v2⟩
  rw [← v1, ← hs]
  exact h

/-- **C68**, spatial smearing: as `C68_smear4D_partial` for `smear3D` in three or more dimensions. -/
theorem C68_smear3D_partial {NC : ℕ} (hN : 1 ≤ NC) {L : Latt} (hL : Valid L) (hD : 3 ≤ L.ND) {U : Gauge}
    (hU : SUField NC L U) (α al : ℝ) (smiters : ℕ)
    (hE : ∀ k < smiters, ∀ i < volume L, ∀ mu < L.ND - 1,
      ExpExact NC ((α : ℂ) • force L (L.ND - 1) ((stoutSmear L (L.ND - 1) α)^[k] (mfield NC U)) i mu))
    {s : St (Option (Arr ℂ)) Unit} (hs : s.lat = fun l => some (U l)) :
    ∃ V, (smear3D L (stoutLink NC L α al (L.ND - 1)) smiters s).lat = (fun l => some (V l)) ∧ SUField NC L V ∧
      Agree L (mfield NC V) ((stoutSmear L (L.ND - 1) α)^[smiters] (mfield NC U)) := by
  have hr := (C33_updates_spatial hL (opsO NC) id (some (zero_mat NC scratch))
    (fun s u => s.bind fun s => u.bind fun u => project_STOUT NC s u α al)).1
  have h := C33_smear3D hL hr smiters s
  rw [if_neg (by omega)] at h
  obtain ⟨V, v1, v2⟩ := sim_stout_iter hN hL hU (Nat.sub_le _ _) α al smiters hE s.z
  refine ⟨V, ?_, v2⟩
  rw [← v1, ← hs]
  exact congrArg Prod.fst h

end GLU.Smear
