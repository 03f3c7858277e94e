import Verif.Gfix.Driver
import Verif.Gfix.FADefined
import Verif.Gfix.MagProps

/-!
# C83: what the Landau gauge driver returns
-/

namespace GLU.Gfix

open Complex Matrix Finset GLU.Mat GLU.Geom GLU.Field

/-- What the driver needs of the method it calls: it stays on the gauge orbit. -/
def StaysOnOrbit (NC : ℕ) (L : Latt) (callback : Gauge → FaOut) : Prop :=
  ∀ lat lat' iters th, SUField NC L lat → callback lat = .done lat' iters th →
    Orbit NC L lat lat' ∧ SUField NC L lat'

theorem facg_stays {P : FaParams} (hN : 2 ≤ P.NC) (hL : Valid P.L) (alloc : Bool) (acc : ℝ) (max_iters runs : ℕ) :
    StaysOnOrbit P.NC P.L (FACG P alloc acc max_iters runs) := fun _ _ _ _ hU h =>
  ⟨(C82_facg_partial hN hL hU h).1, (C82_facg_partial hN hL hU h).2.1⟩

theorem fasd_stays {P : FaParams} (hN : 2 ≤ P.NC) (hL : Valid P.L) (alloc : Bool) (acc : ℝ) (max_iters runs : ℕ) :
    StaysOnOrbit P.NC P.L (FASD P alloc acc max_iters runs) := fun _ _ _ _ hU h =>
  ⟨(C82_fasd_partial hN hL hU h).1, (C82_fasd_partial hN hL hU h).2.1⟩

theorem landauFinish_spec {NC : ℕ} (hN : 2 ≤ NC) {L : Latt} {scratch : Arr ℂ} {lat lat' : Gauge} {iters ret : ℕ}
    {theta th : ℝ} (h : landauFinish NC L scratch lat iters theta = .done lat' ret th) :
    ret = iters ∧ th = theta ∧ SUField NC L lat' ∧
      (SUField NC L lat → ∀ i < volume L, ∀ mu < L.ND, link NC lat' i mu = link NC lat i mu) := by
  unfold landauFinish at h
  split at h
  · next l hl =>
    cases h
    refine ⟨rfl, rfl, reunit_gives_su (by omega) hl, fun hU => ?_⟩
    obtain ⟨l', h1, h2⟩ := latt_reunitU_su (scratch := scratch) (show 1 < NC by omega) hU
    rw [hl] at h1
    cases h1
    exact h2
  · cases h

/-- How a run of the driver that ends can end. -/
inductive LandauEnds (NC : ℕ) (L : Latt) (callback : Gauge → FaOut) (max_iter : ℕ) (reread : ℕ → Gauge → Reread)
    (g : ℕ → ℕ → Arr ℂ) (lat lat' : Gauge) (ret : ℕ) (theta : ℝ) : Prop
  /-- The failure code. -/
  | failure (h : ret = FAILURE_SIZE)
  /-- The first run ended with a count other than 123456789: the field agrees with the one it left. -/
  | first (out : Gauge) (h : callback lat = .done out ret theta) (h' : ret ≠ 123456789)
      (agree : ∀ i < volume L, ∀ mu < L.ND, link NC lat' i mu = link NC out i mu) (orbit : Orbit NC L lat lat')
  /-- Restart `k` ended with a count other than 123456789: the field is on the orbit of the field read. -/
  | restart (k : ℕ) (hk : 1 ≤ k ∧ k < GF_GLU_FAILURES) (before file out : Gauge) (iters : ℕ)
      (hr : reread k before = .read file) (h : callback (gtransform NC L (g k) file) = .done out iters theta)
      (h' : iters ≠ 123456789) (count : ret = 123456789 + (k - 1) * max_iter + iters)
      (agree : ∀ i < volume L, ∀ mu < L.ND, link NC lat' i mu = link NC out i mu) (orbit : Orbit NC L file lat')
  /-- The file could not be read again at restart `k`: the field is whatever reading left. -/
  | unread (k : ℕ) (hk : 1 ≤ k ∧ k < GF_GLU_FAILURES) (before file : Gauge) (hr : reread k before = .failed file)
      (count : ret = 123456789 + (k - 1) * max_iter)

theorem restarts_spec {NC : ℕ} (hN : 2 ≤ NC) {L : Latt} (hL : Valid L) {scratch : Arr ℂ} {callback : Gauge → FaOut}
    (hcb : StaysOnOrbit NC L callback) {max_iter : ℕ} {reread : ℕ → Gauge → Reread} {g : ℕ → ℕ → Arr ℂ}
    (hg : ∀ k, SUGauge NC L (g k)) (hr : ∀ k b f, reread k b = .read f → SUField NC L f) {lat0 : Gauge} {n k : ℕ}
    (hk : 1 ≤ k) (hnk : n + k = GF_GLU_FAILURES) {lat lat' : Gauge} {iters ret : ℕ} {theta th : ℝ}
    (hi : iters = 123456789 + (k - 1) * max_iter)
    (h : landauRestarts NC L scratch callback max_iter reread g n k lat iters theta = .done lat' ret th) :
    LandauEnds NC L callback max_iter reread g lat0 lat' ret th ∧ (ret ≠ FAILURE_SIZE → SUField NC L lat') := by
  induction n generalizing k lat iters theta with
  | zero => rw [landauRestarts] at h; cases h; exact ⟨.failure rfl, fun h => absurd rfl h⟩
  | succ n ih =>
    rw [landauRestarts] at h
    split at h
    · cases h
    · next f hf =>
      obtain ⟨h1, h2, h3, h4⟩ := landauFinish_spec hN h
      exact ⟨.unread k ⟨hk, by omega⟩ lat f hf (by rw [h1, hi]), fun _ => h3⟩
    · next f hf =>
      have hfile := hr _ _ _ hf
      obtain ⟨ht, hsu⟩ := gtransform_transformed hL (hg k) hfile
      split at h
      · cases h
      · cases h
      · next l it t hc =>
        obtain ⟨o1, o2⟩ := hcb _ _ _ _ hsu hc
        split at h
        · next hne =>
          obtain ⟨h1, h2, h3, h4⟩ := landauFinish_spec hN h
          subst h2
          exact ⟨.restart k ⟨hk, by omega⟩ lat f l it hf hc hne (by rw [h1, hi]) (h4 o2)
            (orbit_trans ⟨g k, hg k, ht⟩ (orbit_trans o1 (orbit_agree (h4 o2)))), fun _ => h3⟩
        · exact ih (k := k + 1) (by omega) (by omega) (by
            rw [hi, Nat.add_sub_cancel]
            obtain ⟨j, rfl⟩ : ∃ j, k = j + 1 := ⟨k - 1, by omega⟩
            rw [Nat.add_sub_cancel, Nat.add_mul, Nat.one_mul, Nat.add_assoc]) h

/-- **Partial.**  Every run of the Landau driver that ends is one of four: the failure code; the first run of the
method; a restart, which ends on the orbit of the configuration in the file; or a failure to read the file again.
The field is special unitary unless the failure code is returned.  Missing: that the field is on the orbit of the
input, and that a value other than the failure code means that the gauge condition was met; see `C83_unread_fails`,
`C83_unread_witness_fails`, `C83_fasd_fails`, `C83_ignored_fails`. -/
theorem C83_landau_partial {NC : ℕ} (hN : 2 ≤ NC) {L : Latt} (hL : Valid L) {scratch : Arr ℂ} {callback : Gauge → FaOut}
    (hcb : StaysOnOrbit NC L callback) {max_iter : ℕ} {gaugeAlloc : Bool} {reread : ℕ → Gauge → Reread}
    {g : ℕ → ℕ → Arr ℂ} (hg : ∀ k, SUGauge NC L (g k)) (hr : ∀ k b f, reread k b = .read f → SUField NC L f)
    {lat lat' : Gauge} {ret : ℕ} {th : ℝ} (hU : SUField NC L lat)
    (h : Landau NC L scratch callback max_iter gaugeAlloc reread g lat = .done lat' ret th) :
    LandauEnds NC L callback max_iter reread g lat lat' ret th ∧ (ret ≠ FAILURE_SIZE → SUField NC L lat') := by
  unfold Landau at h
  split at h
  · cases h
  · cases h
  · next l it t hc =>
    obtain ⟨o1, o2⟩ := hcb _ _ _ _ hU hc
    split at h
    · next hi =>
      split at h
      · exact restarts_spec hN hL hcb hg hr le_rfl rfl (by rw [hi]; simp) h
      · cases h; exact ⟨.failure rfl, fun h => absurd rfl h⟩
    · next hi =>
      obtain ⟨h1, h2, h3, h4⟩ := landauFinish_spec hN h
      subst h1 h2
      exact ⟨.first l hc hi (h4 o2) (orbit_trans o1 (orbit_agree (h4 o2))), fun _ => h3⟩

/-- With the conjugate gradient: a count below 123456789 that is not zero, for an iteration limit up to 123456789,
means that the field is on the orbit of the input and the accuracy was met one step before the end. -/
theorem C83_facg_converged {P : FaParams} (hN : 2 ≤ P.NC) (hL : Valid P.L) {alloc gaugeAlloc : Bool} {acc : ℝ}
    {max_iters runs : ℕ} {reread : ℕ → Gauge → Reread} {g : ℕ → ℕ → Arr ℂ}
    (hg : ∀ k, SUGauge P.NC P.L (g k)) (hr : ∀ k b f, reread k b = .read f → SUField P.NC P.L f) {lat lat' : Gauge}
    {ret : ℕ} {th : ℝ} (hU : SUField P.NC P.L lat)
    (h : Landau P.NC P.L P.scratch (FACG P alloc acc max_iters runs) max_iters gaugeAlloc reread g lat =
      .done lat' ret th) (h0 : 0 < ret) (h1 : ret < 123456789) :
    Orbit P.NC P.L lat lat' ∧ SUField P.NC P.L lat' ∧ av_plaquette P.NC P.L lat' = av_plaquette P.NC P.L lat ∧
      ret < max_iters ∧ th ≤ acc := by
  obtain ⟨he, hsu⟩ := C83_landau_partial hN hL (facg_stays hN hL alloc acc max_iters runs) hg hr hU h
  have hs := hsu (by unfold FAILURE_SIZE; omega)
  cases he with
  | failure h => unfold FAILURE_SIZE at h; omega
  | first out h h' agree orbit =>
    refine ⟨orbit, hs, orbit_plaquette (by omega) hL orbit hU, ?_⟩
    rcases (C82_facg_partial hN hL hU h).2.2.2 with ⟨h, -⟩ | ⟨-, h2, h3, -⟩ | ⟨h, -⟩
    · omega
    · exact ⟨h2, h3⟩
    · omega
  | restart k hk before file out iters hr h h' count agree orbit => omega
  | unread k hk before file hr count => omega

/-- With steepest descent the driver never restarts and never returns the failure code for an iteration limit below
2^63: a run that did not converge is reported as a count. -/
theorem C83_fasd_fails {P : FaParams} (hN : 2 ≤ P.NC) (hL : Valid P.L) {alloc gaugeAlloc : Bool} {acc : ℝ}
    {max_iters runs : ℕ} (hm : max_iters ≤ 123456789) {reread : ℕ → Gauge → Reread} {g : ℕ → ℕ → Arr ℂ}
    {lat out : Gauge} {iters : ℕ} {th : ℝ}
    (hU : SUField P.NC P.L lat) (h : FASD P alloc acc max_iters runs lat = .done out iters th) :
    Landau P.NC P.L P.scratch (FASD P alloc acc max_iters runs) max_iters gaugeAlloc reread g lat =
      landauFinish P.NC P.L P.scratch out iters th := by
  unfold Landau
  rw [h]
  dsimp only
  rw [if_neg]
  rcases (C82_fasd_partial hN hL hU h).2.2.2 with ⟨h, -⟩ | ⟨-, h2, -⟩ | ⟨h, -⟩ <;> omega

/-- When the file cannot be read again the driver returns the count 123456789, not the failure code, and the field is
the reunitarised result of the broken read, whatever that is. -/
theorem C83_unread_fails {NC : ℕ} {L : Latt} {scratch : Arr ℂ} {callback : Gauge → FaOut} {max_iter : ℕ}
    {reread : ℕ → Gauge → Reread} {g : ℕ → ℕ → Arr ℂ} {lat out junk : Gauge} {th : ℝ}
    (h : callback lat = .done out 123456789 th) (hr : reread 1 out = .failed junk) {fixed : Gauge}
    (hf : latt_reunitU NC L scratch junk = some fixed) :
    Landau NC L scratch callback max_iter true reread g lat = .done fixed 123456789 th := by
  unfold Landau
  rw [h]
  dsimp only
  rw [if_pos rfl, if_pos rfl, GF_GLU_FAILURES, landauRestarts, hr]
  dsimp only
  unfold landauFinish
  rw [hf]

theorem spike_orbit : ¬ Orbit 2 L2345 spike fun _ => arr [1, 0, 0, 1] := by
  intro h
  have h1 := orbit_loop valid_L2345 h (p := [(0, true), (0, true)]) (by intro s hs; simp at hs; rw [hs]; decide) (i := 0)
    (by decide) (by decide)
  have n0 : neighbor L2345 0 0 = 1 := by decide
  simp [along, hopLink, hop, n0, link, spike, Matrix.trace, Fin.sum_univ_two, Matrix.mul_apply, toM_apply, arr,
    Fin.sum_univ_two] at h1

/-- A concrete case: a conjugate gradient run on the lattice 2 x 3 x 4 x 5 that does not converge, and a file that can
not be read to the end.  The driver returns 123456789, which the caller passes on unchanged, and a field that is not
gauge equivalent to its input. -/
theorem C83_unread_witness_fails (scratch : Arr ℂ) (tol al : ℝ) : ∃ (lat' junk : Gauge) (th : ℝ),
    Landau 2 L2345 scratch (FACG ⟨2, L2345, scratch, id, tol, al⟩ true 0 1 1) 1 true (fun _ _ => .failed junk)
      (fun _ _ => arr [1, 0, 0, 1]) spike = .done lat' 123456789 th ∧ wrapReturn 123456789 = 123456789 ∧
    SUField 2 L2345 spike ∧ ¬ Orbit 2 L2345 spike lat' := by
  obtain ⟨out, th, h, -⟩ := spike_run scratch tol al
  have hU : SUField 2 L2345 fun _ => arr [1, 0, 0, 1] := fun i _ mu _ => by
    have := spike_su L2345 1 (by decide) 1 (by decide)
    simpa [spike] using this
  obtain ⟨lat', h1, h2⟩ := latt_reunitU_su (scratch := scratch) (show 1 < 2 by norm_num) hU
  refine ⟨lat', _, th, C83_unread_fails h rfl h1, by decide, spike_su _, fun ho => spike_orbit (orbit_trans ho ?_)⟩
  exact orbit_agree fun i hi mu hmu => (h2 i hi mu hmu).symm

theorem critical_agree {NC : ℕ} {L : Latt} (hL : Valid L) {lat lat' : Gauge}
    (h : ∀ i < volume L, ∀ mu < L.ND, link NC lat' i mu = link NC lat i mu) (hc : Critical NC L lat' L.ND) :
    Critical NC L lat L.ND := by
  intro A hA
  refine (hc A hA).congr_of_eventuallyEq (Filter.Eventually.of_forall fun t => ?_)
  refine sum_congr rfl fun i hi => sum_congr rfl fun mu hmu => ?_
  rw [h i (mem_range.1 hi) mu (mem_range.1 hmu)]

/-- The driver can give up: if the file always gives back the same field, which is not stationary, and one iteration is
allowed, the seven runs fail, the failure code is returned, and the caller sees it as -1. -/
theorem C83_gives_up {P : FaParams} (hN : P.NC = 2 ∨ P.NC = 3) (hL : Valid P.L) (hacc : P.accel = id) {lat : Gauge}
    (hU : SUField P.NC P.L lat) (hc : ¬ Critical P.NC P.L lat P.L.ND) (scratch : Arr ℂ) :
    (∃ lat' th, Landau P.NC P.L scratch (FACG P true 0 1 1) 1 true (fun _ _ => .read lat)
      (fun _ _ => identity P.NC fun _ => 0) lat = .done lat' FAILURE_SIZE th) ∧ wrapReturn FAILURE_SIZE = -1 := by
  refine ⟨?_, by decide⟩
  have hg : SUGauge P.NC P.L fun _ => identity P.NC fun _ => 0 := fun i _ => by
    unfold IsSU; rw [C63_identity]; exact one_mem _
  obtain ⟨ht, hs⟩ := gtransform_transformed hL hg hU
  have hc' : ¬ Critical P.NC P.L (gtransform P.NC P.L (fun _ => identity P.NC fun _ => 0) lat) P.L.ND := fun h =>
    hc (critical_agree hL (fun i hi mu hmu => by rw [ht i hi mu hmu, C63_identity]; simp) h)
  obtain ⟨l0, t0, h0, -⟩ := run_gives_up hN hL hacc hU hc
  obtain ⟨l1, t1, h1, -⟩ := run_gives_up hN hL hacc hs hc'
  have key : ∀ n k l it t, ∃ lat' th, landauRestarts P.NC P.L scratch (FACG P true 0 1 1) 1 (fun _ _ => .read lat)
      (fun _ _ => identity P.NC fun _ => 0) n k l it t = .done lat' FAILURE_SIZE th := by
    intro n
    induction n with
    | zero => intro k l it t; exact ⟨_, _, by rw [landauRestarts]⟩
    | succ n ih =>
      intro k l it t
      rw [landauRestarts]
      dsimp only
      rw [h1]
      dsimp only
      rw [if_neg (by simp)]
      exact ih _ _ _ _
  unfold Landau
  rw [h0]
  dsimp only
  rw [if_pos rfl, if_pos rfl]
  exact key _ _ _ _ _

/-- The hypotheses above hold for a field of two colours on the lattice 2 x 3 x 4 x 5. -/
example (scratch : Arr ℂ) (tol al : ℝ) : ∃ lat' th,
    Landau 2 L2345 scratch (FACG ⟨2, L2345, scratch, id, tol, al⟩ true 0 1 1) 1 true (fun _ _ => .read spike)
      (fun _ _ => identity 2 fun _ => 0) spike = .done lat' FAILURE_SIZE th :=
  (C83_gives_up (P := ⟨2, L2345, scratch, id, tol, al⟩) (Or.inl rfl) valid_L2345 rfl (spike_su _) spike_not_critical
    scratch).1

/-- `read_and_fix` does not look at the return value of the gauge fixing: there is a run in which the driver gives up
with the failure code, the field it leaves is written, and success is returned. -/
theorem C83_ignored_fails (scratch : Arr ℂ) (tol al : ℝ) : ∃ (fixed : Gauge) (th : ℝ) (ret : ℕ),
    Landau 2 L2345 scratch (FACG ⟨2, L2345, scratch, id, tol, al⟩ true 0 1 1) 1 true (fun _ _ => .read spike)
      (fun _ _ => identity 2 fun _ => 0) spike = .done fixed ret th ∧ wrapReturn ret = -1 ∧
    read_and_fix true (fun _ => (fixed, wrapReturn ret)) (fun _ => 0) spike = (some fixed, 0) := by
  obtain ⟨⟨lat', th, h⟩, h'⟩ := C83_gives_up (P := ⟨2, L2345, scratch, id, tol, al⟩) (Or.inl rfl) valid_L2345 rfl
    (spike_su _) spike_not_critical scratch
  exact ⟨lat', th, _, h, h', rfl⟩

end GLU.Gfix
