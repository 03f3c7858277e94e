import Verif.Gfix.CoulombLemmas

/-!
# Coulomb gauge fixing: properties

C101: fixing the Coulomb gauge replaces the configuration by one gauge transform of it, whose matrices on a time slice
were found from the spatial links of that slice alone; it stops on a slice when the method has converged or after eight
random restarts.
-/

namespace GLU.Gfix

open Complex Matrix Finset GLU.Mat GLU.Geom GLU.Field GLU.Draught

theorem coulomb_done {P : FaParams} (hN : 2 ≤ P.NC) (hL : Valid P.L) {alloc : Bool} {rand : ℕ → ℕ → SGauge}
    (hr : ∀ t k, SUSlice P.NC P.L (rand t k)) {acc : ℝ} {max_iters passes : ℕ} {lat lat' : Gauge} {its : ℕ}
    (hU : SUField P.NC P.L lat) (h : Coulomb P alloc rand acc max_iters passes lat = .done lat' its) :
    ∃ nc Ns sq, init_cb P.L (lcu P.L) (P.L.ND - 1) = .ok nc Ns sq ∧
    ∃ (g : ℕ → SGauge) (tr : ℕ → ℝ) (n c : ℕ → ℕ),
      (∀ t < P.L.dims (P.L.ND - 1),
        fixSlice P (nc, sq 0) rand acc max_iters passes lat t = .done (g t) (tr t) (n t) (c t)) ∧
      its = ∑ t ∈ range (P.L.dims (P.L.ND - 1)), n t ∧
      SUGauge P.NC P.L (joined P.L g) ∧ Transformed P.NC P.L (joined P.L g) lat lat' := by
  have hnd := hL.nd
  have hlcu : lcu P.L = ∏ mu ∈ range (P.L.ND - 1), P.L.dims mu := lcu_eq P.L hnd
  unfold Coulomb at h
  cases hF : Coulomb_FA P alloc rand acc max_iters passes lat with
  | running => rw [hF] at h; cases h
  | undef => rw [hF] at h; cases h
  | outside => rw [hF] at h; cases h
  | done lat1 its1 =>
    rw [hF] at h
    dsimp only at h
    unfold Coulomb_FA at hF
    cases hcb : init_cb P.L (lcu P.L) (P.L.ND - 1) with
    | failure => rw [hcb] at hF; cases hF
    | outOfBounds => rw [hcb] at hF; cases hF
    | ok nc Ns sq =>
      rw [hcb] at hF
      dsimp only at hF
      split at hF
      · cases hF
      · have hcb' := hcb
        rw [hlcu] at hcb'
        have hpart := C07_partition hL (show P.L.ND - 1 ≤ P.L.ND by omega) hcb'
        have hnc := (init_cb_ok hL (show P.L.ND - 1 ≤ P.L.ND by omega) hcb').1
        have hdb : ∀ i ∈ sq 0, i < lcu P.L := by
          rw [hlcu]; exact (hpart.2 0 (by omega)).2.2.2
        obtain ⟨a, b, c⟩ := coulombRegion_spec hL (fixSlice_local hL hdb rand acc max_iters passes) hF
        have hall : ∀ t, ∃ (g : SGauge) (tr : ℝ) (n c : ℕ), t < P.L.dims (P.L.ND - 1) →
            fixSlice P (nc, sq 0) rand acc max_iters passes lat t = .done g tr n c := by
          intro t
          cases hf : fixSlice P (nc, sq 0) rand acc max_iters passes lat t with
          | done g tr n c => exact ⟨g, tr, n, c, fun _ => rfl⟩
          | running => exact ⟨fun _ _ => 0, 0, 0, 0, fun ht => absurd (a t ht) (by rw [hf]; exact id)⟩
          | undef => exact ⟨fun _ _ => 0, 0, 0, 0, fun ht => absurd (a t ht) (by rw [hf]; exact id)⟩
        choose g tr n c' hd using hall
        have hjoin : ∀ j < volume P.L, joined P.L (fun s => (fixSlice P (nc, sq 0) rand acc max_iters passes lat s).gauge) j
            = joined P.L g j := by
          intro j hj
          unfold joined
          beta_reduce
          rw [hd _ (slice_of hL hj).1]
          rfl
        have hSU : SUGauge P.NC P.L (joined P.L g) := by
          intro j hj
          obtain ⟨h1, h2, -⟩ := slice_of hL hj
          have := hd _ h1
          unfold fixSlice at this
          exact steep_fix_su hN (fun g r hg h => step_FACG_su hN hg h) (hr _) passes (idSlice_su _ _) this _ h2
        obtain ⟨hT, hS⟩ := gtransform_transformed hL hSU hU
        have hlat : ∀ i < volume P.L, ∀ mu < P.L.ND, lat1 (i, mu) = gtransform P.NC P.L (joined P.L g) lat (i, mu) := by
          intro i hi mu hmu
          rw [c i hi mu hmu, gtransform_apply, gtransform_apply, if_pos ⟨hi, hmu⟩, if_pos ⟨hi, hmu⟩, hjoin i hi,
            hjoin _ (neighbor_lt hL i hmu)]
        have hS1 : SUField P.NC P.L lat1 := fun i hi mu hmu => by rw [hlat i hi mu hmu]; exact hS i hi mu hmu
        obtain ⟨lat2, h2, h3⟩ := latt_reunitU_su (show 1 < P.NC by omega) (scratch := P.scratch) hS1
        rw [h2] at h
        injection h with h4 h5
        subst h4 h5
        refine ⟨nc, Ns, sq, rfl, g, tr, n, c', fun t ht => hd t ht, ?_, hSU, fun i hi mu hmu => ?_⟩
        · rw [b]
          exact sum_congr rfl fun t ht => by rw [hd t (mem_range.1 ht)]; rfl
        · rw [h3 i hi mu hmu, ← hT i hi mu hmu]
          unfold link
          rw [hlat i hi mu hmu]

/-- **C101**: when Coulomb gauge fixing returns, the configuration is a gauge transform of the one it was given, every
link is special unitary and the average plaquette is unchanged. -/
theorem C101_orbit {P : FaParams} (hN : 2 ≤ P.NC) (hL : Valid P.L) {alloc : Bool} {rand : ℕ → ℕ → SGauge}
    (hr : ∀ t k, SUSlice P.NC P.L (rand t k)) {acc : ℝ} {max_iters passes : ℕ} {lat lat' : Gauge} {its : ℕ}
    (hU : SUField P.NC P.L lat) (h : Coulomb P alloc rand acc max_iters passes lat = .done lat' its) :
    Orbit P.NC P.L lat lat' ∧ SUField P.NC P.L lat' ∧ av_plaquette P.NC P.L lat' = av_plaquette P.NC P.L lat := by
  obtain ⟨-, -, -, -, g, -, -, -, -, -, hg, hT⟩ := coulomb_done hN hL hr hU h
  have ho : Orbit P.NC P.L lat lat' := ⟨_, hg, hT⟩
  exact ⟨ho, orbit_su hL ho hU, orbit_plaquette (by omega) hL ho hU⟩

/-- **C101**, slice by slice: the matrices that transform slice `t` are the ones found for that slice in the original
configuration, whatever was done to the slices before it, and the number returned is the sum of the iterations spent on
the slices. -/
theorem C101_slices {P : FaParams} (hN : 2 ≤ P.NC) (hL : Valid P.L) {alloc : Bool} {rand : ℕ → ℕ → SGauge}
    (hr : ∀ t k, SUSlice P.NC P.L (rand t k)) {acc : ℝ} {max_iters passes : ℕ} {lat lat' : Gauge} {its : ℕ}
    (hU : SUField P.NC P.L lat) (h : Coulomb P alloc rand acc max_iters passes lat = .done lat' its) :
    ∃ nc Ns sq, init_cb P.L (lcu P.L) (P.L.ND - 1) = .ok nc Ns sq ∧
    ∃ (g : ℕ → SGauge) (tr : ℕ → ℝ) (n c : ℕ → ℕ),
      (∀ t < P.L.dims (P.L.ND - 1),
        fixSlice P (nc, sq 0) rand acc max_iters passes lat t = .done (g t) (tr t) (n t) (c t)) ∧
      its = ∑ t ∈ range (P.L.dims (P.L.ND - 1)), n t ∧
      ∀ t < P.L.dims (P.L.ND - 1), ∀ i < lcu P.L,
        (∀ mu < P.L.ND - 1, link P.NC lat' (lcu P.L * t + i) mu =
          toM P.NC (g t i) * link P.NC lat (lcu P.L * t + i) mu * (toM P.NC (g t (neighbor P.L i mu)))ᴴ) ∧
        link P.NC lat' (lcu P.L * t + i) (P.L.ND - 1) =
          toM P.NC (g t i) * link P.NC lat (lcu P.L * t + i) (P.L.ND - 1) *
            (toM P.NC (g ((t + 1) % P.L.dims (P.L.ND - 1)) i))ᴴ := by
  have hnd := hL.nd
  obtain ⟨nc, Ns, sq, h1, g, tr, n, c, h2, h3, -, hT⟩ := coulomb_done hN hL hr hU h
  refine ⟨nc, Ns, sq, h1, g, tr, n, c, h2, h3, fun t ht i hi => ?_⟩
  obtain ⟨ha, hb⟩ := slice_neighbor hL ht hi
  constructor
  · intro mu hmu
    obtain ⟨hc, hd⟩ := ha mu hmu
    rw [hT _ (slice_lt ht hi) mu (by omega), hd, joined_slice g t hi, joined_slice g t hc]
  · rw [hT _ (slice_lt ht hi) _ (by omega), hb, joined_slice g t hi, joined_slice g _ hi]

/-- **C101**, what other users of the same slice see: two configurations with the same spatial links in slice `t` have
the same spatial links in slice `t` after they have been fixed. -/
theorem C101_local {P : FaParams} (hN : 2 ≤ P.NC) (hL : Valid P.L) {alloc : Bool} {rand : ℕ → ℕ → SGauge}
    (hr : ∀ t k, SUSlice P.NC P.L (rand t k)) {acc : ℝ} {max_iters passes : ℕ} {U V U' V' : Gauge} {m n : ℕ}
    (hU : SUField P.NC P.L U) (hV : SUField P.NC P.L V) {t : ℕ} (ht : t < P.L.dims (P.L.ND - 1))
    (hUV : SliceAgree P.L t U V) (h : Coulomb P alloc rand acc max_iters passes U = .done U' m)
    (h' : Coulomb P alloc rand acc max_iters passes V = .done V' n) {i mu : ℕ} (hi : i < lcu P.L)
    (hmu : mu < P.L.ND - 1) :
    link P.NC U' (lcu P.L * t + i) mu = link P.NC V' (lcu P.L * t + i) mu := by
  obtain ⟨nc, Ns, sq, h1, g, tr, n1, c1, h2, -, h3⟩ := C101_slices hN hL hr hU h
  obtain ⟨nc', Ns', sq', h1', g', tr', n2, c2, h2', -, h3'⟩ := C101_slices hN hL hr hV h'
  rw [h1] at h1'
  injection h1' with e1 e2 e3
  subst e1 e2 e3
  have hlcu : lcu P.L = ∏ mu ∈ range (P.L.ND - 1), P.L.dims mu := lcu_eq P.L hL.nd
  have hdb : ∀ i ∈ sq 0, i < lcu P.L := by
    rw [hlcu] at h1 ⊢
    have hnc := (init_cb_ok hL (show P.L.ND - 1 ≤ P.L.ND by omega) h1).1
    exact ((C07_partition hL (show P.L.ND - 1 ≤ P.L.ND by omega) h1).2 0 (by omega)).2.2.2
  have hf := fixSlice_local hL (db := (nc, sq 0)) hdb rand acc max_iters passes t ht U V hUV
  rw [h2 t ht, h2' t ht] at hf
  injection hf with hg
  rw [(h3 t ht i hi).1 mu hmu, (h3' t ht i hi).1 mu hmu, hg]
  unfold link
  rw [hUV i hi mu hmu]

/-! ## When a slice is left -/

theorem cgLoop_stop {P : FaParams} {db : ℕ × List ℕ} {lat : Gauge} {t : ℕ} {acc : ℝ} (n : ℕ) :
    ∀ {s : CgState} {q : CgState × ℕ}, cgLoop P db lat t acc n s = some q →
      1 ≤ q.2 ∧ q.2 ≤ n + 1 ∧ (q.2 < n + 1 → q.1.tr ≤ acc) := by
  induction n with
  | zero =>
    intro s q h
    rw [cgLoop, Option.map_eq_some_iff] at h
    obtain ⟨s', -, rfl⟩ := h
    exact ⟨le_rfl, le_rfl, fun h => absurd h (lt_irrefl _)⟩
  | succ n ih =>
    intro s q h
    rw [cgLoop, Option.bind_eq_some_iff] at h
    obtain ⟨s', -, h⟩ := h
    by_cases hc : acc < s'.tr
    · rw [if_pos hc, Option.map_eq_some_iff] at h
      obtain ⟨q', h, rfl⟩ := h
      obtain ⟨a, b, c⟩ := ih h
      exact ⟨by simp, by simpa using b, fun h => c (by simpa using h)⟩
    · rw [if_neg hc] at h
      injection h with h
      subst h
      exact ⟨le_rfl, by simp, fun _ => not_lt.1 hc⟩

/-- A method used by `steep_fix`: it takes at least one step, and it stops early only when it has converged. -/
def StopsConverged (acc : ℝ) (max_iters : ℕ) (f : SGauge → Option (SGauge × ℝ × ℕ)) : Prop :=
  ∀ g g' tr n, f g = some (g', tr, n) → 1 ≤ n ∧ (n < max_iters → tr ≤ acc)

theorem step_FACG_stops (P : FaParams) (db : ℕ × List ℕ) (lat : Gauge) (t : ℕ) (acc : ℝ) (max_iters : ℕ) :
    StopsConverged acc max_iters (steep_step_FACG P db lat t acc max_iters) := by
  intro g g' tr n h
  unfold steep_step_FACG at h
  rw [Option.map_eq_some_iff] at h
  obtain ⟨q, h, e⟩ := h
  rw [Option.bind_eq_some_iff] at h
  obtain ⟨s, -, h⟩ := h
  obtain ⟨a, b, c⟩ := cgLoop_stop _ h
  injection e with e1 e
  injection e with e2 e3
  subst e1 e2 e3
  exact ⟨a, fun h => c (by omega)⟩

theorem steep_fix_stop {NC : ℕ} {L : Latt} {scratch : Arr ℂ} {f : SGauge → Option (SGauge × ℝ × ℕ)}
    {rand : ℕ → SGauge} {acc : ℝ} {max_iters : ℕ} (hf : StopsConverged acc max_iters f) (n : ℕ) :
    ∀ {control tot : ℕ} {flag : Bool} {gauge g : SGauge} {tr : ℝ} {its c : ℕ}, control ≤ 8 →
    steep_fix NC L scratch f rand acc max_iters n control tot flag gauge = .done g tr its c →
    tot < its ∧ c ≤ 8 ∧ (tr ≤ acc ∨ c = 8 ∧ 1e4 * acc ≤ tr) ∧ (max_iters ≤ 1 → 1e4 * acc ≤ tr) := by
  induction n with
  | zero => intro _ _ _ _ _ _ _ _ _ h; cases h
  | succ n ih =>
    intro control tot flag gauge g tr its c hcon h
    rw [steep_fix] at h
    cases h1 : f gauge with
    | none => rw [h1] at h; cases h
    | some r =>
      obtain ⟨g1, tr1, it1⟩ := r
      rw [h1] at h
      dsimp only at h
      obtain ⟨hp, hq⟩ := hf _ _ _ _ h1
      cases h2 : checkSolution NC L scratch acc g1 tr1 it1 with
      | none => rw [h2] at h; cases h
      | some r =>
        obtain ⟨g2, ok⟩ := r
        rw [h2] at h
        dsimp only at h
        by_cases hc : max_iters ≤ it1 ∧ tr1 < 1e4 * acc
        · rw [if_pos hc] at h
          obtain ⟨a, b⟩ := ih hcon h
          exact ⟨by omega, b⟩
        · rw [if_neg hc] at h
          split at h
          · next hd =>
            obtain ⟨a, b⟩ := ih (by omega) h
            exact ⟨by omega, b⟩
          · next hd =>
            injection h with e1 e2 e3 e4
            subst e1 e2 e3 e4
            refine ⟨by omega, hcon, ?_, fun h => not_lt.1 fun hlt => hc ⟨by omega, hlt⟩⟩
            by_cases hm : it1 < max_iters
            · exact Or.inl (hq hm)
            · have hge : 1e4 * acc ≤ tr1 := not_lt.1 fun hlt => hc ⟨by omega, hlt⟩
              by_cases ha : acc < tr1
              · right
                refine ⟨?_, hge⟩
                by_contra h8
                apply hd
                refine ⟨by omega, ?_⟩
                rw [Bool.or_eq_true]
                exact Or.inr (decide_eq_true ⟨by omega, ha⟩)
              · exact Or.inl (not_lt.1 ha)

/-- **C101**, stopping: a slice is left either with the measure at most the accuracy, or after eight random restarts with
the measure at least ten thousand times the accuracy. -/
theorem C101_stop_partial {P : FaParams} {db : ℕ × List ℕ} {rand : ℕ → ℕ → SGauge} {acc : ℝ} {max_iters passes : ℕ} {lat : Gauge}
    {t : ℕ} {g : SGauge} {tr : ℝ} {its c : ℕ}
    (h : fixSlice P db rand acc max_iters passes lat t = .done g tr its c) :
    1 ≤ its ∧ c ≤ 8 ∧ (tr ≤ acc ∨ c = 8 ∧ 1e4 * acc ≤ tr) := by
  obtain ⟨a, b, c, -⟩ := steep_fix_stop (step_FACG_stops P db lat t acc max_iters) passes (by omega) h
  exact ⟨a, b, c⟩

/-- With at most one iteration a slice is never left converged: whenever the measure is close to the accuracy the
program starts another run, for ever. -/
theorem C101_one_iteration_fails {P : FaParams} {db : ℕ × List ℕ} {rand : ℕ → ℕ → SGauge} {acc : ℝ} (hacc : 0 < acc)
    {max_iters passes : ℕ} (hm : max_iters ≤ 1) {lat : Gauge} {t : ℕ} {g : SGauge} {tr : ℝ} {its c : ℕ} :
    fixSlice P db rand acc max_iters passes lat t = .done g tr its c → ¬ tr ≤ acc := by
  intro h htr
  obtain ⟨-, -, -, d⟩ := steep_fix_stop (step_FACG_stops P db lat t acc max_iters) passes (by omega) h
  have := d hm
  norm_num at this
  linarith

/-! ## What is not reported -/

/-- A slice on which no run comes near the accuracy: the ninth attempt is used as it stands.  `steep_fix` returns the
number of iterations, as it does after convergence. -/
theorem C101_failure_hidden {NC : ℕ} {L : Latt} {scratch : Arr ℂ} {f : SGauge → Option (SGauge × ℝ × ℕ)}
    {rand : ℕ → SGauge} {acc : ℝ} {max_iters : ℕ} {start : SGauge} {out : ℕ → SGauge} {tr : ℕ → ℝ}
    (h0 : f start = some (out 0, tr 0, max_iters))
    (hs : ∀ k < 8, f (rand k) = some (out (k + 1), tr (k + 1), max_iters))
    (ht : ∀ k ≤ 8, acc < tr k ∧ 1e4 * acc ≤ tr k) :
    steep_fix NC L scratch f rand acc max_iters 9 0 0 false start = .done (out 8) (tr 8) (9 * max_iters) 8 := by
  have key : ∀ j ≤ 8, ∀ tot g, f g = some (out (8 - j), tr (8 - j), max_iters) →
      steep_fix NC L scratch f rand acc max_iters (j + 1) (8 - j) tot false g =
        .done (out 8) (tr 8) (tot + (j + 1) * max_iters) 8 := by
    intro j
    induction j with
    | zero =>
      intro _ tot g hg
      obtain ⟨h1, h2⟩ := ht 8 le_rfl
      rw [steep_fix, hg]
      dsimp only
      have hc : checkSolution NC L scratch acc (out (8 - 0)) (tr (8 - 0)) max_iters = some (out 8, true) := by
        unfold checkSolution
        rw [if_neg (not_lt.2 h1.le)]
      rw [hc]
      dsimp only
      rw [if_neg (fun h => absurd h.2 (not_lt.2 h2)), if_neg (by omega)]
      simp
    | succ j ih =>
      intro hj tot g hg
      obtain ⟨h1, h2⟩ := ht (8 - (j + 1)) (by omega)
      rw [steep_fix, hg]
      dsimp only
      have hc : checkSolution NC L scratch acc (out (8 - (j + 1))) (tr (8 - (j + 1))) max_iters =
          some (out (8 - (j + 1)), true) := by
        unfold checkSolution
        rw [if_neg (not_lt.2 h1.le)]
      rw [hc]
      dsimp only
      rw [if_neg (fun h => absurd h.2 (not_lt.2 h2)), if_pos]
      · have := ih (by omega) (tot + max_iters) (rand (8 - (j + 1))) (by
          rw [hs _ (by omega), show 8 - (j + 1) + 1 = 8 - j by omega])
        rw [show 8 - (j + 1) + 1 = 8 - j by omega, this]
        congr 1
        ring
      · refine ⟨by omega, ?_⟩
        rw [Bool.or_eq_true]
        exact Or.inr (decide_eq_true ⟨le_rfl, h1⟩)
  have := key 8 le_rfl 0 start h0
  simpa using this

/-- A method that never gets anywhere meets the hypotheses. -/
example : steep_fix 3 L4468 scratch (fun g => some (g, 1, 10)) (fun _ => idSlice 3) 1e-14 10 9 0 0 false (idSlice 3) =
    .done (idSlice 3) 1 90 8 :=
  C101_failure_hidden (out := fun _ => idSlice 3) (tr := fun _ => 1) rfl (fun _ _ => rfl)
    fun _ _ => by norm_num

/-- A lattice with one time slice: the program fixes slice one, which does not exist. -/
theorem C101_one_slice_fails {P : FaParams} (hL : Valid P.L) (hT : P.L.dims (P.L.ND - 1) = 1)
    (hs : ∃ mu < P.L.ND - 1, 2 ≤ P.L.dims mu) (rand : ℕ → ℕ → SGauge) (acc : ℝ) (max_iters passes : ℕ) (lat : Gauge) :
    Coulomb P true rand acc max_iters passes lat = .outside := by
  have hlcu : lcu P.L = ∏ mu ∈ range (P.L.ND - 1), P.L.dims mu := lcu_eq P.L hL.nd
  obtain ⟨nc, Ns, sq, h⟩ := (C07_success_iff hL (show P.L.ND - 1 ≤ P.L.ND by omega)).2.2 hs
  rw [← hlcu] at h
  unfold Coulomb Coulomb_FA coulombRegion
  rw [h]
  simp [hT]

/-- A lattice with one site in every time slice: the draughtboard cannot be set up, and the program frees pointers it
has never set. -/
theorem C101_one_site_fails {P : FaParams} (hL : Valid P.L) (hs : ∀ mu < P.L.ND - 1, P.L.dims mu = 1)
    (alloc : Bool) (rand : ℕ → ℕ → SGauge) (acc : ℝ) (max_iters passes : ℕ) (lat : Gauge) :
    Coulomb P alloc rand acc max_iters passes lat = .undef := by
  have hlcu : lcu P.L = ∏ mu ∈ range (P.L.ND - 1), P.L.dims mu := lcu_eq P.L hL.nd
  have h := (C07_success_iff hL (show P.L.ND - 1 ≤ P.L.ND by omega)).2
  rw [← hlcu] at h
  unfold Coulomb Coulomb_FA
  cases hcb : init_cb P.L (lcu P.L) (P.L.ND - 1) with
  | failure => rfl
  | outOfBounds => rfl
  | ok nc Ns sq =>
    obtain ⟨mu, hmu, h2⟩ := h.1 ⟨nc, Ns, sq, hcb⟩
    have := hs mu hmu
    omega

/-- The two shapes. -/
example : (∃ L : Latt, Valid L ∧ L.dims (L.ND - 1) = 1 ∧ ∃ mu < L.ND - 1, 2 ≤ L.dims mu) ∧
    ∃ L : Latt, Valid L ∧ ∀ mu < L.ND - 1, L.dims mu = 1 := by
  refine ⟨⟨⟨4, fun mu => if mu = 3 then 1 else 4⟩, ⟨by decide, fun mu _ => ?_, by decide⟩, rfl, 0, by decide, by decide⟩,
    ⟨⟨4, fun mu => if mu = 3 then 4 else 1⟩, ⟨by decide, fun mu _ => ?_, by decide⟩, fun mu hmu => ?_⟩⟩
  · show 0 < if mu = 3 then 1 else 4; split <;> decide
  · show 0 < if mu = 3 then 4 else 1; split <;> decide
  · show (if mu = 3 then 4 else 1) = 1
    rw [if_neg (by change mu < 3 at hmu; omega)]

/-- **C101** (what the program gets wrong): when an allocation fails the program frees a pointer nothing has set. -/
theorem C101_no_memory_fails (P : FaParams) (rand : ℕ → ℕ → SGauge) (acc : ℝ) (max_iters passes : ℕ) (lat : Gauge) :
    Coulomb P false rand acc max_iters passes lat = .undef := by
  unfold Coulomb Coulomb_FA
  cases init_cb P.L (lcu P.L) (P.L.ND - 1) <;> simp

end GLU.Gfix
