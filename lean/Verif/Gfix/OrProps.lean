import Verif.Gfix.OrSweep

/-!
# C79: over-relaxed gauge fixing
-/

namespace GLU.Gfix

open Complex Matrix GLU.Mat GLU.Geom GLU.Field GLU.Update GLU.Sched GLU.Draught Finset

/-! ## One step -/

/-- **C79**, one step: a step at the site `i` with the subgroup of rows `p < q` is the gauge transformation by one special
unitary matrix at that site.  If the `D` directions looked at are at least two sites long, the sum of the real traces of
the links of these directions does not decrease; it stays the same only if the sum `V` of the links that leave the site
and the daggers of those that enter has no anti-Hermitian part in the subgroup. -/
theorem C79_step {NC s : ℕ} (hs : s < NSU2SUBGROUPS NC) {L : Latt} (hL : Valid L) {OrParam coin : ℝ} {D i : ℕ}
    (hi : i < volume L) (hD : D ≤ L.ND) (h2 : ∀ mu < D, 2 ≤ L.dims mu) {lat lat' : Gauge}
    (h : OR_single NC L s OrParam D coin i lat = some lat') :
    ∃ p q : Fin NC, ((p : ℕ), (q : ℕ)) = rowPair NC s ∧ p < q ∧
    (∃ G ∈ specialUnitaryGroup (Fin NC) ℂ, ∀ j < volume L, ∀ mu < L.ND,
      link NC lat' j mu = (if j = i then G else 1) * link NC lat j mu *
        (if neighbor L j mu = i then G else 1)ᴴ) ∧
    linkSum NC lat (range (volume L)) D ≤ linkSum NC lat' (range (volume L)) D ∧
    (linkSum NC lat' (range (volume L)) D = linkSum NC lat (range (volume L)) D →
      (siteSum NC L lat i D p p).im = (siteSum NC L lat i D q q).im ∧
        siteSum NC L lat i D p q = star (siteSum NC L lat i D q p)) := by
  obtain ⟨a, b⟩ := (C26_enumeration NC).1 s hs
  refine ⟨⟨_, a.trans b⟩, ⟨_, b⟩, rfl, a, OR_single_site hs hL hi h, ?_, ?_⟩
  · exact (OR_single_gain hs hL hi hD h2 h (fun j hj => mem_range.1 hj) (mem_range.2 hi)
      fun mu hmu => mem_range.2 (back_lt hL i (by omega))).1
  · intro he
    obtain ⟨e1, e2, -⟩ := (OR_single_gain hs hL hi hD h2 h (fun j hj => mem_range.1 hj) (mem_range.2 hi)
      fun mu hmu => mem_range.2 (back_lt hL i (by omega))).2 he
    rw [orSum_eq hs ⟨_, a.trans b⟩ ⟨_, b⟩ rfl rfl] at e1 e2
    simp only [Complex.add_im, Complex.star_def, Complex.conj_im] at e1 e2
    exact ⟨by linarith, (sub_eq_zero.1 e2).symm⟩

/-- **C79**, when a step is defined: exactly when the two sums do not both vanish. -/
theorem C79_step_defined {NC : ℕ} (L : Latt) (s : ℕ) (OrParam coin : ℝ) (D i : ℕ) (lat : Gauge) :
    (∃ lat', OR_single NC L s OrParam D coin i lat = some lat') ↔ orSum NC L lat s i D ≠ (0, 0) := by
  constructor
  · rintro ⟨lat', h⟩ h0
    obtain ⟨r, h1, -⟩ := OR_single_split h
    rw [h0, orChoice_zero] at h1
    cases h1
  · intro h0
    obtain ⟨r, hr⟩ := orChoice_defined (OrParam := OrParam) (coin := coin) h0
    exact ⟨_, by unfold OR_single; rw [hr]; rfl⟩

/-! ## Whole runs -/

/-- The steps of one colour are taken in some order, each site of the colour once, on the slice that starts at `off`. -/
def Executes (nc : ℕ) (sq : ℕ → List ℕ) (off : ℕ) (sched : ℕ → List (ℕ × ℝ)) : Prop :=
  ∀ c < nc, ((sched c).map Prod.fst).Perm ((sq c).map (off + ·))

theorem closed_volume {L : Latt} (hL : Valid L) : ClosedSet L (range (volume L)) L.ND :=
  ⟨fun _ hj => mem_range.1 hj, fun j _ mu hmu => mem_range.2 (back_lt hL j hmu)⟩

theorem links_linkSum {NC : ℕ} {L : Latt} (hN : 1 ≤ NC) (hL : Valid L) (lat : Gauge) :
    links NC L lat = some (linkSum NC lat (range (volume L)) L.ND / (NC * (volume L * L.ND))) := by
  rw [(C66_average hN hL lat).1]
  unfold linkSum
  rw [Option.some_inj]
  simp only [← Finset.sum_div]
  rw [div_div]

/-- **C79**, Landau gauge.  Whatever the threads do and whichever numbers they draw, if no step divides by zero then the
final field is a gauge transform of the initial one, its average plaquette is the same, its average link trace is not
smaller (when all extents are at least two), at most `MAX_ITERS` iterations are made, and fewer are made only if the
stopping quantity does not exceed the accuracy. -/
theorem C79_landau_partial {NC : ℕ} (hN : 2 ≤ NC) {L : Latt} (hL : Valid L) {nc : ℕ} {Ns : ℕ → ℕ} {sq : ℕ → List ℕ}
    (hcb : init_cb L (volume L) L.ND = .ok nc Ns sq) {scratch : Arr ℂ} {MAX_ITERS : ℕ} {ACC OrParam : ℝ}
    (hp : 0 ≤ OrParam ∧ OrParam < 1) {sched : ℕ → ℕ → ℕ → List (ℕ × ℝ)} (hsch : ∀ k s, Executes nc sq 0 (sched k s))
    {lat lat' : Gauge} (hU : SUField NC L lat) {iters : ℕ} {theta : Theta}
    (h : OrLandau NC L scratch true MAX_ITERS ACC OrParam sched lat = some (lat', iters, theta)) :
    Orbit NC L lat lat' ∧ SUField NC L lat' ∧ av_plaquette NC L lat' = av_plaquette NC L lat ∧
    ((∀ mu < L.ND, 2 ≤ L.dims mu) → ∃ a b, links NC L lat = some a ∧ links NC L lat' = some b ∧ a ≤ b) ∧
    iters ≤ MAX_ITERS ∧ (iters < MAX_ITERS → ¬ theta.Exceeds ACC) := by
  unfold OrLandau at h
  simp only [Option.bind_eq_some_iff] at h
  obtain ⟨nl, -, th, -, h⟩ := h
  rw [hcb] at h
  simp only [Bool.true_eq_false, if_false] at h
  rw [if_neg (by push Not; exact hp)] at h
  rw [Option.bind_eq_some_iff] at h
  obtain ⟨⟨u, it, t⟩, h1, h2⟩ := h
  rw [Option.map_eq_some_iff] at h2
  obtain ⟨v, h2, h3⟩ := h2
  simp only [Prod.mk.injEq] at h3
  obtain ⟨rfl, rfl, rfl⟩ := h3
  have hpart := (C07_partition hL le_rfl (by rw [← (C01_volume hL.nd).1]; exact hcb)).2
  obtain ⟨m, -, i1, i2⟩ := orLoop_inv (R := Moves NC L (range (volume L)) L.ND) (Moves.refl _ _ _ _)
    (fun _ _ _ => Moves.trans) (fun k a b hab => OR_sweep_moves hL le_rfl (closed_volume hL) (fun s _ c hc x hx => by
      have hm : x.1 ∈ (sched k s c).map Prod.fst := List.mem_map_of_mem hx
      rw [(hsch k s c hc).mem_iff, List.mem_map] at hm
      obtain ⟨y, hy, he⟩ := hm
      rw [mem_range, ← he, Nat.zero_add, (C01_volume hL.nd).1]
      exact (hpart c hc).2.2.2 y hy) hab) _ _ _ _ _ h1
  have hsu := orbit_su hL m.orbit hU
  obtain ⟨w, w1, w2⟩ := latt_reunitU_su (by omega) (scratch := scratch) hsu
  rw [h2, Option.some_inj] at w1
  subst w1
  have horb := orbit_trans m.orbit (orbit_agree w2)
  refine ⟨horb, orbit_su hL horb hU, orbit_plaquette (by omega) hL horb hU, fun hd => ?_, by simpa using i1,
    by simpa using i2⟩
  refine ⟨_, _, links_linkSum (by omega) hL lat, links_linkSum (by omega) hL v, ?_⟩
  have e : linkSum NC v (range (volume L)) L.ND = linkSum NC u (range (volume L)) L.ND :=
    sum_congr rfl fun i hi => sum_congr rfl fun mu hmu => by rw [w2 i (mem_range.1 hi) mu (mem_range.1 hmu)]
  rw [e]
  exact div_le_div_of_nonneg_right (m.gain hd) (by positivity)

/-! ## Coulomb gauge -/

/-- The sites of a time slice. -/
def slice (L : Latt) (t : ℕ) : Finset ℕ := (range (volume L)).filter fun i => i / lcu L = t

theorem lcu_pos {L : Latt} (hL : Valid L) : 0 < lcu L := by
  rw [lcu_eq L hL.nd]; exact hL.radix_pos _ (by omega)

theorem slice_div {L : Latt} (hL : Valid L) {i : ℕ} (hi : i < volume L) :
    i / lcu L < L.dims (L.ND - 1) ∧ i = lcu L * (i / lcu L) + i % lcu L ∧ i % lcu L < lcu L := by
  refine ⟨?_, (Nat.div_add_mod i (lcu L)).symm, Nat.mod_lt _ (lcu_pos hL)⟩
  rw [Nat.div_lt_iff_lt_mul (lcu_pos hL), Nat.mul_comm]; exact hi

theorem slice_keep {L : Latt} (hL : Valid L) {i mu : ℕ} (hi : i < volume L) (hmu : mu < L.ND - 1) :
    neighbor L i mu / lcu L = i / lcu L := by
  obtain ⟨h1, h2, h3⟩ := slice_div hL hi
  obtain ⟨a, b⟩ := (slice_neighbor hL h1 h3).1 mu hmu
  conv_lhs => rw [h2, b, Nat.mul_add_div (lcu_pos hL), Nat.div_eq_of_lt a, Nat.add_zero]

theorem closed_slice {L : Latt} (hL : Valid L) (t : ℕ) : ClosedSet L (slice L t) (L.ND - 1) := by
  refine ⟨fun j hj => mem_range.1 (mem_filter.1 hj).1, fun j hj mu hmu => ?_⟩
  obtain ⟨h1, h2⟩ := mem_filter.1 hj
  rw [mem_range] at h1
  have hb := back_lt hL j (show mu < L.ND by omega)
  refine mem_filter.2 ⟨mem_range.2 hb, ?_⟩
  rw [← slice_keep hL hb hmu, (C02_inverse hL h1 (by omega)).2, h2]

theorem slice_mem {L : Latt} {t i : ℕ} (ht : t < L.dims (L.ND - 1)) (hi : i < lcu L) :
    lcu L * t + i ∈ slice L t := by
  refine mem_filter.2 ⟨mem_range.2 ?_, ?_⟩
  · calc lcu L * t + i < lcu L * t + lcu L := by omega
      _ = lcu L * (t + 1) := by ring
      _ ≤ lcu L * L.dims (L.ND - 1) := Nat.mul_le_mul_left _ ht
      _ = volume L := rfl
  · rw [Nat.mul_add_div (by omega), Nat.div_eq_of_lt hi, Nat.add_zero]

/-- **C79**, Coulomb gauge.  Whatever the threads do, if no step divides by zero then the final field is a gauge transform
of the initial one, its average plaquette is the same, on every time slice the sum of the real traces of the spatial
links is not smaller (when the spatial extents are at least two), there is one report for each slice, each of at most
`MAX_ITERS` iterations and of fewer only if the stopping quantity does not exceed the accuracy, and the number returned
is the sum of the reported ones. -/
theorem C79_coulomb_partial {NC : ℕ} (hN : 2 ≤ NC) {L : Latt} (hL : Valid L) {nc : ℕ} {Ns : ℕ → ℕ} {sq : ℕ → List ℕ}
    (hcb : init_cb L (lcu L) (L.ND - 1) = .ok nc Ns sq) {MAX_ITERS : ℕ} {ACC OrParam : ℝ}
    (hp : 0 ≤ OrParam ∧ OrParam < 1) {sched : ℕ → ℕ → ℕ → ℕ → List (ℕ × ℝ)}
    (hsch : ∀ t k s, Executes nc sq (lcu L * t) (sched t k s))
    {lat lat' : Gauge} (hU : SUField NC L lat) {iters : ℕ} {log : List (ℕ × Theta)}
    (h : OrCoulomb NC L true MAX_ITERS ACC OrParam sched lat = some (lat', iters, log)) :
    Orbit NC L lat lat' ∧ SUField NC L lat' ∧ av_plaquette NC L lat' = av_plaquette NC L lat ∧
    ((∀ mu < L.ND - 1, 2 ≤ L.dims mu) → ∀ t < L.dims (L.ND - 1),
      linkSum NC lat (slice L t) (L.ND - 1) ≤ linkSum NC lat' (slice L t) (L.ND - 1)) ∧
    log.length = L.dims (L.ND - 1) ∧ iters = (log.map Prod.fst).sum ∧
    ∀ r ∈ log, r.1 ≤ MAX_ITERS ∧ (r.1 < MAX_ITERS → ¬ r.2.Exceeds ACC) := by
  have hnd := hL.nd
  unfold OrCoulomb at h
  rw [hcb] at h
  simp only [Bool.true_eq_false, if_false] at h
  rw [if_neg (by push Not; exact hp)] at h
  have hpart := (C07_partition hL (show L.ND - 1 ≤ L.ND by omega) (by rw [← (C01_volume hnd).2]; exact hcb)).2
  have key : ∀ n ≤ L.dims (L.ND - 1), ∀ w it lg, forN n (fun t o => o.bind fun s =>
      (slice_spatial_links NC L t s.1).bind fun newlink =>
      (orLoop (slice_spatial_links NC L t) (fun k => OR_sweep NC L nc OrParam (L.ND - 1) (sched t k)) ACC
        MAX_ITERS 0 s.1 newlink (.num 1)).map fun r => (r.1, s.2.1 + r.2.1, s.2.2 ++ [r.2]))
      (some (lat, 0, [])) = some (w, it, lg) →
      Orbit NC L lat w ∧ ((∀ mu < L.ND - 1, 2 ≤ L.dims mu) → ∀ t < L.dims (L.ND - 1),
        linkSum NC lat (slice L t) (L.ND - 1) ≤ linkSum NC w (slice L t) (L.ND - 1)) ∧
      lg.length = n ∧ it = (lg.map Prod.fst).sum ∧
      ∀ r ∈ lg, r.1 ≤ MAX_ITERS ∧ (r.1 < MAX_ITERS → ¬ r.2.Exceeds ACC) := by
    intro n
    induction n with
    | zero =>
      intro _ w it lg h
      rw [forN, Option.some_inj] at h
      simp only [Prod.mk.injEq] at h
      obtain ⟨rfl, rfl, rfl⟩ := h
      exact ⟨orbit_refl _ _ _, fun _ _ _ => le_refl _, rfl, rfl, by simp⟩
    | succ n ih =>
      intro hn w it lg h
      rw [forN, Option.bind_eq_some_iff] at h
      obtain ⟨⟨w0, it0, lg0⟩, h0, h⟩ := h
      obtain ⟨b1, b2, b3, b4, b5⟩ := ih (by omega) w0 it0 lg0 h0
      rw [Option.bind_eq_some_iff] at h
      obtain ⟨nl, -, h⟩ := h
      rw [Option.map_eq_some_iff] at h
      obtain ⟨⟨u, k, th⟩, h1, h2⟩ := h
      simp only [Prod.mk.injEq] at h2
      obtain ⟨rfl, rfl, rfl⟩ := h2
      obtain ⟨m, -, i1, i2⟩ := orLoop_inv (R := Moves NC L (slice L n) (L.ND - 1)) (Moves.refl _ _ _ _)
        (fun _ _ _ => Moves.trans) (fun k a b hab => OR_sweep_moves hL (by omega) (closed_slice hL n)
          (fun s _ c hc x hx => by
            have hm : x.1 ∈ (sched n k s c).map Prod.fst := List.mem_map_of_mem hx
            rw [(hsch n k s c hc).mem_iff, List.mem_map] at hm
            obtain ⟨y, hy, he⟩ := hm
            rw [← he]
            exact slice_mem (by omega) (by rw [(C01_volume hnd).2]; exact (hpart c hc).2.2.2 y hy)) hab) _ _ _ _ _ h1
      refine ⟨orbit_trans b1 m.orbit, fun hd t ht => (b2 hd t ht).trans ?_, by simp [b3], by simp [b4], ?_⟩
      · by_cases he : t = n
        · subst he; exact m.gain hd
        · refine le_of_eq (sum_congr rfl fun i hi => sum_congr rfl fun mu hmu => ?_)
          obtain ⟨c1, c2⟩ := mem_filter.1 hi
          rw [m.outside i (mem_range.1 c1) (fun hm => he (by rw [← c2, (mem_filter.1 hm).2])) mu (mem_range.1 hmu)]
      · intro r hr
        rw [List.mem_append, List.mem_singleton] at hr
        rcases hr with hr | rfl
        · exact b5 r hr
        · exact ⟨by simpa using i1, by simpa using i2⟩
  obtain ⟨c1, c2, c3, c4, c5⟩ := key _ le_rfl _ _ _ h
  exact ⟨c1, orbit_su hL c1 hU, orbit_plaquette (by omega) hL c1 hU, c2, c3, c4, c5⟩

/-! ## The order of the threads does not matter -/

/-- **C79**, threads.  When the colouring separates neighbours (which fails for extents 7, 13, ..., see C08), a sweep
gives the same field in whatever order the sites of a colour are taken, as long as each site draws the same number. -/
theorem C79_order_partial {NC : ℕ} {L : Latt} (hL : Valid L) {nc : ℕ} {Ns : ℕ → ℕ} {sq : ℕ → List ℕ}
    (hd : ∀ mu < L.ND, L.dims mu % 2 = 1 → L.dims mu % 3 ≠ 1) (hcb : init_cb L (volume L) L.ND = .ok nc Ns sq)
    (OrParam : ℝ) {sched sched' : ℕ → ℕ → List (ℕ × ℝ)} (hsch : ∀ s, Executes nc sq 0 (sched s))
    (hperm : ∀ s, ∀ c < nc, (sched s c).Perm (sched' s c)) (lat : Gauge) :
    OR_sweep NC L nc OrParam L.ND sched lat = OR_sweep NC L nc OrParam L.ND sched' lat := by
  have hpart := (C07_partition hL le_rfl (by rw [← (C01_volume hL.nd).1]; exact hcb)).2
  have happ := C08_neighbours_differ_partial hL hd hcb
  unfold OR_sweep
  refine forN_congr (fun s _ o => ?_) _
  congr 1
  funext u
  unfold OR_iteration_th
  refine forN_congr (fun c hc o => ?_) _
  congr 1
  funext v
  refine OR_colour_perm hL le_rfl (hperm s c hc) ?_ v
  have hp := hsch s c hc
  have he : (sq c).map (0 + ·) = sq c := by simp
  rw [he] at hp
  refine Apart.perm ?_ hp.symm
  refine ⟨fun x hx => by rw [(C01_volume hL.nd).1]; exact (hpart c hc).2.2.2 x hx, (hpart c hc).1, ?_⟩
  intro x hx y hy _ mu hmu e
  exact (happ c hc x hx mu hmu).1 (e ▸ hy)

/-- The same for the sweeps of a time slice. -/
theorem C79_slice_order_partial {NC : ℕ} {L : Latt} (hL : Valid L) {nc : ℕ} {Ns : ℕ → ℕ} {sq : ℕ → List ℕ}
    (hd : ∀ mu < L.ND - 1, L.dims mu % 2 = 1 → L.dims mu % 3 ≠ 1) (hcb : init_cb L (lcu L) (L.ND - 1) = .ok nc Ns sq)
    (OrParam : ℝ) {t : ℕ} (ht : t < L.dims (L.ND - 1)) {sched sched' : ℕ → ℕ → List (ℕ × ℝ)}
    (hsch : ∀ s, Executes nc sq (lcu L * t) (sched s))
    (hperm : ∀ s, ∀ c < nc, (sched s c).Perm (sched' s c)) (lat : Gauge) :
    OR_sweep NC L nc OrParam (L.ND - 1) sched lat = OR_sweep NC L nc OrParam (L.ND - 1) sched' lat := by
  have hnd := hL.nd
  have hcb' : init_cb L (∏ mu ∈ range (L.ND - 1), L.dims mu) (L.ND - 1) = .ok nc Ns sq := by
    rw [← (C01_volume hL.nd).2]; exact hcb
  have hpart := (C07_partition hL (show L.ND - 1 ≤ L.ND by omega) hcb').2
  have happ := (C08_neighbours_differ_iff hL (show L.ND - 1 ≤ L.ND by omega) hcb').2 hd
  unfold OR_sweep
  refine forN_congr (fun s _ o => ?_) _
  congr 1
  funext u
  unfold OR_iteration_th
  refine forN_congr (fun c hc o => ?_) _
  congr 1
  funext v
  refine OR_colour_perm hL (by omega) (hperm s c hc) (Apart.perm ?_ (hsch s c hc).symm) v
  have hlt : ∀ x ∈ sq c, x < lcu L := fun x hx => by
    rw [(C01_volume hL.nd).2]; exact (hpart c hc).2.2.2 x hx
  refine ⟨fun x hx => ?_, (hpart c hc).1.map (fun a b h => by simpa using h), ?_⟩
  · rw [List.mem_map] at hx
    obtain ⟨y, hy, rfl⟩ := hx
    exact mem_range.1 (mem_filter.1 (slice_mem ht (hlt y hy))).1
  · intro x hx y hy hne mu hmu e
    rw [List.mem_map] at hx hy
    obtain ⟨x, hx, rfl⟩ := hx
    obtain ⟨y, hy, rfl⟩ := hy
    by_cases hm : mu < L.ND - 1
    · rw [((slice_neighbor hL ht (hlt x hx)).1 mu hm).2] at e
      have : neighbor L x mu = y := by omega
      exact happ c hc x hx mu hm (this ▸ hy)
    · have : mu = L.ND - 1 := by omega
      subst this
      rw [(slice_neighbor hL ht (hlt x hx)).2] at e
      have hm := congrArg (· % lcu L) e
      simp only [Nat.mul_add_mod, Nat.mod_eq_of_lt (hlt x hx), Nat.mod_eq_of_lt (hlt y hy)] at hm
      exact hne (by rw [hm])

/-! ## Runs that are not defined -/

/-- Two colours, every link `i σ3`. -/
noncomputable def iSigma : Gauge := fun _ => arr [I, 0, 0, -I]

theorem iSigma_su (L : Latt) : SUField 2 L iSigma := by
  intro i _ mu _
  unfold IsSU iSigma
  rw [mem_specialUnitaryGroup_iff, mem_unitaryGroup_iff]
  constructor
  · ext i j
    fin_cases i <;> fin_cases j <;> simp [Matrix.mul_apply, Fin.sum_univ_two, star_apply, arr]
  · simp [det_fin_two, arr]

theorem iSigma_sum (L : Latt) (i D : ℕ) : orSum 2 L iSigma 0 i D = (0, 0) := by
  have hs : 0 < NSU2SUBGROUPS 2 := by decide
  have h1 : ((0 : Fin 2) : ℕ) = (rowPair 2 0).1 := by decide
  have h2 : ((1 : Fin 2) : ℕ) = (rowPair 2 0).2 := by decide
  rw [orSum_eq hs 0 1 h1 h2]
  have : siteSum 2 L iSigma i D = 0 := by
    unfold siteSum
    refine sum_eq_zero fun mu _ => ?_
    ext a b
    fin_cases a <;> fin_cases b <;> simp [link, iSigma, arr]
  rw [this]
  simp

/-- **C79** fails without the proviso: on the constant special unitary field `i σ3` of two colours the first step of the
Coulomb gauge fixing divides zero by zero, so the links become NaN, for every schedule, every number drawn and every
setting that lets the iteration begin. -/
theorem C79_undefined {L : Latt} (hL : Valid L) {nc : ℕ} {Ns : ℕ → ℕ} {sq : ℕ → List ℕ}
    (hcb : init_cb L (lcu L) (L.ND - 1) = .ok nc Ns sq) {MAX_ITERS : ℕ} (hM : 0 < MAX_ITERS) {ACC OrParam : ℝ}
    (hA : ACC < 1) (hp : 0 ≤ OrParam ∧ OrParam < 1) {sched : ℕ → ℕ → ℕ → ℕ → List (ℕ × ℝ)}
    (hsch : ∀ t k s, Executes nc sq (lcu L * t) (sched t k s)) :
    SUField 2 L iSigma ∧ OrCoulomb 2 L true MAX_ITERS ACC OrParam sched iSigma = none := by
  refine ⟨iSigma_su L, ?_⟩
  have hnd := hL.nd
  have hpart := (C07_partition hL (show L.ND - 1 ≤ L.ND by omega) (by rw [← (C01_volume hnd).2]; exact hcb)).2
  have hnc := (init_cb_ok hL (show L.ND - 1 ≤ L.ND by omega) (by
    rw [show radix L.dims (L.ND - 1) = lcu L from (lcu_eq L hnd).symm]; exact hcb)).1
  have hfail : ∀ t k, OR_sweep 2 L nc OrParam (L.ND - 1) (sched t k) iSigma = none := by
    intro t k
    have hc0 : 0 < nc := by omega
    have hcol : OR_colour 2 L 0 OrParam (L.ND - 1) (sched t k 0 0) iSigma = none := by
      have hne := (hpart 0 hc0).2.1
      have hlen := (hsch t k 0 0 hc0).length_eq
      rw [List.length_map, List.length_map] at hlen
      unfold OR_colour
      cases hl : sched t k 0 0 with
      | nil =>
        rw [hl] at hlen
        exact absurd (List.length_eq_zero_iff.1 hlen.symm) hne
      | cons x l =>
        rw [List.foldl_cons, Option.bind_some]
        have : OR_single 2 L 0 OrParam (L.ND - 1) x.2 x.1 iSigma = none := by
          unfold OR_single
          rw [iSigma_sum, orChoice_zero]; rfl
        rw [this, foldl_none (fun (x : ℕ × ℝ) => OR_single 2 L 0 OrParam (L.ND - 1) x.2 x.1)]
    have hit : OR_iteration_th 2 L nc 0 OrParam (L.ND - 1) (sched t k 0) iSigma = none := by
      unfold OR_iteration_th
      have : ∀ n, 0 < n → forN n (fun c o => o.bind (OR_colour 2 L 0 OrParam (L.ND - 1) (sched t k 0 c)))
          (some iSigma) = none := by
        intro n hn
        induction n with
        | zero => omega
        | succ n ih =>
          rw [forN]
          rcases Nat.eq_zero_or_pos n with rfl | h
          · rw [forN, Option.bind_some, hcol]
          · rw [ih h]; rfl
      exact this nc hc0
    unfold OR_sweep
    rw [show NSU2SUBGROUPS 2 = 1 from by decide, forN, forN, Option.bind_some, hit]
  unfold OrCoulomb
  rw [hcb]
  simp only [Bool.true_eq_false, if_false]
  rw [if_neg (by push Not; exact hp)]
  have hT : 0 < L.dims (L.ND - 1) := hL.pos _ (by omega)
  obtain ⟨T, hT⟩ : ∃ T, L.dims (L.ND - 1) = T + 1 := ⟨L.dims (L.ND - 1) - 1, by omega⟩
  rw [hT]
  obtain ⟨M, rfl⟩ : ∃ M, MAX_ITERS = M + 1 := ⟨MAX_ITERS - 1, by omega⟩
  generalize hF : (fun t (o : Option (Gauge × ℕ × List (ℕ × Theta))) => o.bind fun s =>
      (slice_spatial_links 2 L t s.1).bind fun newlink =>
      (orLoop (slice_spatial_links 2 L t) (fun k => OR_sweep 2 L nc OrParam (L.ND - 1) (sched t k)) ACC
        (M + 1) 0 s.1 newlink (.num 1)).map fun r => (r.1, s.2.1 + r.2.1, s.2.2 ++ [r.2])) = F
  have h0 : F 0 (some (iSigma, 0, [])) = none := by
    rw [← hF]
    simp only [Option.bind_some]
    cases slice_spatial_links 2 L 0 iSigma with
    | none => rfl
    | some nl =>
      simp only [Option.bind_some]
      rw [orLoop, if_pos (by show ACC < |(1 : ℝ)|; rw [abs_one]; exact hA), hfail]
      rfl
  have hnone : ∀ t, F t none = none := fun t => by rw [← hF]; rfl
  have : ∀ n, forN (n + 1) F (some (iSigma, 0, [])) = none := by
    intro n
    induction n with
    | zero => exact h0
    | succ n ih => rw [forN, ih, hnone]
  exact this T

/-! ## Fields on which the hypotheses hold -/

/-- Two colours, all links one but the first, which is `i σ3`. -/
noncomputable def spike : Gauge := fun l => if l = (0, 0) then arr [I, 0, 0, -I] else arr [1, 0, 0, 1]

theorem spike_sum : siteSum 2 L2345 spike 0 4 = !![7 + I, 0; 0, 7 - I] := by
  have e : siteSum 2 L2345 spike 0 4 = ∑ mu ∈ range 4, !![if mu = 0 then 1 + I else (2 : ℂ), 0; 0, if mu = 0 then 1 - I else 2] := by
    unfold siteSum
    refine sum_congr rfl fun mu hmu => ?_
    rw [mem_range] at hmu
    have hb : back L2345 0 mu ≠ 0 := by
      interval_cases mu <;> decide
    ext a b
    fin_cases a <;> fin_cases b <;>
      simp [link, spike, arr, hb] <;> split_ifs <;> simp <;> ring
  rw [e]
  ext a b
  fin_cases a <;> fin_cases b <;> simp [Finset.sum_range_succ] <;> ring

/-- The hypotheses of `C79_step` are met on a field that does move: for every number drawn the step is defined and the
link trace strictly increases. -/
example (OrParam coin : ℝ) : ∃ lat', OR_single 2 L2345 0 OrParam 4 coin 0 spike = some lat' ∧
    linkSum 2 spike (range (volume L2345)) 4 < linkSum 2 lat' (range (volume L2345)) 4 := by
  have hs : 0 < NSU2SUBGROUPS 2 := by decide
  have h1 : ((0 : Fin 2) : ℕ) = (rowPair 2 0).1 := by decide
  have h2 : ((1 : Fin 2) : ℕ) = (rowPair 2 0).2 := by decide
  obtain ⟨lat', h⟩ := (C79_step_defined (NC := 2) L2345 0 OrParam coin 4 0 spike).2 (by
    rw [orSum_eq hs 0 1 h1 h2, spike_sum]
    intro h
    have := congrArg (fun z : ℂ × ℂ => z.1.re) h
    simp at this)
  refine ⟨lat', h, ?_⟩
  obtain ⟨p, q, hpq, -, -, hle, heq⟩ := C79_step hs valid_L2345 (by decide) (by decide)
    (by intro mu hmu; simp [L2345]) h
  refine lt_of_le_of_ne hle fun he => ?_
  have e1 := (heq he.symm).1
  have hp : p = 0 := Fin.ext (by rw [h1]; exact congrArg Prod.fst hpq)
  have hq : q = 1 := Fin.ext (by rw [h2]; exact congrArg Prod.snd hpq)
  rw [hp, hq, spike_sum] at e1
  simp at e1
  norm_num at e1

/-! ## Runs that are defined -/

theorem bind_loop_defined {σ : Type*} {P : σ → Prop} (n : ℕ) (f : ℕ → σ → Option σ)
    (hf : ∀ k < n, ∀ a, P a → ∃ b, f k a = some b ∧ P b) {a : σ} (ha : P a) :
    ∃ b, forN n (fun k o => o.bind (f k)) (some a) = some b ∧ P b := by
  induction n with
  | zero => exact ⟨a, rfl, ha⟩
  | succ n ih =>
    obtain ⟨c, h1, h2⟩ := ih fun k hk => hf k (by omega)
    obtain ⟨b, h3, h4⟩ := hf n (by omega) c h2
    exact ⟨b, by rw [forN, h1]; exact h3, h4⟩

theorem bind_foldl_defined {α σ : Type*} {P : σ → Prop} (f : α → σ → Option σ) (l : List α)
    (hf : ∀ x ∈ l, ∀ a, P a → ∃ b, f x a = some b ∧ P b) {a : σ} (ha : P a) :
    ∃ b, l.foldl (fun o x => o.bind (f x)) (some a) = some b ∧ P b := by
  induction l generalizing a with
  | nil => exact ⟨a, rfl, ha⟩
  | cons x l ih =>
    obtain ⟨c, h1, h2⟩ := hf x List.mem_cons_self a ha
    obtain ⟨b, h3, h4⟩ := ih (fun y hy => hf y (List.mem_cons_of_mem _ hy)) h2
    exact ⟨b, by rw [List.foldl_cons, Option.bind_some, h1]; exact h3, h4⟩

/-- The links are special unitary and together less than one away from the unit matrix, in real trace. -/
def Near (NC : ℕ) (L : Latt) (lat : Gauge) : Prop :=
  SUField NC L lat ∧ ∑ i ∈ range (volume L), ∑ mu ∈ range L.ND, ((NC : ℝ) - (link NC lat i mu).trace.re) < 1

theorem near_linkSum {NC : ℕ} {L : Latt} (lat : Gauge) :
    ∑ i ∈ range (volume L), ∑ mu ∈ range L.ND, ((NC : ℝ) - (link NC lat i mu).trace.re) =
      volume L * L.ND * NC - linkSum NC lat (range (volume L)) L.ND := by
  unfold linkSum
  simp only [sum_sub_distrib, sum_const, card_range, nsmul_eq_mul]
  ring

theorem diag_le_one {n : ℕ} {U : Matrix (Fin n) (Fin n) ℂ} (h : Uᴴ * U = 1) (k : Fin n) : (U k k).re ≤ 1 := by
  have e := congrFun (congrFun h k) k
  rw [Matrix.mul_apply, Matrix.one_apply_eq] at e
  have e' := congrArg Complex.re e
  rw [Complex.re_sum] at e'
  have ht : ∀ j, ((Uᴴ) k j * U j k).re = normSq (U j k) := by
    intro j
    rw [conjTranspose_apply, Complex.star_def, ← normSq_eq_conj_mul_self, ofReal_re]
  simp only [ht, Complex.one_re] at e'
  have h1 : normSq (U k k) ≤ 1 := by
    rw [← e']; exact single_le_sum (f := fun j => normSq (U j k)) (fun j _ => normSq_nonneg _) (mem_univ k)
  rw [normSq_apply] at h1
  nlinarith [mul_self_nonneg (U k k).im]

theorem near_diag {NC : ℕ} {L : Latt} {lat : Gauge} (h : Near NC L lat) {i mu : ℕ} (hi : i < volume L) (hmu : mu < L.ND)
    (k : Fin NC) : 0 < (link NC lat i mu k k).re := by
  have hu : ∀ i < volume L, ∀ mu < L.ND, ∀ k, (link NC lat i mu k k).re ≤ 1 := fun i hi mu hmu k =>
    diag_le_one (su_star_mul (h.1 i hi mu hmu)) k
  have htr : ∀ i mu, (NC : ℝ) - (link NC lat i mu).trace.re = ∑ k, (1 - (link NC lat i mu k k).re) := by
    intro i mu
    rw [sum_sub_distrib, Matrix.trace, Complex.re_sum]
    simp
  have h0 : ∀ i < volume L, ∀ mu < L.ND, 0 ≤ (NC : ℝ) - (link NC lat i mu).trace.re := by
    intro i hi mu hmu
    rw [htr]
    exact sum_nonneg fun k _ => by linarith [hu i hi mu hmu k]
  have h1 : 1 - (link NC lat i mu k k).re ≤ (NC : ℝ) - (link NC lat i mu).trace.re := by
    rw [htr]
    exact single_le_sum (f := fun k => 1 - (link NC lat i mu k k).re) (fun k _ => by linarith [hu i hi mu hmu k]) (mem_univ k)
  have h2 : (NC : ℝ) - (link NC lat i mu).trace.re ≤ ∑ mu ∈ range L.ND, ((NC : ℝ) - (link NC lat i mu).trace.re) :=
    single_le_sum (f := fun mu => (NC : ℝ) - (link NC lat i mu).trace.re)
      (fun mu hmu => h0 i hi mu (mem_range.1 hmu)) (mem_range.2 hmu)
  have h3 : ∑ mu ∈ range L.ND, ((NC : ℝ) - (link NC lat i mu).trace.re) ≤
      ∑ i ∈ range (volume L), ∑ mu ∈ range L.ND, ((NC : ℝ) - (link NC lat i mu).trace.re) :=
    single_le_sum (f := fun i => ∑ mu ∈ range L.ND, ((NC : ℝ) - (link NC lat i mu).trace.re))
      (fun i hi => sum_nonneg fun mu hmu => h0 i (mem_range.1 hi) mu (mem_range.1 hmu)) (mem_range.2 hi)
  linarith [h.2]

theorem near_step {NC : ℕ} {L : Latt} (hL : Valid L) (h2 : ∀ mu < L.ND, 2 ≤ L.dims mu) {lat : Gauge} (h : Near NC L lat)
    {s : ℕ} (hs : s < NSU2SUBGROUPS NC) (OrParam coin : ℝ) {i : ℕ} (hi : i < volume L) :
    ∃ lat', OR_single NC L s OrParam L.ND coin i lat = some lat' ∧ Near NC L lat' := by
  have hnd := hL.nd
  obtain ⟨a, b⟩ := (C26_enumeration NC).1 s hs
  obtain ⟨lat', hlat⟩ := (C79_step_defined (NC := NC) L s OrParam coin L.ND i lat).2 (by
    rw [orSum_eq hs ⟨_, a.trans b⟩ ⟨_, b⟩ rfl rfl]
    intro he
    have e := congrArg (fun z : ℂ × ℂ => z.1.re) he
    simp only [Complex.add_re, Complex.star_def, Complex.conj_re, Complex.zero_re] at e
    have hp : ∀ k : Fin NC, 0 < (siteSum NC L lat i L.ND k k).re := by
      intro k
      unfold siteSum
      rw [Matrix.sum_apply, Complex.re_sum]
      refine sum_pos (fun mu hmu => ?_) ⟨0, mem_range.2 (by omega)⟩
      rw [mem_range] at hmu
      rw [Matrix.add_apply, conjTranspose_apply, Complex.add_re, Complex.star_def, Complex.conj_re]
      exact add_pos (near_diag h hi hmu k) (near_diag h (back_lt hL i hmu) hmu k)
    linarith [hp ⟨_, a.trans b⟩, hp ⟨_, b⟩])
  have m := OR_single_moves hs hL le_rfl (closed_volume hL) (mem_range.2 hi) hlat
  refine ⟨lat', hlat, orbit_su hL m.orbit h.1, ?_⟩
  have g := m.gain h2
  have := h.2
  rw [near_linkSum] at this ⊢
  linarith

theorem near_sweep {NC : ℕ} {L : Latt} (hL : Valid L) (h2 : ∀ mu < L.ND, 2 ≤ L.dims mu) (OrParam : ℝ) {nc : ℕ}
    {sched : ℕ → ℕ → List (ℕ × ℝ)} (hsch : ∀ s < NSU2SUBGROUPS NC, ∀ c < nc, ∀ x ∈ sched s c, x.1 < volume L)
    {lat : Gauge} (h : Near NC L lat) :
    ∃ lat', OR_sweep NC L nc OrParam L.ND sched lat = some lat' ∧ Near NC L lat' := by
  refine bind_loop_defined _ _ (fun s hs a ha => ?_) h
  refine bind_loop_defined _ _ (fun c hc a ha => ?_) ha
  exact bind_foldl_defined (fun (x : ℕ × ℝ) => OR_single NC L s OrParam L.ND x.2 x.1) _
    (fun x hx a ha => near_step hL h2 ha hs OrParam x.2 (hsch s hs c hc x hx)) ha

theorem near_loop {NC : ℕ} {L : Latt} {measure : Gauge → Option ℝ} {sweep : ℕ → Gauge → Option Gauge}
    (hm : ∀ a, ∃ x, measure a = some x) (hs : ∀ k a, Near NC L a → ∃ b, sweep k a = some b ∧ Near NC L b) (ACC : ℝ)
    (n iters : ℕ) {lat : Gauge} (h : Near NC L lat) (newlink : ℝ) (theta : Theta) :
    ∃ r, orLoop measure sweep ACC n iters lat newlink theta = some r ∧ Near NC L r.1 := by
  induction n generalizing iters lat newlink theta with
  | zero => exact ⟨_, rfl, h⟩
  | succ n ih =>
    rw [orLoop]
    split
    · obtain ⟨b, h1, h2⟩ := hs iters lat h
      obtain ⟨x, h3⟩ := hm b
      rw [h1, Option.bind_some, h3, Option.bind_some]
      exact ih _ h2 _ _
    · exact ⟨_, rfl, h⟩

/-- **C79**, runs that are defined: if the links are special unitary and the sum over all links of `NC - Re tr U` is less
than one, and all extents are at least two, no step of the Landau gauge fixing divides by zero, whatever the schedule
and the numbers drawn. -/
theorem C79_defined {NC : ℕ} (hN : 2 ≤ NC) {L : Latt} (hL : Valid L) (h2 : ∀ mu < L.ND, 2 ≤ L.dims mu) {nc : ℕ}
    {Ns : ℕ → ℕ} {sq : ℕ → List ℕ} (hcb : init_cb L (volume L) L.ND = .ok nc Ns sq) (scratch : Arr ℂ) (MAX_ITERS : ℕ)
    (ACC OrParam : ℝ) {sched : ℕ → ℕ → ℕ → List (ℕ × ℝ)} (hsch : ∀ k s, Executes nc sq 0 (sched k s)) {lat : Gauge}
    (hU : SUField NC L lat)
    (hn : ∑ i ∈ range (volume L), ∑ mu ∈ range L.ND, ((NC : ℝ) - (link NC lat i mu).trace.re) < 1) :
    ∃ lat' iters theta, OrLandau NC L scratch true MAX_ITERS ACC OrParam sched lat = some (lat', iters, theta) := by
  unfold OrLandau
  have hm : ∀ a, ∃ x, links NC L a = some x := fun a => ⟨_, links_linkSum (by omega) hL a⟩
  obtain ⟨nl, h1⟩ := hm lat
  rw [h1, Option.bind_some]
  obtain ⟨th, h3⟩ : ∃ th, theta_test_lin NC L scratch lat L.ND = some th := by
    unfold theta_test_lin fdiv
    rw [if_neg]
    · exact ⟨_, rfl⟩
    · have := volume_pos hL
      push_cast
      positivity
  rw [h3, Option.bind_some, hcb]
  simp only [Bool.true_eq_false, if_false]
  split
  · exact ⟨_, _, _, rfl⟩
  · have hpart := (C07_partition hL le_rfl (by rw [← (C01_volume hL.nd).1]; exact hcb)).2
    obtain ⟨r, h4, h5⟩ := near_loop (NC := NC) (L := L) hm (sweep := fun k => OR_sweep NC L nc OrParam L.ND (sched k))
      (fun k a ha => near_sweep hL h2 OrParam (fun s _ c hc x hx => by
        have hm : x.1 ∈ (sched k s c).map Prod.fst := List.mem_map_of_mem hx
        rw [(hsch k s c hc).mem_iff, List.mem_map] at hm
        obtain ⟨y, hy, he⟩ := hm
        rw [← he, Nat.zero_add, (C01_volume hL.nd).1]
        exact (hpart c hc).2.2.2 y hy) ha) ACC MAX_ITERS 0 (lat := lat) ⟨hU, hn⟩ nl (.num th)
    rw [h4, Option.bind_some]
    obtain ⟨w, w1, -⟩ := latt_reunitU_su (by omega) (scratch := scratch) h5.1
    rw [w1]
    exact ⟨_, _, _, rfl⟩

end GLU.Gfix
