import Verif.Gfix.CoulombProps
import Verif.Gfix.FADefined

/-!
# Coulomb gauge fixing: when it returns

C101: what a run needs to return, and the configurations on which it divides by zero.
-/

namespace GLU.Gfix

open Complex Matrix Finset GLU.Mat GLU.Geom GLU.Field GLU.Draught

/-! ## The derivative of a slice -/

/-- The packed planes stand for `i` times a traceless Hermitian matrix when the packed sum holds its entries. -/
theorem direction_planes {NC : ℕ} (hN : 2 ≤ NC) {S : Arr ℂ} {D : Matrix (Fin NC) (Fin NC) ℂ} (hd : D.IsHermitian)
    (ht : D.trace = 0)
    (hS : ∀ r c (hr : r < NC - 1) (_ : r ≤ c) (hc : c < NC), S (off NC r + (c - r)) = D ⟨r, by omega⟩ ⟨c, hc⟩) :
    direction NC (derivPlanes NC S) = I • D := by
  have up : ∀ r c (hr : r < NC - 1) (_ : r ≤ c) (hc : c < NC),
      upper NC (derivPlanes NC S) r c = I * D ⟨r, by omega⟩ ⟨c, hc⟩ := by
    intro r c hr hrc hc
    rw [upper_planes _ _ hr hrc hc, hS r c hr hrc hc]
    intro k hk
    have := hS k k hk le_rfl (show k < NC by omega)
    rw [Nat.sub_self, Nat.add_zero] at this
    rw [this]
    exact herm_diag hd _
  ext r c
  rw [Matrix.smul_apply, smul_eq_mul]
  unfold direction
  rcases Nat.lt_trichotomy (r : ℕ) c with h1 | h1 | h1
  · rw [if_pos h1, up _ _ (by omega) (by omega) c.2]
  · have : r = c := Fin.ext h1
    subst this
    rw [if_neg (by omega), if_neg (by omega)]
    split
    · next h2 => rw [up _ _ h2 le_rfl r.2]
    · next h2 =>
      obtain ⟨m, rfl⟩ : ∃ m, NC = m + 1 := ⟨NC - 1, by omega⟩
      rw [Finset.sum_range]
      have e1 : ∀ k : Fin (m + 1 - 1), upper (m + 1) (derivPlanes (m + 1) S) k k =
          I * D (Fin.castSucc (n := m) k) (Fin.castSucc (n := m) k) := fun k => by
        have hk : (k : ℕ) < m + 1 - 1 := k.2
        exact up _ _ hk le_rfl (show (k : ℕ) < m + 1 by omega)
      rw [Finset.sum_congr rfl fun k _ => e1 k, ← mul_sum]
      unfold Matrix.trace at ht
      rw [Fin.sum_univ_castSucc] at ht
      simp only [diag_apply] at ht
      have hr : r = Fin.last m := by
        apply Fin.ext
        have := r.2
        simp only [Fin.val_last]
        omega
      rw [hr]
      have ht2 : ∑ k : Fin (m + 1 - 1), D (Fin.castSucc (n := m) k) (Fin.castSucc (n := m) k) =
          -D (Fin.last m) (Fin.last m) := by
        exact eq_neg_of_add_eq_zero_left ht
      rw [ht2]
      ring
  · rw [if_neg (by omega), if_pos h1, up _ _ (by omega) (by omega) r.2]
    have := congrFun (congrFun hd r) c
    rw [conjTranspose_apply] at this
    rw [← this, star_def, map_mul, conj_I]
    ring

/-- The field with slice `t` rotated by `gauge`, as every other slice is. -/
noncomputable def rotated (NC : ℕ) (L : Latt) (gauge : SGauge) (lat : Gauge) : Gauge :=
  gtransform NC L (joined L fun _ => gauge) lat

theorem rotated_su {NC : ℕ} {L : Latt} (hL : Valid L) {gauge : SGauge} (hg : SUSlice NC L gauge) {lat : Gauge}
    (hU : SUField NC L lat) : SUField NC L (rotated NC L gauge lat) :=
  (gtransform_transformed hL (fun j hj => hg _ (slice_of hL hj).2.1) hU).2

theorem rotated_apply {NC : ℕ} {L : Latt} (hL : Valid L) (gauge : SGauge) (lat : Gauge) {t i mu : ℕ}
    (ht : t < L.dims (L.ND - 1)) (hi : i < lcu L) (hmu : mu < L.ND - 1) :
    rotated NC L gauge lat (i + lcu L * t, mu) =
      gtransform_local NC (gauge i) (lat (i + lcu L * t, mu)) (gauge (neighbor L i mu)) := by
  have hnd := hL.nd
  obtain ⟨hc, hd⟩ := (slice_neighbor hL ht hi).1 mu hmu
  have h1 : i + lcu L * t < volume L := by rw [Nat.add_comm]; exact slice_lt ht hi
  unfold rotated
  rw [gtransform_apply, if_pos ⟨h1, by omega⟩, Nat.add_comm i, hd, joined_slice _ t hi, joined_slice _ t hc]

theorem sliceSum_eq {NC : ℕ} {L : Latt} (hL : Valid L) (gauge : SGauge) (lat : Gauge) {t i : ℕ}
    (ht : t < L.dims (L.ND - 1)) (hi : i < lcu L) :
    sliceSum NC L lat gauge t i =
      derivSum NC L (fun _ => 0) (fun _ => 0) (rotated NC L gauge lat) (lcu L * t + i) (L.ND - 1) := by
  have hnd := hL.nd
  have hiv : i < volume L := by have := slice_lt (L := L) (t := 0) (by omega) hi; simpa using this
  unfold sliceSum derivSum
  refine forN_congr (fun mu hmu sum => ?_) _
  obtain ⟨hb, hb'⟩ := slice_back hL ht hi hmu
  have hn := (C02_inverse hL hiv (show mu < L.ND by omega)).2
  have h1 := rotated_apply (NC := NC) hL gauge lat ht hi hmu
  have h2 := rotated_apply (NC := NC) hL gauge lat ht hb hmu
  rw [hn] at h2
  rw [Nat.add_comm] at h1 h2
  rw [Nat.add_comm i, hb', a_plus_Sxbminc_short, h1, h2]
  dsimp only
  congr 1
  funext nu x
  push_cast
  ring

/-- The planes computed for a slice stand for `i` times the divergence of the rotated spatial links. -/
theorem slice_direction {NC : ℕ} (hN : 2 ≤ NC) {L : Latt} (hL : Valid L) {gauge : SGauge} (hg : SUSlice NC L gauge)
    {lat : Gauge} (hU : SUField NC L lat) {t i : ℕ} (ht : t < L.dims (L.ND - 1)) (hi : i < lcu L) :
    direction NC (fun mu => steep_deriv_CG NC L lat gauge t mu i) =
      I • divergence NC L (rotated NC L gauge lat) (lcu L * t + i) (L.ND - 1) := by
  obtain ⟨hd, htr⟩ := divergence_herm (NC := NC) L (rotated NC L gauge lat) (lcu L * t + i) (L.ND - 1)
  have e : (fun mu => steep_deriv_CG NC L lat gauge t mu i) = derivPlanes NC (sliceSum NC L lat gauge t i) := by
    funext mu
    unfold steep_deriv_CG
    rw [if_pos hi]
  rw [e]
  refine direction_planes hN hd htr fun r c hr hrc hc => ?_
  rw [sliceSum_eq hL gauge lat ht hi, derivSum_entry hN hL _ _ (rotated_su hL hg hU) (slice_lt ht hi) (by omega) hr hrc hc,
    zero_add]

theorem slice_zero {NC : ℕ} (hN : 2 ≤ NC) {L : Latt} (hL : Valid L) {gauge : SGauge} (hg : SUSlice NC L gauge)
    {lat : Gauge} (hU : SUField NC L lat) {t : ℕ} (ht : t < L.dims (L.ND - 1))
    (h : ∀ i < lcu L, divergence NC L (rotated NC L gauge lat) (lcu L * t + i) (L.ND - 1) = 0) :
    steep_deriv_CG NC L lat gauge t = fun _ _ => 0 := by
  funext mu i
  unfold steep_deriv_CG
  split
  · next hi =>
    have hz : ∀ k, sliceSum NC L lat gauge t i k = 0 := by
      intro k
      by_cases hk : k < HERMSIZE NC
      · obtain ⟨r, c, hr, hrc, hc, rfl⟩ := packed_cover hk
        rw [sliceSum_eq hL gauge lat ht hi,
          derivSum_entry hN hL _ _ (rotated_su hL hg hU) (slice_lt ht hi) (by omega) hr hrc hc, zero_add, h i hi]
        rfl
      · unfold sliceSum
        refine forN_inv (fun _ (s : Arr ℂ) => s k = 0) rfl fun m _ s hs => ?_
        rw [mapN_apply, if_neg hk, hs]
    unfold derivPlanes
    simp only [hz]
    split_ifs <;> simp
  · rfl

theorem divergence_congr {NC : ℕ} {L : Latt} {U V : Gauge} {i D : ℕ}
    (h : ∀ mu < D, link NC U i mu = link NC V i mu ∧ link NC U (back L i mu) mu = link NC V (back L i mu) mu) :
    divergence NC L U i D = divergence NC L V i D := by
  unfold divergence
  exact sum_congr rfl fun mu hmu => by rw [(h mu (mem_range.1 hmu)).1, (h mu (mem_range.1 hmu)).2]

theorem rotated_id {NC : ℕ} {L : Latt} (hL : Valid L) {lat : Gauge} (hU : SUField NC L lat) {i mu : ℕ}
    (hi : i < volume L) (hmu : mu < L.ND) : link NC (rotated NC L (idSlice NC) lat) i mu = link NC lat i mu := by
  have h := (gtransform_transformed hL (g := joined L fun _ => idSlice NC)
    (fun j hj => idSlice_su NC L _ (slice_of hL hj).2.1) hU).1 i hi mu hmu
  unfold rotated
  rw [h]
  unfold joined idSlice
  rw [C63_identity]
  simp

/-! ## The steps -/

theorem matrix_defined {NC : ℕ} (hN : NC = 2 ∨ NC = 3) (scratch : Arr ℂ) (inp : Planes) (al : ℝ) (i : ℕ) :
    ∃ g, set_gauge_matrix NC scratch inp al i = some g := by
  obtain ⟨g, hg, -⟩ := set_gauge_defined (by omega) (by omega) scratch al i
    (imagDiag_small (show NC ≤ 3 by omega) fun mu => inp mu i)
  exact ⟨g, hg⟩

theorem exponentiate_defined {NC : ℕ} (hN : NC = 2 ∨ NC = 3) (L : Latt) (scratch : Arr ℂ) (gauge : SGauge) (inp : Planes)
    (al : ℝ) : ∃ g, exponentiate_gauge_CG NC L scratch gauge inp al = some g := by
  obtain ⟨g, h, -⟩ := bind_loop_defined (P := fun _ : SGauge => True) (lcu L)
    (fun i gauge => (set_gauge_matrix NC scratch inp al i).map fun temp =>
      Function.update gauge i (multab_suNC NC temp (gauge i) (gauge i)))
    (fun i _ g _ => by
      obtain ⟨m, hm⟩ := matrix_defined hN scratch inp al i
      exact ⟨_, by rw [hm]; rfl, trivial⟩) (a := gauge) trivial
  exact ⟨g, h⟩

theorem lineOdd_defined {NC : ℕ} {L : Latt} {m1 m2 : ℕ → Option (Arr ℂ)} (h1 : ∀ i, ∃ g, m1 i = some g)
    (h2 : ∀ i, ∃ g, m2 i = some g) (gauge : SGauge) (lat : Gauge) (t i : ℕ) :
    ∃ v, lineOdd NC L m1 m2 gauge lat t i = some v := by
  choose f1 h1 using h1
  choose f2 h2 using h2
  obtain ⟨v, hv, -⟩ := bind_loop_defined (P := fun _ : ℝ × ℝ × ℝ => True) (L.ND - 1) (fun mu v =>
    let fwd := neighbor L i mu
    let C := gtransform_local NC (gauge i) (lat (i + lcu L * t, mu)) (gauge fwd)
    (m1 fwd).bind fun B1 =>
    (m2 fwd).map fun B2 =>
      (v.1 + (trace NC C).re, v.2.1 + Re_trace_abc_dag_suNC NC (f1 i) C B1, v.2.2 + Re_trace_abc_dag_suNC NC (f2 i) C B2))
    (fun mu _ v _ => ⟨_, by dsimp only; rw [h1, h2]; rfl, trivial⟩) (a := (0, 0, 0)) trivial
  refine ⟨v, ?_⟩
  unfold lineOdd
  rw [h1 i, h2 i, Option.bind_some, Option.bind_some]
  exact hv

theorem lineEven_defined {NC : ℕ} {L : Latt} {m1 m2 : ℕ → Option (Arr ℂ)} (h1 : ∀ i, ∃ g, m1 i = some g)
    (h2 : ∀ i, ∃ g, m2 i = some g) (gauge : SGauge) (lat : Gauge) (t i : ℕ) :
    ∃ v, lineEven NC L m1 m2 gauge lat t i = some v := by
  choose f1 h1 using h1
  choose f2 h2 using h2
  obtain ⟨v, hv, -⟩ := bind_loop_defined (P := fun _ : ℝ × ℝ × ℝ => True) (L.ND - 1) (fun mu v =>
    let fwd := neighbor L i mu
    let bck := back L i mu
    let C := gtransform_local NC (gauge i) (lat (i + lcu L * t, mu)) (gauge fwd)
    let D := gtransform_local NC (gauge bck) (lat (bck + lcu L * t, mu)) (gauge i)
    (m1 fwd).bind fun F1 =>
    (m1 bck).bind fun B1 =>
    (m2 fwd).bind fun F2 =>
    (m2 bck).map fun B2 =>
      (v.1 + (trace NC C).re + (trace NC D).re,
        v.2.1 + Re_trace_abc_dag_suNC NC (f1 i) C F1 + Re_trace_abc_dag_suNC NC B1 D (f1 i),
        v.2.2 + Re_trace_abc_dag_suNC NC (f2 i) C F2 + Re_trace_abc_dag_suNC NC B2 D (f2 i)))
    (fun mu _ v _ => ⟨_, by dsimp only; rw [h1, h1, h2, h2]; rfl, trivial⟩) (a := (0, 0, 0)) trivial
  refine ⟨v, ?_⟩
  unfold lineEven
  rw [h1 i, h2 i, Option.bind_some, Option.bind_some]
  exact hv

theorem lineTotal_defined {site : ℕ → Option (ℝ × ℝ × ℝ)} (h : ∀ i, ∃ v, site i = some v) (l : List ℕ) :
    ∃ v, lineTotal site l = some v := by
  obtain ⟨v, hv, -⟩ := bind_foldl_defined (P := fun _ : ℝ × ℝ × ℝ => True)
    (fun i v => (site i).map fun w => (v.1 + w.1, v.2.1 + w.2.1, v.2.2 + w.2.2)) l
    (fun i _ v _ => by
      obtain ⟨w, hw⟩ := h i
      exact ⟨_, by rw [hw]; rfl, trivial⟩) (a := ((0 : ℝ), (0 : ℝ), (0 : ℝ))) trivial
  exact ⟨v, hv⟩

theorem line_search_defined {NC : ℕ} (hN : NC = 2 ∨ NC = 3) (L : Latt) (scratch : Arr ℂ) (db : ℕ × List ℕ)
    (gauge : SGauge) (lat : Gauge) (inp : Planes) (t : ℕ) :
    ∃ g, line_search_Coulomb NC L scratch db gauge lat inp t = some g := by
  have m := fun k => matrix_defined hN scratch inp (Calcg k)
  unfold line_search_Coulomb
  dsimp only
  by_cases h : db.1 ≠ 2
  · obtain ⟨v, hv⟩ := lineTotal_defined (lineOdd_defined (NC := NC) (L := L) (m 1) (m 2) gauge lat t) (List.range (lcu L))
    rw [if_pos h, hv, Option.bind_some]
    exact exponentiate_defined hN _ _ _ _ _
  · obtain ⟨v, hv⟩ := lineTotal_defined (lineEven_defined (NC := NC) (L := L) (m 1) (m 2) gauge lat t) db.2
    rw [if_neg h, hv, Option.bind_some]
    exact exponentiate_defined hN _ _ _ _ _

/-- A step is defined exactly when the length of the previous direction, as the program computes it, is not zero. -/
theorem cgStep_defined {P : FaParams} (hN : P.NC = 2 ∨ P.NC = 3) (db : ℕ × List ℕ) (lat : Gauge) (t : ℕ) (s : CgState) :
    (∃ s', cgStep P db lat t s = some s') ↔ s.inold ≠ 0 := by
  unfold cgStep
  constructor
  · rintro ⟨s', h⟩ h0
    simp only [Option.bind_eq_some_iff] at h
    obtain ⟨pr, h, -⟩ := h
    unfold fdiv at h
    rw [if_pos h0] at h
    cases h
  · intro h0
    dsimp only
    unfold fdiv
    rw [if_neg h0, if_neg h0, Option.bind_some, Option.bind_some]
    have map : ∀ {x : Option SGauge} (f : SGauge → CgState), (∃ g, x = some g) → ∃ s', x.map f = some s' := by
      rintro x f ⟨g, rfl⟩
      exact ⟨_, rfl⟩
    refine map _ ?_
    by_cases hc : P.CG_TOL < (sum_PR P.NC P.L (P.accel (steep_deriv_CG P.NC P.L lat s.gauge t)) s.in_old).1 *
        GFNORM_COULOMB P
    · rw [if_pos hc]
      exact line_search_defined hN _ _ _ _ _ _ _
    · rw [if_neg hc]
      exact exponentiate_defined hN _ _ _ _ _

theorem cgStep_some {P : FaParams} {db : ℕ × List ℕ} {lat : Gauge} {t : ℕ} {s s' : CgState}
    (h : cgStep P db lat t s = some s') :
    s.inold ≠ 0 ∧ s'.in_old = P.accel (steep_deriv_CG P.NC P.L lat s.gauge t) ∧
    s'.inold = (sum_PR P.NC P.L s'.in_old s.in_old).1 ∧ s'.tr = s'.inold * GFNORM_COULOMB P := by
  unfold cgStep at h
  simp only [Option.bind_eq_some_iff, Option.map_eq_some_iff] at h
  obtain ⟨pr, h0, fr, -, g, -, rfl⟩ := h
  refine ⟨fun h => ?_, rfl, rfl, rfl⟩
  unfold fdiv at h0
  rw [if_pos h] at h0
  cases h0

theorem cgStart_defined {P : FaParams} (hN : P.NC = 2 ∨ P.NC = 3) (db : ℕ × List ℕ) (lat : Gauge) (t : ℕ)
    (gauge : SGauge) : ∃ s, cgStart P db lat t gauge = some s ∧
      s.inold = sum_DER2 P.NC P.L (P.accel (steep_deriv_CG P.NC P.L lat gauge t)) := by
  obtain ⟨g, hg⟩ := line_search_defined hN P.L P.scratch db gauge lat (P.accel (steep_deriv_CG P.NC P.L lat gauge t)) t
  unfold cgStart
  dsimp only
  rw [hg]
  exact ⟨_, rfl, rfl⟩

/-! ## A slice that needs no fixing -/

theorem sum_DER2_eq (NC : ℕ) (L : Latt) (inp : Planes) :
    sum_DER2 NC L inp = ∑ i ∈ range (lcu L), derSite NC fun mu => inp mu i := by
  unfold sum_DER2
  induction lcu L with
  | zero => rfl
  | succ n ih => rw [forN, ih, sum_range_succ]

theorem derSite_zero (NC : ℕ) : derSite NC (fun _ => 0) = 0 := by
  unfold derSite
  split
  · simp
  · split
    · simp
    · next h3 h2 =>
      have : trace_ab_herm_short NC (fun _ => 0) (fun _ => 0) = 0 := by
        unfold trace_ab_herm_short
        rw [if_neg h3, if_neg h2]
        dsimp only
        have := forN_inv (fun _ (s : ℕ × ℝ × ℝ × ℝ) => s.2 = (0, 0, 0)) (n := NC - 1) (s := (0, 0, 0, 0))
              (body := fun i s => forFrom (i + 1) NC (fun _ (s : ℕ × ℝ × ℝ × ℝ) =>
                (s.1 + 1, s.2.1 + 2 * ((0 : ℂ).re * (0 : ℂ).re + (0 : ℂ).im * (0 : ℂ).im), s.2.2.1, s.2.2.2))
                (s.1 + 1, s.2.1 + (0 : ℂ).re * (0 : ℂ).re, s.2.2.1 + (0 : ℂ).re, s.2.2.2 + (0 : ℂ).re)) rfl
              (fun i _ s hs => by
                unfold forFrom
                refine forN_inv (fun _ (s : ℕ × ℝ × ℝ × ℝ) => s.2 = (0, 0, 0)) ?_ fun m _ s hs => ?_
                · simp [hs]
                · simp [hs])
        rw [this]
        simp
      rw [this]; norm_num

/-- If the first direction has length zero, as the program computes it, the slice cannot be fixed. -/
theorem fixSlice_undef {P : FaParams} (db : ℕ × List ℕ) (rand : ℕ → ℕ → SGauge) (acc : ℝ) (max_iters passes : ℕ)
    {lat : Gauge} {t : ℕ} (hd : sum_DER2 P.NC P.L (P.accel (steep_deriv_CG P.NC P.L lat (idSlice P.NC) t)) = 0) :
    fixSlice P db rand acc max_iters (passes + 1) lat t = .undef := by
  have hf : steep_step_FACG P db lat t acc max_iters (idSlice P.NC) = none := by
    unfold steep_step_FACG cgStart
    dsimp only
    rw [hd]
    cases line_search_Coulomb P.NC P.L P.scratch db (idSlice P.NC) lat
      (P.accel (steep_deriv_CG P.NC P.L lat (idSlice P.NC) t)) t with
    | none => rfl
    | some g =>
      rw [Option.map_some, Option.bind_some]
      have hs : ∀ s : CgState, s.inold = 0 → cgStep P db lat t s = none := by
        intro s hs
        cases h : cgStep P db lat t s with
        | none => rfl
        | some s' => exact absurd hs (cgStep_some h).1
      cases max_iters - 1 with
      | zero => rw [cgLoop, hs _ rfl]; rfl
      | succ n => rw [cgLoop, hs _ rfl]; rfl
  unfold fixSlice
  rw [steep_fix, hf]

/-- **C101** (what the program gets wrong): a time slice that satisfies the gauge condition exactly.  The direction has
length zero, and the program divides by it. -/
theorem C101_fixed_fails {P : FaParams} (hN : 2 ≤ P.NC) (hL : Valid P.L) (h0 : P.accel (fun _ _ => 0) = fun _ _ => 0)
    (db : ℕ × List ℕ) (rand : ℕ → ℕ → SGauge) (acc : ℝ) (max_iters passes : ℕ) {lat : Gauge} (hU : SUField P.NC P.L lat)
    {t : ℕ} (ht : t < P.L.dims (P.L.ND - 1))
    (hdiv : ∀ i < lcu P.L, divergence P.NC P.L lat (lcu P.L * t + i) (P.L.ND - 1) = 0) :
    fixSlice P db rand acc max_iters (passes + 1) lat t = .undef := by
  have hz := slice_zero hN hL (idSlice_su P.NC P.L) hU ht fun i hi => by
    rw [divergence_congr (V := lat), hdiv i hi]
    intro mu hmu
    exact ⟨rotated_id hL hU (slice_lt ht hi) (by omega), rotated_id hL hU (back_lt hL _ (by omega)) (by omega)⟩
  refine fixSlice_undef _ _ _ _ _ ?_
  rw [hz, h0, sum_DER2_eq]
  exact sum_eq_zero fun i _ => derSite_zero _

/-- A configuration with such a slice cannot be fixed at all. -/
theorem C101_fixed_run_fails {P : FaParams} (hN : 2 ≤ P.NC) (hL : Valid P.L)
    (h0 : P.accel (fun _ _ => 0) = fun _ _ => 0) (alloc : Bool) (rand : ℕ → ℕ → SGauge) (acc : ℝ)
    (max_iters passes : ℕ) {lat : Gauge} (hr : ∀ t k, SUSlice P.NC P.L (rand t k)) (hU : SUField P.NC P.L lat) {t : ℕ}
    (ht : t < P.L.dims (P.L.ND - 1))
    (hdiv : ∀ i < lcu P.L, divergence P.NC P.L lat (lcu P.L * t + i) (P.L.ND - 1) = 0) :
    ∀ lat' its, Coulomb P alloc rand acc max_iters (passes + 1) lat ≠ .done lat' its := by
  intro lat' its h
  obtain ⟨nc, Ns, sq, -, g, tr, n, c, h1, -⟩ := coulomb_done hN hL hr hU h
  have := h1 t ht
  rw [C101_fixed_fails hN hL h0 _ _ _ _ _ hU ht hdiv] at this
  cases this

/-- The trivial configuration is one. -/
example (scratch : Arr ℂ) (tol al acc : ℝ) (max_iters : ℕ) :
    SUField 3 L4468 (fun _ => identity 3 fun _ => 0) ∧
    ∀ lat' its, Coulomb ⟨3, L4468, scratch, id, tol, al⟩ true (fun _ _ => idSlice 3) acc max_iters 9
      (fun _ => identity 3 fun _ => 0) ≠ .done lat' its := by
  have hU : SUField 3 L4468 (fun _ => identity 3 fun _ => 0) := fun i _ mu _ => by
    unfold IsSU
    rw [C63_identity]
    exact one_mem _
  refine ⟨hU, C101_fixed_run_fails (P := ⟨3, L4468, scratch, id, tol, al⟩) (t := 0) (show 2 ≤ 3 by decide) valid_L4468 rfl true _ acc
    max_iters 8 (fun _ _ => idSlice_su 3 L4468) hU (show 0 < L4468.dims 3 by decide) fun i hi => ?_⟩
  unfold divergence
  exact sum_eq_zero fun mu _ => sub_self _

/-! ## A run that returns -/

theorem slice_far {NC : ℕ} {L : Latt} (hL : Valid L) (g g' : SGauge) (lat : Gauge) {t s : ℕ} (ht : t < L.dims (L.ND - 1))
    (hs : s < L.dims (L.ND - 1)) (hts : t < s) : SliceAgree L s (gtransform_slice NC L g g' t lat) lat := by
  intro i hi mu hmu
  have hnd := hL.nd
  have hm : (t + 1) % L.dims (L.ND - 1) = t + 1 := Nat.mod_eq_of_lt (by omega)
  have := slice_step (NC := NC) hL (fun k => if k = t then g else g') lat ht (slice_lt hs hi) (show mu < L.ND by omega)
  rw [hm, if_pos rfl, if_neg (by omega)] at this
  rw [this, if_neg]
  rw [Nat.mul_add_div (by omega), Nat.div_eq_of_lt hi]
  omega

theorem coulombSlices_done {NC : ℕ} {L : Latt} (hL : Valid L) {fix : Gauge → ℕ → FixOut} (hloc : Local L fix)
    {lat : Gauge} (hall : ∀ s < L.dims (L.ND - 1), (fix lat s).Ended) (g_end : SGauge) (n : ℕ) :
    ∀ (t its : ℕ) (g : SGauge) (cur : Gauge), 1 ≤ t → t + n = L.dims (L.ND - 1) →
    (∀ s, t ≤ s → s < L.dims (L.ND - 1) → SliceAgree L s cur lat) →
    ∃ lat' its', coulombSlices NC L fix g_end n t g its cur = .done lat' its' := by
  induction n with
  | zero => intro t its g cur _ _ _; exact ⟨_, _, rfl⟩
  | succ n ih =>
    intro t its g cur h1 hT hcur
    rw [coulombSlices, hloc t (by omega) _ _ (hcur t le_rfl (by omega))]
    have := hall t (by omega)
    cases hf : fix lat t with
    | running => rw [hf] at this; exact this.elim
    | undef => rw [hf] at this; exact this.elim
    | done g2 tr it c =>
      refine ih (t + 1) _ _ _ (by omega) (by omega) fun s hs hs' i hi mu hmu => ?_
      rw [slice_far hL _ _ _ (show t - 1 < _ by omega) hs' (by omega) i hi mu hmu]
      exact hcur s (by omega) hs' i hi mu hmu

theorem coulombRegion_done {NC : ℕ} {L : Latt} (hL : Valid L) {fix : Gauge → ℕ → FixOut} (hloc : Local L fix)
    {lat : Gauge} (hT : 2 ≤ L.dims (L.ND - 1)) (hall : ∀ s < L.dims (L.ND - 1), (fix lat s).Ended) :
    ∃ lat' its', coulombRegion NC L fix lat = .done lat' its' := by
  have h0 := hall 0 (by omega)
  have h1 := hall 1 (by omega)
  unfold coulombRegion
  rw [if_neg (by omega)]
  cases e0 : fix lat 0 with
  | running => rw [e0] at h0; exact h0.elim
  | undef => rw [e0] at h0; exact h0.elim
  | done g0 tr0 it0 c0 =>
    cases e1 : fix lat 1 with
    | running => rw [e1] at h1; exact h1.elim
    | undef => rw [e1] at h1; exact h1.elim
    | done g1 tr1 it1 c1 =>
      exact coulombSlices_done hL hloc hall g0 _ 2 _ _ _ (by omega) (by omega) fun s hs hs' =>
        slice_far hL _ _ _ (by omega) hs' (by omega)

theorem su_square_sum {NC : ℕ} {g : Arr ℂ} (hg : IsSU NC g) :
    forN (NC * NC) (fun j (sum : ℝ) => sum + (g j).re * (g j).re + (g j).im * (g j).im) 0 = NC := by
  have e : forN (NC * NC) (fun j (sum : ℝ) => sum + (g j).re * (g j).re + (g j).im * (g j).im) 0 =
      ∑ j ∈ range (NC * NC), Complex.normSq (g j) := by
    induction NC * NC with
    | zero => rfl
    | succ n ih => rw [forN, ih, sum_range_succ, Complex.normSq_apply]; ring
  have h := trace_mul_dag_flat NC g g
  rw [← Matrix.star_eq_conjTranspose, (Matrix.mem_unitaryGroup_iff.1 (Matrix.mem_specialUnitaryGroup_iff.1 hg).1)] at h
  have h1 := congrArg Complex.re h
  rw [Matrix.trace_one, Fintype.card_fin, Complex.re_sum, Complex.natCast_re] at h1
  rw [e, h1]
  exact sum_congr rfl fun j _ => by rw [star_def, mul_conj, ofReal_re]

theorem adequate_defined {NC : ℕ} (hN : 2 ≤ NC) {L : Latt} (scratch : Arr ℂ) {gauge : SGauge} (hg : SUSlice NC L gauge)
    (iters : ℕ) : ∃ g, adequate_solution NC L scratch gauge iters = some (g, true) := by
  obtain ⟨⟨g, b⟩, h, hb, -⟩ := bind_loop_defined (P := fun s : SGauge × Bool => s.2 = true ∧ SUSlice NC L s.1) (lcu L)
    (fun i s => (gram_reunit NC (s.1 i) scratch).map fun g =>
      let sum : ℝ := forN (NC * NC) (fun j sum => sum + (g j).re * (g j).re + (g j).im * (g j).im) 0
      open Classical in
      (Function.update s.1 i g, if iters * PREC_TOL NC < |sum - NC| then false else s.2))
    (fun i hi s hs => by
      obtain ⟨g, h1, h2⟩ := C15_fixes (show 1 < NC by omega) scratch (hs.2 i hi)
      have h3 : IsSU NC g := C15_special_unitary (by omega) h1
      refine ⟨_, by rw [h1]; rfl, ?_, fun j hj => ?_⟩
      · dsimp only
        rw [su_square_sum h3, if_neg]
        · exact hs.1
        · rw [sub_self, abs_zero, not_lt]
          unfold PREC_TOL
          positivity
      · dsimp only
        by_cases h : j = i
        · rw [h, Function.update_self]; exact h3
        · rw [Function.update_of_ne h]; exact hs.2 j hj) (a := (gauge, true)) ⟨rfl, hg⟩
  exact ⟨g, by rw [← hb]; exact h⟩

/-- One step from the unit matrices is enough for a large accuracy. -/
theorem fixSlice_ends {P : FaParams} (hN : P.NC = 2 ∨ P.NC = 3) (db : ℕ × List ℕ) (lat : Gauge) (t : ℕ)
    (h : sum_DER2 P.NC P.L (P.accel (steep_deriv_CG P.NC P.L lat (idSlice P.NC) t)) ≠ 0) :
    ∃ A : ℝ, ∀ acc, A < acc → ∀ rand max_iters passes, 2 ≤ max_iters →
      ∃ g, fixSlice P db rand acc max_iters (passes + 1) lat t = .done g A 1 0 := by
  have hN2 : 2 ≤ P.NC := by omega
  obtain ⟨s, h1, h2⟩ := cgStart_defined hN db lat t (idSlice P.NC)
  obtain ⟨s', h3⟩ := (cgStep_defined hN db lat t s).2 (by rw [h2]; exact h)
  refine ⟨s'.tr, fun acc hacc rand max_iters passes hm => ?_⟩
  have hstep : steep_step_FACG P db lat t acc max_iters (idSlice P.NC) = some (s'.gauge, s'.tr, 1) := by
    obtain ⟨n, hn⟩ : ∃ n, max_iters - 1 = n + 1 := ⟨max_iters - 2, by omega⟩
    unfold steep_step_FACG
    rw [h1, hn, Option.bind_some, cgLoop, h3, Option.bind_some, if_neg (not_lt.2 hacc.le)]
    rfl
  obtain ⟨g, hg⟩ := adequate_defined hN2 P.scratch (step_FACG_su hN2 (idSlice_su P.NC P.L) hstep) 1
  have hc : checkSolution P.NC P.L P.scratch acc s'.gauge s'.tr 1 = some (g, true) := by
    unfold checkSolution
    rw [if_pos hacc]
    exact hg
  refine ⟨g, ?_⟩
  unfold fixSlice
  rw [steep_fix, hstep]
  dsimp only
  rw [hc]
  dsimp only
  rw [if_neg (by omega), if_neg]
  intro hf
  have := hf.2
  rw [Bool.or_eq_true, decide_eq_true_iff] at this
  rcases this with h | h
  · simp at h
  · omega

/-- **C101**, runs that return: two or three colours, at least two time slices, and no slice on which the first direction
has length zero.  With the accuracy large enough the run returns after one iteration on every slice. -/
theorem C101_returns {P : FaParams} (hN : P.NC = 2 ∨ P.NC = 3) (hL : Valid P.L) (hT : 2 ≤ P.L.dims (P.L.ND - 1))
    (hs : ∃ mu < P.L.ND - 1, 2 ≤ P.L.dims mu) {lat : Gauge} (hU : SUField P.NC P.L lat)
    (h : ∀ t < P.L.dims (P.L.ND - 1),
      sum_DER2 P.NC P.L (P.accel (steep_deriv_CG P.NC P.L lat (idSlice P.NC) t)) ≠ 0) :
    ∃ A : ℝ, ∀ acc, A < acc → ∀ rand max_iters passes, (∀ t k, SUSlice P.NC P.L (rand t k)) → 2 ≤ max_iters →
      ∃ lat', Coulomb P true rand acc max_iters (passes + 1) lat = .done lat' (P.L.dims (P.L.ND - 1)) := by
  have hN2 : 2 ≤ P.NC := by omega
  have hlcu : lcu P.L = ∏ mu ∈ range (P.L.ND - 1), P.L.dims mu := lcu_eq P.L hL.nd
  obtain ⟨nc, Ns, sq, hcb⟩ := (C07_success_iff hL (show P.L.ND - 1 ≤ P.L.ND by omega)).2.2 hs
  have hdb : ∀ i ∈ sq 0, i < lcu P.L := by
    rw [hlcu]
    have hnc := (init_cb_ok hL (show P.L.ND - 1 ≤ P.L.ND by omega) hcb).1
    exact ((C07_partition hL (show P.L.ND - 1 ≤ P.L.ND by omega) hcb).2 0 (by omega)).2.2.2
  rw [← hlcu] at hcb
  have h' : ∀ t : Fin (P.L.dims (P.L.ND - 1)), _ := fun t => fixSlice_ends hN (nc, sq 0) lat t (h t t.2)
  choose A hA using h'
  have : Nonempty (Fin (P.L.dims (P.L.ND - 1))) := ⟨⟨0, by omega⟩⟩
  refine ⟨Finset.univ.sup' Finset.univ_nonempty A, fun acc hacc rand max_iters passes hr hm => ?_⟩
  have hall : ∀ t < P.L.dims (P.L.ND - 1),
      ∃ g tr, fixSlice P (nc, sq 0) rand acc max_iters (passes + 1) lat t = .done g tr 1 0 := by
    intro t ht
    obtain ⟨g, hg⟩ := hA ⟨t, ht⟩ acc (lt_of_le_of_lt (Finset.le_sup' A (mem_univ _)) hacc) rand max_iters passes hm
    exact ⟨g, _, hg⟩
  have hF : ∃ lat1 its1, Coulomb_FA P true rand acc max_iters (passes + 1) lat = .done lat1 its1 := by
    unfold Coulomb_FA
    rw [hcb]
    dsimp only
    rw [if_neg (by simp)]
    refine coulombRegion_done hL (fixSlice_local hL hdb rand acc max_iters _) hT fun s hs => ?_
    obtain ⟨g, tr, hg⟩ := hall s hs
    rw [hg]
    trivial
  obtain ⟨lat1, its1, hF⟩ := hF
  have hR : ∃ lat', Coulomb P true rand acc max_iters (passes + 1) lat = .done lat' its1 := by
    have hF' := hF
    unfold Coulomb_FA at hF'
    rw [hcb] at hF'
    dsimp only at hF'
    rw [if_neg (by simp)] at hF'
    obtain ⟨-, -, c⟩ := coulombRegion_spec hL (fixSlice_local hL hdb rand acc max_iters (passes + 1)) hF'
    have hSU : SUGauge P.NC P.L (joined P.L fun s =>
        (fixSlice P (nc, sq 0) rand acc max_iters (passes + 1) lat s).gauge) := by
      intro j hj
      obtain ⟨h1, h2, -⟩ := slice_of hL hj
      obtain ⟨g, tr, hg⟩ := hall _ h1
      unfold joined
      beta_reduce
      rw [hg]
      unfold fixSlice at hg
      exact steep_fix_su hN2 (fun g r hg h => step_FACG_su hN2 hg h) (hr _) _ (idSlice_su _ _) hg _ h2
    have hS := (gtransform_transformed hL hSU hU).2
    have hS1 : SUField P.NC P.L lat1 := fun i hi mu hmu => by rw [c i hi mu hmu]; exact hS i hi mu hmu
    obtain ⟨lat2, h2, -⟩ := latt_reunitU_su (show 1 < P.NC by omega) (scratch := P.scratch) hS1
    unfold Coulomb
    rw [hF]
    dsimp only
    rw [h2]
    exact ⟨_, rfl⟩
  obtain ⟨lat', hR⟩ := hR
  refine ⟨lat', ?_⟩
  obtain ⟨nc', Ns', sq', e, g, tr, n, c, h1, h2, -⟩ := coulomb_done hN2 hL hr hU hR
  rw [hcb] at e
  injection e with e1 e2 e3
  subst e1 e2 e3
  rw [hR, h2]
  congr 1
  rw [sum_congr rfl fun t ht => ?_, sum_const, card_range, smul_eq_mul, mul_one]
  obtain ⟨g', tr', hg⟩ := hall t (mem_range.1 ht)
  rw [h1 t (mem_range.1 ht)] at hg
  injection hg with _ _ e

/-- Without Fourier acceleration the first direction has length zero exactly when the slice satisfies the gauge
condition. -/
theorem first_length {NC : ℕ} (hN : NC = 2 ∨ NC = 3) {L : Latt} (hL : Valid L) {lat : Gauge} (hU : SUField NC L lat)
    {t : ℕ} (ht : t < L.dims (L.ND - 1)) (h : sum_DER2 NC L (steep_deriv_CG NC L lat (idSlice NC) t) = 0) :
    ∀ i < lcu L, divergence NC L lat (lcu L * t + i) (L.ND - 1) = 0 := by
  have hN2 : 2 ≤ NC := by omega
  have h0 : ∀ inp : ℕ → ℂ, 0 ≤ derSite NC inp := fun inp =>
    le_trans (prSite_pos hN inp fun _ => 0).1 (prSite_pos hN inp fun _ => 0).2.2
  rw [sum_DER2_eq, sum_eq_zero_iff_of_nonneg fun i _ => h0 _] at h
  intro i hi
  have h1 := h i (mem_range.2 hi)
  obtain ⟨p1, p2, p3⟩ := prSite_pos hN (fun mu => steep_deriv_CG NC L lat (idSlice NC) t mu i) fun _ => 0
  have h2 := p2 (le_antisymm (by linarith) p1)
  rw [slice_direction hN2 hL (idSlice_su NC L) hU ht hi] at h2
  have h3 : divergence NC L (rotated NC L (idSlice NC) lat) (lcu L * t + i) (L.ND - 1) = 0 := by
    have := congrArg (fun M => (-I) • M) h2
    simp only [smul_zero, smul_smul] at this
    simpa using this
  rw [divergence_congr (V := lat)] at h3
  · exact h3
  · intro mu hmu
    exact ⟨rotated_id hL hU (slice_lt ht hi) (by omega), rotated_id hL hU (back_lt hL _ (by omega)) (by omega)⟩

/-- **C101**, runs that return, without Fourier acceleration: there is an accuracy with which the run returns exactly when
no time slice satisfies the gauge condition beforehand. -/
theorem C101_returns_iff {P : FaParams} (hN : P.NC = 2 ∨ P.NC = 3) (hL : Valid P.L) (hacc : P.accel = id)
    (hT : 2 ≤ P.L.dims (P.L.ND - 1)) (hs : ∃ mu < P.L.ND - 1, 2 ≤ P.L.dims mu) {lat : Gauge}
    (hU : SUField P.NC P.L lat) {rand : ℕ → ℕ → SGauge} (hr : ∀ t k, SUSlice P.NC P.L (rand t k)) {max_iters : ℕ}
    (hm : 2 ≤ max_iters) (passes : ℕ) :
    (∃ acc lat' its, Coulomb P true rand acc max_iters (passes + 1) lat = .done lat' its) ↔
      ∀ t < P.L.dims (P.L.ND - 1), ∃ i < lcu P.L, divergence P.NC P.L lat (lcu P.L * t + i) (P.L.ND - 1) ≠ 0 := by
  constructor
  · rintro ⟨acc, lat', its, h⟩ t ht
    by_contra hn
    push Not at hn
    exact C101_fixed_run_fails (by omega) hL (by rw [hacc]; rfl) _ _ _ _ _ hr hU ht hn _ _ h
  · intro h
    obtain ⟨A, hA⟩ := C101_returns hN hL hT hs hU fun t ht h0 => by
      obtain ⟨i, hi, hne⟩ := h t ht
      rw [hacc] at h0
      exact hne (first_length hN hL hU ht h0 i hi)
    obtain ⟨lat', h⟩ := hA (A + 1) (by linarith) rand max_iters passes hr hm
    exact ⟨_, _, _, h⟩

/-- A field of two colours with one link in each slice that is not the unit matrix. -/
noncomputable def stripes : Gauge := fun l => if l.2 = 0 ∧ l.1 % 24 = 0 then arr [I, 0, 0, -I] else arr [1, 0, 0, 1]

theorem stripes_su (L : Latt) : SUField 2 L stripes := by
  intro i _ mu _
  have h := spike_su L2345
  unfold stripes
  split
  · have := h 0 (by decide) 0 (by decide)
    simpa [spike] using this
  · have := h 1 (by decide) 1 (by decide)
    simpa [spike] using this

theorem stripes_divergence {t : ℕ} (ht : t < 5) : divergence 2 L2345 stripes (24 * t + 0) 3 ≠ 0 := by
  have hb : ∀ t < 5, back L2345 (24 * t) 0 % 24 ≠ 0 := by decide
  intro h
  have := congrFun (congrFun h 0) 0
  unfold divergence at this
  rw [sum_range_succ, sum_range_succ, sum_range_one] at this
  simp [link, stripes, hb t ht, arr, lieHerm, toM_apply, Matrix.trace, Fin.sum_univ_two] at this

example (scratch : Arr ℂ) (tol al : ℝ) : ∃ acc lat' its, its ≠ 0 ∧
    Coulomb ⟨2, L2345, scratch, id, tol, al⟩ true (fun _ _ => idSlice 2) acc 10 1 stripes = .done lat' its ∧
    Orbit 2 L2345 stripes lat' := by
  obtain ⟨acc, lat', its, h⟩ := (C101_returns_iff (P := ⟨2, L2345, scratch, id, tol, al⟩) (Or.inl rfl) valid_L2345 rfl
    (show 2 ≤ L2345.dims 3 by decide) ⟨0, show 0 < L2345.ND - 1 by decide, show 2 ≤ L2345.dims 0 by decide⟩ (stripes_su _)
    (rand := fun _ _ => idSlice 2) (fun _ _ => idSlice_su 2 L2345) (show 2 ≤ 10 by decide) 0).2
    fun t ht => ⟨0, show 0 < lcu L2345 by decide, stripes_divergence ht⟩
  refine ⟨acc, lat', its, ?_, h, (C101_orbit (P := ⟨2, L2345, scratch, id, tol, al⟩) le_rfl valid_L2345
    (fun _ _ => idSlice_su 2 L2345) (stripes_su _) h).1⟩
  obtain ⟨nc, Ns, sq, -, g, tr, n, c, h1, h2, -⟩ := C101_slices (P := ⟨2, L2345, scratch, id, tol, al⟩) le_rfl
    valid_L2345 (fun _ _ => idSlice_su 2 L2345) (stripes_su _) h
  have h3 := (C101_stop_partial (h1 0 (show 0 < L2345.dims 3 by decide))).1
  have h4 : n 0 ≤ its := by
    rw [h2]
    exact single_le_sum (f := n) (fun _ _ => Nat.zero_le _) (mem_range.2 (show 0 < L2345.dims 3 by decide))
  omega

end GLU.Gfix
