import Verif.Gfix.Coulomb
import Verif.Gfix.FASteps
import Verif.Draught.Props

/-!
# Coulomb gauge fixing: lemmas
-/

namespace GLU.Gfix

open Complex Matrix Finset GLU.Mat GLU.Geom GLU.Field GLU.Draught

theorem slice_of {L : Latt} (hL : Valid L) {j : ℕ} (hj : j < volume L) :
    j / lcu L < L.dims (L.ND - 1) ∧ j % lcu L < lcu L ∧ lcu L * (j / lcu L) + j % lcu L = j := by
  have hpos : 0 < lcu L := by
    rcases Nat.eq_zero_or_pos (lcu L) with h | h
    · unfold volume at hj; rw [h] at hj; omega
    · exact h
  exact ⟨Nat.div_lt_of_lt_mul hj, Nat.mod_lt _ hpos, Nat.div_add_mod j _⟩

theorem slice_lt {L : Latt} {t i : ℕ} (ht : t < L.dims (L.ND - 1)) (hi : i < lcu L) : lcu L * t + i < volume L := by
  unfold volume
  calc lcu L * t + i < lcu L * t + lcu L := by omega
    _ = lcu L * (t + 1) := by ring
    _ ≤ _ := Nat.mul_le_mul_left _ ht

theorem slice_back {L : Latt} (hL : Valid L) {t i mu : ℕ} (ht : t < L.dims (L.ND - 1)) (hi : i < lcu L)
    (hmu : mu < L.ND - 1) :
    back L i mu < lcu L ∧ back L (lcu L * t + i) mu = lcu L * t + back L i mu := by
  have hnd := hL.nd
  have hm : mu < L.ND := by omega
  have h0 : 0 < L.dims (L.ND - 1) := by omega
  have hiv : i < volume L := by have := slice_lt (L := L) h0 hi; simpa using this
  have hb := back_lt hL i hm
  obtain ⟨h1, h2, h3⟩ := slice_of hL hb
  have h4 := ((slice_neighbor hL h1 h2).1 mu hmu)
  have h5 := (C02_inverse hL hiv hm).2
  rw [h3, h5] at h4
  have h6 : back L i mu / lcu L = 0 := by
    rcases Nat.eq_zero_or_pos (back L i mu / lcu L) with h | h
    · exact h
    · exfalso
      have : lcu L * 1 ≤ lcu L * (back L i mu / lcu L) := Nat.mul_le_mul_left _ h
      omega
  have h7 : back L i mu < lcu L := by rw [← h3, h6]; simpa using h2
  refine ⟨h7, ?_⟩
  have h8 := ((slice_neighbor hL ht h7).1 mu hmu).2
  rw [h5] at h8
  rw [← h8]
  exact (C02_inverse hL (slice_lt ht h7) hm).1

/-! ## Transforming a slice -/

theorem gtransform_slice_congr {NC : ℕ} {L : Latt} (hL : Valid L) {g g' u u' : SGauge} (t : ℕ) (lat : Gauge)
    (hg : ∀ i < lcu L, g i = g' i) (hu : ∀ i < lcu L, u i = u' i) :
    gtransform_slice NC L g u t lat = gtransform_slice NC L g' u' t lat := by
  have hnd := hL.nd
  have h0 : 0 < L.dims (L.ND - 1) := hL.pos _ (by omega)
  unfold gtransform_slice
  refine forN_congr (fun i hi s => ?_) _
  dsimp only
  rw [hg i hi, hu i hi]
  have : forN (L.ND - 1) (fun mu (lat : Gauge) => Function.update lat (lcu L * t + i, mu)
        (gtransform_local NC (g' i) (lat (lcu L * t + i, mu)) (g (neighbor L i mu)))) s =
      forN (L.ND - 1) (fun mu (lat : Gauge) => Function.update lat (lcu L * t + i, mu)
        (gtransform_local NC (g' i) (lat (lcu L * t + i, mu)) (g' (neighbor L i mu)))) s := by
    refine forN_congr (fun mu hmu s => ?_) _
    rw [hg _ ((slice_neighbor hL h0 hi).1 mu hmu).1]
  rw [this]

/-- The transformation of the whole lattice made of one for each slice. -/
def joined (L : Latt) (g : ℕ → SGauge) : ℕ → Arr ℂ := fun j => g (j / lcu L) (j % lcu L)

theorem joined_slice {L : Latt} (g : ℕ → SGauge) (t : ℕ) {i : ℕ} (hi : i < lcu L) :
    joined L g (lcu L * t + i) = g t i := by
  unfold joined
  rw [Nat.mul_add_div (by omega), Nat.div_eq_of_lt hi, Nat.add_zero, Nat.mul_add_mod, Nat.mod_eq_of_lt hi]

/-- What one call of the slice transformation does. -/
theorem slice_step {NC : ℕ} {L : Latt} (hL : Valid L) (g : ℕ → SGauge) (lat : Gauge) {t : ℕ}
    (ht : t < L.dims (L.ND - 1)) {i mu : ℕ} (hi : i < volume L) (hmu : mu < L.ND) :
    gtransform_slice NC L (g t) (g ((t + 1) % L.dims (L.ND - 1))) t lat (i, mu) =
      if i / lcu L = t then gtransform NC L (joined L g) lat (i, mu) else lat (i, mu) := by
  rw [← C31_slice hL (joined L g) lat ht hi hmu]
  rw [gtransform_slice_congr hL t lat (fun j hj => (joined_slice g t hj).symm) (fun j hj => (joined_slice g _ hj).symm)]

theorem gtransform_local_link {NC : ℕ} {L : Latt} (g : ℕ → Arr ℂ) {lat lat' : Gauge} {i mu : ℕ}
    (h : lat' (i, mu) = lat (i, mu)) : gtransform NC L g lat' (i, mu) = gtransform NC L g lat (i, mu) := by
  rw [gtransform_apply, gtransform_apply, h]

/-! ## The loop over the slices -/

/-- Two fields with the same spatial links in slice `t`. -/
def SliceAgree (L : Latt) (t : ℕ) (lat lat' : Gauge) : Prop :=
  ∀ i < lcu L, ∀ mu < L.ND - 1, lat (lcu L * t + i, mu) = lat' (lcu L * t + i, mu)

/-- The way of fixing a slice looks only at the spatial links of that slice. -/
def Local (L : Latt) (fix : Gauge → ℕ → FixOut) : Prop :=
  ∀ t < L.dims (L.ND - 1), ∀ lat lat', SliceAgree L t lat lat' → fix lat t = fix lat' t

/-- The matrices found for a slice. -/
noncomputable def FixOut.gauge : FixOut → SGauge
  | .done g _ _ _ => g
  | _ => fun _ _ => 0

/-- The iterations spent on a slice. -/
def FixOut.iters : FixOut → ℕ
  | .done _ _ n _ => n
  | _ => 0

/-- A slice was finished. -/
def FixOut.Ended : FixOut → Prop
  | .done _ _ _ _ => True
  | _ => False

theorem coulombSlices_spec {NC : ℕ} {L : Latt} (hL : Valid L) {fix : Gauge → ℕ → FixOut} (hloc : Local L fix)
    (lat : Gauge) (n : ℕ) : ∀ (t its : ℕ) (cur lat' : Gauge) (its' : ℕ), 2 ≤ t → t + n = L.dims (L.ND - 1) →
    (∀ i < volume L, ∀ mu < L.ND, cur (i, mu) =
      if i / lcu L < t - 1 then gtransform NC L (joined L fun s => (fix lat s).gauge) lat (i, mu) else lat (i, mu)) →
    coulombSlices NC L fix (fix lat 0).gauge n t (fix lat (t - 1)).gauge its cur = .done lat' its' →
    (∀ s, t ≤ s → s < L.dims (L.ND - 1) → (fix lat s).Ended) ∧
    its' = its + ∑ s ∈ Ico t (L.dims (L.ND - 1)), (fix lat s).iters ∧
    ∀ i < volume L, ∀ mu < L.ND,
      lat' (i, mu) = gtransform NC L (joined L fun s => (fix lat s).gauge) lat (i, mu) := by
  induction n with
  | zero =>
    intro t its cur lat' its' h2 hT hcur h
    rw [coulombSlices] at h
    injection h with h1 h3
    subst h1 h3
    refine ⟨fun s h h' => by omega, by rw [Ico_eq_empty (by omega)]; simp, fun i hi mu hmu => ?_⟩
    have e : (t - 1 + 1) % L.dims (L.ND - 1) = 0 := by rw [show t - 1 + 1 = L.dims (L.ND - 1) by omega, Nat.mod_self]
    have := slice_step (NC := NC) hL (fun s => (fix lat s).gauge) cur (t := t - 1) (by omega) hi hmu
    rw [e] at this
    rw [this, hcur i hi mu hmu]
    split
    · next h =>
      exact gtransform_local_link _ (by rw [hcur i hi mu hmu, if_neg (by omega)])
    · next h =>
      have := (slice_of hL hi).1
      rw [if_pos (by omega)]
  | succ n ih =>
    intro t its cur lat' its' h2 hT hcur h
    rw [coulombSlices] at h
    have hag : fix cur t = fix lat t := by
      refine hloc t (by omega) _ _ fun i hi mu hmu => ?_
      rw [hcur _ (slice_lt (by omega) hi) mu (by omega), if_neg]
      rw [Nat.mul_add_div (by omega), Nat.div_eq_of_lt hi]
      omega
    rw [hag] at h
    cases hf : fix lat t with
    | running => rw [hf] at h; cases h
    | undef => rw [hf] at h; cases h
    | done g tr it c =>
      rw [hf] at h
      dsimp only at h
      have hg : g = (fix lat t).gauge := by rw [hf]; rfl
      have hit : it = (fix lat t).iters := by rw [hf]; rfl
      have e1 : (t - 1 + 1) % L.dims (L.ND - 1) = t := by
        rw [show t - 1 + 1 = t by omega, Nat.mod_eq_of_lt (by omega)]
      rw [hg] at h
      obtain ⟨a, b, c⟩ := ih (t + 1) (its + it)
        (gtransform_slice NC L (fix lat (t - 1)).gauge (fix lat t).gauge (t - 1) cur) lat' its' (by omega) (by omega) (fun i hi mu hmu => by
        have := slice_step (NC := NC) hL (fun s => (fix lat s).gauge) cur (t := t - 1) (by omega) hi hmu
        rw [e1] at this
        rw [this, hcur i hi mu hmu, show t + 1 - 1 = t by omega]
        split
        · next h =>
          rw [if_pos (by omega)]
          exact gtransform_local_link _ (by rw [hcur i hi mu hmu, if_neg (by omega)])
        · next h =>
          by_cases h5 : i / lcu L < t - 1
          · rw [if_pos h5, if_pos (by omega)]
          · rw [if_neg h5, if_neg (by omega)]) (by rw [show t + 1 - 1 = t by omega]; exact h)
      refine ⟨fun s hs hs' => ?_, ?_, c⟩
      · rcases Nat.eq_or_lt_of_le hs with rfl | h
        · rw [hf]; trivial
        · exact a s h hs'
      · rw [b, hit, ← Finset.sum_Ico_consecutive _ (show t ≤ t + 1 by omega) (by omega), Nat.Ico_succ_singleton,
          sum_singleton]
        ring

theorem coulombRegion_spec {NC : ℕ} {L : Latt} (hL : Valid L) {fix : Gauge → ℕ → FixOut} (hloc : Local L fix)
    {lat lat' : Gauge} {its : ℕ} (h : coulombRegion NC L fix lat = .done lat' its) :
    (∀ s < L.dims (L.ND - 1), (fix lat s).Ended) ∧ its = ∑ s ∈ range (L.dims (L.ND - 1)), (fix lat s).iters ∧
    ∀ i < volume L, ∀ mu < L.ND,
      lat' (i, mu) = gtransform NC L (joined L fun s => (fix lat s).gauge) lat (i, mu) := by
  unfold coulombRegion at h
  split at h
  · cases h
  · next hT =>
    cases h0 : fix lat 0 with
    | running => rw [h0] at h; cases h
    | undef => rw [h0] at h; cases h
    | done g0 tr0 it0 c0 =>
      rw [h0] at h
      dsimp only at h
      cases h1 : fix lat 1 with
      | running => rw [h1] at h; cases h
      | undef => rw [h1] at h; cases h
      | done g1 tr1 it1 c1 =>
        rw [h1] at h
        dsimp only at h
        have e0 : g0 = (fix lat 0).gauge := by rw [h0]; rfl
        have e1 : g1 = (fix lat 1).gauge := by rw [h1]; rfl
        rw [e0, e1] at h
        have hm : (0 + 1) % L.dims (L.ND - 1) = 1 := Nat.mod_eq_of_lt (by omega)
        obtain ⟨a, b, c⟩ := coulombSlices_spec hL hloc lat (L.dims (L.ND - 1) - 2) 2 (it0 + it1)
          (gtransform_slice NC L (fix lat 0).gauge (fix lat 1).gauge 0 lat) lat' its le_rfl (by omega) (fun i hi mu hmu => by
          have := slice_step (NC := NC) hL (fun s => (fix lat s).gauge) lat (t := 0) (by omega) hi hmu
          rw [hm] at this
          rw [this]
          by_cases h5 : i / lcu L = 0
          · rw [if_pos h5, if_pos (by omega)]
          · rw [if_neg h5, if_neg (by have := Nat.pos_of_ne_zero h5; generalize i / lcu L = q at *; omega)]) h
        refine ⟨fun s hs => ?_, ?_, c⟩
        · rcases Nat.lt_or_ge s 2 with h2 | h2
          · interval_cases s
            · rw [h0]; trivial
            · rw [h1]; trivial
          · exact a s h2 hs
        · rw [b, range_eq_Ico, ← Finset.sum_Ico_consecutive _ (show 0 ≤ 2 by omega) (show 2 ≤ L.dims (L.ND - 1) by omega)]
          congr 1
          rw [← range_eq_Ico, sum_range_succ, sum_range_one, h0, h1]
          rfl

/-! ## Fixing a slice looks only at that slice -/

theorem sliceSum_congr {NC : ℕ} {L : Latt} (hL : Valid L) {t : ℕ} (ht : t < L.dims (L.ND - 1)) {lat lat' : Gauge}
    (h : SliceAgree L t lat lat') (gauge : SGauge) {i : ℕ} (hi : i < lcu L) :
    sliceSum NC L lat gauge t i = sliceSum NC L lat' gauge t i := by
  unfold sliceSum
  refine forN_congr (fun mu hmu s => ?_) _
  obtain ⟨h1, h2⟩ := slice_back hL ht hi hmu
  dsimp only
  rw [show i + lcu L * t = lcu L * t + i from add_comm _ _, h2, h i hi mu hmu, h _ h1 mu hmu]

theorem steep_deriv_congr {NC : ℕ} {L : Latt} (hL : Valid L) {t : ℕ} (ht : t < L.dims (L.ND - 1)) {lat lat' : Gauge}
    (h : SliceAgree L t lat lat') (gauge : SGauge) :
    steep_deriv_CG NC L lat gauge t = steep_deriv_CG NC L lat' gauge t := by
  funext mu i
  unfold steep_deriv_CG
  by_cases hi : i < lcu L
  · rw [if_pos hi, if_pos hi, sliceSum_congr hL ht h gauge hi]
  · rw [if_neg hi, if_neg hi]

theorem lineTotal_congr {f g : ℕ → Option (ℝ × ℝ × ℝ)} {l : List ℕ} (h : ∀ i ∈ l, f i = g i) :
    lineTotal f l = lineTotal g l := by
  unfold lineTotal
  generalize (some (0, 0, 0) : Option (ℝ × ℝ × ℝ)) = o
  induction l generalizing o with
  | nil => rfl
  | cons a l ih =>
    rw [List.foldl_cons, List.foldl_cons, h a (by simp)]
    exact ih (fun i hi => h i (by simp [hi])) _

theorem line_search_congr {NC : ℕ} {L : Latt} (hL : Valid L) {t : ℕ} (ht : t < L.dims (L.ND - 1)) {lat lat' : Gauge}
    (h : SliceAgree L t lat lat') (scratch : Arr ℂ) {db : ℕ × List ℕ} (hdb : ∀ i ∈ db.2, i < lcu L) (gauge : SGauge)
    (inp : Planes) :
    line_search_Coulomb NC L scratch db gauge lat inp t = line_search_Coulomb NC L scratch db gauge lat' inp t := by
  have ho : ∀ m1 m2 : ℕ → Option (Arr ℂ), ∀ i ∈ List.range (lcu L), lineOdd NC L m1 m2 gauge lat t i = lineOdd NC L m1 m2 gauge lat' t i := by
    intro m1 m2 i hi
    have hi := List.mem_range.1 hi
    unfold lineOdd
    cases m1 i with
    | none => simp only [Option.bind_none, Option.bind_some]
    | some A1 =>
    cases m2 i with
    | none => simp only [Option.bind_none, Option.bind_some]
    | some A2 =>
    rw [Option.bind_some, Option.bind_some, Option.bind_some, Option.bind_some]
    refine forN_congr (fun mu hmu s => ?_) _
    dsimp only
    rw [show i + lcu L * t = lcu L * t + i from add_comm _ _, h i hi mu hmu]
  have he : ∀ m1 m2 : ℕ → Option (Arr ℂ), ∀ i ∈ db.2, lineEven NC L m1 m2 gauge lat t i = lineEven NC L m1 m2 gauge lat' t i := by
    intro m1 m2 i hi
    have hi := hdb i hi
    unfold lineEven
    cases m1 i with
    | none => simp only [Option.bind_none, Option.bind_some]
    | some A1 =>
    cases m2 i with
    | none => simp only [Option.bind_none, Option.bind_some]
    | some A2 =>
    rw [Option.bind_some, Option.bind_some, Option.bind_some, Option.bind_some]
    refine forN_congr (fun mu hmu s => ?_) _
    dsimp only
    rw [show i + lcu L * t = lcu L * t + i from add_comm _ _, h i hi mu hmu,
      show back L i mu + lcu L * t = lcu L * t + back L i mu from add_comm _ _, h _ (slice_back hL ht hi hmu).1 mu hmu]
  unfold line_search_Coulomb
  dsimp only
  rw [lineTotal_congr (ho _ _), lineTotal_congr (he _ _)]

theorem cgStep_congr {P : FaParams} (hL : Valid P.L) {t : ℕ} (ht : t < P.L.dims (P.L.ND - 1)) {lat lat' : Gauge}
    (h : SliceAgree P.L t lat lat') {db : ℕ × List ℕ} (hdb : ∀ i ∈ db.2, i < lcu P.L) (s : CgState) :
    cgStep P db lat t s = cgStep P db lat' t s := by
  unfold cgStep
  rw [steep_deriv_congr hL ht h]
  simp only [line_search_congr hL ht h P.scratch hdb]

theorem cgLoop_congr {P : FaParams} (hL : Valid P.L) {t : ℕ} (ht : t < P.L.dims (P.L.ND - 1)) {lat lat' : Gauge}
    (h : SliceAgree P.L t lat lat') {db : ℕ × List ℕ} (hdb : ∀ i ∈ db.2, i < lcu P.L) (acc : ℝ) (n : ℕ) :
    cgLoop P db lat t acc n = cgLoop P db lat' t acc n := by
  induction n with
  | zero => funext s; rw [cgLoop, cgLoop, cgStep_congr hL ht h hdb]
  | succ n ih => funext s; rw [cgLoop, cgLoop, cgStep_congr hL ht h hdb, ih]

theorem step_FACG_congr {P : FaParams} (hL : Valid P.L) {t : ℕ} (ht : t < P.L.dims (P.L.ND - 1)) {lat lat' : Gauge}
    (h : SliceAgree P.L t lat lat') {db : ℕ × List ℕ} (hdb : ∀ i ∈ db.2, i < lcu P.L) (acc : ℝ) (max_iters : ℕ) :
    steep_step_FACG P db lat t acc max_iters = steep_step_FACG P db lat' t acc max_iters := by
  funext g
  unfold steep_step_FACG cgStart
  dsimp only
  rw [cgLoop_congr hL ht h hdb, steep_deriv_congr hL ht h, line_search_congr hL ht h P.scratch hdb]

theorem fixSlice_local {P : FaParams} (hL : Valid P.L) {db : ℕ × List ℕ} (hdb : ∀ i ∈ db.2, i < lcu P.L)
    (rand : ℕ → ℕ → SGauge) (acc : ℝ) (max_iters passes : ℕ) :
    Local P.L (fixSlice P db rand acc max_iters passes) := by
  intro t ht lat lat' h
  unfold fixSlice
  rw [step_FACG_congr hL ht h hdb]

/-! ## The matrices stay in the group -/

/-- Every matrix of a slice is special unitary. -/
def SUSlice (NC : ℕ) (L : Latt) (g : SGauge) : Prop := ∀ i < lcu L, IsSU NC (g i)

theorem idSlice_su (NC : ℕ) (L : Latt) : SUSlice NC L (idSlice NC) := by
  intro i _
  unfold idSlice IsSU
  rw [C63_identity]
  exact one_mem _

theorem exponentiate_some {NC : ℕ} {L : Latt} {scratch : Arr ℂ} {gauge g' : SGauge} {inp : Planes} {alpha : ℝ}
    (h : exponentiate_gauge_CG NC L scratch gauge inp alpha = some g') :
    ∃ x : SGauge, (∀ i < lcu L, set_gauge_matrix NC scratch inp alpha i = some (x i)) ∧
      ∀ i < lcu L, g' i = multab_suNC NC (x i) (gauge i) (gauge i) := by
  unfold exponentiate_gauge_CG at h
  have key : ∀ n ≤ lcu L, ∀ g', forN n (fun i o => o.bind fun gauge =>
      (set_gauge_matrix NC scratch inp alpha i).map fun temp =>
        Function.update gauge i (multab_suNC NC temp (gauge i) (gauge i))) (some gauge) = some g' →
      ∃ x : SGauge, (∀ i < n, set_gauge_matrix NC scratch inp alpha i = some (x i)) ∧
        (∀ i < n, g' i = multab_suNC NC (x i) (gauge i) (gauge i)) ∧ ∀ i, n ≤ i → g' i = gauge i := by
    intro n hn
    induction n with
    | zero =>
      intro g' h
      injection h with h
      subst h
      exact ⟨fun _ _ => 0, fun i hi => absurd hi (by omega), fun i hi => absurd hi (by omega), fun _ _ => rfl⟩
    | succ n ih =>
      intro g' h
      rw [forN, Option.bind_eq_some_iff] at h
      obtain ⟨g1, h1, h2⟩ := h
      rw [Option.map_eq_some_iff] at h2
      obtain ⟨temp, h3, rfl⟩ := h2
      obtain ⟨x, a, b, c⟩ := ih (by omega) g1 h1
      refine ⟨Function.update x n temp, fun i hi => ?_, fun i hi => ?_, fun i hi => ?_⟩
      · rcases Nat.lt_succ_iff_lt_or_eq.1 hi with h | rfl
        · rw [Function.update_of_ne (by omega)]; exact a i h
        · rw [Function.update_self]; exact h3
      · rcases Nat.lt_succ_iff_lt_or_eq.1 hi with h | rfl
        · rw [Function.update_of_ne (by omega), Function.update_of_ne (by omega)]; exact b i h
        · rw [Function.update_self, Function.update_self, c i le_rfl]
      · rw [Function.update_of_ne (by omega)]; exact c i (by omega)
  obtain ⟨x, a, b, -⟩ := key _ le_rfl g' h
  exact ⟨x, a, b⟩

theorem exponentiate_su {NC : ℕ} (hN : 2 ≤ NC) {L : Latt} {scratch : Arr ℂ} {gauge g' : SGauge} {inp : Planes}
    {alpha : ℝ} (hg : SUSlice NC L gauge) (h : exponentiate_gauge_CG NC L scratch gauge inp alpha = some g') :
    SUSlice NC L g' := by
  obtain ⟨x, a, b⟩ := exponentiate_some h
  intro i hi
  rw [b i hi]
  exact (C11_multab_suNC (set_gauge_su hN (a i hi)) (hg i hi) _).2

theorem line_search_su {NC : ℕ} (hN : 2 ≤ NC) {L : Latt} {scratch : Arr ℂ} {db : ℕ × List ℕ} {gauge g' : SGauge}
    {lat : Gauge} {inp : Planes} {t : ℕ} (hg : SUSlice NC L gauge)
    (h : line_search_Coulomb NC L scratch db gauge lat inp t = some g') : SUSlice NC L g' := by
  unfold line_search_Coulomb at h
  rw [Option.bind_eq_some_iff] at h
  obtain ⟨v, -, h⟩ := h
  exact exponentiate_su hN hg h

theorem cgStep_su {P : FaParams} (hN : 2 ≤ P.NC) {db : ℕ × List ℕ} {lat : Gauge} {t : ℕ} {s s' : CgState}
    (hg : SUSlice P.NC P.L s.gauge) (h : cgStep P db lat t s = some s') : SUSlice P.NC P.L s'.gauge := by
  unfold cgStep at h
  simp only [Option.bind_eq_some_iff, Option.map_eq_some_iff] at h
  obtain ⟨pr, -, fr, -, g, h, rfl⟩ := h
  split at h
  · exact line_search_su hN hg h
  · exact exponentiate_su hN hg h

theorem cgLoop_su {P : FaParams} (hN : 2 ≤ P.NC) {db : ℕ × List ℕ} {lat : Gauge} {t : ℕ} {acc : ℝ} (n : ℕ) :
    ∀ {s : CgState} {q : CgState × ℕ}, SUSlice P.NC P.L s.gauge → cgLoop P db lat t acc n s = some q →
      SUSlice P.NC P.L q.1.gauge := by
  induction n with
  | zero =>
    intro s q hg h
    rw [cgLoop, Option.map_eq_some_iff] at h
    obtain ⟨s', h, rfl⟩ := h
    exact cgStep_su hN hg h
  | succ n ih =>
    intro s q hg h
    rw [cgLoop, Option.bind_eq_some_iff] at h
    obtain ⟨s', h1, h⟩ := h
    have := cgStep_su hN hg h1
    split at h
    · rw [Option.map_eq_some_iff] at h
      obtain ⟨q', h, rfl⟩ := h
      exact ih (q := q') this h
    · injection h with h; subst h; exact this

theorem step_FACG_su {P : FaParams} (hN : 2 ≤ P.NC) {db : ℕ × List ℕ} {lat : Gauge} {t : ℕ} {acc : ℝ} {max_iters : ℕ}
    {g : SGauge} {r : SGauge × ℝ × ℕ} (hg : SUSlice P.NC P.L g)
    (h : steep_step_FACG P db lat t acc max_iters g = some r) : SUSlice P.NC P.L r.1 := by
  unfold steep_step_FACG at h
  rw [Option.map_eq_some_iff] at h
  obtain ⟨q, h, rfl⟩ := h
  rw [Option.bind_eq_some_iff] at h
  obtain ⟨s, h1, h⟩ := h
  refine cgLoop_su hN _ ?_ h
  unfold cgStart at h1
  rw [Option.map_eq_some_iff] at h1
  obtain ⟨g', h1, rfl⟩ := h1
  exact line_search_su hN hg h1

theorem adequate_su {NC : ℕ} (hN : 2 ≤ NC) {L : Latt} {scratch : Arr ℂ} {gauge : SGauge} {iters : ℕ}
    {r : SGauge × Bool} (h : adequate_solution NC L scratch gauge iters = some r) : SUSlice NC L r.1 := by
  unfold adequate_solution at h
  have key : ∀ n ≤ lcu L, ∀ r : SGauge × Bool, forN n (fun i o => o.bind fun (s : SGauge × Bool) =>
      (gram_reunit NC (s.1 i) scratch).map fun g =>
        let sum : ℝ := forN (NC * NC) (fun j sum => sum + (g j).re * (g j).re + (g j).im * (g j).im) 0
        open Classical in
        (Function.update s.1 i g, if iters * PREC_TOL NC < |sum - NC| then false else s.2))
        (some (gauge, true)) = some r → ∀ i < n, IsSU NC (r.1 i) := by
    intro n hn
    induction n with
    | zero => intro r _ i hi; omega
    | succ n ih =>
      intro r h
      rw [forN, Option.bind_eq_some_iff] at h
      obtain ⟨s, h1, h2⟩ := h
      rw [Option.map_eq_some_iff] at h2
      obtain ⟨g, h3, rfl⟩ := h2
      intro i hi
      dsimp only
      rcases Nat.lt_succ_iff_lt_or_eq.1 hi with h | rfl
      · rw [Function.update_of_ne (by omega)]; exact ih (by omega) s h1 i h
      · rw [Function.update_self]; exact C15_special_unitary (by omega) h3
  exact key _ le_rfl r h

theorem steep_fix_su {NC : ℕ} (hN : 2 ≤ NC) {L : Latt} {scratch : Arr ℂ} {f : SGauge → Option (SGauge × ℝ × ℕ)}
    (hf : ∀ g r, SUSlice NC L g → f g = some r → SUSlice NC L r.1) {rand : ℕ → SGauge} (hr : ∀ k, SUSlice NC L (rand k))
    {acc : ℝ} {max_iters : ℕ} (n : ℕ) : ∀ {control tot : ℕ} {flag : Bool} {gauge g : SGauge} {tr : ℝ} {its c : ℕ},
    SUSlice NC L gauge → steep_fix NC L scratch f rand acc max_iters n control tot flag gauge = .done g tr its c →
    SUSlice NC L g := by
  induction n with
  | zero => intro _ _ _ _ _ _ _ _ _ h; cases h
  | succ n ih =>
    intro control tot flag gauge g tr its c hg h
    rw [steep_fix] at h
    cases h1 : f gauge with
    | none => rw [h1] at h; cases h
    | some r =>
      obtain ⟨g1, tr1, it1⟩ := r
      rw [h1] at h
      dsimp only at h
      have hg1 := hf _ _ hg h1
      cases h2 : checkSolution NC L scratch acc g1 tr1 it1 with
      | none => rw [h2] at h; cases h
      | some r =>
        obtain ⟨g2, ok⟩ := r
        rw [h2] at h
        dsimp only at h
        have hg2 : SUSlice NC L g2 := by
          unfold checkSolution at h2
          by_cases hc : tr1 < acc
          · rw [if_pos hc] at h2; exact adequate_su (r := (g2, ok)) hN h2
          · rw [if_neg hc] at h2; injection h2 with h2; injection h2 with h2 _; subst h2; exact hg1
        by_cases hc : max_iters ≤ it1 ∧ tr1 < 1e4 * acc
        · rw [if_pos hc] at h; exact ih hg2 h
        · rw [if_neg hc] at h
          split at h
          · exact ih (hr _) h
          · injection h with h; subst h; exact hg2

end GLU.Gfix
