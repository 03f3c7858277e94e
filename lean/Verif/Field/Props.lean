import Verif.Field.Lemmas
import Mathlib.Algebra.BigOperators.Field

/-!
# C29, C31, C32: plaquettes, gauge transformations, staples
-/

namespace GLU.Field

open Complex Matrix GLU.Mat GLU.Geom GLU.Sched Finset

/-! ## C31 -/

/-- **C31**, action on the links: `U'_mu(x) = g(x) U_mu(x) g(x+mu)^dagger` on every
link, and the links stay special unitary. -/
theorem C31_action {NC : ℕ} {L : Latt} (hL : Valid L) {g : ℕ → Arr ℂ} {lat : Gauge}
    (hg : SUGauge NC L g) (hU : SUField NC L lat) :
    SUField NC L (gtransform NC L g lat) ∧
    ∀ i < volume L, ∀ mu < L.ND, toM NC (gtransform NC L g lat (i, mu)) =
      toM NC (g i) * toM NC (lat (i, mu)) * (toM NC (g (neighbor L i mu)))ᴴ :=
  ⟨(gtransform_transformed hL hg hU).2, (gtransform_transformed hL hg hU).1⟩

/-- **C31**, identity: transforming by unit matrices changes no link. -/
theorem C31_identity {NC : ℕ} {L : Latt} (hL : Valid L) {g : ℕ → Arr ℂ} {lat : Gauge}
    (hU : SUField NC L lat) (h1 : ∀ i < volume L, toM NC (g i) = 1) {i mu : ℕ} (hi : i < volume L)
    (hmu : mu < L.ND) : toM NC (gtransform NC L g lat (i, mu)) = toM NC (lat (i, mu)) := by
  have hg : SUGauge NC L g := fun i hi => by
    unfold IsSU; rw [h1 i hi]; exact one_mem _
  rw [(C31_action hL hg hU).2 i hi mu hmu, h1 i hi, h1 _ (neighbor_lt hL i hmu)]
  simp

/-- **C31**, composition: transforming by `g` and then by `h` is transforming by the
product `h g`. -/
theorem C31_composition {NC : ℕ} {L : Latt} (hL : Valid L) {g h hg : ℕ → Arr ℂ} {lat : Gauge}
    (sg : SUGauge NC L g) (sh : SUGauge NC L h) (hU : SUField NC L lat)
    (hmul : ∀ i < volume L, toM NC (hg i) = toM NC (h i) * toM NC (g i)) {i mu : ℕ}
    (hi : i < volume L) (hmu : mu < L.ND) :
    toM NC (gtransform NC L h (gtransform NC L g lat) (i, mu)) =
      toM NC (gtransform NC L hg lat (i, mu)) := by
  have shg : SUGauge NC L hg := fun i hi => by
    unfold IsSU; rw [hmul i hi]; exact isSU_mul (sh i hi) (sg i hi)
  rw [(C31_action hL sh (C31_action hL sg hU).1).2 i hi mu hmu, (C31_action hL sg hU).2 i hi mu hmu,
    (C31_action hL shg hU).2 i hi mu hmu, hmul i hi, hmul _ (neighbor_lt hL i hmu)]
  simp only [conjTranspose_mul, Matrix.mul_assoc]

/-- **C31**, time slices: a site of the slice `t` has its spatial neighbours in the
slice, at the positions of the neighbours in the first slice, and its temporal
neighbour at the same position in the next slice. -/
theorem slice_neighbor {L : Latt} (hL : Valid L) {t i : ℕ} (ht : t < L.dims (L.ND - 1)) (hi : i < lcu L) :
    (∀ mu < L.ND - 1, neighbor L i mu < lcu L ∧
      neighbor L (lcu L * t + i) mu = lcu L * t + neighbor L i mu) ∧
    neighbor L (lcu L * t + i) (L.ND - 1) = lcu L * ((t + 1) % L.dims (L.ND - 1)) + i := by
  have hnd := hL.nd
  have hV : ∀ t < L.dims (L.ND - 1), ∀ i < lcu L, lcu L * t + i < volume L := by
    intro t ht i hi
    unfold volume
    calc lcu L * t + i < lcu L * t + lcu L := by omega
      _ = lcu L * (t + 1) := by ring
      _ ≤ _ := Nat.mul_le_mul_left _ (by omega)
  have hc : ∀ t < L.dims (L.ND - 1), ∀ i < lcu L, ∀ mu < L.ND,
      coord L L.ND (lcu L * t + i) mu = if mu = L.ND - 1 then t else coord L L.ND i mu := by
    intro t ht i hi mu hmu
    rw [coord_eq L hmu, coord_eq L hmu]
    have hlcu := lcu_eq L hnd
    split
    · next h =>
      subst h
      rw [← hlcu, Nat.mul_add_div (by omega), Nat.div_eq_of_lt hi, Nat.add_zero, Nat.mod_eq_of_lt ht]
    · next h =>
      obtain ⟨k, hk⟩ := dvd_radix L.dims (show mu < L.ND - 1 by omega)
      rw [hlcu, hk, show radix L.dims mu * L.dims mu * k * t + i
        = i + radix L.dims mu * (L.dims mu * (k * t)) by ring, Nat.add_mul_div_left _ _ (hL.radix_pos mu hmu.le),
        Nat.add_mul_mod_self_left]
  have hsl : ∀ j < volume L, ∃ t < L.dims (L.ND - 1), ∃ i < lcu L, j = lcu L * t + i := by
    intro j hj
    have hpos : 0 < lcu L := by
      rcases Nat.eq_zero_or_pos (lcu L) with h | h
      · omega
      · exact h
    refine ⟨j / lcu L, ?_, j % lcu L, Nat.mod_lt _ hpos, (Nat.div_add_mod j _).symm⟩
    exact Nat.div_lt_of_lt_mul hj
  have ht0 : 0 < L.dims (L.ND - 1) := by omega
  have hc0 : coord L L.ND i (L.ND - 1) = 0 := by
    have := hc 0 ht0 i hi (L.ND - 1) (by omega)
    simpa using this
  constructor
  · intro mu hmu
    obtain ⟨t', ht', i', hi', he⟩ := hsl _ (neighbor_lt hL i (show mu < L.ND by omega))
    have h0 := coord_neighbor hL i (show mu < L.ND by omega) (show L.ND - 1 < L.ND by omega)
    rw [if_neg (by omega), he, hc t' ht' i' hi' _ (by omega), if_pos rfl, hc0] at h0
    have ht'0 : t' = 0 := by exact_mod_cast h0
    subst ht'0
    rw [Nat.mul_zero, Nat.zero_add] at he
    refine ⟨by omega, ?_⟩
    refine site_ext hL (neighbor_lt hL _ (by omega)) (hV t ht _ (by omega)) fun nu hnu => ?_
    have h1 := coord_neighbor hL (lcu L * t + i) (show mu < L.ND by omega) hnu
    have h2 := coord_neighbor hL i (show mu < L.ND by omega) hnu
    rw [hc t ht i hi _ (by omega), hc t ht i hi nu hnu, if_neg (show ¬ mu = L.ND - 1 by omega)] at h1
    rw [hc t ht _ (by omega) nu hnu]
    by_cases hn : nu = L.ND - 1
    · rw [if_neg (by omega), if_pos hn] at h1
      rw [if_pos hn]; exact_mod_cast h1
    · rw [if_neg hn] at h1 ⊢
      rw [← h2] at h1; exact_mod_cast h1
  · refine site_ext hL (neighbor_lt hL _ (by omega)) (hV _ (Nat.mod_lt _ ht0) i hi) fun nu hnu => ?_
    have h1 := coord_neighbor hL (lcu L * t + i) (show L.ND - 1 < L.ND by omega) hnu
    rw [hc t ht i hi _ (by omega), hc t ht i hi nu hnu, if_pos rfl] at h1
    rw [hc _ (Nat.mod_lt _ ht0) i hi nu hnu]
    by_cases hn : nu = L.ND - 1
    · rw [if_pos hn] at h1 ⊢; exact_mod_cast h1
    · rw [if_neg hn, if_neg hn] at h1
      rw [if_neg hn]; exact_mod_cast h1

/-- **C31**, one time slice at a time: the routine used by Coulomb gauge fixing, given
the slices `t` and `t+1` of a transformation, changes the links that start in the
slice `t` as the transformation of the whole lattice does, and no other link. -/
theorem C31_slice {NC : ℕ} {L : Latt} (hL : Valid L) (g : ℕ → Arr ℂ) (lat : Gauge) {t : ℕ}
    (ht : t < L.dims (L.ND - 1)) {i mu : ℕ} (hi : i < volume L) (hmu : mu < L.ND) :
    gtransform_slice NC L (fun j => g (lcu L * t + j))
      (fun j => g (lcu L * ((t + 1) % L.dims (L.ND - 1)) + j)) t lat (i, mu) =
    if i / lcu L = t then gtransform NC L g lat (i, mu) else lat (i, mu) := by
  have hnd := hL.nd
  rw [gtransform_apply, if_pos (show i < volume L ∧ mu < L.ND from ⟨hi, hmu⟩)]
  unfold gtransform_slice
  simp only
  have hloop : ∀ n, n ≤ lcu L → ∀ l : Loc, forN n (fun i lat =>
      Function.update
        (forN (L.ND - 1) (fun mu lat => Function.update lat (lcu L * t + i, mu)
          (gtransform_local NC (g (lcu L * t + i)) (lat (lcu L * t + i, mu)) (g (lcu L * t + neighbor L i mu)))) lat)
        (lcu L * t + i, L.ND - 1)
        (gtransform_local NC (g (lcu L * t + i))
          (forN (L.ND - 1) (fun mu lat => Function.update lat (lcu L * t + i, mu)
            (gtransform_local NC (g (lcu L * t + i)) (lat (lcu L * t + i, mu)) (g (lcu L * t + neighbor L i mu))))
            lat (lcu L * t + i, L.ND - 1))
          (g (lcu L * ((t + 1) % L.dims (L.ND - 1)) + i)))) lat l =
      if lcu L * t ≤ l.1 ∧ l.1 < lcu L * t + n ∧ l.2 < L.ND then
        gtransform_local NC (g l.1) (lat l) (g (neighbor L l.1 l.2)) else lat l := by
    intro n
    induction n with
    | zero => intro _ l; rw [if_neg (by omega)]; rfl
    | succ n ih =>
      intro hn l
      obtain ⟨a, b⟩ := l
      obtain ⟨hs1, hs2⟩ := slice_neighbor hL ht (show n < lcu L by omega)
      rw [forN, Function.update_apply]
      rw [update_loop (L.ND - 1) (lcu L * t + n)
        (fun mu U => gtransform_local NC (g (lcu L * t + n)) U (g (lcu L * t + neighbor L n mu)))]
      rw [update_loop (L.ND - 1) (lcu L * t + n)
        (fun mu U => gtransform_local NC (g (lcu L * t + n)) U (g (lcu L * t + neighbor L n mu)))]
      rw [ih (by omega), ih (by omega)]
      simp only
      by_cases ha : a = lcu L * t + n
      · subst ha
        by_cases hb : b = L.ND - 1
        · subst hb
          rw [if_pos rfl, if_neg (by omega), if_neg (by omega), if_pos (by omega), hs2]
        · rw [if_neg (by simp [hb])]
          by_cases hb2 : b < L.ND - 1
          · rw [if_pos ⟨rfl, hb2⟩, if_neg (by omega), if_pos (by omega), (hs1 b hb2).2]
          · rw [if_neg (by omega), if_neg (by omega), if_neg (by omega)]
      · rw [if_neg (by simp [ha]), if_neg (by tauto)]
        have : (lcu L * t ≤ a ∧ a < lcu L * t + n ∧ b < L.ND) =
            (lcu L * t ≤ a ∧ a < lcu L * t + (n + 1) ∧ b < L.ND) := by
          apply propext; constructor <;> (rintro ⟨_, _, _⟩; refine ⟨?_, ?_, ?_⟩ <;> omega)
        simp only [this]
  rw [hloop (lcu L) (le_refl _)]
  have hpos : 0 < lcu L := by
    rcases Nat.eq_zero_or_pos (lcu L) with h | h
    · unfold volume at hi; rw [h] at hi; omega
    · exact h
  have : (lcu L * t ≤ i ∧ i < lcu L * t + lcu L ∧ mu < L.ND) = (i / lcu L = t) := by
    apply propext
    rw [Nat.div_eq_iff hpos]
    constructor
    · rintro ⟨h1, h2, -⟩; rw [Nat.mul_comm] at h1 h2; omega
    · rintro ⟨h1, h2⟩; rw [Nat.mul_comm (lcu L)]; omega
  simp only [this]

/-! ## C29 -/

/-- **C29**, what is measured: the average plaquette is the mean over all sites and
planes of the real part of the trace around the square, divided by the number of
colours. -/
theorem C29_average {NC : ℕ} {L : Latt} (hN : 1 ≤ NC) (hL : Valid L) {lat : Gauge} (hU : SUField NC L lat) :
    av_plaquette NC L lat = some ((∑ i ∈ range (volume L), ∑ mu ∈ range L.ND, ∑ nu ∈ range mu,
      (Matrix.trace (square NC L lat i mu nu)).re / NC) / (volume L * (L.ND * (L.ND - 1) / 2))) := by
  have hV : 0 < volume L := by rw [volume_eq L hL.nd]; exact hL.radix_pos _ (le_refl _)
  have hnd := hL.nd
  have hNr : (NC : ℝ) ≠ 0 := by positivity
  have hVr : (volume L : ℝ) ≠ 0 := by positivity
  have hnd1 : ((L.ND - 1 : ℕ) : ℝ) = (L.ND : ℝ) - 1 := by push_cast [show 1 ≤ L.ND by omega]; ring
  have hndr : (L.ND : ℝ) - 1 ≠ 0 := by
    rw [← hnd1]; exact_mod_cast (by omega : L.ND - 1 ≠ 0)
  have hnd0 : (L.ND : ℝ) ≠ 0 := by positivity
  unfold av_plaquette fdiv
  rw [if_neg]
  · rw [Option.some_inj, forN_sum, zero_add]
    rw [sum_congr rfl fun i hi => by
      rw [sitePlaq_eq, sum_congr rfl fun mu hmu => sum_congr rfl fun nu hnu => face_eq hL hU (mem_range.1 hi) (mem_range.1 hmu) (lt_trans (mem_range.1 hnu) (mem_range.1 hmu))]]
    simp only [← Finset.sum_div]
    push_cast
    rw [hnd1]
    field_simp
  · push_cast
    rw [hnd1]
    positivity

/-- **C29**: no gauge transformation changes any of the plaquette measurements. -/
theorem C29_gauge_invariant {NC : ℕ} {L : Latt} (hL : Valid L) {g : ℕ → Arr ℂ} {lat : Gauge}
    (hg : SUGauge NC L g) (hU : SUField NC L lat) :
    av_plaquette NC L (gtransform NC L g lat) = av_plaquette NC L lat ∧
    s_plaq NC L (gtransform NC L g lat) = s_plaq NC L lat ∧
    t_plaq NC L (gtransform NC L g lat) = t_plaq NC L lat ∧
    all_plaquettes NC L (gtransform NC L g lat) = all_plaquettes NC L lat := by
  have h1 : ∀ dirs ≤ L.ND, ∀ i < volume L,
      sitePlaq NC L (gtransform NC L g lat) dirs i = sitePlaq NC L lat dirs i := by
    intro dirs hd i hi
    rw [sitePlaq_eq, sitePlaq_eq]
    refine sum_congr rfl fun mu hmu => sum_congr rfl fun nu hnu => ?_
    rw [mem_range] at hmu hnu
    exact face_transformed hL hg hU hi (by omega) (by omega)
  have h2 : ∀ i < volume L, siteTimePlaq NC L (gtransform NC L g lat) i = siteTimePlaq NC L lat i := by
    intro i hi
    have := hL.nd
    rw [siteTimePlaq_eq, siteTimePlaq_eq]
    refine sum_congr rfl fun nu hnu => ?_
    rw [mem_range] at hnu
    exact face_transformed hL hg hU hi (by omega) (by omega)
  refine ⟨?_, ?_, ?_, ?_⟩
  · unfold av_plaquette
    rw [forN_congr fun i hi s => by rw [h1 _ (le_refl _) i hi]]
  · unfold s_plaq
    rw [forN_congr fun i hi s => by rw [h1 _ (by omega) i hi]]
  · unfold t_plaq
    rw [forN_congr fun i hi s => by rw [h2 i hi]]
  · unfold all_plaquettes
    rw [forN_congr fun i hi s => by rw [h1 _ (by omega) i hi, h2 i hi]]

/-- The trivial configuration: every link is the unit matrix. -/
def Trivial (NC : ℕ) (L : Latt) (lat : Gauge) : Prop :=
  ∀ i < volume L, ∀ mu < L.ND, toM NC (lat (i, mu)) = 1

theorem trivial_su {NC : ℕ} {L : Latt} {lat : Gauge} (h : Trivial NC L lat) : SUField NC L lat := by
  intro i hi mu hmu
  unfold IsSU; rw [h i hi mu hmu]; exact one_mem _

theorem trivial_face {NC : ℕ} {L : Latt} (hL : Valid L) {lat : Gauge} (h : Trivial NC L lat) {i mu nu : ℕ}
    (hi : i < volume L) (hmu : mu < L.ND) (hnu : nu < L.ND) : face NC L lat i mu nu = NC := by
  rw [face_eq hL (trivial_su h) hi hmu hnu]
  unfold square link
  rw [h i hi mu hmu, h _ (neighbor_lt hL i hmu) nu hnu, h _ (neighbor_lt hL i hnu) mu hmu, h i hi nu hnu]
  simp

theorem sum_triangle (n : ℕ) (c : ℝ) : 2 * ∑ mu ∈ range n, ∑ _nu ∈ range mu, c = n * (n - 1) * c := by
  induction n with
  | zero => simp
  | succ n ih => rw [sum_range_succ, mul_add, ih]; simp; ring

theorem trivial_sitePlaq {NC : ℕ} {L : Latt} (hL : Valid L) {lat : Gauge} (h : Trivial NC L lat) {dirs i : ℕ}
    (hd : dirs ≤ L.ND) (hi : i < volume L) : 2 * sitePlaq NC L lat dirs i = dirs * (dirs - 1) * NC := by
  rw [sitePlaq_eq, ← sum_triangle]
  congr 1
  refine sum_congr rfl fun mu hmu => sum_congr rfl fun nu hnu => ?_
  rw [mem_range] at hmu hnu
  exact trivial_face hL h hi (by omega) (by omega)

theorem trivial_siteTimePlaq {NC : ℕ} {L : Latt} (hL : Valid L) {lat : Gauge} (h : Trivial NC L lat) {i : ℕ}
    (hi : i < volume L) : siteTimePlaq NC L lat i = ((L.ND - 1 : ℕ) : ℝ) * NC := by
  have hnd := hL.nd
  rw [siteTimePlaq_eq, sum_congr rfl fun nu hnu => trivial_face hL h hi (show L.ND - 1 < L.ND by omega)
    (by rw [mem_range] at hnu; omega)]
  simp

/-- **C29** on the trivial configuration: the average plaquette is one in every
number of dimensions and the spatial one whenever there are two spatial directions. -/
theorem C29_trivial_average {NC : ℕ} {L : Latt} (hN : 1 ≤ NC) (hL : Valid L) {lat : Gauge}
    (h : Trivial NC L lat) :
    av_plaquette NC L lat = some 1 ∧ (3 ≤ L.ND → s_plaq NC L lat = some 1) := by
  have hV : 0 < volume L := by rw [volume_eq L hL.nd]; exact hL.radix_pos _ (le_refl _)
  have hnd := hL.nd
  have e1 : ((L.ND - 1 : ℕ) : ℝ) = (L.ND : ℝ) - 1 := by push_cast [show 1 ≤ L.ND by omega]; ring
  have e2 : ((L.ND - 2 : ℕ) : ℝ) = (L.ND : ℝ) - 2 := by push_cast [show 2 ≤ L.ND by omega]; ring
  constructor
  · unfold av_plaquette fdiv
    have hne : ((NC * L.ND * (L.ND - 1) * volume L : ℕ) : ℝ) ≠ 0 := by
      have : 0 < NC * L.ND * (L.ND - 1) * volume L := by
        have : 0 < L.ND - 1 := by omega
        positivity
      exact_mod_cast this.ne'
    rw [if_neg hne, Option.some_inj, forN_sum, zero_add, mul_sum,
      sum_congr rfl fun i hi => trivial_sitePlaq hL h (le_refl _) (mem_range.1 hi), sum_const, card_range,
      div_eq_one_iff_eq hne]
    push_cast
    rw [e1, nsmul_eq_mul]
    ring
  · intro h3
    unfold s_plaq fdiv
    have hne : (((L.ND - 1) * (L.ND - 2) * NC * volume L : ℕ) : ℝ) ≠ 0 := by
      have : 0 < (L.ND - 1) * (L.ND - 2) * NC * volume L := by
        have : 0 < L.ND - 1 := by omega
        have : 0 < L.ND - 2 := by omega
        positivity
      exact_mod_cast this.ne'
    rw [if_neg hne, Option.some_inj, forN_sum, zero_add, mul_sum,
      sum_congr rfl fun i hi => trivial_sitePlaq hL h (show L.ND - 1 ≤ L.ND by omega) (mem_range.1 hi),
      sum_const, card_range, div_eq_one_iff_eq hne]
    push_cast
    rw [e1, e2, nsmul_eq_mul]
    ring

/-- **C29** on the trivial configuration, temporal plaquette: the value is
`2/(ND-2)` instead of one, and undefined in two dimensions. -/
theorem C29_trivial_temporal {NC : ℕ} {L : Latt} (hN : 1 ≤ NC) (hL : Valid L) {lat : Gauge}
    (h : Trivial NC L lat) :
    t_plaq NC L lat = if L.ND = 2 then none else some (2 / ((L.ND : ℝ) - 2)) := by
  have hV : 0 < volume L := by rw [volume_eq L hL.nd]; exact hL.radix_pos _ (le_refl _)
  have hnd := hL.nd
  have e1 : ((L.ND - 1 : ℕ) : ℝ) = (L.ND : ℝ) - 1 := by push_cast [show 1 ≤ L.ND by omega]; ring
  have e2 : ((L.ND - 2 : ℕ) : ℝ) = (L.ND : ℝ) - 2 := by push_cast [show 2 ≤ L.ND by omega]; ring
  unfold t_plaq fdiv
  split
  · next h2 =>
    rw [if_pos]
    have : ((L.ND - 1) * (L.ND - 2) * NC * volume L : ℕ) = 0 := by
      push_cast [] at h2
      by_contra hc
      have hp : 0 < L.ND - 2 := by
        rcases Nat.eq_zero_or_pos (L.ND - 2) with hz | hz
        · rw [hz] at hc; simp at hc
        · exact hz
      have hp1 : 0 < L.ND - 1 := by omega
      have : (0 : ℝ) < (((L.ND - 1) * (L.ND - 2) * NC * volume L : ℕ) : ℝ) := by
        have : 0 < (L.ND - 1) * (L.ND - 2) * NC * volume L := by positivity
        exact_mod_cast this
      push_cast at this
      linarith
    have h0 : L.ND - 2 = 0 := by
      by_contra hz
      have : 0 < (L.ND - 1) * (L.ND - 2) * NC * volume L := by
        have : 0 < L.ND - 1 := by omega
        have : 0 < L.ND - 2 := by omega
        positivity
      omega
    omega
  · next hne =>
    have h3 : L.ND ≠ 2 := by
      intro h2
      apply hne
      rw [h2]; simp
    rw [if_neg h3, Option.some_inj, forN_sum, zero_add,
      sum_congr rfl fun i hi => trivial_siteTimePlaq hL h (mem_range.1 hi), sum_const, card_range, nsmul_eq_mul]
    have h2r : (L.ND : ℝ) - 2 ≠ 0 := by
      rw [← e2]; exact_mod_cast (by omega : L.ND - 2 ≠ 0)
    have h1r : (L.ND : ℝ) - 1 ≠ 0 := by
      rw [← e1]; exact_mod_cast (by omega : L.ND - 1 ≠ 0)
    have hNr : (NC : ℝ) ≠ 0 := by positivity
    have hVr : (volume L : ℝ) ≠ 0 := by positivity
    push_cast
    rw [e1, e2]
    field_simp

/-- **C29**, the combined measurement is right in four dimensions. -/
theorem C29_trivial_all_partial {NC : ℕ} {L : Latt} (hN : 1 ≤ NC) (hL : Valid L) (h4 : L.ND = 4)
    {lat : Gauge} (h : Trivial NC L lat) :
    t_plaq NC L lat = some 1 ∧ all_plaquettes NC L lat = some (1, 1, 1) := by
  have ht : t_plaq NC L lat = some 1 := by
    rw [C29_trivial_temporal hN hL h, if_neg (by omega), h4]; norm_num
  have hs := (C29_trivial_average hN hL h).2 (by omega)
  refine ⟨ht, ?_⟩
  unfold t_plaq at ht
  unfold s_plaq at hs
  unfold all_plaquettes
  rw [forN_sum, zero_add] at ht hs
  rw [forN_sum2]
  simp only [zero_add]
  rw [hs, ht]
  norm_num

/-- **C29** fails in other numbers of dimensions: on a 2 x 2 x 2 lattice of unit
links the temporal plaquette is two and the combined one 3/2; in two dimensions
both are undefined. -/
theorem C29_trivial_fails :
    (∃ L : Latt, Valid L ∧ L.ND = 3 ∧ ∀ (NC : ℕ) (lat : Gauge), 1 ≤ NC → Trivial NC L lat →
      t_plaq NC L lat = some 2 ∧ all_plaquettes NC L lat = some (3 / 2, 1, 2)) ∧
    (∃ L : Latt, Valid L ∧ L.ND = 2 ∧ ∀ (NC : ℕ) (lat : Gauge), 1 ≤ NC → Trivial NC L lat →
      t_plaq NC L lat = none ∧ all_plaquettes NC L lat = none) := by
  constructor
  · refine ⟨⟨3, fun _ => 2⟩, ⟨by norm_num, by norm_num, by norm_num [prod_range_succ]⟩, rfl, ?_⟩
    intro NC lat hN h
    have hL : Valid ⟨3, fun _ => 2⟩ := ⟨by norm_num, by norm_num, by norm_num [prod_range_succ]⟩
    have ht : t_plaq NC ⟨3, fun _ => 2⟩ lat = some 2 := by
      rw [C29_trivial_temporal hN hL h]; norm_num
    refine ⟨ht, ?_⟩
    have hs := (C29_trivial_average hN hL h).2 (by norm_num)
    unfold t_plaq at ht
    unfold s_plaq at hs
    unfold all_plaquettes
    rw [forN_sum, zero_add] at ht hs
    rw [forN_sum2]
    simp only [zero_add]
    rw [hs, ht]
    norm_num
  · refine ⟨⟨2, fun _ => 2⟩, ⟨by norm_num, by norm_num, by norm_num [prod_range_succ]⟩, rfl, ?_⟩
    intro NC lat hN h
    have hL : Valid ⟨2, fun _ => 2⟩ := ⟨by norm_num, by norm_num, by norm_num [prod_range_succ]⟩
    refine ⟨by rw [C29_trivial_temporal hN hL h]; simp, ?_⟩
    unfold all_plaquettes fdiv
    simp

/-! ## C32 -/

/-- **C32**, what is computed: the staple is the sum over the other directions of the
two three-link paths around the link. -/
theorem C32_staple {NC : ℕ} {L : Latt} (hL : Valid L) {lat : Gauge} (hU : SUField NC L lat) {i mu dir : ℕ}
    (hi : i < volume L) (hmu : mu < dir) (hdir : dir ≤ L.ND) :
    toM NC (staple NC L lat i mu dir) = ∑ nu ∈ (range dir).erase mu,
      (link NC lat i nu * link NC lat (neighbor L i nu) mu * (link NC lat (neighbor L i mu) nu)ᴴ +
      (link NC lat (back L i nu) nu)ᴴ * link NC lat (back L i nu) mu *
        link NC lat (neighbor L (back L i nu) mu) nu) :=
  staple_eq hL hU hi hmu hdir

/-- **C32**: the staple transforms like the link, and `Re Tr( U S^dagger )` is gauge
invariant. -/
theorem C32_covariant {NC : ℕ} {L : Latt} (hL : Valid L) {g : ℕ → Arr ℂ} {lat : Gauge}
    (hg : SUGauge NC L g) (hU : SUField NC L lat) {i mu dir : ℕ} (hi : i < volume L) (hmu : mu < dir)
    (hdir : dir ≤ L.ND) :
    toM NC (staple NC L (gtransform NC L g lat) i mu dir) =
      toM NC (g i) * toM NC (staple NC L lat i mu dir) * (toM NC (g (neighbor L i mu)))ᴴ ∧
    Matrix.trace (toM NC (gtransform NC L g lat (i, mu)) *
        (toM NC (staple NC L (gtransform NC L g lat) i mu dir))ᴴ) =
      Matrix.trace (toM NC (lat (i, mu)) * (toM NC (staple NC L lat i mu dir))ᴴ) := by
  obtain ⟨ht, hsu⟩ := gtransform_transformed hL hg hU
  have h1 : toM NC (staple NC L (gtransform NC L g lat) i mu dir) =
      toM NC (g i) * toM NC (staple NC L lat i mu dir) * (toM NC (g (neighbor L i mu)))ᴴ := by
    rw [staple_eq hL hsu hi hmu hdir, staple_eq hL hU hi hmu hdir, Matrix.mul_sum, Matrix.sum_mul]
    refine sum_congr rfl fun nu hnu => ?_
    rw [mem_erase, mem_range] at hnu
    exact stapleTerm_transformed hL hg ht hi (by omega) (by omega)
  refine ⟨h1, ?_⟩
  have h2 := ht i hi mu (by omega)
  unfold link at h2
  rw [h1, h2]
  have c := cancel_left (su_star_mul (hg _ (neighbor_lt hL i (show mu < L.ND by omega))))
  simp only [conjTranspose_mul, conjTranspose_conjTranspose, Matrix.mul_assoc, c]
  rw [Matrix.trace_mul_comm]
  simp only [Matrix.mul_assoc]
  rw [su_star_mul (hg i hi), Matrix.mul_one]

/-- **C32**, counting: the sum of `Re Tr( U S^dagger )` over all links is four times the
sum of the plaquettes. -/
theorem C32_counts {NC : ℕ} {L : Latt} (hL : Valid L) {lat : Gauge} (hU : SUField NC L lat) :
    ∑ i ∈ range (volume L), ∑ mu ∈ range L.ND,
      (Matrix.trace (toM NC (lat (i, mu)) * (toM NC (staple NC L lat i mu L.ND))ᴴ)).re =
    4 * ∑ i ∈ range (volume L), ∑ mu ∈ range L.ND, ∑ nu ∈ range mu,
      (Matrix.trace (square NC L lat i mu nu)).re := by
  have h1 : ∀ i ∈ range (volume L), ∀ mu ∈ range L.ND,
      (Matrix.trace (toM NC (lat (i, mu)) * (toM NC (staple NC L lat i mu L.ND))ᴴ)).re =
      ∑ nu ∈ (range L.ND).erase mu, ((Matrix.trace (square NC L lat i mu nu)).re +
        (Matrix.trace (square NC L lat (back L i nu) mu nu)).re) := by
    intro i hi mu hmu
    rw [mem_range] at hi hmu
    rw [staple_eq hL hU hi hmu (le_refl _), conjTranspose_sum, Matrix.mul_sum, Matrix.trace_sum, re_sum]
    refine sum_congr rfl fun nu hnu => ?_
    rw [mem_erase, mem_range] at hnu
    exact link_staple hL lat hi hmu hnu.2
  rw [sum_congr rfl fun i hi => sum_congr rfl (h1 i hi), sum_comm]
  have h2 : ∀ mu ∈ range L.ND, ∑ i ∈ range (volume L), ∑ nu ∈ (range L.ND).erase mu,
      ((Matrix.trace (square NC L lat i mu nu)).re +
        (Matrix.trace (square NC L lat (back L i nu) mu nu)).re) =
      ∑ nu ∈ (range L.ND).erase mu, 2 * ∑ i ∈ range (volume L), (Matrix.trace (square NC L lat i mu nu)).re := by
    intro mu _
    rw [sum_comm]
    refine sum_congr rfl fun nu hnu => ?_
    rw [mem_erase, mem_range] at hnu
    rw [sum_add_distrib, sum_back hL hnu.2 (fun i => (Matrix.trace (square NC L lat i mu nu)).re)]
    ring
  rw [sum_congr rfl h2, sum_erase_symm L.ND
    (fun mu nu => 2 * ∑ i ∈ range (volume L), (Matrix.trace (square NC L lat i mu nu)).re)
    (fun a b => by simp only [square_swap])]
  simp only [← mul_sum]
  rw [sum_comm (s := range (volume L)), ← mul_assoc]
  norm_num
  refine sum_congr rfl fun mu _ => ?_
  rw [sum_comm]

/-! ## Non-vacuity -/

/-- A non-trivial special unitary field and gauge transformation on a 2 x 3 lattice. -/
example : ∃ (L : Latt) (lat : Gauge) (g : ℕ → Arr ℂ), Valid L ∧ SUField 2 L lat ∧ SUGauge 2 L g ∧
    gtransform 2 L g lat (0, 0) ≠ lat (0, 0) := by
  have h1 : IsSU 2 (arr [1, 0, 0, 1]) := by
    have : toM 2 (arr [1, 0, 0, 1] : Arr ℂ) = 1 := by
      ext i j; fin_cases i <;> fin_cases j <;> simp [arr]
    unfold IsSU; rw [this]; exact one_mem _
  have h2 : IsSU 2 (arr [I, 0, 0, -I]) := by
    unfold IsSU
    rw [mem_specialUnitaryGroup_iff, mem_unitaryGroup_iff]
    constructor
    · ext i j; fin_cases i <;> fin_cases j <;> simp [arr, Matrix.mul_apply, Fin.sum_univ_two, star_apply]
    · rw [det_fin_two]; simp [arr]
  have hL : Valid ⟨2, fun mu => mu + 2⟩ := ⟨by norm_num, by norm_num, by norm_num [prod_range_succ]⟩
  refine ⟨⟨2, fun mu => mu + 2⟩, fun _ => arr [1, 0, 0, 1], fun i => if i = 0 then arr [I, 0, 0, -I] else arr [1, 0, 0, 1],
    hL, fun _ _ _ _ => h1, fun i _ => by simp only; split <;> assumption, ?_⟩
  intro h
  have e := (C31_action (NC := 2) hL (g := fun i => if i = 0 then arr [I, 0, 0, -I] else arr [1, 0, 0, 1])
    (lat := fun _ => arr [1, 0, 0, 1]) (fun i _ => by simp only; split <;> assumption) (fun _ _ _ _ => h1)).2 0
    (by decide) 0 (by decide)
  rw [h] at e
  have hn : neighbor ⟨2, fun mu => mu + 2⟩ 0 0 = 1 := by decide
  rw [hn] at e
  have := congrFun (congrFun e 0) 0
  simp [arr, Matrix.mul_apply, Fin.sum_univ_two] at this
  have := congrArg Complex.re this
  simp at this

end GLU.Field
