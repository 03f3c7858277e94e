import Verif.Geom.Lemmas

/-!
# Properties C01 - C06: lattice geometry
-/

namespace GLU.Geom

open Finset

/-- A non-trivial shape used to show that hypotheses can be met: 2 x 3 x 4 x 5. -/
def L2345 : Latt := ⟨4, fun mu => mu + 2⟩

theorem valid_L2345 : Valid L2345 := by
  refine ⟨by decide, ?_, ?_⟩
  · intro mu _; show 0 < mu + 2; omega
  · decide

/-- An all-even shape: 4 x 4 x 6 x 8. -/
def L4468 : Latt := ⟨4, fun mu => if mu = 2 then 6 else if mu = 3 then 8 else 4⟩

theorem valid_L4468 : Valid L4468 := by
  refine ⟨by decide, ?_, ?_⟩
  · intro mu hmu; show 0 < (if mu = 2 then 6 else if mu = 3 then 8 else 4); split <;> [skip; split] <;> omega
  · decide

/-! ## C01 -/

/-- C01: index to coordinates and back. -/
theorem C01_index_coords_index {L : Latt} (hL : Valid L) {i : ℕ} (hi : i < volume L) :
    ∃ x, get_mom_2piBZ L i L.ND = some x ∧ InRange L x ∧ gen_site L x = i := by
  refine ⟨_, if_pos ?_, coord_inRange hL L.ND i, gen_site_coord hL hi⟩
  intro mu hmu _
  exact ⟨hL.pos mu hmu, by rw [subvol_eq L _ _ hmu.le]; exact hL.radix_lt hmu.le⟩

/-- C01: coordinates to index and back; the index is the lexicographical one. -/
theorem C01_coords_index_coords {L : Latt} (hL : Valid L) {x : ℕ → ℤ} (hx : InRange L x) :
    gen_site L x < volume L ∧ (gen_site L x : ℤ) = lexIndex L x ∧
    ∃ y, get_mom_2piBZ L (gen_site L x) L.ND = some y ∧ ∀ mu < L.ND, y mu = x mu := by
  obtain ⟨y, hy, _, _⟩ := C01_index_coords_index hL (gen_site_lt hL hx)
  refine ⟨gen_site_lt hL hx, ?_, y, hy, fun mu hmu => ?_⟩
  · rw [gen_site_inRange hL hx, lexIndex_congr hx.nat.2, lexIndex_cast]
  · have : (fun mu => (coord L L.ND (gen_site L x) mu : ℤ)) = y := by
      unfold get_mom_2piBZ at hy
      split at hy
      · exact Option.some.inj hy
      · cases hy
    rw [← this]
    exact coord_gen_site hL hx hmu

/-- C01: the volume and the slice volume stored by `init_latt` are the products of
the extents. -/
theorem C01_volume {L : Latt} (hN : 2 ≤ L.ND) :
    volume L = ∏ mu ∈ range L.ND, L.dims mu ∧
    lcu L = ∏ mu ∈ range (L.ND - 1), L.dims mu :=
  ⟨volume_eq L hN, lcu_eq L hN⟩

/-- C01 on a time slice: spatial index to coordinates and back. -/
theorem C01_slice {L : Latt} (hL : Valid L) {i : ℕ} (hi : i < lcu L) :
    ∃ x, get_mom_2piBZ L i (L.ND - 1) = some x ∧ x (L.ND - 1) = 0 ∧ gen_site L x = i := by
  have hnd := hL.nd
  refine ⟨_, if_pos ?_, by simp [coord_self], ?_⟩
  · intro mu hmu hne
    exact ⟨hL.pos mu hmu, by rw [subvol_eq L _ _ (by omega)]; exact hL.radix_lt hmu.le⟩
  · rw [gen_site_slice hL (Or.inr (by omega))
      (fun mu hmu => coord_lt L hL.pos _ _ (by omega)) (coord_self _ _ _)]
    rw [lcu_eq L hL.nd] at hi
    rw [sum_congr rfl fun mu hmu => by rw [coord_eq L (mem_range.1 hmu)], digits_sum,
      Nat.mod_eq_of_lt hi]

example : Valid L2345 ∧ 77 < volume L2345 := ⟨valid_L2345, by decide⟩
example : InRange L2345 (fun mu => mu + 1) := by
  intro mu _; constructor
  · positivity
  · show ((mu : ℤ) + 1) < ((mu + 2 : ℕ) : ℤ); push_cast; omega

/-! ## C02 -/

/-- C02: one step forward or backward changes exactly one coordinate by one,
periodically, and stays on the lattice. -/
theorem C02_step {L : Latt} (hL : Valid L) {i mu : ℕ} (hmu : mu < L.ND) :
    (neighbor L i mu < volume L ∧ back L i mu < volume L) ∧
    ∀ nu < L.ND,
      (coord L L.ND (neighbor L i mu) nu : ℤ) =
        (if nu = mu then ((coord L L.ND i mu : ℤ) + 1) % L.dims mu else coord L L.ND i nu) ∧
      (coord L L.ND (back L i mu) nu : ℤ) =
        (if nu = mu then ((coord L L.ND i mu : ℤ) - 1) % L.dims mu else coord L L.ND i nu) :=
  ⟨⟨neighbor_lt hL i hmu, back_lt hL i hmu⟩,
    fun _ hnu => ⟨coord_neighbor hL i hmu hnu, coord_back hL i hmu hnu⟩⟩

/-- C02: forward and backward moves are mutual inverses. -/
theorem C02_inverse {L : Latt} (hL : Valid L) {i mu : ℕ} (hi : i < volume L) (hmu : mu < L.ND) :
    back L (neighbor L i mu) mu = i ∧ neighbor L (back L i mu) mu = i := by
  constructor
  · refine site_ext hL (back_lt hL _ hmu) hi fun nu hnu => ?_
    have h := coord_back hL (neighbor L i mu) hmu hnu
    rw [coord_neighbor hL i hmu hmu, coord_neighbor hL i hmu hnu] at h
    have hr := coord_inRange hL L.ND i mu hmu
    simp only [if_true] at h
    split at h
    · next e =>
      subst e
      rw [Int.emod_sub_emod, add_sub_cancel_right, Int.emod_eq_of_lt hr.1 hr.2] at h
      exact Int.ofNat_inj.1 h
    · exact_mod_cast h
  · refine site_ext hL (neighbor_lt hL _ hmu) hi fun nu hnu => ?_
    have h := coord_neighbor hL (back L i mu) hmu hnu
    rw [coord_back hL i hmu hmu, coord_back hL i hmu hnu] at h
    have hr := coord_inRange hL L.ND i mu hmu
    simp only [if_true] at h
    split at h
    · next e =>
      subst e
      rw [Int.emod_add_emod, sub_add_cancel, Int.emod_eq_of_lt hr.1 hr.2] at h
      exact Int.ofNat_inj.1 h
    · exact_mod_cast h

/-- C02: moves in two directions commute (all four sign combinations). -/
theorem C02_commute {L : Latt} (hL : Valid L) {i mu nu : ℕ} (hmu : mu < L.ND) (hnu : nu < L.ND) :
    neighbor L (neighbor L i mu) nu = neighbor L (neighbor L i nu) mu ∧
    neighbor L (back L i mu) nu = back L (neighbor L i nu) mu ∧
    back L (back L i mu) nu = back L (back L i nu) mu := by
  refine ⟨?_, ?_, ?_⟩
  · refine site_ext hL (neighbor_lt hL _ hnu) (neighbor_lt hL _ hmu) fun rho hrho => ?_
    have h : (coord L L.ND (neighbor L (neighbor L i mu) nu) rho : ℤ)
        = coord L L.ND (neighbor L (neighbor L i nu) mu) rho := by
      rw [coord_neighbor hL _ hnu hrho, coord_neighbor hL _ hmu hrho,
        coord_neighbor hL _ hmu hnu, coord_neighbor hL _ hmu hrho,
        coord_neighbor hL _ hnu hmu, coord_neighbor hL _ hnu hrho]
      by_cases h1 : rho = nu <;> by_cases h2 : rho = mu <;> simp_all
    exact_mod_cast h
  · refine site_ext hL (neighbor_lt hL _ hnu) (back_lt hL _ hmu) fun rho hrho => ?_
    have h : (coord L L.ND (neighbor L (back L i mu) nu) rho : ℤ)
        = coord L L.ND (back L (neighbor L i nu) mu) rho := by
      rw [coord_neighbor hL _ hnu hrho, coord_back hL _ hmu hrho,
        coord_back hL _ hmu hnu, coord_back hL _ hmu hrho,
        coord_neighbor hL _ hnu hmu, coord_neighbor hL _ hnu hrho]
      by_cases h1 : rho = nu <;> by_cases h2 : rho = mu <;> simp_all
    exact_mod_cast h
  · refine site_ext hL (back_lt hL _ hnu) (back_lt hL _ hmu) fun rho hrho => ?_
    have h : (coord L L.ND (back L (back L i mu) nu) rho : ℤ)
        = coord L L.ND (back L (back L i nu) mu) rho := by
      rw [coord_back hL _ hnu hrho, coord_back hL _ hmu hrho,
        coord_back hL _ hmu hnu, coord_back hL _ hmu hrho,
        coord_back hL _ hnu hmu, coord_back hL _ hnu hrho]
      by_cases h1 : rho = nu <;> by_cases h2 : rho = mu <;> simp_all
    exact_mod_cast h

/-- After `n` forward moves the coordinate has grown by `n`, periodically. -/
theorem coord_iterate {L : Latt} (hL : Valid L) {i mu : ℕ} (hmu : mu < L.ND) (n : ℕ) :
    ∀ nu < L.ND, (coord L L.ND ((fun k => neighbor L k mu)^[n] i) nu : ℤ) =
      if nu = mu then ((coord L L.ND i mu : ℤ) + n) % L.dims mu else coord L L.ND i nu := by
  induction n with
  | zero =>
    intro nu hnu
    have hr := coord_inRange hL L.ND i mu hmu
    simp only [Function.iterate_zero, id]
    split
    · next e => subst e; simp [Int.emod_eq_of_lt hr.1 hr.2]
    · rfl
  | succ n ih =>
    intro nu hnu
    rw [Function.iterate_succ_apply', coord_neighbor hL _ hmu hnu, ih mu hmu, ih nu hnu]
    simp only [if_true]
    split
    · rw [Int.emod_add_emod]; push_cast; rw [add_assoc]
    · rfl

/-- C02: going once around a direction returns to the start. -/
theorem C02_period {L : Latt} (hL : Valid L) {i mu : ℕ} (hi : i < volume L) (hmu : mu < L.ND) :
    (fun k => neighbor L k mu)^[L.dims mu] i = i := by
  have hlt : (fun k => neighbor L k mu)^[L.dims mu] i < volume L := by
    obtain ⟨n, hn⟩ : ∃ n, L.dims mu = n + 1 := ⟨L.dims mu - 1, by have := hL.pos mu hmu; omega⟩
    rw [hn, Function.iterate_succ_apply']
    exact neighbor_lt hL _ hmu
  refine site_ext hL hlt hi fun nu hnu => ?_
  have h := coord_iterate hL hmu (i := i) (L.dims mu) nu hnu
  have hr := coord_inRange hL L.ND i mu hmu
  split at h
  · next e =>
    subst e
    rw [Int.add_emod_right, Int.emod_eq_of_lt hr.1 hr.2] at h
    exact Int.ofNat_inj.1 h
  · exact_mod_cast h

/-- C02: no shorter positive number of steps returns to the start. -/
theorem C02_period_minimal {L : Latt} (hL : Valid L) {i mu n : ℕ} (hmu : mu < L.ND)
    (h : (fun k => neighbor L k mu)^[n] i = i) : L.dims mu ∣ n := by
  have e := coord_iterate hL hmu (i := i) n mu hmu
  rw [h, if_pos rfl] at e
  have hr := coord_inRange hL L.ND i mu hmu
  have e2 : ((coord L L.ND i mu : ℤ) + n) % L.dims mu = (coord L L.ND i mu : ℤ) % L.dims mu := by
    rw [← e, Int.emod_eq_of_lt hr.1 hr.2]
  have hd : (L.dims mu : ℤ) ∣ ((coord L L.ND i mu : ℤ) + n) - coord L L.ND i mu :=
    (Int.emod_eq_emod_iff_emod_sub_eq_zero.1 e2 |> Int.dvd_of_emod_eq_zero)
  rw [add_sub_cancel_left] at hd
  exact_mod_cast hd

example : neighbor L2345 1 0 = 0 ∧ back L2345 0 3 = 96 ∧ neighbor L2345 (back L2345 0 3) 3 = 0 := by
  decide

/-! ## C03 -/

/-- All extents of the first `DIMS` directions are even. -/
def EvenDims (L : Latt) (DIMS : ℕ) : Prop := ∀ mu < DIMS, 2 ∣ L.dims mu

/-- C03, all-even shapes: the converted momentum is the representative of the
`[0,2pi)` momentum in `[-L/2, L/2)`. -/
theorem C03_momconv_even_partial {L : Latt} (hL : Valid L) {DIMS : ℕ} (hD : SliceDims L DIMS)
    (he : EvenDims L DIMS) (i : ℕ) {mu : ℕ} (hmu : mu < DIMS) :
    (L.dims mu : ℤ) ∣ TwoPI_mpipi_momconv L i DIMS mu - (coord L DIMS i mu : ℤ) ∧
    -(L.dims mu : ℤ) ≤ 2 * TwoPI_mpipi_momconv L i DIMS mu ∧
    2 * TwoPI_mpipi_momconv L i DIMS mu < L.dims mu := by
  -- the shifted coordinate as a natural number
  let y : ℕ → ℕ := fun nu => if nu = DIMS then 0 else
    if L.dims nu / 2 ≤ coord L DIMS i nu then coord L DIMS i nu - L.dims nu / 2
    else coord L DIMS i nu + L.dims nu / 2
  have hlt : ∀ nu < L.ND, coord L DIMS i nu < L.dims nu := fun nu hnu =>
    coord_lt L hL.pos DIMS i hnu
  have hy : ∀ nu < DIMS, y nu < L.dims nu := by
    intro nu hnu
    have h1 := hlt nu (lt_of_lt_of_le hnu hD.le)
    have h2 := he nu hnu
    simp only [y, if_neg (Nat.ne_of_lt hnu)]
    split <;> omega
  have hsite : get_site_2piBZ L (fun mu => (coord L DIMS i mu : ℤ)) DIMS
      = ∑ nu ∈ range DIMS, y nu * radix L.dims nu := by
    unfold get_site_2piBZ
    rw [gen_site_congr (y := fun nu => (y nu : ℤ)) (by have := hL.nd; omega)]
    · exact gen_site_slice hL hD hy (by simp [y])
    · intro nu hnu
      rcases hD.of_lt hnu with h | h
      · have h1 := hlt nu hnu
        have h2 := he nu h
        simp only [temp2pi, y, if_pos (Nat.ne_of_lt h), if_neg (Nat.ne_of_lt h), ge_iff_le]
        by_cases hc : L.dims nu / 2 ≤ coord L DIMS i nu
        · have hc' : ((L.dims nu / 2 : ℕ) : ℤ) ≤ (coord L DIMS i nu : ℤ) := by exact_mod_cast hc
          simp only [hc, hc', if_true]
          split <;> omega
        · have hc' : ¬ ((L.dims nu / 2 : ℕ) : ℤ) ≤ (coord L DIMS i nu : ℤ) := by exact_mod_cast hc
          simp only [hc, hc', if_false]
          split <;> omega
      · subst h; simp [temp2pi, y]
  have hval : TwoPI_mpipi_momconv L i DIMS mu = (y mu : ℤ) - ((L.dims mu / 2 : ℕ) : ℤ) := by
    unfold TwoPI_mpipi_momconv
    rw [hsite, mom_pipi_eq L hmu, digit_of_sum hy hmu]
  rw [hval]
  have h1 := hlt mu (lt_of_lt_of_le hmu hD.le)
  have h2 := he mu hmu
  simp only [y, if_neg (Nat.ne_of_lt hmu)]
  split
  · refine ⟨⟨-1, ?_⟩, ?_, ?_⟩ <;> omega
  · refine ⟨⟨0, ?_⟩, ?_, ?_⟩ <;> omega

/-- C03, all-even shapes: converting to the `(-pi,pi)` convention and back returns
the original index. -/
theorem C03_roundtrip_even_partial {L : Latt} (hL : Valid L) {DIMS : ℕ} (hD : SliceDims L DIMS)
    (he : EvenDims L DIMS) {i : ℕ} (hi : i < ∏ mu ∈ range DIMS, L.dims mu) :
    get_site_pipiBZ L (TwoPI_mpipi_momconv L i DIMS) DIMS = i := by
  unfold get_site_pipiBZ
  rw [gen_site_congr (y := fun nu => (coord L DIMS i nu : ℤ)) (by have := hL.nd; omega)]
  · rw [gen_site_slice hL hD (fun mu hmu => coord_lt L hL.pos _ _ (lt_of_lt_of_le hmu hD.le))
      (coord_self _ _ _), sum_congr rfl fun mu hmu => by rw [coord_eq L (mem_range.1 hmu)],
      digits_sum]
    exact Nat.mod_eq_of_lt hi
  · intro mu hmu
    rcases hD.of_lt hmu with h | h
    · rw [if_pos (Nat.ne_of_lt h)]
      obtain ⟨⟨k, hk⟩, h1, h2⟩ := C03_momconv_even_partial hL hD he i h
      have h3 := coord_lt L hL.pos DIMS i hmu
      have hp := hL.pos mu hmu
      generalize TwoPI_mpipi_momconv L i DIMS mu = t at *
      generalize hc : coord L DIMS i mu = c at *
      have hk1 : -2 < k := by
        by_contra hh
        have : (L.dims mu : ℤ) * k ≤ (L.dims mu : ℤ) * (-2) :=
          mul_le_mul_of_nonneg_left (by omega) (by positivity)
        omega
      have hk2 : k < 1 := by
        by_contra hh
        have : (L.dims mu : ℤ) * 1 ≤ (L.dims mu : ℤ) * k :=
          mul_le_mul_of_nonneg_left (by omega) (by positivity)
        omega
      have : k = -1 ∨ k = 0 := by omega
      rcases this with rfl | rfl
      · rw [if_pos (by omega)]; omega
      · rw [if_neg (by omega)]; omega
    · subst h; simp [coord_self]

/-- C03, every shape: the index at which a `(-pi,pi)` momentum is stored has
coordinates congruent to the momentum, and distinct momenta go to distinct
indices (used by the momentum cuts). -/
theorem C03_pipi_site {L : Latt} (hL : Valid L) {DIMS : ℕ} (hD : SliceDims L DIMS) (i : ℕ) :
    (∀ mu < DIMS, (L.dims mu : ℤ) ∣
      (coord L DIMS (get_site_pipiBZ L (mom_pipi L i DIMS) DIMS) mu : ℤ) - mom_pipi L i DIMS mu) ∧
    get_site_pipiBZ L (mom_pipi L i DIMS) DIMS < ∏ mu ∈ range DIMS, L.dims mu := by
  let y : ℕ → ℕ := fun nu => if nu = DIMS then 0 else
    if i / radix L.dims nu % L.dims nu < L.dims nu / 2 then
      i / radix L.dims nu % L.dims nu + (L.dims nu - L.dims nu / 2)
    else i / radix L.dims nu % L.dims nu - L.dims nu / 2
  have hy : ∀ nu < DIMS, y nu < L.dims nu := by
    intro nu hnu
    have h1 := Nat.mod_lt (i / radix L.dims nu) (hL.pos nu (lt_of_lt_of_le hnu hD.le))
    simp only [y, if_neg (Nat.ne_of_lt hnu)]
    split <;> omega
  have hsite : get_site_pipiBZ L (mom_pipi L i DIMS) DIMS
      = ∑ nu ∈ range DIMS, y nu * radix L.dims nu := by
    unfold get_site_pipiBZ
    rw [gen_site_congr (y := fun nu => (y nu : ℤ)) (by have := hL.nd; omega)]
    · exact gen_site_slice hL hD hy (by simp [y])
    · intro nu hnu
      rcases hD.of_lt hnu with h | h
      · simp only [y, if_pos (Nat.ne_of_lt h), if_neg (Nat.ne_of_lt h), mom_pipi_eq L h]
        have h1 := Nat.mod_lt (i / radix L.dims nu) (hL.pos nu hnu)
        generalize i / radix L.dims nu % L.dims nu = c at *
        by_cases hc : c < L.dims nu / 2
        · rw [if_pos (by omega), if_pos hc]; omega
        · rw [if_neg (by omega), if_neg hc]; omega
      · subst h; simp [y]
  refine ⟨fun mu hmu => ?_, ?_⟩
  · rw [hsite, coord_eq L hmu, digit_of_sum hy hmu, mom_pipi_eq L hmu]
    have h1 := Nat.mod_lt (i / radix L.dims mu) (hL.pos mu (lt_of_lt_of_le hmu hD.le))
    simp only [y, if_neg (Nat.ne_of_lt hmu)]
    generalize i / radix L.dims mu % L.dims mu = c at *
    split
    · exact ⟨1, by omega⟩
    · exact ⟨0, by omega⟩
  · rw [hsite]; exact sum_lt_radix hy

/-- C03: distinct indices have distinct storage positions, every shape. -/
theorem C03_pipi_site_injective {L : Latt} (hL : Valid L) {DIMS : ℕ} (hD : SliceDims L DIMS)
    {i j : ℕ} (hi : i < ∏ mu ∈ range DIMS, L.dims mu) (hj : j < ∏ mu ∈ range DIMS, L.dims mu)
    (h : get_site_pipiBZ L (mom_pipi L i DIMS) DIMS = get_site_pipiBZ L (mom_pipi L j DIMS) DIMS) :
    i = j := by
  have key : ∀ mu < DIMS, i / radix L.dims mu % L.dims mu = j / radix L.dims mu % L.dims mu := by
    intro mu hmu
    have h1 := (C03_pipi_site hL hD i).1 mu hmu
    have h2 := (C03_pipi_site hL hD j).1 mu hmu
    rw [h] at h1
    have h3 := dvd_sub h1 h2
    rw [mom_pipi_eq L hmu, mom_pipi_eq L hmu] at h3
    have hp := hL.pos mu (lt_of_lt_of_le hmu hD.le)
    have a := Nat.mod_lt (i / radix L.dims mu) hp
    have b := Nat.mod_lt (j / radix L.dims mu) hp
    generalize i / radix L.dims mu % L.dims mu = c at *
    generalize j / radix L.dims mu % L.dims mu = c' at *
    have : (L.dims mu : ℤ) ∣ (c' : ℤ) - c := by
      have e : (c' : ℤ) - c = ((coord L DIMS (get_site_pipiBZ L (mom_pipi L j DIMS) DIMS) mu : ℤ)
          - (c - ((L.dims mu / 2 : ℕ) : ℤ))) - ((coord L DIMS (get_site_pipiBZ L (mom_pipi L j DIMS) DIMS) mu : ℤ)
          - (c' - ((L.dims mu / 2 : ℕ) : ℤ))) := by omega
      rw [e]; exact h3
    have := Int.eq_zero_of_abs_lt_dvd this (by rw [abs_lt]; omega)
    omega
  rw [← Nat.mod_eq_of_lt (show i < radix L.dims DIMS from hi),
    ← Nat.mod_eq_of_lt (show j < radix L.dims DIMS from hj), ← digits_sum, ← digits_sum]
  exact sum_congr rfl fun mu hmu => by rw [key mu (mem_range.1 hmu)]

/-- A shape with one odd extent: 3 x 4 x 4 x 4. -/
def L3444 : Latt := ⟨4, fun mu => if mu = 0 then 3 else 4⟩

/-- C03 fails for odd extents: on 3 x 4 x 4 x 4 the momentum (1,0,0,0) is converted
to one whose second component is not congruent to 0, and the round trip does not
return the index. -/
theorem C03_odd_extent_fails : Valid L3444 ∧
    ¬ ((L3444.dims 1 : ℤ) ∣ TwoPI_mpipi_momconv L3444 1 4 1 - (coord L3444 4 1 1 : ℤ)) ∧
    get_site_pipiBZ L3444 (TwoPI_mpipi_momconv L3444 1 4) 4 ≠ 1 := by
  refine ⟨⟨by decide, ?_, by decide⟩, by decide, by decide⟩
  intro mu _; show 0 < (if mu = 0 then 3 else 4); split <;> omega

example : Valid L4468 ∧ SliceDims L4468 4 ∧ SliceDims L4468 3 ∧ EvenDims L4468 4 ∧
    TwoPI_mpipi_momconv L4468 3 4 0 = -1 := by
  refine ⟨valid_L4468, Or.inl rfl, Or.inr rfl, ?_, by decide⟩
  intro mu hmu
  show 2 ∣ (if mu = 2 then 6 else if mu = 3 then 8 else 4)
  split <;> [skip; split] <;> decide

/-! ## C04 -/

/-- C04: translation by a separation vector not below minus one extent. -/
theorem C04_translation_partial {L : Latt} (hL : Valid L) {DIMS : ℕ} (hD : SliceDims L DIMS)
    (sep : ℕ → ℤ) (k : ℕ) (hs : ∀ mu < DIMS, -(L.dims mu : ℤ) ≤ sep mu ∧ sep mu < 2 ^ 31) :
    compute_spacing L sep k DIMS < ∏ mu ∈ range DIMS, L.dims mu ∧
    ∀ mu < DIMS, (coord L DIMS (compute_spacing L sep k DIMS) mu : ℤ) =
      ((coord L DIMS k mu : ℤ) + sep mu) % L.dims mu := by
  let y : ℕ → ℕ := fun nu => if nu < DIMS then
    wrap64 ((coord L DIMS k nu : ℤ) + sep nu + L.dims nu) % L.dims nu else 0
  have hy : ∀ nu < DIMS, y nu < L.dims nu := by
    intro nu hnu
    simp only [y, if_pos hnu]
    exact Nat.mod_lt _ (hL.pos nu (lt_of_lt_of_le hnu hD.le))
  have hsite : compute_spacing L sep k DIMS = ∑ nu ∈ range DIMS, y nu * radix L.dims nu := by
    unfold compute_spacing
    rw [← gen_site_slice hL hD hy (by simp [y])]
    apply gen_site_congr (by have := hL.nd; omega)
    intro nu _
    simp only [y]
    split <;> simp
  refine ⟨by rw [hsite]; exact sum_lt_radix hy, fun mu hmu => ?_⟩
  rw [hsite, coord_eq L hmu, digit_of_sum hy hmu]
  simp only [y, if_pos hmu]
  have hmu' := lt_of_lt_of_le hmu hD.le
  have h1 := coord_lt L hL.pos DIMS k hmu'
  have h2 := hs mu hmu
  have h3 : L.dims mu < 2 ^ 31 :=
    lt_of_le_of_lt (Nat.le_of_dvd (hL.radix_pos L.ND le_rfl)
      (dvd_trans (Dvd.intro_left _ rfl) (dvd_radix L.dims hmu'))) hL.small
  obtain ⟨m, hm⟩ : ∃ m, coord L DIMS k mu = m := ⟨_, rfl⟩
  rw [hm] at h1 ⊢
  rw [Int.natCast_mod, wrap64_cast, Int.emod_eq_of_lt (a := (m : ℤ) + sep mu + L.dims mu) (by omega) (by omega), Int.add_emod_right]

/-- C04 fails below minus one extent: at extent 3 a separation of -4 from
coordinate 0 gives coordinate 0 instead of 2. -/
theorem C04_far_negative_fails : Valid L3444 ∧
    ∃ sep : ℕ → ℤ, (∀ mu, -4 ≤ sep mu ∧ sep mu ≤ 0) ∧
      (coord L3444 4 (compute_spacing L3444 sep 0 4) 0 : ℤ)
        ≠ ((coord L3444 4 0 0 : ℤ) + sep 0) % L3444.dims 0 := by
  refine ⟨C03_odd_extent_fails.1, fun mu => if mu = 0 then -4 else 0, ?_, by decide⟩
  intro mu
  show -4 ≤ (if mu = 0 then (-4 : ℤ) else 0) ∧ (if mu = 0 then (-4 : ℤ) else 0) ≤ 0
  split <;> omega

example : compute_spacing L2345 (fun mu => -(mu : ℤ)) 0 4 = 2 * 2 + 2 * 6 + 2 * 24 := by decide

/-! ## C05 -/

/-- C05: the displacement is a periodic image and the shortest one. -/
theorem C05_displacement {L : Latt} (hL : Valid L) {DIMS : ℕ} (hD : DIMS ≤ L.ND) (i : ℕ) {mu : ℕ}
    (hmu : mu < DIMS) :
    (L.dims mu : ℤ) ∣ get_vec_from_origin L i DIMS mu - (coord L DIMS i mu : ℤ) ∧
    2 * |get_vec_from_origin L i DIMS mu| ≤ L.dims mu ∧
    ∀ k : ℤ, |get_vec_from_origin L i DIMS mu| ≤ |(coord L DIMS i mu : ℤ) + k * L.dims mu| := by
  have h1 := coord_lt L hL.pos DIMS i (lt_of_lt_of_le hmu hD)
  unfold get_vec_from_origin
  simp only [if_pos hmu]
  generalize coord L DIMS i mu = c at *
  generalize L.dims mu = d at *
  have habs : 2 * |if (c : ℤ) > ((d / 2 : ℕ) : ℤ) then (c : ℤ) - d else c| ≤ d := by
    split
    · rw [abs_of_nonpos (by omega)]; omega
    · rw [abs_of_nonneg (by omega)]; omega
  refine ⟨?_, habs, fun k => ?_⟩
  · split
    · exact ⟨-1, by ring⟩
    · exact ⟨0, by ring⟩
  · have hk : k ≤ -2 ∨ k = -1 ∨ k = 0 ∨ 1 ≤ k := by omega
    have hd : (0 : ℤ) ≤ d := by positivity
    rcases hk with hk | rfl | rfl | hk
    · have : k * d ≤ (-2) * d := mul_le_mul_of_nonneg_right hk hd
      rw [abs_of_nonpos (show (c : ℤ) + k * d ≤ 0 by omega)]
      omega
    · rw [abs_of_nonpos (show (c : ℤ) + (-1) * d ≤ 0 by omega)]
      split
      · rw [abs_of_nonpos (by omega)]; omega
      · rw [abs_of_nonneg (by omega)]; omega
    · rw [abs_of_nonneg (show (0 : ℤ) ≤ (c : ℤ) + 0 * d by omega)]
      split
      · rw [abs_of_nonpos (by omega)]; omega
      · rw [abs_of_nonneg (by omega)]; omega
    · have : 1 * (d : ℤ) ≤ k * d := mul_le_mul_of_nonneg_right hk hd
      rw [abs_of_nonneg (show (0 : ℤ) ≤ (c : ℤ) + k * d by omega)]
      omega

theorem rsqLoop_eq (r : ℕ → ℤ) (n : ℕ) : rsqLoop r n = ∑ mu ∈ range n, r mu ^ 2 := by
  induction n with
  | zero => rfl
  | succ n ih => rw [rsqLoop, ih, sum_range_succ]; ring

/-- C05: the squared radius is the smallest squared distance over all periodic
images of the site. -/
theorem C05_rsq_minimal {L : Latt} (hL : Valid L) {DIMS : ℕ} (hD : DIMS ≤ L.ND) (i : ℕ) :
    (∃ k : ℕ → ℤ, compute_rsq L i DIMS =
      ∑ mu ∈ range DIMS, ((coord L DIMS i mu : ℤ) + k mu * L.dims mu) ^ 2) ∧
    ∀ k : ℕ → ℤ, compute_rsq L i DIMS ≤
      ∑ mu ∈ range DIMS, ((coord L DIMS i mu : ℤ) + k mu * L.dims mu) ^ 2 := by
  unfold compute_rsq
  rw [rsqLoop_eq]
  constructor
  · have h : ∀ mu : ℕ, ∃ k : ℤ, mu < DIMS →
        get_vec_from_origin L i DIMS mu = (coord L DIMS i mu : ℤ) + k * L.dims mu := by
      intro mu
      by_cases hmu : mu < DIMS
      · obtain ⟨k, hk⟩ := (C05_displacement hL hD i hmu).1
        exact ⟨k, fun _ => by rw [mul_comm] at hk; omega⟩
      · exact ⟨0, fun h => absurd h hmu⟩
    choose k hk using h
    exact ⟨k, sum_congr rfl fun mu hmu => by rw [hk mu (mem_range.1 hmu)]⟩
  · intro k
    exact sum_le_sum fun mu hmu =>
      sq_le_sq.2 ((C05_displacement hL hD i (mem_range.1 hmu)).2.2 (k mu))

example : compute_rsq L2345 119 4 = 1 ^ 2 + 1 ^ 2 + 1 ^ 2 + 1 ^ 2 := by decide

/-! ## C06 -/

/-- C06: the HiRep order is a permutation of the sites. -/
theorem C06_hirep_permutation {L : Latt} (hL : Valid L) :
    Set.BijOn (translate_to_GLU_geom L) (Set.Iio (volume L)) (Set.Iio (volume L)) := by
  have hr : ∀ i, InRange L (fun mu => (hirep_coord L i mu : ℤ)) := by
    intro i mu hmu
    exact ⟨by positivity, by show ((hirep_coord L i mu : ℕ) : ℤ) < _; exact_mod_cast hirep_coord_lt hL i hmu⟩
  have hmaps : Set.MapsTo (translate_to_GLU_geom L) (Set.Iio (volume L)) (Set.Iio (volume L)) :=
    fun i _ => gen_site_lt hL (hr i)
  have hinj : Set.InjOn (translate_to_GLU_geom L) (Set.Iio (volume L)) := by
    intro i hi j hj h
    refine hirep_inj hL hi hj fun mu hmu => ?_
    have h1 := coord_gen_site hL (hr i) hmu
    have h2 := coord_gen_site hL (hr j) hmu
    unfold translate_to_GLU_geom at h
    rw [h, h2] at h1
    exact_mod_cast h1.symm
  refine ⟨hmaps, hinj, ?_⟩
  exact ((Set.finite_Iio (volume L)).injOn_iff_bijOn_of_mapsTo hmaps).1 hinj |>.surjOn

/-- C06: the order itself: time is slowest, and of the spatial directions the last
one is fastest. -/
theorem C06_hirep_order {L : Latt} (h4 : L.ND = 4) (x : ℕ → ℕ)
    (hx : ∀ mu < 4, x mu < L.dims mu) :
    ∀ mu < 4, hirep_coord L
      (x 2 + L.dims 2 * (x 1 + L.dims 1 * (x 0 + L.dims 0 * x 3))) mu = x mu := by
  have key : ∀ j < 4, hirep_coord L
      (∑ k ∈ range 4, x (hirepDir L k) * radix (fun j => L.dims (hirepDir L j)) k) (hirepDir L j)
        = x (hirepDir L j) := by
    intro j hj
    rw [hirep_coord_eq (by omega)]
    exact digit_of_sum (d := fun j => L.dims (hirepDir L j)) (x := fun k => x (hirepDir L k))
      (n := 4) (fun j hj => hx _ (by have := (hirepDir_invol (L := L) (j := j) (by omega)).2; omega)) hj
  have hd : hirepDir L 0 = 2 ∧ hirepDir L 1 = 1 ∧ hirepDir L 2 = 0 ∧ hirepDir L 3 = 3 := by
    simp [hirepDir, h4]
  obtain ⟨d0, d1, d2, d3⟩ := hd
  have hsum : (∑ k ∈ range 4, x (hirepDir L k) * radix (fun j => L.dims (hirepDir L j)) k)
      = x 2 + L.dims 2 * (x 1 + L.dims 1 * (x 0 + L.dims 0 * x 3)) := by
    simp only [sum_range_succ, sum_range_zero, radix, prod_range_succ, prod_range_zero, d0, d1, d2, d3]
    ring
  rw [hsum] at key
  intro mu hmu
  have : mu = 0 ∨ mu = 1 ∨ mu = 2 ∨ mu = 3 := by omega
  rcases this with rfl | rfl | rfl | rfl
  · simpa [d2] using key 2 (by omega)
  · simpa [d1] using key 1 (by omega)
  · simpa [d0] using key 0 (by omega)
  · simpa [d3] using key 3 (by omega)

example : Valid L2345 ∧ translate_to_GLU_geom L2345 1 = 6 := ⟨valid_L2345, by decide⟩

end GLU.Geom
