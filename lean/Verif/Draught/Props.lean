import Verif.Draught.Lemmas

/-!
# Properties C07 and C08: the draughtboard

`radix L.dims DIR` is the product of the first `DIR` extents: the volume for
`DIR = ND` and the slice volume for `DIR = ND - 1`, the two lengths the code
passes to `init_cb` (`Update/KPHB.c:154`, `Gfix/Or.c:191,273`,
`Gfix/CGalloc.c:39`).
-/

namespace GLU.Draught

open GLU.Geom Finset

/-- C07: a successful initialisation has recorded every site in exactly one
colour list, exactly once, and the recorded lengths are the list lengths. -/
theorem C07_partition {L : Latt} (hL : Valid L) {DIR : ℕ} (hD : DIR ≤ L.ND) {nc : ℕ} {Ns : ℕ → ℕ}
    {sq : ℕ → List ℕ} (h : init_cb L (∏ mu ∈ range DIR, L.dims mu) DIR = .ok nc Ns sq) :
    (∀ i < ∏ mu ∈ range DIR, L.dims mu, ∃! c, c < nc ∧ i ∈ sq c) ∧
    (∀ c < nc, (sq c).Nodup ∧ sq c ≠ [] ∧ Ns c = (sq c).length ∧
      ∀ i ∈ sq c, i < ∏ mu ∈ range DIR, L.dims mu) := by
  obtain ⟨hnc, _, hN, hsq, hne⟩ := init_cb_ok hL hD h
  constructor
  · intro i hi
    refine ⟨get_midx L i DIR nc, ⟨Nat.mod_lt _ (by omega), ?_⟩, ?_⟩
    · rw [hsq, List.mem_filter, List.mem_range]
      exact ⟨hi, decide_eq_true rfl⟩
    · rintro c ⟨_, hc⟩
      rw [hsq] at hc
      have := (List.mem_filter.1 hc).2
      exact (of_decide_eq_true this).symm
  · intro c hc
    refine ⟨?_, ?_, hN c, ?_⟩
    · rw [hsq]; exact List.nodup_range.filter _
    · obtain ⟨i, hi, hic⟩ := hne c hc
      intro h0
      have : i ∈ sq c := by rw [hsq]; simpa [hic] using hi
      rw [h0] at this
      cases this
    · intro i hi
      rw [hsq] at hi
      exact List.mem_range.1 (List.mem_filter.1 hi).1

/-- C07: initialisation never writes outside its allocations, and it succeeds
exactly when there is more than one site. -/
theorem C07_success_iff {L : Latt} (hL : Valid L) {DIR : ℕ} (hD : DIR ≤ L.ND) :
    init_cb L (∏ mu ∈ range DIR, L.dims mu) DIR ≠ .outOfBounds ∧
    ((∃ nc Ns sq, init_cb L (∏ mu ∈ range DIR, L.dims mu) DIR = .ok nc Ns sq) ↔
      ∃ mu < DIR, 2 ≤ L.dims mu) := by
  obtain ⟨nc, hnc, h2, h3, hf, ho⟩ := init_cb_eq hL hD
  change _ → init_cb L (∏ mu ∈ range DIR, L.dims mu) DIR = _ at hf
  change _ → init_cb L (∏ mu ∈ range DIR, L.dims mu) DIR = _ at ho
  have zero_col : ∃ i < radix L.dims DIR, get_midx L i DIR nc = 0 := by
    obtain ⟨i, hi, hc⟩ := exists_site (L := L) (DIR := DIR) (fun _ => 0)
      (fun mu hmu => hL.pos mu (by omega))
    refine ⟨i, hi, ?_⟩
    rw [get_midx_eq, colSum_congr L hc, colSum, evenSum_eq, oddSum_eq]
    simp
  by_cases hbig : ∃ mu < DIR, 2 ≤ L.dims mu
  · obtain ⟨mu, hmu, hd⟩ := hbig
    have one_col : ∃ i < radix L.dims DIR, get_midx L i DIR nc = 1 := by
      obtain ⟨i, hi, hc⟩ := exists_site (L := L) (DIR := DIR) (Function.update (fun _ => 0) mu 1)
        (fun nu hnu => by
          by_cases e : nu = mu
          · subst e; rw [Function.update_self]; omega
          · rw [Function.update_of_ne e]; exact hL.pos nu (by omega))
      refine ⟨i, hi, ?_⟩
      rw [get_midx_eq, colSum_congr L hc, colSum]
      have e1 := evenSum_update L.dims (fun _ => 0) 1 hmu
      have e2 := oddSum_update L.dims (fun _ => 0) 1 hmu
      have z1 : evenSum L.dims (fun _ => 0) DIR = 0 := by rw [evenSum_eq]; simp
      have z2 : oddSum L.dims (fun _ => 0) DIR = 0 := by rw [oddSum_eq]; simp
      rw [z1] at e1; rw [z2] at e2
      by_cases hp : L.dims mu % 2 = 0
      · simp only [hp, if_true, zero_add, add_zero] at e1 e2
        rw [e1, e2]; rcases hnc with rfl | rfl <;> rfl
      · simp only [hp, if_false, zero_add, add_zero] at e1 e2
        rw [e1, e2]; rcases hnc with rfl | rfl <;> rfl
    have hall : ∀ c < nc, ∃ i < radix L.dims DIR, get_midx L i DIR nc = c := by
      intro c hc
      have : c = 0 ∨ c = 1 ∨ (c = 2 ∧ nc = 3) := by clear * - hc hnc; omega
      rcases this with rfl | rfl | ⟨rfl, rfl⟩
      · exact zero_col
      · exact one_col
      · exact h3 rfl
    rw [ho hall]
    exact ⟨by simp, ⟨fun _ => ⟨mu, hmu, hd⟩, fun _ => ⟨_, _, _, rfl⟩⟩⟩
  · have hone : ∀ mu < DIR, L.dims mu = 1 := by
      intro mu hmu
      have := hL.pos mu (by omega)
      by_contra hh
      exact hbig ⟨mu, hmu, by omega⟩
    have hfail : ∃ c < nc, ∀ i < radix L.dims DIR, get_midx L i DIR nc ≠ c := by
      refine ⟨1, by omega, fun i hi => ?_⟩
      have : ∀ mu < DIR, coord L DIR i mu = (fun _ => 0) mu := by
        intro mu hmu
        have h1 := coord_lt L hL.pos DIR i (mu := mu) (by omega)
        rw [hone mu hmu] at h1
        show _ = 0
        omega
      rw [get_midx_eq, colSum_congr L this, colSum, evenSum_eq, oddSum_eq]
      simp
    rw [hf hfail]
    refine ⟨by simp, ⟨?_, fun h => absurd h hbig⟩⟩
    rintro ⟨_, _, _, h⟩
    cases h

/-- One step forward changes the colour, unless it wraps around an odd extent
congruent to 1 modulo 3. -/
theorem midx_neighbor {L : Latt} (hL : Valid L) {DIR : ℕ} (hD : DIR ≤ L.ND) {nc : ℕ}
    (hnc : nc = 2 ∨ nc = 3) (h2 : nc = 2 → ∀ i, colSum L DIR (coord L DIR i) < 2) {mu : ℕ}
    (hmu : mu < DIR) (i : ℕ) :
    get_midx L (neighbor L i mu) DIR nc = get_midx L i DIR nc ↔
      (L.dims mu % 2 = 1 ∧ L.dims mu % 3 = 1 ∧ coord L DIR i mu + 1 = L.dims mu) := by
  have hmu' : mu < L.ND := by omega
  have hcc : ∀ j, ∀ nu < DIR, coord L L.ND j nu = coord L DIR j nu := fun j nu hnu => by
    rw [coord_eq L hnu, coord_eq L (show nu < L.ND by omega)]
  have hlt := coord_lt L hL.pos DIR i hmu'
  have hco : ∀ nu < DIR, coord L DIR (neighbor L i mu) nu =
      Function.update (coord L DIR i) mu ((coord L DIR i mu + 1) % L.dims mu) nu := by
    intro nu hnu
    have := coord_neighbor hL i hmu' (show nu < L.ND by omega)
    rw [hcc _ nu hnu, hcc _ nu hnu, hcc _ mu hmu] at this
    by_cases e : nu = mu
    · subst e
      rw [if_pos rfl] at this
      rw [Function.update_self]
      exact_mod_cast this
    · rw [if_neg e] at this
      rw [Function.update_of_ne e]
      exact_mod_cast this
  rw [get_midx_eq, get_midx_eq, colSum_congr L hco]
  have e1 := evenSum_update L.dims (coord L DIR i) ((coord L DIR i mu + 1) % L.dims mu) hmu
  have e2 := oddSum_update L.dims (coord L DIR i) ((coord L DIR i mu + 1) % L.dims mu) hmu
  have h2' : nc = 2 → oddSum L.dims (coord L DIR i) DIR < 2 := fun h => by
    have := h2 h i; unfold colSum at this; omega
  have hge : coord L DIR i mu ≤ oddSum L.dims (coord L DIR i) DIR ∨ L.dims mu % 2 = 0 := by
    by_cases hp : L.dims mu % 2 = 0
    · exact Or.inr hp
    · left
      simp only [hp, if_false] at e2
      have e3 := oddSum_update L.dims (coord L DIR i) 0 hmu
      simp only [hp, if_false] at e3
      omega
  -- for two colours every odd extent is 1
  have hone : nc = 2 → L.dims mu % 2 = 1 → L.dims mu = 1 := by
    intro h hodd
    by_contra hne
    have hd : 3 ≤ L.dims mu := by have := hL.pos mu hmu'; omega
    obtain ⟨j, hj, hc⟩ := exists_site (L := L) (DIR := DIR) (Function.update (fun _ => 0) mu 2)
      (fun nu hnu => by
        by_cases e : nu = mu
        · subst e; rw [Function.update_self]; omega
        · rw [Function.update_of_ne e]; exact hL.pos nu (by omega))
    have hj2 := h2 h j
    rw [colSum_congr L hc, colSum] at hj2
    have f2 := oddSum_update L.dims (fun _ => 0) 2 hmu
    have z2 : oddSum L.dims (fun _ => 0) DIR = 0 := by rw [oddSum_eq]; simp
    rw [z2, if_neg (by omega), if_neg (by omega)] at f2
    omega
  unfold colSum
  generalize evenSum L.dims (Function.update (coord L DIR i) mu ((coord L DIR i mu + 1) % L.dims mu)) DIR = E' at *
  generalize oddSum L.dims (Function.update (coord L DIR i) mu ((coord L DIR i mu + 1) % L.dims mu)) DIR = O' at *
  generalize evenSum L.dims (coord L DIR i) DIR = E at *
  generalize oddSum L.dims (coord L DIR i) DIR = O at *
  have hw : (coord L DIR i mu + 1) % L.dims mu =
      if coord L DIR i mu + 1 = L.dims mu then 0 else coord L DIR i mu + 1 := by
    split
    · next h => rw [h, Nat.mod_self]
    · exact Nat.mod_eq_of_lt (by omega)
  rw [hw] at e1 e2
  generalize coord L DIR i mu = x at *
  generalize L.dims mu = d at *
  by_cases hp : d % 2 = 0
  · simp only [hp, if_true] at e1 e2
    rcases hnc with rfl | rfl <;> split at e1 <;> omega
  · simp only [hp, if_false] at e1 e2
    rcases hnc with rfl | rfl
    · have := hone rfl (by omega)
      subst this
      split at e2 <;> omega
    · split at e2 <;> omega

/-- A neighbour in one of the first `DIR` directions stays among the sites of the
sub-lattice. -/
theorem neighbor_lt_radix {L : Latt} (hL : Valid L) {DIR : ℕ} (hD : DIR ≤ L.ND) {i mu : ℕ}
    (hi : i < radix L.dims DIR) (hmu : mu < DIR) : neighbor L i mu < radix L.dims DIR := by
  have hv := neighbor_lt hL i (mu := mu) (by omega)
  rw [volume_eq L hL.nd] at hv
  have hz : ∀ nu, DIR ≤ nu → nu < L.ND → coord L L.ND (neighbor L i mu) nu = 0 := by
    intro nu h1 h2
    have := coord_neighbor hL i (mu := mu) (nu := nu) (by omega) h2
    rw [if_neg (by omega)] at this
    have h3 : coord L L.ND i nu = 0 := by
      rw [coord_eq L h2]
      have : i < radix L.dims nu := lt_of_lt_of_le hi
        (radix_le (n := nu) (fun k hk => hL.pos k (by omega)) h1)
      rw [Nat.div_eq_of_lt this, Nat.zero_mod]
    rw [h3] at this
    exact_mod_cast this
  have e := digits_sum L.dims (neighbor L i mu) L.ND
  rw [Nat.mod_eq_of_lt hv] at e
  rw [← e, ← sum_subset (range_subset_range.2 hD) (by
    intro nu h1 h2
    have h1' := mem_range.1 h1
    have := hz nu (by simpa using h2) h1'
    rw [coord_eq L h1'] at this
    rw [this, Nat.zero_mul])]
  exact sum_lt_radix fun nu hnu => Nat.mod_lt _ (hL.pos nu (by omega))

/-- C08, exact condition: after a successful initialisation no site shares its
colour with its forward neighbour in an included direction if and only if no
included odd extent is congruent to 1 modulo 3.  (Backward neighbours are covered
by exchanging the two sites.) -/
theorem C08_neighbours_differ_iff {L : Latt} (hL : Valid L) {DIR : ℕ} (hD : DIR ≤ L.ND) {nc : ℕ}
    {Ns : ℕ → ℕ} {sq : ℕ → List ℕ}
    (h : init_cb L (∏ mu ∈ range DIR, L.dims mu) DIR = .ok nc Ns sq) :
    (∀ c < nc, ∀ i ∈ sq c, ∀ mu < DIR, neighbor L i mu ∉ sq c) ↔
      ∀ mu < DIR, L.dims mu % 2 = 1 → L.dims mu % 3 ≠ 1 := by
  obtain ⟨hnc, h2, _, hsq, _⟩ := init_cb_ok hL hD h
  have hmem : ∀ i c, i ∈ sq c ↔ i < radix L.dims DIR ∧ get_midx L i DIR nc = c := by
    intro i c; rw [hsq, List.mem_filter, List.mem_range, decide_eq_true_iff]
  constructor
  · intro hall mu hmu hodd h3
    have hpos := hL.pos mu (by omega)
    obtain ⟨i, hi, hc⟩ := exists_site (L := L) (DIR := DIR)
      (Function.update (fun _ => 0) mu (L.dims mu - 1))
      (fun nu hnu => by
        by_cases e : nu = mu
        · subst e; rw [Function.update_self]; omega
        · rw [Function.update_of_ne e]; exact hL.pos nu (by omega))
    have hx := hc mu hmu
    rw [Function.update_self] at hx
    have e := (midx_neighbor hL hD hnc h2 hmu i).2 ⟨hodd, h3, by omega⟩
    exact hall (get_midx L i DIR nc) (Nat.mod_lt _ (by omega)) i ((hmem _ _).2 ⟨hi, rfl⟩) mu hmu
      ((hmem _ _).2 ⟨neighbor_lt_radix hL hD hi hmu, e⟩)
  · intro hall c _ i hi mu hmu hn
    obtain ⟨_, hic⟩ := (hmem _ _).1 hi
    obtain ⟨_, hnc'⟩ := (hmem _ _).1 hn
    obtain ⟨h1, h3, _⟩ := (midx_neighbor hL hD hnc h2 hmu i).1 (by rw [hic, hnc'])
    exact hall mu hmu h1 h3

/-- C08 on the accepted shapes without an extent that is odd and 1 modulo 3: no
site shares its colour with a forward or backward neighbour. -/
theorem C08_neighbours_differ_partial {L : Latt} (hL : Valid L) {nc : ℕ} {Ns : ℕ → ℕ}
    {sq : ℕ → List ℕ} (hd : ∀ mu < L.ND, L.dims mu % 2 = 1 → L.dims mu % 3 ≠ 1)
    (h : init_cb L (volume L) L.ND = .ok nc Ns sq) :
    ∀ c < nc, ∀ i ∈ sq c, ∀ mu < L.ND, neighbor L i mu ∉ sq c ∧ back L i mu ∉ sq c := by
  rw [volume_eq L hL.nd] at h
  intro c hc i hi mu hmu
  have hall := (C08_neighbours_differ_iff hL le_rfl h).2 hd
  refine ⟨hall c hc i hi mu hmu, fun hb => hall c hc _ hb mu hmu ?_⟩
  have hi' := ((C07_partition hL le_rfl h).2 c hc).2.2.2 i hi
  change i < radix L.dims L.ND at hi'
  rw [← volume_eq L hL.nd] at hi'
  rwa [(C02_inverse hL hi' hmu).2]

/-- A shape with an extent 7. -/
def L7222 : Latt := ⟨4, fun mu => if mu = 0 then 7 else 2⟩

theorem valid_L7222 : Valid L7222 := by
  refine ⟨by decide, ?_, by decide⟩
  intro mu _; show 0 < (if mu = 0 then 7 else 2); split <;> omega

/-- C08 fails in general: on 7 x 2 x 2 x 2 the initialisation succeeds, and some
site has its neighbour in its own colour list. -/
theorem C08_extent_seven_fails : Valid L7222 ∧
    ∃ nc Ns sq, init_cb L7222 (volume L7222) L7222.ND = .ok nc Ns sq ∧
      ∃ c < nc, ∃ i ∈ sq c, ∃ mu < L7222.ND, neighbor L7222 i mu ∈ sq c := by
  obtain ⟨nc, Ns, sq, h⟩ := (C07_success_iff valid_L7222 (le_refl L7222.ND)).2.2 ⟨0, by decide, by decide⟩
  refine ⟨valid_L7222, nc, Ns, sq, by rw [volume_eq _ valid_L7222.nd]; exact h, ?_⟩
  have hn := mt (C08_neighbours_differ_iff valid_L7222 le_rfl h).1 (by
    push Not
    exact ⟨0, by decide, by decide, by decide⟩)
  push Not at hn
  exact hn

example : ∃ nc Ns sq, init_cb L2345 (volume L2345) 4 = .ok nc Ns sq := by
  rw [volume_eq _ valid_L2345.nd]
  exact (C07_success_iff valid_L2345 (le_refl L2345.ND)).2.2 ⟨0, by decide, by decide⟩

example : ∀ mu < L2345.ND, L2345.dims mu % 2 = 1 → L2345.dims mu % 3 ≠ 1 := by decide

end GLU.Draught
