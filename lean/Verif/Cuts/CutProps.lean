import Verif.Cuts.CutModel
import Verif.Geom.Props
import Mathlib.Data.List.Sort

/-!
# The momentum list (C59)
-/

namespace GLU.Cuts
open GLU.Geom Finset

theorem acc_eq (f : ℕ → ℝ) (n : ℕ) : acc f n = ∑ i ∈ range n, f i := by
  induction n with
  | zero => rfl
  | succ n ih => rw [acc, ih, sum_range_succ]

theorem loopSize_eq (d : ℕ → ℕ) (n : ℕ) : loopSize d n = ∏ i ∈ range n, d i := by
  induction n with
  | zero => rfl
  | succ n ih => rw [loopSize, ih, prod_range_succ]

/-! ### The list -/

/-- `n` is a momentum of the first Brillouin zone, from `-L/2` on. -/
def InZone (L : Latt) (DIMS : ℕ) (n : ℕ → ℤ) : Prop :=
  ∀ mu < DIMS, -((L.dims mu / 2 : ℕ) : ℤ) ≤ n mu ∧ n mu < L.dims mu - ((L.dims mu / 2 : ℕ) : ℤ)

/-- The cut looks only at the directions below `DIMS`. -/
def Local (DIMS : ℕ) (keep : (ℕ → ℤ) → Bool) : Prop :=
  ∀ n n' : ℕ → ℤ, (∀ mu < DIMS, n mu = n' mu) → keep n = keep n'

theorem mom_inZone {L : Latt} (hL : Valid L) {DIMS : ℕ} (hD : SliceDims L DIMS) (i : ℕ) :
    InZone L DIMS (mom_pipi L i DIMS) := by
  intro mu hmu
  rw [mom_pipi_eq L hmu]
  have := Nat.mod_lt (i / radix L.dims mu) (hL.pos mu (lt_of_lt_of_le hmu hD.le))
  omega

/-- Every momentum of the zone belongs to an index. -/
theorem zone_index {L : Latt} {DIMS : ℕ} {n : ℕ → ℤ} (hn : InZone L DIMS n) :
    ∃ i < loopSize L.dims DIMS, (∀ mu < DIMS, mom_pipi L i DIMS mu = n mu) ∧
      i = ∑ mu ∈ range DIMS, (n mu + ((L.dims mu / 2 : ℕ) : ℤ)).toNat * radix L.dims mu := by
  have hlt : ∀ mu < DIMS, (n mu + ((L.dims mu / 2 : ℕ) : ℤ)).toNat < L.dims mu := by
    intro mu hmu
    have := hn mu hmu
    omega
  refine ⟨_, ?_, ?_, rfl⟩
  · rw [loopSize_eq]; exact sum_lt_radix hlt
  · intro mu hmu
    rw [mom_pipi_eq L hmu, digit_of_sum hlt hmu]
    have := hn mu hmu
    omega

theorem index_of_mom {L : Latt} {DIMS i : ℕ} (hi : i < loopSize L.dims DIMS) :
    i = ∑ mu ∈ range DIMS, (mom_pipi L i DIMS mu + ((L.dims mu / 2 : ℕ) : ℤ)).toNat * radix L.dims mu := by
  conv_lhs => rw [← Nat.mod_eq_of_lt (show i < radix L.dims DIMS by rw [loopSize_eq] at hi; exact hi), ← digits_sum]
  refine sum_congr rfl fun mu hmu => ?_
  rw [mom_pipi_eq L (mem_range.1 hmu)]
  congr 1
  omega

/-- **C59.** The list holds exactly the momenta of the zone that pass the cut, each once, and each with the index at
which the Fourier transform stores it: the coordinates of the index are the momentum modulo the extents. For every
lattice shape, for all directions or all but the last, and for every cut. -/
theorem C59_list {L : Latt} (hL : Valid L) {DIMS : ℕ} (hD : SliceDims L DIMS) (keep : (ℕ → ℤ) → Bool)
    (hk : Local DIMS keep) :
    (∀ n, InZone L DIMS n → ((∃ v ∈ get_mom_veclist L keep DIMS, ∀ mu < DIMS, v.MOM mu = n mu) ↔ keep n = true)) ∧
    (∀ v ∈ get_mom_veclist L keep DIMS, InZone L DIMS v.MOM ∧ keep v.MOM = true ∧
      v.idx < ∏ mu ∈ range DIMS, L.dims mu ∧
      ∀ mu < DIMS, (L.dims mu : ℤ) ∣ (coord L DIMS v.idx mu : ℤ) - v.MOM mu) ∧
    (get_mom_veclist L keep DIMS).Pairwise (fun v w => v.idx ≠ w.idx ∧ ∃ mu < DIMS, v.MOM mu ≠ w.MOM mu) := by
  refine ⟨?_, ?_, ?_⟩
  · intro n hn
    constructor
    · rintro ⟨v, hv, hmu⟩
      obtain ⟨i, hi, rfl⟩ := List.mem_map.1 hv
      have := (List.mem_filter.1 hi).2
      rw [← hk _ _ hmu]
      exact this
    · intro h
      obtain ⟨i, hi, hmom, -⟩ := zone_index hn
      refine ⟨_, List.mem_map.2 ⟨i, List.mem_filter.2 ⟨List.mem_range.2 hi, ?_⟩, rfl⟩, hmom⟩
      rw [hk _ _ hmom]
      exact h
  · intro v hv
    obtain ⟨i, hi, rfl⟩ := List.mem_map.1 hv
    have := C03_pipi_site hL hD i
    exact ⟨mom_inZone hL hD i, (List.mem_filter.1 hi).2, this.2, this.1⟩
  · unfold get_mom_veclist
    rw [List.pairwise_map]
    have hp : (keptIdx keep (fun i => mom_pipi L i DIMS) (loopSize L.dims DIMS)).Pairwise (· ≠ ·) :=
      (List.nodup_range.filter _)
    refine List.Pairwise.imp_of_mem ?_ hp
    intro a b ha hb hab
    have ha' := List.mem_range.1 (List.mem_filter.1 ha).1
    have hb' := List.mem_range.1 (List.mem_filter.1 hb).1
    dsimp only
    constructor
    · intro h
      rw [loopSize_eq] at ha' hb'
      exact hab (C03_pipi_site_injective hL hD ha' hb' h)
    · by_contra hcon
      push Not at hcon
      apply hab
      rw [index_of_mom ha', index_of_mom hb']
      exact sum_congr rfl fun mu hmu => by rw [hcon mu (mem_range.1 hmu)]

/-- The index of the reflected momentum. -/
theorem reflect_index {L : Latt} (hL : Valid L) {DIMS : ℕ} (hD : SliceDims L DIMS) {i : ℕ}
    (hi : i < loopSize L.dims DIMS) (hb : ∀ mu < DIMS, 2 * mom_pipi L i DIMS mu ≠ -(L.dims mu : ℤ)) :
    ∃ j < loopSize L.dims DIMS, (∀ mu < DIMS, mom_pipi L j DIMS mu = -mom_pipi L i DIMS mu) ∧
      i + j = ∑ mu ∈ range DIMS, 2 * (L.dims mu / 2) * radix L.dims mu := by
  have hz : InZone L DIMS (fun mu => -mom_pipi L i DIMS mu) := by
    intro mu hmu
    have := mom_inZone hL hD i mu hmu
    have := hb mu hmu
    dsimp only
    omega
  obtain ⟨j, hj, hmom, hje⟩ := zone_index hz
  refine ⟨j, hj, hmom, ?_⟩
  rw [index_of_mom hi, hje, ← sum_add_distrib]
  refine sum_congr rfl fun mu hmu => ?_
  rw [← Nat.add_mul]
  congr 1
  have h1 := mom_inZone hL hD i mu (mem_range.1 hmu)
  have h2 := hz mu (mem_range.1 hmu)
  dsimp only at h2
  omega

/-- **C59.** If the cut treats a momentum and its reflection alike and keeps no momentum on the boundary of the zone,
the list read backwards is the list of the reflected momenta. -/
theorem C59_reflect {L : Latt} (hL : Valid L) {DIMS : ℕ} (hD : SliceDims L DIMS) (keep : (ℕ → ℤ) → Bool)
    (hk : Local DIMS keep) (heven : ∀ n, keep (fun mu => -n mu) = keep n)
    (hb : ∀ n, keep n = true → InZone L DIMS n → ∀ mu < DIMS, 2 * n mu ≠ -(L.dims mu : ℤ)) :
    ∀ k (h : k < (get_mom_veclist L keep DIMS).length), ∀ mu < DIMS,
      ((get_mom_veclist L keep DIMS)[(get_mom_veclist L keep DIMS).length - 1 - k]'(by omega)).MOM mu =
        -((get_mom_veclist L keep DIMS)[k]).MOM mu := by
  set S := keptIdx keep (fun i => mom_pipi L i DIMS) (loopSize L.dims DIMS) with hS
  set C := ∑ mu ∈ range DIMS, 2 * (L.dims mu / 2) * radix L.dims mu with hC
  have hmemS : ∀ i, i ∈ S ↔ i < loopSize L.dims DIMS ∧ keep (mom_pipi L i DIMS) = true := by
    intro i
    rw [hS, keptIdx, List.mem_filter, List.mem_range]
  have hrefl : ∀ i ∈ S, ∃ j ∈ S, i + j = C ∧ ∀ mu < DIMS, mom_pipi L j DIMS mu = -mom_pipi L i DIMS mu := by
    intro i hi
    obtain ⟨h1, h2⟩ := (hmemS i).1 hi
    obtain ⟨j, hj, hm, hs⟩ := reflect_index hL hD h1 (hb _ h2 (mom_inZone hL hD i))
    refine ⟨j, (hmemS j).2 ⟨hj, ?_⟩, hs, hm⟩
    rw [hk _ (fun mu => -mom_pipi L i DIMS mu) hm, heven]
    exact h2
  have hle : ∀ i ∈ S, i ≤ C := fun i hi => by obtain ⟨j, -, h, -⟩ := hrefl i hi; omega
  have hsort : S.Pairwise (· < ·) := (List.pairwise_lt_range).filter _
  have hrev : ((S.map fun i => C - i).reverse).Pairwise (· < ·) := by
    rw [List.pairwise_reverse, List.pairwise_map]
    refine hsort.imp_of_mem ?_
    intro a b ha hb' hab
    have := hle b hb'
    omega
  have hperm : ((S.map fun i => C - i).reverse).Perm S := by
    rw [List.perm_ext_iff_of_nodup (hrev.imp fun h => ne_of_lt h) (hsort.imp fun h => ne_of_lt h)]
    intro a
    rw [List.mem_reverse, List.mem_map]
    constructor
    · rintro ⟨i, hi, rfl⟩
      obtain ⟨j, hj, h, -⟩ := hrefl i hi
      rw [show C - i = j by omega]
      exact hj
    · intro ha
      obtain ⟨j, hj, h, -⟩ := hrefl a ha
      exact ⟨j, hj, by omega⟩
  have heq : (S.map fun i => C - i).reverse = S :=
    List.Perm.eq_of_pairwise (fun a b _ _ h1 h2 => absurd h1 (by omega)) hrev hsort hperm
  intro k h mu hmu
  have hlen : (get_mom_veclist L keep DIMS).length = S.length := by rw [get_mom_veclist, List.length_map]
  have hk' : k < S.length := hlen ▸ h
  have hidx : ∀ m (hm : m < S.length), S[S.length - 1 - m]'(by omega) + S[m] = C := by
    intro m hm
    have h1 : ((S.map fun i => C - i).reverse)[m]'(by simpa using hm) = S[m] := by simp only [heq]
    rw [List.getElem_reverse, List.getElem_map] at h1
    simp only [List.length_map] at h1
    have := hle (S[S.length - 1 - m]'(by omega)) (List.getElem_mem _)
    omega
  have hm1 : ((get_mom_veclist L keep DIMS)[k]).MOM = mom_pipi L (S[k]) DIMS := by
    simp only [get_mom_veclist, List.getElem_map]
    rfl
  have hm2 : ((get_mom_veclist L keep DIMS)[(get_mom_veclist L keep DIMS).length - 1 - k]'(by omega)).MOM
      = mom_pipi L (S[S.length - 1 - k]'(by omega)) DIMS := by
    simp only [get_mom_veclist, List.getElem_map, List.length_map]
    rfl
  rw [hm1, hm2]
  obtain ⟨j, hj, hs, hm⟩ := hrefl (S[k]) (List.getElem_mem _)
  rw [show S[S.length - 1 - k]'(by omega) = j by have := hidx k hk'; omega]
  exact hm mu hmu

/-- **C59.** If a momentum on the boundary of an even zone is kept, the list read backwards is not the list of the
reflected momenta. -/
theorem C59_boundary {L : Latt} (hL : Valid L) {DIMS : ℕ} (hD : SliceDims L DIMS) (keep : (ℕ → ℤ) → Bool)
    (k : ℕ) (h : k < (get_mom_veclist L keep DIMS).length) (mu : ℕ) (hmu : mu < DIMS)
    (hb : 2 * ((get_mom_veclist L keep DIMS)[k]).MOM mu = -(L.dims mu : ℤ)) :
    ((get_mom_veclist L keep DIMS)[(get_mom_veclist L keep DIMS).length - 1 - k]'(by omega)).MOM mu ≠
        -((get_mom_veclist L keep DIMS)[k]).MOM mu := by
  intro hcon
  have hz : ∀ v ∈ get_mom_veclist L keep DIMS, InZone L DIMS v.MOM := by
    intro v hv
    obtain ⟨i, -, rfl⟩ := List.mem_map.1 hv
    exact mom_inZone hL hD i
  have h1 := hz _ (List.getElem_mem (l := get_mom_veclist L keep DIMS)
    (n := (get_mom_veclist L keep DIMS).length - 1 - k) (by omega)) mu hmu
  rw [hcon] at h1
  omega

/-- **C59.** The list in configuration space holds the sites that pass the cut in increasing order, each with its
displacement from the origin. -/
theorem C59_config (L : Latt) (keep : (ℕ → ℤ) → Bool) (DIMS : ℕ) :
    (∀ v ∈ get_veclist L keep DIMS, v.MOM = get_vec_from_origin L v.idx DIMS) ∧
    (∀ i, i ∈ (get_veclist L keep DIMS).map Vec.idx ↔
      i < ∏ mu ∈ range DIMS, L.dims mu ∧ keep (get_vec_from_origin L i DIMS) = true) ∧
    ((get_veclist L keep DIMS).map Vec.idx).Pairwise (· < ·) := by
  have hmap : (get_veclist L keep DIMS).map Vec.idx =
      keptIdx keep (fun i => get_vec_from_origin L i DIMS) (loopSize L.dims DIMS) := by
    rw [get_veclist, List.map_map]
    exact List.map_id _
  refine ⟨?_, ?_, ?_⟩
  · intro v hv
    obtain ⟨i, -, rfl⟩ := List.mem_map.1 hv
    rfl
  · intro i
    rw [hmap, keptIdx, List.mem_filter, List.mem_range, loopSize_eq]
  · rw [hmap]
    exact (List.pairwise_lt_range).filter _

end GLU.Cuts
