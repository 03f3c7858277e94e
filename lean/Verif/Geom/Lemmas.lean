import Verif.Geom.Spec
import Mathlib.Tactic.Ring
import Mathlib.Tactic.Linarith
import Mathlib.Tactic.Positivity
import Mathlib.Algebra.Order.BigOperators.Ring.Finset
import Mathlib.Data.Nat.Cast.Order.Ring
import Mathlib.Algebra.BigOperators.Ring.Finset

namespace GLU.Geom

open Finset

/-! ## `size_t` conversion -/

theorem wrap64_lt (z : ℤ) : wrap64 z < 2 ^ 64 := by
  unfold wrap64
  have h1 := Int.emod_lt_of_pos z (b := 2 ^ 64) (by norm_num)
  have h2 := Int.emod_nonneg z (b := 2 ^ 64) (by norm_num)
  omega

theorem wrap64_cast (z : ℤ) : ((wrap64 z : ℕ) : ℤ) = z % 2 ^ 64 := by
  unfold wrap64
  exact Int.toNat_of_nonneg (Int.emod_nonneg z (by norm_num))

theorem wrap64_of_range {z : ℤ} (h0 : 0 ≤ z) (h1 : z < 2 ^ 64) : wrap64 z = z.toNat := by
  unfold wrap64
  rw [Int.emod_eq_of_lt h0 h1]

theorem wrap64_congr {a b : ℤ} (h : a % 2 ^ 64 = b % 2 ^ 64) : wrap64 a = wrap64 b := by
  unfold wrap64; rw [h]

/-! ## Mixed radix arithmetic -/

@[simp] theorem radix_zero (d : ℕ → ℕ) : radix d 0 = 1 := by simp [radix]

theorem radix_succ (d : ℕ → ℕ) (k : ℕ) : radix d (k + 1) = radix d k * d k := by
  simp [radix, prod_range_succ]

theorem radix_pos {d : ℕ → ℕ} {n : ℕ} (h : ∀ mu < n, 0 < d mu) : ∀ k ≤ n, 0 < radix d k := by
  intro k hk
  exact prod_pos fun i hi => h i (lt_of_lt_of_le (mem_range.1 hi) hk)

theorem radix_le {d : ℕ → ℕ} {n : ℕ} (h : ∀ mu < n, 0 < d mu) {k : ℕ} (hk : k ≤ n) :
    radix d k ≤ radix d n := by
  induction n, hk using Nat.le_induction with
  | base => exact le_rfl
  | succ n hkn ih =>
    rw [radix_succ]
    exact le_trans (ih fun mu hmu => h mu (by omega))
      (Nat.le_mul_of_pos_right _ (h n (by omega)))

theorem dvd_radix (d : ℕ → ℕ) {j k : ℕ} (h : j < k) : radix d j * d j ∣ radix d k := by
  rw [← radix_succ]
  induction k, h using Nat.le_induction with
  | base => exact dvd_rfl
  | succ n hn ih => rw [radix_succ d n]; exact Dvd.dvd.mul_right ih _

/-- Digits recombine to the number. -/
theorem digits_sum (d : ℕ → ℕ) (i k : ℕ) :
    ∑ j ∈ range k, (i / radix d j % d j) * radix d j = i % radix d k := by
  induction k with
  | zero => simp [Nat.mod_one]
  | succ k ih => rw [sum_range_succ, ih, radix_succ, Nat.mod_mul, Nat.mul_comm (radix d k)]

/-- A digit vector is below the radix. -/
theorem sum_lt_radix {d : ℕ → ℕ} {x : ℕ → ℕ} {n : ℕ} (h : ∀ j < n, x j < d j) :
    ∑ j ∈ range n, x j * radix d j < radix d n := by
  induction n with
  | zero => simp
  | succ n ih =>
    rw [sum_range_succ, radix_succ]
    have := ih fun j hj => h j (by omega)
    have h2 : x n + 1 ≤ d n := h n (by omega)
    calc _ < radix d n + x n * radix d n := by omega
      _ = (x n + 1) * radix d n := by ring
      _ ≤ d n * radix d n := Nat.mul_le_mul_right _ h2
      _ = _ := Nat.mul_comm _ _

/-- The digits of a digit vector are the vector. -/
theorem digit_of_sum {d : ℕ → ℕ} {x : ℕ → ℕ} {n : ℕ} (h : ∀ j < n, x j < d j) {j : ℕ}
    (hj : j < n) : (∑ k ∈ range n, x k * radix d k) / radix d j % d j = x j := by
  induction n with
  | zero => omega
  | succ n ih =>
    have hx : ∀ j < n, x j < d j := fun j hj => h j (by omega)
    have hpos : 0 < radix d j :=
      radix_pos (n := n + 1) (fun mu hmu => by have := h mu hmu; omega) j (by omega)
    rw [sum_range_succ]
    rcases Nat.lt_succ_iff_lt_or_eq.1 hj with hj' | rfl
    · obtain ⟨c, hc⟩ := dvd_radix d hj'
      have : x n * radix d n = radix d j * (d j * (c * x n)) := by rw [hc]; ring
      rw [this, Nat.add_mul_div_left _ _ hpos, Nat.add_mul_mod_self_left]
      exact ih hx hj'
    · have hlt := sum_lt_radix hx
      rw [Nat.add_mul_div_right _ _ hpos, Nat.div_eq_of_lt hlt, Nat.zero_add,
        Nat.mod_eq_of_lt (h _ (by omega))]

theorem sub_mod_div (i s : ℕ) : (i - i % s) / s = i / s := by
  rcases Nat.eq_zero_or_pos s with rfl | hs
  · simp
  · have := Nat.div_add_mod i s
    have h : i - i % s = s * (i / s) := by omega
    rw [h, Nat.mul_div_cancel_left _ hs]

/-! ## The code's loops -/

theorem genSiteLoop_eq (dims : ℕ → ℕ) (x : ℕ → ℤ) (k : ℕ) (z : ℤ) :
    genSiteLoop dims x k (wrap64 z) =
      wrap64 (z * (radix dims k : ℤ) + ∑ mu ∈ range k, x mu * (radix dims mu : ℤ)) := by
  induction k generalizing z with
  | zero => simp [genSiteLoop]
  | succ k ih =>
    have h : wrap64 ((dims k : ℤ) * (wrap64 z : ℕ) + x k) = wrap64 ((dims k : ℤ) * z + x k) := by
      apply wrap64_congr
      rw [wrap64_cast]
      have : ((dims k : ℤ) * (z % 2 ^ 64) + x k) ≡ (dims k : ℤ) * z + x k [ZMOD 2 ^ 64] :=
        ((Int.mod_modEq z _).mul_left _).add_right _
      exact this
    rw [genSiteLoop, h, ih, sum_range_succ, radix_succ]
    push_cast
    congr 1
    ring

theorem gen_site_eq (L : Latt) (hN : 0 < L.ND) (x : ℕ → ℤ) :
    gen_site L x = wrap64 (lexIndex L x) := by
  obtain ⟨n, hn⟩ : ∃ n, L.ND = n + 1 := ⟨L.ND - 1, by omega⟩
  unfold gen_site lexIndex
  rw [genSiteLoop_eq, hn, sum_range_succ, Nat.add_sub_cancel]
  congr 1
  ring

theorem lsqLoop_eq (L : Latt) (k : ℕ) : lsqLoop L k = radix L.dims (k + 1) := by
  induction k with
  | zero => simp [lsqLoop, radix]
  | succ k ih => rw [lsqLoop, ih, radix_succ L.dims (k + 1)]

theorem lcu_eq (L : Latt) (hN : 2 ≤ L.ND) : lcu L = radix L.dims (L.ND - 1) := by
  unfold lcu
  split
  · next h => rw [h]; simp [radix]
  · next h =>
    obtain ⟨n, hn⟩ : ∃ n, L.ND = n + 3 := ⟨L.ND - 3, by omega⟩
    rw [lsqLoop_eq, hn]
    simp only [Nat.add_sub_cancel]
    rw [show n + 3 - 2 = n + 1 by omega, show n + 3 - 1 = n + 1 + 1 by omega,
      radix_succ L.dims (n + 1)]

theorem volume_eq (L : Latt) (hN : 2 ≤ L.ND) : volume L = radix L.dims L.ND := by
  unfold volume
  obtain ⟨n, hn⟩ : ∃ n, L.ND = n + 1 := ⟨L.ND - 1, by omega⟩
  rw [lcu_eq L hN, hn, Nat.add_sub_cancel, radix_succ]

theorem subvol_eq (L : Latt) (DIMS k : ℕ) (hk : k ≤ DIMS) : subvol L DIMS k = radix L.dims k := by
  induction k with
  | zero => simp [subvol]
  | succ k ih =>
    rw [subvol, if_pos (by omega), ih (by omega), radix_succ]

theorem coord_eq (L : Latt) {DIMS mu : ℕ} (h : mu < DIMS) (i : ℕ) :
    coord L DIMS i mu = i / radix L.dims mu % L.dims mu := by
  unfold coord
  rw [if_pos (by omega), subvol_eq L DIMS mu (by omega), sub_mod_div]

theorem coord_self (L : Latt) (DIMS i : ℕ) : coord L DIMS i DIMS = 0 := by
  simp [coord]

theorem coord_lt (L : Latt) (hpos : ∀ mu < L.ND, 0 < L.dims mu) (DIMS i : ℕ) {mu : ℕ}
    (hmu : mu < L.ND) : coord L DIMS i mu < L.dims mu := by
  unfold coord
  split
  · exact Nat.mod_lt _ (hpos mu hmu)
  · exact hpos mu hmu

theorem mom_pipi_eq (L : Latt) {DIMS mu : ℕ} (h : mu < DIMS) (i : ℕ) :
    mom_pipi L i DIMS mu = ((i / radix L.dims mu % L.dims mu : ℕ) : ℤ) - ((L.dims mu / 2 : ℕ) : ℤ) := by
  unfold mom_pipi
  rw [if_pos (by omega), subvol_eq L DIMS mu (by omega), sub_mod_div]

theorem mom_pipi_self (L : Latt) (DIMS i : ℕ) : mom_pipi L i DIMS DIMS = 0 := by
  simp [mom_pipi]

/-! ## Consequences for valid shapes -/

theorem Valid.radix_pos {L : Latt} (hL : Valid L) : ∀ k ≤ L.ND, 0 < radix L.dims k :=
  GLU.Geom.radix_pos hL.pos

theorem Valid.radix_lt {L : Latt} (hL : Valid L) {k : ℕ} (hk : k ≤ L.ND) :
    radix L.dims k < 2 ^ 31 :=
  lt_of_le_of_lt (radix_le hL.pos hk) hL.small

theorem lexIndex_cast (L : Latt) (x : ℕ → ℕ) :
    lexIndex L (fun mu => (x mu : ℤ)) = ((∑ mu ∈ range L.ND, x mu * radix L.dims mu : ℕ) : ℤ) := by
  unfold lexIndex; push_cast; rfl

theorem lexIndex_congr {L : Latt} {x y : ℕ → ℤ} (h : ∀ mu < L.ND, x mu = y mu) :
    lexIndex L x = lexIndex L y :=
  sum_congr rfl fun mu hmu => by rw [h mu (mem_range.1 hmu)]

theorem gen_site_congr {L : Latt} (hN : 0 < L.ND) {x y : ℕ → ℤ} (h : ∀ mu < L.ND, x mu = y mu) :
    gen_site L x = gen_site L y := by
  rw [gen_site_eq L hN, gen_site_eq L hN, lexIndex_congr h]

/-- `gen_site` on in-range natural coordinates is the mixed-radix number. -/
theorem gen_site_nat {L : Latt} (hL : Valid L) {x : ℕ → ℕ} (hx : ∀ mu < L.ND, x mu < L.dims mu) :
    gen_site L (fun mu => (x mu : ℤ)) = ∑ mu ∈ range L.ND, x mu * radix L.dims mu := by
  have hlt := sum_lt_radix hx
  have h31 := hL.radix_lt (le_refl L.ND)
  rw [gen_site_eq L (by have := hL.nd; omega), lexIndex_cast, wrap64_of_range (by positivity)]
  · exact Int.toNat_natCast _
  · have : (∑ mu ∈ range L.ND, x mu * radix L.dims mu) < 2 ^ 64 := by omega
    exact_mod_cast this

theorem InRange.nat {L : Latt} {x : ℕ → ℤ} (hx : InRange L x) :
    (∀ mu < L.ND, (x mu).toNat < L.dims mu) ∧ ∀ mu < L.ND, x mu = ((x mu).toNat : ℤ) := by
  constructor
  · intro mu hmu; have := hx mu hmu; omega
  · intro mu hmu; have := hx mu hmu; omega

theorem gen_site_inRange {L : Latt} (hL : Valid L) {x : ℕ → ℤ} (hx : InRange L x) :
    gen_site L x = ∑ mu ∈ range L.ND, (x mu).toNat * radix L.dims mu := by
  rw [gen_site_congr (by have := hL.nd; omega) hx.nat.2]
  exact gen_site_nat hL hx.nat.1

theorem gen_site_lt {L : Latt} (hL : Valid L) {x : ℕ → ℤ} (hx : InRange L x) :
    gen_site L x < volume L := by
  rw [gen_site_inRange hL hx, volume_eq L hL.nd]
  exact sum_lt_radix hx.nat.1

theorem coord_gen_site {L : Latt} (hL : Valid L) {x : ℕ → ℤ} (hx : InRange L x) {mu : ℕ}
    (hmu : mu < L.ND) : (coord L L.ND (gen_site L x) mu : ℤ) = x mu := by
  rw [coord_eq L hmu, gen_site_inRange hL hx, digit_of_sum hx.nat.1 hmu, ← hx.nat.2 mu hmu]

theorem coord_inRange {L : Latt} (hL : Valid L) (DIMS i : ℕ) :
    InRange L (fun mu => (coord L DIMS i mu : ℤ)) := by
  intro mu hmu
  have := coord_lt L hL.pos DIMS i hmu
  constructor
  · positivity
  · show ((coord L DIMS i mu : ℕ) : ℤ) < _
    exact_mod_cast this

theorem gen_site_coord {L : Latt} (hL : Valid L) {i : ℕ} (hi : i < volume L) :
    gen_site L (fun mu => (coord L L.ND i mu : ℤ)) = i := by
  rw [gen_site_nat hL fun mu hmu => coord_lt L hL.pos L.ND i hmu]
  rw [volume_eq L hL.nd] at hi
  rw [sum_congr rfl fun mu hmu => by rw [coord_eq L (mem_range.1 hmu)], digits_sum,
    Nat.mod_eq_of_lt hi]

/-- Two sites with the same coordinates are equal. -/
theorem site_ext {L : Latt} (hL : Valid L) {i j : ℕ} (hi : i < volume L) (hj : j < volume L)
    (h : ∀ mu < L.ND, coord L L.ND i mu = coord L L.ND j mu) : i = j := by
  rw [← gen_site_coord hL hi, ← gen_site_coord hL hj]
  exact gen_site_congr (by have := hL.nd; omega) fun mu hmu => by rw [h mu hmu]

/-! ## Shifts -/

theorem shiftCoord_fwd (L : Latt) (x : ℕ → ℤ) (mu : ℕ) :
    shiftCoord L x mu = Function.update x mu ((x mu + 1) % L.dims mu) := by
  simp [shiftCoord]

theorem shiftCoord_bwd {L : Latt} {x : ℕ → ℤ} {mu : ℕ} (hr : 0 ≤ x mu ∧ x mu < L.dims mu) :
    shiftCoord L x (-(mu : ℤ) - 1) = Function.update x mu ((x mu - 1) % L.dims mu) := by
  have hneg : ¬ (0 ≤ -(mu : ℤ) - 1) := by omega
  have hmu : (-(-(mu : ℤ) - 1) - 1).toNat = mu := by omega
  obtain ⟨h0, h1⟩ := hr
  simp only [shiftCoord, if_neg hneg, hmu]
  split
  · next h =>
    congr 1
    rw [h]
    rw [← Int.add_emod_right, Int.emod_eq_of_lt] <;> omega
  · rfl

theorem inRange_update {L : Latt} {x : ℕ → ℤ} (hx : InRange L x) {mu : ℕ} (z : ℤ)
    (hpos : 0 < L.dims mu) : InRange L (Function.update x mu (z % L.dims mu)) := by
  intro nu hnu
  by_cases h : nu = mu
  · subst h
    simp only [Function.update_self]
    exact ⟨Int.emod_nonneg _ (by omega), Int.emod_lt_of_pos _ (by omega)⟩
  · simp only [Function.update_of_ne h]
    exact hx nu hnu

theorem coord_neighbor {L : Latt} (hL : Valid L) (i : ℕ) {mu nu : ℕ} (hmu : mu < L.ND)
    (hnu : nu < L.ND) : (coord L L.ND (neighbor L i mu) nu : ℤ) =
      if nu = mu then ((coord L L.ND i mu : ℤ) + 1) % L.dims mu else coord L L.ND i nu := by
  unfold neighbor gen_shift
  rw [shiftCoord_fwd, coord_gen_site hL (inRange_update (coord_inRange hL _ _) _ (hL.pos mu hmu)) hnu,
    Function.update_apply]

theorem coord_back {L : Latt} (hL : Valid L) (i : ℕ) {mu nu : ℕ} (hmu : mu < L.ND)
    (hnu : nu < L.ND) : (coord L L.ND (back L i mu) nu : ℤ) =
      if nu = mu then ((coord L L.ND i mu : ℤ) - 1) % L.dims mu else coord L L.ND i nu := by
  unfold back gen_shift
  rw [shiftCoord_bwd (coord_inRange hL L.ND i mu hmu),
    coord_gen_site hL (inRange_update (coord_inRange hL _ _) _ (hL.pos mu hmu)) hnu,
    Function.update_apply]

theorem neighbor_lt {L : Latt} (hL : Valid L) (i : ℕ) {mu : ℕ} (hmu : mu < L.ND) :
    neighbor L i mu < volume L := by
  unfold neighbor gen_shift
  rw [shiftCoord_fwd]
  exact gen_site_lt hL (inRange_update (coord_inRange hL _ _) _ (hL.pos mu hmu))

theorem back_lt {L : Latt} (hL : Valid L) (i : ℕ) {mu : ℕ} (hmu : mu < L.ND) :
    back L i mu < volume L := by
  unfold back gen_shift
  rw [shiftCoord_bwd (coord_inRange hL L.ND i mu hmu)]
  exact gen_site_lt hL (inRange_update (coord_inRange hL _ _) _ (hL.pos mu hmu))

/-! ## Slices: the first `DIMS` directions with `DIMS` the last direction or `ND` -/

/-- `DIMS` is `ND` (the whole lattice) or `ND - 1` (a time slice). -/
def SliceDims (L : Latt) (DIMS : ℕ) : Prop := DIMS = L.ND ∨ DIMS + 1 = L.ND

/-- A digit vector that vanishes at the omitted direction. -/
theorem sum_slice {L : Latt} {DIMS : ℕ} (hD : SliceDims L DIMS) (x : ℕ → ℕ) (h0 : x DIMS = 0) :
    ∑ mu ∈ range L.ND, x mu * radix L.dims mu = ∑ mu ∈ range DIMS, x mu * radix L.dims mu := by
  rcases hD with h | h
  · rw [h]
  · rw [← h, sum_range_succ, h0]; simp

theorem gen_site_slice {L : Latt} (hL : Valid L) {DIMS : ℕ} (hD : SliceDims L DIMS) {x : ℕ → ℕ}
    (hx : ∀ mu < DIMS, x mu < L.dims mu) (h0 : x DIMS = 0) :
    gen_site L (fun mu => (x mu : ℤ)) = ∑ mu ∈ range DIMS, x mu * radix L.dims mu := by
  rw [gen_site_nat hL, sum_slice hD x h0]
  intro mu hmu
  rcases hD with h | h
  · exact hx mu (by omega)
  · rcases Nat.lt_or_ge mu DIMS with h' | h'
    · exact hx mu h'
    · have : mu = DIMS := by omega
      subst this
      rw [h0]; exact hL.pos _ hmu

theorem SliceDims.le {L : Latt} {DIMS : ℕ} (hD : SliceDims L DIMS) : DIMS ≤ L.ND := by
  rcases hD with h | h <;> omega

theorem SliceDims.of_lt {L : Latt} {DIMS mu : ℕ} (hD : SliceDims L DIMS) (hmu : mu < L.ND) :
    mu < DIMS ∨ mu = DIMS := by
  rcases hD with h | h <;> omega

/-! ## HiRep order -/

/-- Direction handled at position `j` of the HiRep order. -/
def hirepDir (L : Latt) (j : ℕ) : ℕ := if j + 1 < L.ND then L.ND - 2 - j else j

theorem hirepDir_invol {L : Latt} {j : ℕ} (hj : j < L.ND) :
    hirepDir L (hirepDir L j) = j ∧ hirepDir L j < L.ND := by
  unfold hirepDir
  split
  · constructor
    · rw [if_pos (by omega)]; omega
    · omega
  · constructor
    · rfl
    · omega

theorem subvolHirep_eq {L : Latt} {k : ℕ} (hk : k + 1 ≤ L.ND) :
    subvolHirep L k = radix (fun j => L.dims (hirepDir L j)) k := by
  induction k with
  | zero => simp [subvolHirep]
  | succ k ih =>
    rw [subvolHirep, ih (by omega), radix_succ]
    congr 2
    unfold hirepDir
    rw [if_pos (by omega)]

theorem hirep_coord_eq {L : Latt} {j : ℕ} (hj : j < L.ND) (i : ℕ) :
    hirep_coord L i (hirepDir L j) =
      i / radix (fun j => L.dims (hirepDir L j)) j % L.dims (hirepDir L j) := by
  unfold hirep_coord
  by_cases h : j + 1 < L.ND
  · have hd : hirepDir L j = L.ND - 2 - j := by simp [hirepDir, h]
    have e : L.ND - 2 - (L.ND - 2 - j) = j := by omega
    rw [if_pos (by omega)]
    simp only [hd, e, sub_mod_div]
    rw [subvolHirep_eq (by omega)]
  · have hd : hirepDir L j = j := by simp [hirepDir, h]
    rw [if_neg (by omega)]
    simp only [sub_mod_div]
    rw [subvolHirep_eq (by omega), show L.ND - 1 = j by omega]

theorem radix_hirep (L : Latt) :
    radix (fun j => L.dims (hirepDir L j)) L.ND = radix L.dims L.ND := by
  unfold radix
  refine prod_bij (fun j _ => hirepDir L j) ?_ ?_ ?_ ?_
  · intro j hj; exact mem_range.2 (hirepDir_invol (mem_range.1 hj)).2
  · intro a ha b hb h
    rw [← (hirepDir_invol (mem_range.1 ha)).1, h, (hirepDir_invol (mem_range.1 hb)).1]
  · intro b hb
    exact ⟨hirepDir L b, mem_range.2 (hirepDir_invol (mem_range.1 hb)).2,
      (hirepDir_invol (mem_range.1 hb)).1⟩
  · intro j hj; rfl

theorem hirep_coord_lt {L : Latt} (hL : Valid L) (i : ℕ) {mu : ℕ} (hmu : mu < L.ND) :
    hirep_coord L i mu < L.dims mu := by
  unfold hirep_coord
  split <;> exact Nat.mod_lt _ (hL.pos mu hmu)

theorem hirep_inj {L : Latt} (hL : Valid L) {i j : ℕ} (hi : i < volume L) (hj : j < volume L)
    (h : ∀ mu < L.ND, hirep_coord L i mu = hirep_coord L j mu) : i = j := by
  rw [volume_eq L hL.nd] at hi hj
  change i < radix L.dims L.ND at hi
  change j < radix L.dims L.ND at hj
  rw [← radix_hirep L] at hi hj
  have key := digits_sum (fun j => L.dims (hirepDir L j))
  rw [← Nat.mod_eq_of_lt hi, ← Nat.mod_eq_of_lt hj, ← key, ← key]
  refine sum_congr rfl fun k hk => ?_
  have hk' := mem_range.1 hk
  have e := h _ (hirepDir_invol hk').2
  rw [hirep_coord_eq hk', hirep_coord_eq hk'] at e
  rw [e]

end GLU.Geom
