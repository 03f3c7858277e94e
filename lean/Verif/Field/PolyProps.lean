import Verif.Field.Lemmas

/-!
# C30: Polyakov loops
-/

namespace GLU.Field

open Complex Matrix GLU.Mat GLU.Geom GLU.Sched Finset

/-- Ordered product of the `n` links in direction `dir` starting at `x`. -/
def line (NC : ℕ) (L : Latt) (lat : Gauge) (dir n x : ℕ) : Matrix (Fin NC) (Fin NC) ℂ :=
  ((List.range n).map fun k => link NC lat ((fun y => neighbor L y dir)^[k] x) dir).prod

theorem line_succ (NC : ℕ) (L : Latt) (lat : Gauge) (dir n x : ℕ) :
    line NC L lat dir (n + 1) x =
      line NC L lat dir n x * link NC lat ((fun y => neighbor L y dir)^[n] x) dir := by
  unfold line
  rw [List.range_succ, List.map_append, List.prod_append]
  simp

theorem line_succ' (NC : ℕ) (L : Latt) (lat : Gauge) (dir n x : ℕ) :
    line NC L lat dir (n + 1) x = link NC lat x dir * line NC L lat dir n (neighbor L x dir) := by
  unfold line
  rw [List.range_succ_eq_map, List.map_cons, List.prod_cons, List.map_map]
  rfl

theorem small_poly_eq (NC : ℕ) (L : Latt) (lat : Gauge) (site dir : ℕ) {n : ℕ} (hn : 1 ≤ n) :
    toM NC (small_poly NC L lat site dir n) = line NC L lat dir n site := by
  unfold small_poly
  have H := forN_inv (fun k (s : Arr ℂ × ℕ) => s.2 = (fun y => neighbor L y dir)^[k] site ∧
      toM NC s.1 = line NC L lat dir (k + 1) site) (n := n - 1)
    (body := fun _ (s : Arr ℂ × ℕ) =>
      let next := neighbor L s.2 dir
      (multab_atomic_right NC s.1 (lat (next, dir)), next))
    (s := (equiv NC scratch (lat (site, dir)), site))
    ⟨rfl, by simp [C63_equiv, line, link]⟩ (by
      rintro k - ⟨a, y⟩ ⟨h1, h2⟩
      simp only at h1 h2 ⊢
      have e : neighbor L y dir = (fun y => neighbor L y dir)^[k + 1] site := by
        rw [Function.iterate_succ_apply', h1]
      refine ⟨e, ?_⟩
      rw [C10_multab_atomic_right, h2, line_succ NC L lat dir (k + 1), e]
      rfl)
  rw [H.2, show n - 1 + 1 = n by omega]

theorem line_transformed {NC : ℕ} {L : Latt} (hL : Valid L) {g : ℕ → Arr ℂ} {lat lat' : Gauge}
    (hg : SUGauge NC L g) (h : Transformed NC L g lat lat') {dir : ℕ} (hd : dir < L.ND) (n : ℕ) {x : ℕ}
    (hx : x < volume L) :
    line NC L lat' dir n x = toM NC (g x) * line NC L lat dir n x *
      (toM NC (g ((fun y => neighbor L y dir)^[n] x)))ᴴ := by
  induction n with
  | zero => simp [line, su_mul_star (hg x hx)]
  | succ n ih =>
    have hlt : (fun y => neighbor L y dir)^[n] x < volume L := by
      cases n with
      | zero => exact hx
      | succ n => rw [Function.iterate_succ_apply']; exact neighbor_lt hL _ hd
    rw [line_succ, ih, line_succ, h _ hlt dir hd, Function.iterate_succ_apply']
    have c := cancel_left (su_star_mul (hg _ hlt))
    simp only [Matrix.mul_assoc, c]

/-- **C30**, any start site: the traced loop that winds once around a direction is the
same from every site of the loop. -/
theorem C30_start_site {NC : ℕ} {L : Latt} (hL : Valid L) (lat : Gauge) {dir x : ℕ} (hd : dir < L.ND)
    (hx : x < volume L) :
    Mat.trace NC (small_poly NC L lat (neighbor L x dir) dir (L.dims dir)) =
      Mat.trace NC (small_poly NC L lat x dir (L.dims dir)) := by
  have hp := hL.pos dir hd
  rw [C12_trace, C12_trace, small_poly_eq NC L lat _ dir hp, small_poly_eq NC L lat _ dir hp]
  obtain ⟨n, hn⟩ : ∃ n, L.dims dir = n + 1 := ⟨L.dims dir - 1, by omega⟩
  have hper := C02_period hL hx hd
  rw [hn] at hper ⊢
  rw [line_succ, line_succ', Matrix.trace_mul_comm, ← Function.iterate_succ_apply (fun y => neighbor L y dir),
    hper]

/-- **C30**: no gauge transformation changes the traced loop from any site. -/
theorem C30_loop_invariant {NC : ℕ} {L : Latt} (hL : Valid L) {g : ℕ → Arr ℂ} {lat : Gauge}
    (hg : SUGauge NC L g) (hU : SUField NC L lat) {dir x : ℕ} (hd : dir < L.ND) (hx : x < volume L) :
    Mat.trace NC (small_poly NC L (gtransform NC L g lat) x dir (L.dims dir)) =
      Mat.trace NC (small_poly NC L lat x dir (L.dims dir)) := by
  have hp := hL.pos dir hd
  rw [C12_trace, C12_trace, small_poly_eq NC L _ _ dir hp, small_poly_eq NC L _ _ dir hp,
    line_transformed hL hg (gtransform_transformed hL hg hU).1 hd _ hx, C02_period hL hx hd,
    trace_conj (su_star_mul (hg x hx))]

/-! ### The average over loops -/

/-- Extents with the loop direction removed. -/
def flat (L : Latt) (dir mu : ℕ) : ℕ := if mu = dir then 1 else L.dims mu

theorem subvol_flat (L : Latt) (dir k : ℕ) : subvol L dir k = radix (flat L dir) k := by
  induction k with
  | zero => simp [subvol]
  | succ k ih =>
    rw [subvol, radix_succ, ih, flat]
    split
    · next h => simp [h]
    · next h => simp [show k = dir by tauto]

theorem coord_flat (L : Latt) (dir i mu : ℕ) :
    coord L dir i mu = i / radix (flat L dir) mu % flat L dir mu := by
  unfold coord
  split
  · next h => rw [subvol_flat, sub_mod_div, flat, if_neg h]
  · next h => rw [flat, if_pos (by tauto), Nat.mod_one]

theorem polySubvolume_eq (L : Latt) (dir : ℕ) : polySubvolume L dir = radix (flat L dir) L.ND := by
  unfold polySubvolume
  have : ∀ n, forN n (fun i s => s * (if i ≠ dir then L.dims i else 1)) 1 = radix (flat L dir) n := by
    intro n
    induction n with
    | zero => simp [forN]
    | succ n ih =>
      rw [forN, ih, radix_succ, flat]
      by_cases h : n = dir <;> simp [h]
  exact this _

theorem flat_le {L : Latt} (hL : Valid L) (dir : ℕ) : ∀ k ≤ L.ND, radix (flat L dir) k ≤ radix L.dims k := by
  intro k hk
  refine prod_le_prod' fun mu hmu => ?_
  have := hL.pos mu (by rw [mem_range] at hmu; omega)
  unfold flat
  split <;> omega

theorem flat_pos {L : Latt} (hL : Valid L) (dir : ℕ) : ∀ mu < L.ND, 0 < flat L dir mu := by
  intro mu hmu
  have := hL.pos mu hmu
  unfold flat
  split <;> omega

/-- The sites the code starts its loops from are those with vanishing coordinate in the
loop direction, each once. -/
theorem loop_starts {L : Latt} (hL : Valid L) {dir : ℕ} (hd : dir < L.ND) (f : ℕ → ℂ) :
    ∑ i ∈ range (polySubvolume L dir), f (gen_site L fun mu => (coord L dir i mu : ℤ)) =
      ∑ x ∈ (range (volume L)).filter (fun x => coord L L.ND x dir = 0), f x := by
  have hin : ∀ i, InRange L fun mu => (coord L dir i mu : ℤ) := fun i => coord_inRange hL dir i
  refine sum_bij (fun i _ => gen_site L fun mu => (coord L dir i mu : ℤ)) ?_ ?_ ?_ ?_
  · intro i _
    rw [mem_filter, mem_range]
    refine ⟨gen_site_lt hL (hin i), ?_⟩
    have := coord_gen_site hL (hin i) hd
    rw [coord_self] at this
    exact_mod_cast this
  · intro a ha b hb hab
    rw [mem_range, polySubvolume_eq] at ha hb
    rw [← Nat.mod_eq_of_lt ha, ← Nat.mod_eq_of_lt hb, ← digits_sum, ← digits_sum]
    refine sum_congr rfl fun mu hmu => ?_
    rw [mem_range] at hmu
    have h1 := coord_gen_site hL (hin a) hmu
    have h2 := coord_gen_site hL (hin b) hmu
    rw [hab] at h1
    rw [← coord_flat, ← coord_flat]
    have : coord L dir a mu = coord L dir b mu := by exact_mod_cast h1.symm.trans h2
    rw [this]
  · intro x hx
    rw [mem_filter, mem_range] at hx
    have hlt : ∀ mu < L.ND, coord L L.ND x mu < flat L dir mu := by
      intro mu hmu
      unfold flat
      split
      · next h => rw [h, hx.2]; exact one_pos
      · exact coord_lt L hL.pos _ _ hmu
    refine ⟨∑ mu ∈ range L.ND, coord L L.ND x mu * radix (flat L dir) mu, ?_, ?_⟩
    · rw [mem_range, polySubvolume_eq]
      exact sum_lt_radix hlt
    · have hnd := hL.nd
      conv_rhs => rw [← gen_site_coord hL hx.1]
      refine gen_site_congr (by omega) fun mu hmu => ?_
      rw [coord_flat, digit_of_sum hlt hmu]
  · intro i _; rfl

/-- **C30**, the average: `poly` returns the mean, over the sites with vanishing coordinate in the
direction (one for each loop), of the traced loop. -/
theorem C30_average {NC : ℕ} {L : Latt} (hL : Valid L) (lat : Gauge) {dir : ℕ} (hd : dir < L.ND) :
    poly NC L lat dir =
      some ((∑ x ∈ (range (volume L)).filter (fun x => coord L L.ND x dir = 0),
        Matrix.trace (line NC L lat dir (L.dims dir) x)) /
        (((range (volume L)).filter (fun x => coord L L.ND x dir = 0)).card : ℂ)) := by
  have hp := hL.pos dir hd
  have hcard : (((range (volume L)).filter (fun x => coord L L.ND x dir = 0)).card : ℂ) =
      (polySubvolume L dir : ℂ) := by
    have := loop_starts hL hd (fun _ => 1)
    simp at this
    exact_mod_cast this.symm
  have hmom : ∀ i, get_mom_2piBZ L i dir = some fun mu => (coord L dir i mu : ℤ) := by
    intro i
    unfold get_mom_2piBZ
    rw [if_pos]
    intro mu hmu _
    refine ⟨hL.pos mu hmu, ?_⟩
    rw [subvol_flat]
    exact lt_of_le_of_lt (flat_le hL dir mu hmu.le) (hL.radix_lt hmu.le)
  have hsub : polySubvolume L dir ≠ 0 := by
    rw [polySubvolume_eq]
    exact (radix_pos (flat_pos hL dir) L.ND (le_refl _)).ne'
  unfold poly
  simp only
  rw [if_neg (show ¬ dir > L.ND by omega), if_neg (by omega), if_neg hsub]
  have hsum : ∀ n, forN n (fun i (sum : Option ℂ) => sum.bind fun sum =>
      (get_mom_2piBZ L i dir).map fun x =>
        sum + Mat.trace NC (small_poly NC L lat (gen_site L x) dir (L.dims dir))) (some 0) =
      some (∑ i ∈ range n, Matrix.trace (line NC L lat dir (L.dims dir)
        (gen_site L fun mu => (coord L dir i mu : ℤ)))) := by
    intro n
    induction n with
    | zero => simp [forN]
    | succ n ih =>
      rw [forN, ih, hmom, sum_range_succ]
      simp only [Option.bind_some, Option.map_some, Option.some_inj]
      rw [C12_trace, small_poly_eq NC L lat _ dir hp]
  rw [hsum, loop_starts hL hd (fun x => Matrix.trace (line NC L lat dir (L.dims dir) x)), hcard]
  rfl

/-- **C30**: no gauge transformation changes the average Polyakov loop. -/
theorem C30_gauge_invariant {NC : ℕ} {L : Latt} (hL : Valid L) {g : ℕ → Arr ℂ} {lat : Gauge}
    (hg : SUGauge NC L g) (hU : SUField NC L lat) {dir : ℕ} (hd : dir < L.ND) :
    poly NC L (gtransform NC L g lat) dir = poly NC L lat dir := by
  have hp := hL.pos dir hd
  rw [C30_average hL _ hd, C30_average hL _ hd]
  congr 2
  refine sum_congr rfl fun x hx => ?_
  rw [mem_filter, mem_range] at hx
  have := C30_loop_invariant hL hg hU hd hx.1
  rw [C12_trace, C12_trace, small_poly_eq NC L _ _ dir hp, small_poly_eq NC L _ _ dir hp] at this
  exact this

/-- The guard against unreasonable directions does not help: every direction from `ND` on
reads outside the array of extents. -/
theorem C30_direction_guard (NC : ℕ) (L : Latt) (lat : Gauge) {dir : ℕ} (h : L.ND ≤ dir) :
    poly NC L lat dir = none := by
  unfold poly
  simp only
  rw [if_pos]
  split <;> omega

/-- Non-vacuity: on a 2 x 3 lattice of constant links `i sigma_3` the loop around the second
direction has a trace that is not that of a trivial field. -/
example : Mat.trace 2 (small_poly 2 ⟨2, fun mu => mu + 2⟩ (fun _ => arr [I, 0, 0, I]) 0 1 3) = -2 * I := by
  rw [C12_trace, small_poly_eq _ _ _ _ _ (by norm_num)]
  have : toM 2 (arr [I, 0, 0, I]) = I • (1 : Matrix (Fin 2) (Fin 2) ℂ) := by
    ext i j; fin_cases i <;> fin_cases j <;> simp [arr]
  simp only [line, link, this, List.range, List.range.loop, List.map, List.prod_cons, List.prod_nil, Matrix.mul_one]
  simp only [smul_mul_smul, Matrix.mul_one, I_mul_I, Matrix.trace_smul, Matrix.trace_one]
  simp
  ring_nf

end GLU.Field
