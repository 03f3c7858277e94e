import Verif.Field.PolyTh

/-!
# C136
-/

namespace GLU.Field

open Complex GLU.Mat GLU.Geom Finset

theorem poly_slot {c c' k k' n : ℕ} (hc : c < n) (hc' : c' < n) : c + k * n = c' + k' * n ↔ c = c' ∧ k = k' := by
  constructor
  · intro h
    have h1 := congrArg (· % n) h
    simp only [Nat.add_mul_mod_self_right, Nat.mod_eq_of_lt hc, Nat.mod_eq_of_lt hc'] at h1
    refine ⟨h1, ?_⟩
    rw [h1] at h
    exact Nat.eq_of_mul_eq_mul_right (by omega : 0 < n) (by omega)
  · rintro ⟨rfl, rfl⟩
    rfl

/-- The sum over the threads of the entry `c` of their slots. -/
noncomputable def column (n N : ℕ) (red : ℕ → ℝ) (c : ℕ) : ℝ := ∑ k ∈ range N, red (c + k * n)

theorem column_add {n N c c0 t : ℕ} (hc : c < n) (hc0 : c0 < n) (ht : t < N) (red : ℕ → ℝ) (v : ℝ) :
    column n N (Function.update red (c0 + t * n) (red (c0 + t * n) + v)) c = column n N red c + if c = c0 then v else 0 := by
  unfold column
  by_cases e : c = c0
  · subst e
    rw [if_pos rfl, ← Finset.add_sum_erase _ _ (mem_range.2 ht), ← Finset.add_sum_erase (range N) (fun k => red (c + k * n))
      (mem_range.2 ht), Function.update_self, Finset.sum_congr rfl fun k hk => ?_]
    · ring
    · rw [Function.update_of_ne]
      intro h
      exact (Finset.mem_erase.1 hk).1 ((poly_slot hc hc).1 h).2
  · rw [if_neg e, add_zero]
    refine Finset.sum_congr rfl fun k _ => ?_
    rw [Function.update_of_ne]
    intro h
    exact e ((poly_slot hc hc0).1 h).1

theorem column_div {n d : ℕ} (hd : 2 * d + 1 < n) (s : ℝ) (N : ℕ) (red : ℕ → ℝ) {c k : ℕ} (hc : c < n) :
    forN N (fun i red =>
      let red := Function.update red (2 * d + i * n) (red (2 * d + i * n) / s)
      Function.update red (2 * d + 1 + i * n) (red (2 * d + 1 + i * n) / s)) red (c + k * n) =
      if k < N ∧ (c = 2 * d ∨ c = 2 * d + 1) then red (c + k * n) / s else red (c + k * n) := by
  induction N with
  | zero => simp [forN]
  | succ N ih =>
    rw [forN]
    revert ih
    generalize forN N _ red = r
    intro ih
    simp only [Function.update_apply, poly_slot hc (show 2 * d + 1 < n by omega), poly_slot hc (show 2 * d < n by omega),
      poly_slot (show 2 * d + 1 < n by omega) (show 2 * d < n by omega)]
    by_cases e1 : c = 2 * d + 1 ∧ k = N
    · obtain ⟨rfl, rfl⟩ := e1
      have := ih
      rw [if_neg (by omega)] at this
      rw [if_pos ⟨rfl, rfl⟩, if_neg (by omega), this, if_pos ⟨by omega, Or.inr rfl⟩]
    · rw [if_neg e1]
      by_cases e2 : c = 2 * d ∧ k = N
      · obtain ⟨rfl, rfl⟩ := e2
        have := ih
        rw [if_neg (by omega)] at this
        rw [if_pos ⟨rfl, rfl⟩, this, if_pos ⟨by omega, Or.inl rfl⟩]
      · rw [if_neg e2, ih]
        congr 1
        apply propext
        constructor
        · rintro ⟨h1, h2⟩
          exact ⟨by omega, h2⟩
        · rintro ⟨h1, h2⟩
          refine ⟨?_, h2⟩
          rcases h2 with h2 | h2
          · have : k ≠ N := fun h => e2 ⟨h2, h⟩
            omega
          · have : k ≠ N := fun h => e1 ⟨h2, h⟩
            omega

/-- The traced loop that the iteration `i` of the loop measures. -/
noncomputable def loopAt (NC : ℕ) (L : Latt) (lat : Gauge) (dir i : ℕ) : ℂ :=
  Mat.trace NC (small_poly NC L lat (gen_site L fun mu => (coord L dir i mu : ℤ)) dir (L.dims dir))

theorem mom_some {L : Latt} (hL : Valid L) (dir i : ℕ) : get_mom_2piBZ L i dir = some fun mu => (coord L dir i mu : ℤ) := by
  unfold get_mom_2piBZ
  rw [if_pos]
  intro mu hmu _
  refine ⟨hL.pos mu hmu, ?_⟩
  rw [subvol_flat]
  exact lt_of_le_of_lt (flat_le hL dir mu hmu.le) (hL.radix_lt hmu.le)

theorem subvolume_ne {L : Latt} (hL : Valid L) (dir : ℕ) : polySubvolume L dir ≠ 0 := by
  rw [polySubvolume_eq]
  exact (radix_pos (flat_pos hL dir) L.ND (le_refl _)).ne'

theorem poly_sum {NC : ℕ} {L : Latt} (hL : Valid L) (lat : Gauge) {dir : ℕ} (hd : dir < L.ND) :
    poly NC L lat dir = some ((∑ i ∈ range (polySubvolume L dir), loopAt NC L lat dir i) / (polySubvolume L dir : ℂ)) := by
  unfold poly
  simp only
  rw [if_neg (show ¬ dir > L.ND by omega), if_neg (by omega), if_neg (subvolume_ne hL dir)]
  have hsum : ∀ n, forN n (fun i (sum : Option ℂ) => sum.bind fun sum =>
      (get_mom_2piBZ L i dir).map fun x =>
        sum + Mat.trace NC (small_poly NC L lat (gen_site L x) dir (L.dims dir))) (some 0) =
      some (∑ i ∈ range n, loopAt NC L lat dir i) := by
    intro n
    induction n with
    | zero => simp [forN]
    | succ n ih =>
      rw [forN, ih, mom_some hL, sum_range_succ]
      rfl
  rw [hsum]
  rfl

theorem sched_columns {NC : ℕ} {L : Latt} (hL : Valid L) (lat : Gauge) {dir N : ℕ} (hd : 2 * dir + 1 < cline L.ND)
    (sched : List (ℕ × ℕ)) (h : ∀ it ∈ sched, it.2 < N) (red : ℕ → ℝ) :
    ∃ red', sched.foldl (fun (red : Option (ℕ → ℝ)) it => red.bind fun red =>
      (get_mom_2piBZ L it.1 dir).map fun x =>
        let pl := Mat.trace NC (small_poly NC L lat (gen_site L x) dir (L.dims dir))
        let red := Function.update red (2 * dir + it.2 * cline L.ND) (red (2 * dir + it.2 * cline L.ND) + pl.re)
        Function.update red (2 * dir + 1 + it.2 * cline L.ND) (red (2 * dir + 1 + it.2 * cline L.ND) + pl.im)) (some red) =
        some red' ∧ ∀ c < cline L.ND, column (cline L.ND) N red' c = column (cline L.ND) N red c +
          (if c = 2 * dir then (sched.map fun it => (loopAt NC L lat dir it.1).re).sum else 0) +
          (if c = 2 * dir + 1 then (sched.map fun it => (loopAt NC L lat dir it.1).im).sum else 0) := by
  induction sched generalizing red with
  | nil => exact ⟨red, rfl, fun c _ => by simp⟩
  | cons it sched ih =>
    rw [List.foldl_cons, Option.bind_some, mom_some hL, Option.map_some]
    obtain ⟨red', h1, h2⟩ := ih (fun x hx => h x (List.mem_cons_of_mem _ hx)) _
    refine ⟨red', h1, fun c hc => ?_⟩
    have ht := h it List.mem_cons_self
    rw [h2 c hc]
    simp only
    rw [column_add hc hd ht, column_add hc (by omega) ht, List.map_cons, List.map_cons, List.sum_cons, List.sum_cons]
    change column (cline L.ND) N red c + (if c = 2 * dir then (loopAt NC L lat dir it.1).re else 0) +
      (if c = 2 * dir + 1 then (loopAt NC L lat dir it.1).im else 0) + _ + _ = _
    split_ifs <;> first | omega | ring

theorem poly_th_columns {NC : ℕ} {L : Latt} (hL : Valid L) (lat : Gauge) {dir N : ℕ} (hd : dir < L.ND)
    (hc : 2 * dir + 1 < cline L.ND) {sched : List (ℕ × ℕ)} (hs : IsSchedule (polySubvolume L dir) N sched) (red : ℕ → ℝ) :
    ∃ red' p, poly_th NC L N sched lat dir red = some red' ∧ poly NC L lat dir = some p ∧
      (∀ c < cline L.ND, c ≠ 2 * dir → c ≠ 2 * dir + 1 → column (cline L.ND) N red' c = column (cline L.ND) N red c) ∧
      (column (cline L.ND) N red (2 * dir) = 0 → column (cline L.ND) N red' (2 * dir) = p.re) ∧
      (column (cline L.ND) N red (2 * dir + 1) = 0 → column (cline L.ND) N red' (2 * dir + 1) = p.im) := by
  obtain ⟨r1, h1, h2⟩ := sched_columns (NC := NC) hL lat hc sched hs.2 red
  have hsub := subvolume_ne hL dir
  have hdivcol : ∀ c < cline L.ND, column (cline L.ND) N (forN N (fun i red =>
      let red := Function.update red (2 * dir + i * cline L.ND) (red (2 * dir + i * cline L.ND) / (polySubvolume L dir : ℝ))
      Function.update red (2 * dir + 1 + i * cline L.ND) (red (2 * dir + 1 + i * cline L.ND) / (polySubvolume L dir : ℝ))) r1) c =
      if c = 2 * dir ∨ c = 2 * dir + 1 then column (cline L.ND) N r1 c / (polySubvolume L dir : ℝ) else column (cline L.ND) N r1 c := by
    intro c hcc
    unfold column
    split_ifs with e
    · rw [Finset.sum_div]
      refine Finset.sum_congr rfl fun k hk => ?_
      rw [column_div hc _ N r1 hcc, if_pos ⟨mem_range.1 hk, e⟩]
    · refine Finset.sum_congr rfl fun k hk => ?_
      rw [column_div hc _ N r1 hcc, if_neg fun h => e h.2]
  have hlist : ∀ f : ℕ → ℝ, (sched.map fun it => f it.1).sum = ∑ i ∈ range (polySubvolume L dir), f i := by
    intro f
    rw [show (sched.map fun it => f it.1) = (sched.map Prod.fst).map f by rw [List.map_map]; rfl, (hs.1.map f).sum_eq]
    rfl
  have hth : poly_th NC L N sched lat dir red = some (forN N (fun i red =>
      let red := Function.update red (2 * dir + i * cline L.ND) (red (2 * dir + i * cline L.ND) / (polySubvolume L dir : ℝ))
      Function.update red (2 * dir + 1 + i * cline L.ND) (red (2 * dir + 1 + i * cline L.ND) / (polySubvolume L dir : ℝ))) r1) := by
    unfold poly_th
    simp only
    rw [if_neg (show ¬ dir > L.ND by omega), if_neg (by omega), if_neg hsub]
    simp only at h1
    rw [h1, Option.map_some]
  refine ⟨_, _, hth, poly_sum hL lat hd, ?_, ?_, ?_⟩
  · intro c hcc e1 e2
    rw [hdivcol c hcc, if_neg (by rintro (h | h); exacts [e1 h, e2 h]), h2 c hcc, if_neg e1, if_neg e2, add_zero, add_zero]
  · intro h0
    rw [hdivcol _ (by omega), if_pos (Or.inl rfl), h2 _ (by omega), h0, if_pos rfl, if_neg (by omega), hlist fun i => (loopAt NC L lat dir i).re,
      zero_add, add_zero, div_natCast_re, re_sum]
  · intro h0
    rw [hdivcol _ hc, if_pos (Or.inr rfl), h2 _ hc, h0, if_neg (by omega), if_pos rfl, hlist fun i => (loopAt NC L lat dir i).im,
      zero_add, zero_add, div_natCast_im, im_sum]

/-- **C136.** Whatever the number of threads, the distribution of the loops over them and the old contents of the array, the numbers
printed for a direction are the real and imaginary part of the average Polyakov loop that one thread computes. -/
theorem C136_polyakov {NC : ℕ} {L : Latt} (hL : Valid L) (lat : Gauge) {N : ℕ} {sched : ℕ → List (ℕ × ℕ)}
    (hs : ∀ mu < L.ND, IsSchedule (polySubvolume L mu) N (sched mu)) (red : ℕ → ℝ) {mu : ℕ} (hmu : mu < L.ND) :
    poly_printed NC L N sched lat red mu = (poly NC L lat mu).map fun p => (p.re, p.im) := by
  have hcl : ∀ d < L.ND, 2 * d + 1 < cline L.ND := by
    intro d hd
    unfold cline
    split_ifs <;> omega
  have hzero : ∀ c < cline L.ND, column (cline L.ND) N (forN (N * cline L.ND) (fun k red => Function.update red k 0) red) c = 0 := by
    intro c hc
    have hz : ∀ n x, x < n → forN n (fun k red => Function.update red k 0) red x = 0 := by
      intro n
      induction n with
      | zero => intro x hx; omega
      | succ n ih =>
        intro x hx
        rw [forN]
        by_cases e : x = n
        · rw [e, Function.update_self]
        · rw [Function.update_of_ne e, ih x (by omega)]
    refine Finset.sum_eq_zero fun k hk => hz _ _ ?_
    have h1 := Nat.mul_le_mul_right (cline L.ND) (show k + 1 ≤ N from mem_range.1 hk)
    rw [Nat.add_mul, Nat.one_mul] at h1
    omega
  have main : ∀ n ≤ L.ND, ∃ r, forN n (fun mu red => red.bind (poly_th NC L N (sched mu) lat mu))
      (some (forN (N * cline L.ND) (fun k red => Function.update red k 0) red)) = some r ∧
      (∀ c < cline L.ND, 2 * n ≤ c → column (cline L.ND) N r c = 0) ∧
      ∀ d < n, ∃ p, poly NC L lat d = some p ∧ column (cline L.ND) N r (2 * d) = p.re ∧
        column (cline L.ND) N r (2 * d + 1) = p.im := by
    intro n
    induction n with
    | zero => exact fun _ => ⟨_, rfl, fun c hc _ => hzero c hc, fun d hd => by omega⟩
    | succ n ih =>
      intro hn
      obtain ⟨r, h1, h2, h3⟩ := ih (by omega)
      have hc := hcl n (by omega)
      obtain ⟨r', p, e1, e2, e3, e4, e5⟩ := poly_th_columns (NC := NC) hL lat (show n < L.ND by omega) hc (hs n (by omega)) r
      refine ⟨r', by rw [forN, h1, Option.bind_some, e1], fun c hcc hle => ?_, fun d hd => ?_⟩
      · rw [e3 c hcc (by omega) (by omega), h2 c hcc (by omega)]
      · rcases Nat.lt_succ_iff_lt_or_eq.1 hd with hd | rfl
        · obtain ⟨q, q1, q2, q3⟩ := h3 d hd
          exact ⟨q, q1, by rw [e3 _ (by omega) (by omega) (by omega), q2], by rw [e3 _ (by omega) (by omega) (by omega), q3]⟩
        · exact ⟨p, e2, e4 (h2 _ (by omega) le_rfl), e5 (h2 _ hc (by omega))⟩
  obtain ⟨r, h1, _, h3⟩ := main L.ND le_rfl
  obtain ⟨p, hp, hre, him⟩ := h3 mu hmu
  have hsum : ∀ (f : ℕ → ℝ) n, forN n (fun k s => s + f k) 0 = ∑ k ∈ range n, f k := by
    intro f n
    induction n with
    | zero => simp [forN]
    | succ n ih => rw [forN, ih, sum_range_succ]
  unfold poly_printed poly_meas
  rw [h1, hp, Option.map_some, Option.map_some, hsum fun k => r (2 * mu + k * cline L.ND), hsum fun k => r (2 * mu + 1 + k * cline L.ND)]
  exact congrArg some (Prod.ext hre him)

/-- Two threads that share the loops of every direction of a lattice with four sites in two directions. -/
example : let L : Latt := ⟨2, fun _ => 2⟩
    ∀ mu < L.ND, IsSchedule (polySubvolume L mu) 2 [(1, 0), (0, 1)] := by
  intro L mu hmu
  have h : polySubvolume L mu = 2 := by
    have : mu = 0 ∨ mu = 1 := by
      have : mu < 2 := hmu
      omega
    rcases this with rfl | rfl <;> decide
  rw [h]
  exact ⟨List.Perm.swap 0 1 [], by simp⟩

end GLU.Field
