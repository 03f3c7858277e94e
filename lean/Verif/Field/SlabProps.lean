import Verif.Field.TopoProps

/-!
# C87: the slab sums of the topological charge
-/

namespace GLU.Field

open Complex Finset GLU.Mat GLU.Geom

/-! ## Specification -/

/-- The charge of the slab of thickness `T1` that begins at the coordinate `T0` in the direction `dir`, with periodic
boundaries. -/
noncomputable def slabCharge (L : Latt) (q : ℕ → ℂ) (dir T1 T0 : ℕ) : ℝ :=
  ∑ s ∈ range T1, sliceCharge L q dir ((T0 + s) % L.dims dir)

/-! ## The sites of a slab -/

theorem slabLatt_dims (L : Latt) (dir T1 mu : ℕ) : (slabLatt L dir T1).dims mu = if mu = dir then T1 else L.dims mu := by
  unfold slabLatt
  dsimp only
  rw [Function.update_apply]

theorem slab_valid {L : Latt} (hL : Valid L) {dir T1 : ℕ} (h1 : 0 < T1) (h2 : T1 ≤ L.dims dir) : Valid (slabLatt L dir T1) := by
  refine ⟨hL.nd, fun mu hmu => ?_, lt_of_le_of_lt ?_ hL.small⟩
  · rw [slabLatt_dims]
    split
    · exact h1
    · exact hL.pos mu hmu
  · refine prod_le_prod' fun mu hmu => ?_
    rw [slabLatt_dims]
    split
    · next h => rw [h]; exact h2
    · exact le_rfl

/-- The coordinates of the site `slab_idx`. -/
theorem slab_idx_coord {L : Latt} (hL : Valid L) {dir T1 : ℕ} (hdir : dir < L.ND) (h1 : 0 < T1) (h2 : T1 ≤ L.dims dir) (T0 i : ℕ) :
    slab_idx L dir T1 T0 i < volume L ∧ ∀ mu < L.ND, coord L L.ND (slab_idx L dir T1 T0 i) mu =
      if mu = dir then (coord (slabLatt L dir T1) L.ND i dir + T0) % L.dims dir else coord (slabLatt L dir T1) L.ND i mu := by
  have hS := slab_valid hL h1 h2
  have hin : InRange L (Function.update (fun mu => (coord (slabLatt L dir T1) L.ND i mu : ℤ)) dir
      (((coord (slabLatt L dir T1) L.ND i dir + T0) % L.dims dir : ℕ) : ℤ)) := by
    intro mu hmu
    rw [Function.update_apply]
    split
    · next h => subst h; exact ⟨Int.natCast_nonneg _, Int.ofNat_lt.2 (Nat.mod_lt _ (hL.pos mu hmu))⟩
    · next h =>
      have := coord_lt (slabLatt L dir T1) hS.pos L.ND i hmu
      rw [slabLatt_dims, if_neg h] at this
      exact ⟨Int.natCast_nonneg _, Int.ofNat_lt.2 this⟩
  refine ⟨gen_site_lt hL hin, fun mu hmu => ?_⟩
  have := coord_gen_site hL hin hmu
  rw [Function.update_apply] at this
  unfold slab_idx
  split
  · next h => rw [if_pos h] at this; exact Int.ofNat_inj.1 this
  · next h => rw [if_neg h] at this; exact Int.ofNat_inj.1 this

/-- The sum over the sites of a slab. -/
theorem slab_sum {L : Latt} (hL : Valid L) {dir T1 : ℕ} (hdir : dir < L.ND) (h1 : 0 < T1) (h2 : T1 ≤ L.dims dir) (T0 : ℕ)
    (q : ℕ → ℂ) :
    ∑ i ∈ range (volume (slabLatt L dir T1)), (q (slab_idx L dir T1 T0 i)).re = slabCharge L q dir T1 T0 := by
  have hS := slab_valid hL h1 h2
  have hD := hL.pos dir hdir
  have sc := fun i => slab_idx_coord hL hdir h1 h2 T0 i
  -- thickness coordinate
  have cd : ∀ i, coord (slabLatt L dir T1) L.ND i dir < T1 := fun i => by
    have := coord_lt (slabLatt L dir T1) hS.pos L.ND i (mu := dir) hdir
    rwa [slabLatt_dims, if_pos rfl] at this
  have inj : ∀ a < L.dims dir, ∀ b < L.dims dir, (a + T0) % L.dims dir = (b + T0) % L.dims dir → a = b := by
    intro a ha b hb h
    have := Nat.ModEq.add_right_cancel' T0 (h : a + T0 ≡ b + T0 [MOD L.dims dir])
    have h' : a % L.dims dir = b % L.dims dir := this
    rwa [Nat.mod_eq_of_lt ha, Nat.mod_eq_of_lt hb] at h'
  unfold slabCharge sliceCharge
  rw [sum_comm]
  have e : ∀ x ∈ range (volume L), (∑ s ∈ range T1, if coord L L.ND x dir = (T0 + s) % L.dims dir then (q x).re else 0) =
      if ∃ s < T1, coord L L.ND x dir = (T0 + s) % L.dims dir then (q x).re else 0 := by
    intro x _
    split
    · next h =>
      obtain ⟨s, hs, h⟩ := h
      rw [sum_eq_single_of_mem s (mem_range.2 hs), if_pos h]
      intro s' hs' hne
      refine if_neg fun h' => hne (inj s' (by have := mem_range.1 hs'; omega) s (by omega) ?_)
      rw [Nat.add_comm s', Nat.add_comm s, ← h', h]
    · next h => exact sum_eq_zero fun s hs => if_neg fun h' => h ⟨s, mem_range.1 hs, h'⟩
  rw [sum_congr rfl e, ← sum_filter]
  refine sum_nbij (slab_idx L dir T1 T0) (fun i _ => ?_) (fun i hi j hj h => ?_) (fun x hx => ?_) (fun i _ => rfl)
  · refine mem_filter.2 ⟨mem_range.2 (sc i).1, _, cd i, ?_⟩
    rw [(sc i).2 dir hdir, if_pos rfl, Nat.add_comm]
  · refine site_ext hS (mem_range.1 hi) (mem_range.1 hj) fun mu hmu => ?_
    have hmu : mu < L.ND := hmu
    have a := (sc i).2 mu hmu
    have b := (sc j).2 mu hmu
    have h : slab_idx L dir T1 T0 i = slab_idx L dir T1 T0 j := h
    rw [h, b] at a
    show coord (slabLatt L dir T1) L.ND i mu = coord (slabLatt L dir T1) L.ND j mu
    by_cases e : mu = dir
    · rw [if_pos e, if_pos e] at a
      rw [e]
      exact (inj _ (by have := cd j; omega) _ (by have := cd i; omega) a).symm
    · rw [if_neg e, if_neg e] at a
      exact a.symm
  · obtain ⟨hx, s, hs, h⟩ := mem_filter.1 hx
    have hin : InRange (slabLatt L dir T1) (fun mu => ((if mu = dir then s else coord L L.ND x mu : ℕ) : ℤ)) := by
      intro mu hmu
      refine ⟨Int.natCast_nonneg _, Int.ofNat_lt.2 ?_⟩
      rw [slabLatt_dims]
      split
      · exact hs
      · exact coord_lt L hL.pos L.ND x hmu
    refine ⟨gen_site (slabLatt L dir T1) (fun mu => ((if mu = dir then s else coord L L.ND x mu : ℕ) : ℤ)),
      mem_coe.2 (mem_range.2 (gen_site_lt hS hin)), ?_⟩
    have cg : ∀ mu < L.ND, coord (slabLatt L dir T1) L.ND
        (gen_site (slabLatt L dir T1) fun mu => ((if mu = dir then s else coord L L.ND x mu : ℕ) : ℤ)) mu =
        if mu = dir then s else coord L L.ND x mu := fun mu hmu => Int.ofNat_inj.1 (coord_gen_site hS hin hmu)
    refine site_ext hL (sc _).1 (mem_range.1 hx) fun mu hmu => ?_
    rw [(sc _).2 mu hmu]
    split
    · next e => rw [cg dir hdir, if_pos rfl, e, h, Nat.add_comm]
    · next e => rw [cg mu hmu, if_neg e]

/-! ## Theorems -/

theorem slab_direct_eq {L : Latt} (hL : Valid L) {dir T1 : ℕ} (hdir : dir < L.ND) (h1 : 0 < T1) (h2 : T1 ≤ L.dims dir) (T0 : ℕ)
    (q : ℕ → ℂ) : slab_direct L q dir T1 T0 = slabCharge L q dir T1 T0 ^ 2 := by
  unfold slab_direct
  dsimp only
  have e : ∀ i, (fun sum_slab : ℝ => forN (volume (slabLatt L dir T1)) (fun j sum_slab => sum_slab + slabTerm L q dir T1 T0 i j) sum_slab)
      = fun sum_slab => sum_slab + ∑ j ∈ range (volume (slabLatt L dir T1)), slabTerm L q dir T1 T0 i j := by
    intro i; funext s; rw [forN_sum]
  simp only [forN_sum, zero_add]
  rw [← slab_sum hL hdir h1 h2 T0 q, pow_two, sum_mul_sum]
  refine sum_congr rfl fun i _ => sum_congr rfl fun j _ => ?_
  unfold slabTerm
  rw [re_ofReal_mul]

theorem slab_fft_eq {L : Latt} (hL : Valid L) {dir T1 : ℕ} (hdir : dir < L.ND) (h1 : 0 < T1) (h2 : T1 ≤ L.dims dir) (T0 : ℕ)
    {q : ℕ → ℂ} (hq : RealDensity L q) :
    slab_fft L q dir T1 T0 = volume (slabLatt L dir T1) * slabCharge L q dir T1 T0 ^ 2 := by
  have hS := slab_valid hL h1 h2
  unfold slab_fft
  dsimp only
  rw [forN_sum, zero_add]
  set f : ℕ → ℂ := fun i => q (slab_idx L dir T1 T0 i) with hf
  have hr : ∀ i, (f i).im = 0 := fun i => hq _ (slab_idx_coord hL hdir h1 h2 T0 i).1
  have c := fun r => convolution hS f 1 r
  simp only [mul_one, one_mul] at c
  have e : ∀ r, (small_plan (slabLatt L dir T1) 1 (fun i => small_plan (slabLatt L dir T1) (-1) f i *
      star (small_plan (slabLatt L dir T1) (-1) f i)) r).re = volume (slabLatt L dir T1) * chargeCorr (slabLatt L dir T1) f r := by
    intro r
    rw [c r, show ((volume (slabLatt L dir T1) : ℕ) : ℂ) = ((volume (slabLatt L dir T1) : ℝ) : ℂ) by push_cast; rfl, re_ofReal_mul]
    congr 1
    unfold chargeCorr
    rw [re_sum]
    refine sum_congr rfl fun x _ => ?_
    rw [re_sum]
    refine sum_congr rfl fun y _ => ?_
    split
    · simp [hr]
    · simp
  rw [sum_congr rfl fun r _ => e r, ← mul_sum, ← slab_sum hL hdir h1 h2 T0 q]
  congr 1
  unfold chargeCorr
  rw [sum_comm, pow_two, sum_mul_sum]
  refine sum_congr rfl fun x hx => ?_
  rw [sum_comm]
  refine sum_congr rfl fun y hy => ?_
  obtain ⟨r, hr, hs, hu⟩ := separation hS (mem_range.1 hx) (mem_range.1 hy)
  rw [sum_eq_single_of_mem r (mem_range.2 hr), if_pos hs]
  intro r' hr' hne
  exact if_neg fun h => hne (hu r' (mem_range.1 hr') h)

/-- **C87**: for every direction and thickness the number written is the squared charge of a slab, averaged over all positions of
the slab, whichever way the program was built (without FFTW: executed by one thread). -/
theorem C87_slabs {L : Latt} (hL : Valid L) {q : ℕ → ℂ} (hq : RealDensity L q) (fft : Bool) {dir T1 : ℕ} (hdir : dir < L.ND)
    (h1 : 0 < T1) (h2 : T1 ≤ L.dims dir) :
    compute_slabs fft L q dir T1 =
      (∑ T0 ∈ range (L.dims dir), (NORM * slabCharge L q dir T1 T0) ^ 2) / L.dims dir := by
  have hV : (volume (slabLatt L dir T1) : ℝ) ≠ 0 := by exact_mod_cast (volume_pos (slab_valid hL h1 h2)).ne'
  have e : ∑ T0 ∈ range (L.dims dir), (NORM * slabCharge L q dir T1 T0) ^ 2 =
      (∑ T0 ∈ range (L.dims dir), slabCharge L q dir T1 T0 ^ 2) * NORMSQ := by
    rw [sum_mul]
    exact sum_congr rfl fun T0 _ => by unfold NORMSQ; ring
  rw [e]
  unfold compute_slabs
  dsimp only
  rw [forN_sum, zero_add]
  cases fft
  · simp only [Bool.false_eq_true, if_false]
    congr 2
    exact sum_congr rfl fun T0 _ => slab_direct_eq hL hdir h1 h2 T0 q
  · simp only [if_true]
    congr 2
    rw [sum_congr rfl fun T0 _ => slab_fft_eq hL hdir h1 h2 T0 hq, ← mul_sum, mul_div_cancel_left₀ _ hV]

theorem coord_cases {L : Latt} (hL : Valid L) {dir : ℕ} (hdir : dir < L.ND) (q : ℕ → ℂ) :
    ∑ t ∈ range (L.dims dir), sliceCharge L q dir t = totalCharge L q := by
  unfold sliceCharge totalCharge
  rw [sum_comm]
  refine sum_congr rfl fun x _ => ?_
  rw [sum_ite_eq, if_pos (mem_range.2 (coord_lt L hL.pos L.ND x hdir))]

/-- **C87**: the slab as thick as the lattice gives the square of the total charge. -/
theorem C87_full {L : Latt} (hL : Valid L) {q : ℕ → ℂ} (hq : RealDensity L q) (fft : Bool) {dir : ℕ} (hdir : dir < L.ND) :
    compute_slabs fft L q dir (L.dims dir) = (NORM * totalCharge L q) ^ 2 := by
  have hD := hL.pos dir hdir
  have e : ∀ T0 ∈ range (L.dims dir), (NORM * slabCharge L q dir (L.dims dir) T0) ^ 2 = (NORM * totalCharge L q) ^ 2 := by
    intro T0 h0
    rw [mem_range] at h0
    congr 2
    rw [← coord_cases hL hdir q]
    unfold slabCharge
    refine sum_nbij (fun s => (T0 + s) % L.dims dir) (fun s _ => mem_range.2 (Nat.mod_lt _ hD)) (fun a ha b hb h => ?_)
      (fun t ht => ?_) (fun s _ => rfl)
    · have ha := mem_range.1 (mem_coe.1 ha)
      have hb := mem_range.1 (mem_coe.1 hb)
      have h' : a % L.dims dir = b % L.dims dir :=
        Nat.ModEq.add_left_cancel' T0 (show T0 + a ≡ T0 + b [MOD L.dims dir] from h)
      rwa [Nat.mod_eq_of_lt ha, Nat.mod_eq_of_lt hb] at h'
    · have ht := mem_range.1 (mem_coe.1 ht)
      refine ⟨(t + L.dims dir - T0) % L.dims dir, mem_coe.2 (mem_range.2 (Nat.mod_lt _ hD)), ?_⟩
      show (T0 + (t + L.dims dir - T0) % L.dims dir) % L.dims dir = t
      rw [Nat.add_mod_mod, show T0 + (t + L.dims dir - T0) = t + L.dims dir by omega, Nat.add_mod_right, Nat.mod_eq_of_lt ht]
  rw [C87_slabs hL hq fft hdir hD le_rfl, sum_congr rfl e, sum_const, card_range, nsmul_eq_mul,
    mul_div_cancel_left₀ _ (by exact_mod_cast hD.ne')]

/-! ## The unprotected sum -/

theorem run_adds (th : ℕ) (vs : List ℝ) (m : ℝ) (reg : ℕ → ℝ) :
    ((adds th vs).foldl Access.run (m, reg)).1 = m + vs.sum := by
  induction vs generalizing m reg with
  | nil => simp [adds]
  | cons v vs ih =>
    have : adds th (v :: vs) = .load th :: .store th v :: adds th vs := rfl
    rw [this, List.foldl_cons, List.foldl_cons]
    simp only [Access.run, Function.update_self]
    rw [ih, List.sum_cons, add_assoc]

theorem adds_thread (th : ℕ) (vs : List ℝ) : ∀ a ∈ adds th vs, a.thread = th := by
  intro a ha
  obtain ⟨v, -, h⟩ := List.mem_flatMap.1 ha
  rcases List.mem_cons.1 h with rfl | h
  · rfl
  · rw [List.mem_singleton.1 h]; rfl

theorem filter_same (th : ℕ) {l : List Access} (h : ∀ a ∈ l, a.thread = th) : l.filter (fun a => a.thread = th) = l :=
  List.filter_eq_self.2 fun a ha => by simp [h a ha]

theorem filter_other {th th' : ℕ} (hne : th ≠ th') {l : List Access} (h : ∀ a ∈ l, a.thread = th) :
    l.filter (fun a => a.thread = th') = [] :=
  List.filter_eq_nil_iff.2 fun a ha => by simp [h a ha, hne]

/-- The register file outside the threads that run does not matter; a thread that stores at the end of another one's work. -/
theorem run_lost (th th' : ℕ) (hne : th ≠ th') (m : ℝ) (vs : List ℝ) (s : ℝ × (ℕ → ℝ)) (hs : s.2 th' = m) :
    ((adds th vs).foldl Access.run s).2 th' = m := by
  induction vs generalizing s with
  | nil => exact hs
  | cons v vs ih =>
    have : adds th (v :: vs) = .load th :: .store th v :: adds th vs := rfl
    rw [this, List.foldl_cons, List.foldl_cons]
    refine ih _ ?_
    simp only [Access.run]
    rw [Function.update_of_ne hne.symm]
    exact hs

/-- C87 fails without FFTW for more than one thread: for every division of the iterations among two threads, each with some work,
there is an interleaving of the accesses of the two threads (each in its own order) after which the sum is that of the second
thread alone; it is wrong whenever the first thread had something to add. -/
theorem C87_race_fails {L : Latt} (hL : Valid L) (q : ℕ → ℂ) {dir T1 T0 : ℕ} (hdir : dir < L.ND) (h1 : 0 < T1) (h2 : T1 ≤ L.dims dir)
    (is js : List ℕ) (hp : (is ++ js).Perm (List.range (volume (slabLatt L dir T1)))) (hj : js ≠ [])
    (hw : (slabWork L q dir T1 T0 is).sum ≠ 0) (reg : ℕ → ℝ) :
    ∃ sched : List Access,
      sched.filter (fun a => a.thread = 0) = adds 0 (slabWork L q dir T1 T0 is) ∧
      sched.filter (fun a => a.thread = 1) = adds 1 (slabWork L q dir T1 T0 js) ∧
      (∀ a ∈ sched, a.thread = 0 ∨ a.thread = 1) ∧
      (sched.foldl Access.run (0, reg)).1 = (slabWork L q dir T1 T0 js).sum ∧
      (sched.foldl Access.run (0, reg)).1 ≠ slab_direct L q dir T1 T0 := by
  have hV := volume_pos (slab_valid hL h1 h2)
  -- the second thread has something to do
  obtain ⟨v, vs, hv⟩ : ∃ v vs, slabWork L q dir T1 T0 js = v :: vs := by
    obtain ⟨j, js', rfl⟩ := List.exists_cons_of_ne_nil hj
    obtain ⟨n, hn⟩ : ∃ n, volume (slabLatt L dir T1) = n + 1 := ⟨volume (slabLatt L dir T1) - 1, by omega⟩
    unfold slabWork
    rw [List.flatMap_cons, hn, List.range_succ_eq_map, List.map_cons, List.cons_append]
    exact ⟨_, _, rfl⟩
  -- the sum of all the work
  have hall : (slabWork L q dir T1 T0 is).sum + (slabWork L q dir T1 T0 js).sum = slab_direct L q dir T1 T0 := by
    have e : ∀ l : List ℕ, (slabWork L q dir T1 T0 l).sum = (l.map fun i => ∑ j ∈ range (volume (slabLatt L dir T1)), slabTerm L q dir T1 T0 i j).sum := by
      intro l
      induction l with
      | nil => rfl
      | cons a l ih =>
        have : slabWork L q dir T1 T0 (a :: l) = (List.range (volume (slabLatt L dir T1))).map (slabTerm L q dir T1 T0 a) ++ slabWork L q dir T1 T0 l := rfl
        rw [this, List.sum_append, ih, List.map_cons, List.sum_cons]
        rfl
    rw [e, e, ← List.sum_append, ← List.map_append, (hp.map _).sum_eq]
    unfold slab_direct
    simp only [forN_sum, zero_add]
    rfl
  have a0 : ∀ a ∈ adds 0 (slabWork L q dir T1 T0 is), a.thread = 0 := adds_thread 0 _
  have a1 : ∀ a ∈ adds 1 vs, a.thread = 1 := adds_thread 1 _
  have run : ((Access.load 1 :: (adds 0 (slabWork L q dir T1 T0 is) ++ (Access.store 1 v :: adds 1 vs))).foldl Access.run (0, reg)).1 =
      (slabWork L q dir T1 T0 js).sum := by
    rw [List.foldl_cons, List.foldl_append, List.foldl_cons]
    have hr := run_lost 0 1 (by norm_num) 0 (slabWork L q dir T1 T0 is) (Access.run (0, reg) (.load 1)) (by
      simp [Access.run])
    generalize (adds 0 (slabWork L q dir T1 T0 is)).foldl Access.run (Access.run (0, reg) (.load 1)) = s at hr
    have : Access.run s (.store 1 v) = (0 + v, s.2) := by simp only [Access.run]; rw [hr]
    rw [this, run_adds, hv, List.sum_cons, zero_add]
  refine ⟨.load 1 :: (adds 0 (slabWork L q dir T1 T0 is) ++ (.store 1 v :: adds 1 vs)), ?_, ?_, ?_, run, ?_⟩
  · rw [List.filter_cons_of_neg (by simp [Access.thread]), List.filter_append, filter_same 0 a0,
      List.filter_cons_of_neg (by simp [Access.thread]), filter_other (by norm_num) a1, List.append_nil]
  · rw [List.filter_cons_of_pos (by simp [Access.thread]), List.filter_append, filter_other (by norm_num) a0, List.nil_append,
      List.filter_cons_of_pos (by simp [Access.thread]), filter_same 1 a1, hv]
    rfl
  · intro a ha
    rcases List.mem_cons.1 ha with rfl | ha
    · exact Or.inr rfl
    · rcases List.mem_append.1 ha with ha | ha
      · exact Or.inl (a0 a ha)
      · rcases List.mem_cons.1 ha with rfl | ha
        · exact Or.inr rfl
        · exact Or.inr (a1 a ha)
  · rw [run, ← hall]
    intro h
    exact hw (by linarith)

end GLU.Field
