import Verif.Gfix.Tests
import Verif.Gfix.DerivProps
import Verif.Gfix.CoulombLemmas
import Verif.Smear.Props

/-!
# C118: the numbers printed about a gauge fixed field
-/

namespace GLU.Gfix

open Complex GLU.Mat GLU.Geom GLU.Field GLU.Update GLU.Draught Matrix Finset

/-! ## The largest local violation -/

/-- Zero, where the search starts, and the local violations. -/
def Locals (work : ℕ → List ℝ) : Set ℝ := {r | r = 0 ∨ ∃ th, r ∈ work th}

theorem max_inv {work : ℕ → List ℝ} {s : MaxState} (h : MaxReach work s) :
    0 ≤ s.max ∧ s.max ∈ Locals work ∧ (∀ th, ∀ r ∈ s.todo th, r ∈ work th) ∧
    (∀ th r, s.pass th = some r → 0 < r ∧ r ∈ work th) ∧
    (0 < s.max ∨ (∃ th r, s.pass th = some r) ∨ ∀ th, ∀ r ∈ work th, 0 < r → r ∈ s.todo th) := by
  induction h with
  | start => exact ⟨le_refl _, Or.inl rfl, fun _ _ h => h, by simp [MaxState.start], Or.inr (Or.inr fun _ _ h _ => h)⟩
  | @step s s' _ hs ih =>
    obtain ⟨h0, h1, h2, h3, h4⟩ := ih
    cases hs with
    | @skip th res l hp ht h =>
      refine ⟨h0, h1, fun th' r hr => ?_, h3, ?_⟩
      · by_cases e : th' = th
        · subst e; simp only [Function.update_self] at hr; exact h2 _ _ (ht ▸ List.mem_cons_of_mem _ hr)
        · simp only [Function.update_of_ne e] at hr; exact h2 _ _ hr
      · rcases h4 with h4 | h4 | h4
        · exact Or.inl h4
        · exact Or.inr (Or.inl h4)
        · by_cases hm : 0 < s.max
          · exact Or.inl hm
          refine Or.inr (Or.inr fun th' r hr h0r => ?_)
          have := h4 th' r hr h0r
          by_cases e : th' = th
          · subst e
            rw [ht, List.mem_cons] at this
            simp only [Function.update_self]
            rcases this with rfl | this
            · exact absurd (lt_of_lt_of_le h0r (not_lt.1 h)) hm
            · exact this
          · simpa only [Function.update_of_ne e] using this
    | @test th res l hp ht h =>
      refine ⟨h0, h1, fun th' r hr => ?_, fun th' r hr => ?_, ?_⟩
      · by_cases e : th' = th
        · subst e; simp only [Function.update_self] at hr; exact h2 _ _ (ht ▸ List.mem_cons_of_mem _ hr)
        · simp only [Function.update_of_ne e] at hr; exact h2 _ _ hr
      · by_cases e : th' = th
        · subst e
          simp only [Function.update_self, Option.some.injEq] at hr
          subst hr
          exact ⟨lt_of_le_of_lt h0 h, h2 _ _ (by rw [ht]; exact List.mem_cons_self)⟩
        · simp only [Function.update_of_ne e] at hr; exact h3 _ _ hr
      · exact Or.inr (Or.inl ⟨th, res, by simp⟩)
    | @store th res hp =>
      obtain ⟨a, b⟩ := h3 th res hp
      refine ⟨a.le, Or.inr ⟨th, b⟩, h2, fun th' r hr => ?_, Or.inl a⟩
      by_cases e : th' = th
      · subst e; simp at hr
      · simp only [Function.update_of_ne e] at hr; exact h3 _ _ hr

/-- **C118**, the maximum, for every number of threads and every interleaving: it is zero or one of the local violations, so never
above the largest one, and it is zero only if no local violation is positive. -/
theorem C118_max_partial {work : ℕ → List ℝ} {s : MaxState} (h : MaxReach work s) (hd : s.done) :
    s.max ∈ Locals work ∧ 0 ≤ s.max ∧ (s.max = 0 ↔ ∀ th, ∀ r ∈ work th, r ≤ 0) := by
  obtain ⟨h0, h1, -, -, h4⟩ := max_inv h
  refine ⟨h1, h0, fun hz th r hr => ?_, fun hz => ?_⟩
  · by_contra hn
    push Not at hn
    rcases h4 with h4 | ⟨th', r', h4⟩ | h4
    · linarith
    · rw [(hd th').2] at h4; cases h4
    · have := h4 th r hr hn
      rw [(hd th).1] at this
      cases this
  · rcases h1 with h1 | ⟨th, h1⟩
    · exact h1
    · exact le_antisymm (hz th _ h1) h0

theorem max_inv_one {work : ℕ → List ℝ} (h1 : ∀ th, th ≠ 0 → work th = []) {s : MaxState} (h : MaxReach work s) :
    (∀ th, th ≠ 0 → s.todo th = [] ∧ s.pass th = none) ∧ (∀ r, s.pass 0 = some r → s.max < r) ∧
    ∀ r ∈ work 0, r ∈ s.todo 0 ∨ r ≤ s.max ∨ s.pass 0 = some r := by
  induction h with
  | start => exact ⟨fun th ht => ⟨h1 th ht, rfl⟩, by simp [MaxState.start], fun r hr => Or.inl hr⟩
  | @step s s' _ hs ih =>
    obtain ⟨i1, i2, i3⟩ := ih
    cases hs with
    | @skip th res l hp ht h =>
      have e : th = 0 := by
        by_contra e
        rw [(i1 th e).1] at ht; cases ht
      subst e
      refine ⟨fun th' e => ?_, i2, fun r hr => ?_⟩
      · simp only [Function.update_of_ne e]; exact i1 th' e
      · simp only [Function.update_self]
        rcases i3 r hr with h' | h'
        · rw [ht, List.mem_cons] at h'
          rcases h' with rfl | h'
          · exact Or.inr (Or.inl (not_lt.1 h))
          · exact Or.inl h'
        · exact Or.inr h'
    | @test th res l hp ht h =>
      have e : th = 0 := by
        by_contra e
        rw [(i1 th e).1] at ht; cases ht
      subst e
      refine ⟨fun th' e => ?_, fun r hr => ?_, fun r hr => ?_⟩
      · simp only [Function.update_of_ne e]; exact i1 th' e
      · simp only [Function.update_self, Option.some.injEq] at hr; subst hr; exact h
      · simp only [Function.update_self]
        rcases i3 r hr with h' | h' | h'
        · rw [ht, List.mem_cons] at h'
          rcases h' with rfl | h'
          · exact Or.inr (Or.inr rfl)
          · exact Or.inl h'
        · exact Or.inr (Or.inl h')
        · rw [hp] at h'; cases h'
    | @store th res hp =>
      have e : th = 0 := by
        by_contra e
        rw [(i1 th e).2] at hp; cases hp
      subst e
      refine ⟨fun th' e => ?_, by simp, fun r hr => ?_⟩
      · simp only [Function.update_of_ne e]; exact i1 th' e
      · rcases i3 r hr with h' | h' | h'
        · exact Or.inl h'
        · exact Or.inr (Or.inl (h'.trans (i2 res hp).le))
        · rw [hp, Option.some.injEq] at h'
          exact Or.inr (Or.inl h'.ge)

/-- **C118**, the maximum with one thread: it is the largest local violation. -/
theorem C118_max_one_thread {work : ℕ → List ℝ} (h1 : ∀ th, th ≠ 0 → work th = []) {s : MaxState} (h : MaxReach work s)
    (hd : s.done) : IsGreatest (Locals work) s.max := by
  obtain ⟨h0, hm, -, -, -⟩ := max_inv h
  refine ⟨hm, fun r hr => ?_⟩
  rcases hr with rfl | ⟨th, hr⟩
  · exact h0
  · by_cases e : th = 0
    · subst e
      rcases (max_inv_one h1 h).2.2 r hr with h' | h' | h'
      · rw [(hd 0).1] at h'; cases h'
      · exact h'
      · rw [(hd 0).2] at h'; cases h'
    · rw [h1 th e] at hr; cases hr

/-- Two threads with one site each. -/
def twoSites (a b : ℝ) : ℕ → List ℝ := fun th => if th = 0 then [b] else if th = 1 then [a] else []

/-- **C118** fails for the maximum with two threads: for any positive violations `a` at one site and `b` at another there is a run
that reports `a`, so also when `b` is larger. -/
theorem C118_max_lost {a b : ℝ} (ha : 0 < a) (hb : 0 < b) :
    ∃ s, MaxReach (twoSites a b) s ∧ s.done ∧ s.max = a := by
  have s1 := MaxReach.step (work := twoSites a b) .start (.test (th := 0) (res := b) (l := []) rfl (by simp [MaxState.start, twoSites]) hb)
  have s2 := MaxReach.step s1 (.test (th := 1) (res := a) (l := []) (by simp [MaxState.start]) (by simp [MaxState.start, twoSites])
    ha)
  have s3 := MaxReach.step s2 (.store (th := 0) (res := b) (by simp))
  have s4 := MaxReach.step s3 (.store (th := 1) (res := a) (by simp))
  refine ⟨_, s4, fun th => ?_, rfl⟩
  by_cases e0 : th = 0
  · subst e0; simp [MaxState.start]
  by_cases e1 : th = 1
  · subst e1; simp [MaxState.start]
  · simp [MaxState.start, Function.update_of_ne, e0, e1, twoSites]

example : ∃ s, MaxReach (twoSites 1 1000) s ∧ s.done ∧ s.max = 1 ∧ ¬ IsGreatest (Locals (twoSites 1 1000)) s.max := by
  obtain ⟨s, h1, h2, h3⟩ := C118_max_lost (a := 1) (b := 1000) one_pos (by norm_num)
  refine ⟨s, h1, h2, h3, fun h => ?_⟩
  have := h.2 (show (1000 : ℝ) ∈ Locals (twoSites 1 1000) from Or.inr ⟨0, by simp [twoSites]⟩)
  rw [h3] at this
  norm_num at this

/-- A run of one thread over two sites. -/
example : ∃ s, MaxReach (fun th => if th = 0 then [3, 2] else []) s ∧ s.done := by
  have s1 := MaxReach.step (work := fun th => if th = 0 then [3, 2] else []) .start
    (.test (th := 0) (res := 3) (l := [2]) rfl (by simp [MaxState.start]) (by norm_num [MaxState.start]))
  have s2 := MaxReach.step s1 (.store (th := 0) (res := 3) (by simp))
  have s3 := MaxReach.step s2 (.skip (th := 0) (res := 2) (l := []) (by simp) (by simp) (by norm_num))
  refine ⟨_, s3, fun th => ?_⟩
  by_cases e0 : th = 0
  · subst e0; simp
  · simp [MaxState.start, Function.update_of_ne, e0]

/-! ## Temporal constance -/

theorem forFrom_sum (m n : ℕ) (f : ℕ → ℝ) (a : ℝ) : forFrom m n (fun t s => s + f t) a = a + ∑ t ∈ Ico m n, f t := by
  unfold forFrom
  rw [forN_sum, Finset.sum_Ico_eq_sum_range]

theorem toM_slice_sum (NC : ℕ) (L : Latt) (scratch : Arr ℂ) (P : ℕ → Arr ℂ) (first : ℕ) :
    toM NC (slice_sum NC L scratch P first) = ∑ i ∈ range (lcu L), toM NC (P (first + i)) := by
  unfold slice_sum
  induction lcu L with
  | zero => simp [forN, C63_zero_mat]
  | succ n ih => rw [forN, C63_a_plus_b, ih, sum_range_succ]

theorem slice_difference_nonneg (NC : ℕ) (scratch a b : Arr ℂ) : 0 ≤ slice_difference NC scratch a b := by
  unfold slice_difference
  split_ifs
  · positivity
  · positivity
  · simp only
    rw [forN_sum]
    positivity

theorem slice_difference_zero {NC : ℕ} (h2 : NC ≠ 2) (scratch : Arr ℂ) {a b : Arr ℂ} (ha : HermTraceless NC a)
    (hb : HermTraceless NC b) : slice_difference NC scratch a b = 0 ↔ toM NC a = toM NC b := by
  unfold slice_difference
  split_ifs with h3
  · subst h3
    constructor
    · intro h
      simp only at h
      have hn : ∀ z : ℂ, 0 ≤ ‖z‖ := norm_nonneg
      have k1 := hn (a 1 - b 1); have k2 := hn (a 2 - b 2); have k5 := hn (a 5 - b 5)
      have k0 := abs_nonneg ((a 0).re - (b 0).re); have k4 := abs_nonneg ((a 4).re - (b 4).re)
      have e0 : |(a 0).re - (b 0).re| = 0 := by linarith
      have e4 : |(a 4).re - (b 4).re| = 0 := by linarith
      have e1 : ‖a 1 - b 1‖ = 0 := by linarith
      have e2 : ‖a 2 - b 2‖ = 0 := by linarith
      have e5 : ‖a 5 - b 5‖ = 0 := by linarith
      rw [abs_eq_zero, sub_eq_zero] at e0 e4
      rw [norm_eq_zero, sub_eq_zero] at e1 e2 e5
      have im (x : Arr ℂ) (hx : HermTraceless 3 x) : (x 0).im = 0 ∧ (x 4).im = 0 ∧ x 3 = star (x 1) ∧ x 6 = star (x 2) ∧
          x 7 = star (x 5) ∧ x 8 = -(x 0 + x 4) := by
        have g := fun i j => congrFun (congrFun hx.1.eq i) j
        have t := hx.2
        rw [Matrix.trace_fin_three] at t
        simp only [toM_apply, conjTranspose_apply] at g t
        have g00 := g 0 0; have g11 := g 1 1; have g10 := g 1 0; have g20 := g 2 0; have g21 := g 2 1
        norm_num at g00 g11 g10 g20 g21 t
        refine ⟨?_, ?_, g10.symm, g20.symm, g21.symm, by linear_combination t⟩
        · have := congrArg Complex.im g00; simp at this; linarith
        · have := congrArg Complex.im g11; simp at this; linarith
      obtain ⟨a0, a4, a3, a6, a7, a8⟩ := im a ha
      obtain ⟨b0, b4, b3, b6, b7, b8⟩ := im b hb
      have f0 : a 0 = b 0 := Complex.ext e0 (by rw [a0, b0])
      have f4 : a 4 = b 4 := Complex.ext e4 (by rw [a4, b4])
      ext i j
      rw [toM_apply, toM_apply]
      fin_cases i <;> fin_cases j <;> norm_num [a3, a6, a7, a8, b3, b6, b7, b8, f0, f4, e1, e2, e5]
    · intro h
      have g := fun i j => congrFun (congrFun h i) j
      simp only [toM_apply] at g
      have g00 := g 0 0; have g01 := g 0 1; have g02 := g 0 2; have g11 := g 1 1; have g12 := g 1 2
      norm_num at g00 g01 g02 g11 g12
      simp [g00, g01, g02, g11, g12]
  · simp only
    rw [forN_sum, zero_add, sum_eq_zero_iff_of_nonneg fun _ _ => norm_nonneg _]
    constructor
    · intro h
      rw [← sub_eq_zero, ← C63_b_min_c NC scratch a b]
      ext i j
      rw [toM_apply]
      simpa using h _ (mem_range.2 (index_lt i.2 j.2))
    · intro h k hk
      rw [mem_range] at hk
      have hN : 0 < NC := Nat.pos_of_ne_zero fun e => by subst e; simp at hk
      rw [← sub_eq_zero, ← C63_b_min_c NC scratch a b] at h
      have := congrFun (congrFun h ⟨k / NC, Nat.div_lt_of_lt_mul hk⟩) ⟨k % NC, Nat.mod_lt _ hN⟩
      rw [toM_apply] at this
      simp only [Matrix.zero_apply] at this
      rw [show k % NC + NC * (k / NC) = k from by rw [add_comm]; exact Nat.div_add_mod k NC] at this
      rw [this, norm_zero]

theorem hermTraceless_slice (NC : ℕ) (L : Latt) (scratch : Arr ℂ) {P : ℕ → Arr ℂ} {first : ℕ}
    (hP : ∀ i < lcu L, HermTraceless NC (P (first + i))) : HermTraceless NC (slice_sum NC L scratch P first) := by
  unfold HermTraceless
  rw [toM_slice_sum]
  constructor
  · unfold Matrix.IsHermitian
    rw [conjTranspose_sum]
    exact sum_congr rfl fun i hi => (hP i (mem_range.1 hi)).1
  · rw [Matrix.trace_sum]
    exact sum_eq_zero fun i hi => (hP i (mem_range.1 hi)).2

theorem const_time_eq {NC : ℕ} (hN : 1 ≤ NC) (L : Latt) (scratch : Arr ℂ) (P : ℕ → Arr ℂ) (hT : 2 ≤ L.dims (L.ND - 1)) :
    ∃ c : ℝ, 0 < c ∧ const_time NC L scratch P = some ((∑ t ∈ Ico 1 (L.dims (L.ND - 1)),
      slice_difference NC scratch (slice_sum NC L scratch P 0) (slice_sum NC L scratch P (lcu L * t))) * c) := by
  have hp : 0 < NC * NC * (L.dims (L.ND - 1) - 1) := Nat.mul_pos (Nat.mul_pos hN hN) (by omega)
  have hp' : (0 : ℝ) < (NC * NC * (L.dims (L.ND - 1) - 1) : ℕ) := by exact_mod_cast hp
  refine ⟨1 / (NC * NC * (L.dims (L.ND - 1) - 1) : ℕ), by positivity, ?_⟩
  unfold const_time fdiv
  rw [if_neg hp'.ne', Option.map_some, forFrom_sum, zero_add]

/-- **C118**, temporal constance for other than two colours: the number is defined, not negative, and zero exactly if the sum of the
potentials over a time slice is the same for all slices. -/
theorem C118_constance {NC : ℕ} (hN : 1 ≤ NC) (h2 : NC ≠ 2) (L : Latt) (scratch : Arr ℂ) {P : ℕ → Arr ℂ}
    (hT : 2 ≤ L.dims (L.ND - 1)) (hP : ∀ t < L.dims (L.ND - 1), ∀ i < lcu L, HermTraceless NC (P (lcu L * t + i))) :
    ∃ x, const_time NC L scratch P = some x ∧ 0 ≤ x ∧ (x = 0 ↔ ∀ t < L.dims (L.ND - 1),
      ∑ i ∈ range (lcu L), toM NC (P (lcu L * t + i)) = ∑ i ∈ range (lcu L), toM NC (P i)) := by
  obtain ⟨c, hc, h⟩ := const_time_eq hN L scratch P hT
  refine ⟨_, h, mul_nonneg (sum_nonneg fun t _ => slice_difference_nonneg _ _ _ _) hc.le, ?_⟩
  rw [mul_eq_zero, or_iff_left hc.ne', sum_eq_zero_iff_of_nonneg fun t _ => slice_difference_nonneg _ _ _ _]
  have h0 : HermTraceless NC (slice_sum NC L scratch P 0) := hermTraceless_slice NC L scratch fun i hi => by
    simpa using hP 0 (by omega) i hi
  have key : ∀ t < L.dims (L.ND - 1), (slice_difference NC scratch (slice_sum NC L scratch P 0)
      (slice_sum NC L scratch P (lcu L * t)) = 0 ↔ ∑ i ∈ range (lcu L), toM NC (P (lcu L * t + i)) =
        ∑ i ∈ range (lcu L), toM NC (P i)) := by
    intro t ht
    rw [slice_difference_zero h2 scratch h0 (hermTraceless_slice NC L scratch (hP t ht)), toM_slice_sum, toM_slice_sum]
    simp only [Nat.zero_add]
    exact eq_comm
  constructor
  · intro h t ht
    by_cases e : t = 0
    · subst e; simp
    · exact (key t ht).1 (h t (mem_Ico.2 ⟨by omega, ht⟩))
  · intro h t ht
    exact (key t (mem_Ico.1 ht).2).2 (h t (mem_Ico.1 ht).2)

/-- **C118**, temporal constance for two colours: only the entry above the diagonal is compared. -/
theorem C118_constance_two_partial (L : Latt) (scratch : Arr ℂ) (P : ℕ → Arr ℂ) (hT : 2 ≤ L.dims (L.ND - 1)) :
    ∃ x, const_time 2 L scratch P = some x ∧ 0 ≤ x ∧ (x = 0 ↔ ∀ t < L.dims (L.ND - 1),
      (∑ i ∈ range (lcu L), toM 2 (P (lcu L * t + i))) 0 1 = (∑ i ∈ range (lcu L), toM 2 (P i)) 0 1) := by
  obtain ⟨c, hc, h⟩ := const_time_eq (NC := 2) (by norm_num) L scratch P hT
  refine ⟨_, h, mul_nonneg (sum_nonneg fun t _ => slice_difference_nonneg _ _ _ _) hc.le, ?_⟩
  rw [mul_eq_zero, or_iff_left hc.ne', sum_eq_zero_iff_of_nonneg fun t _ => slice_difference_nonneg _ _ _ _]
  have key : ∀ t, (slice_difference 2 scratch (slice_sum 2 L scratch P 0) (slice_sum 2 L scratch P (lcu L * t)) = 0 ↔
      (∑ i ∈ range (lcu L), toM 2 (P (lcu L * t + i))) 0 1 = (∑ i ∈ range (lcu L), toM 2 (P i)) 0 1) := by
    intro t
    have e1 := toM_slice_sum 2 L scratch P 0
    have e2 := toM_slice_sum 2 L scratch P (lcu L * t)
    simp only [Nat.zero_add] at e1
    rw [← e1, ← e2, toM_apply, toM_apply]
    unfold slice_difference
    rw [if_neg (by norm_num), if_pos rfl]
    simp only [sub_self, abs_zero, zero_add, norm_eq_zero, sub_eq_zero]
    norm_num
    exact eq_comm
  constructor
  · intro h t ht
    by_cases e : t = 0
    · subst e; simp
    · exact (key t).1 (h t (mem_Ico.2 ⟨by omega, ht⟩))
  · intro h t ht
    exact (key t).2 (h t (mem_Ico.1 ht).2)

/-- With a single time slice the number is not defined. -/
theorem C118_constance_one_slice (NC : ℕ) (L : Latt) (scratch : Arr ℂ) (P : ℕ → Arr ℂ) (hT : L.dims (L.ND - 1) = 1) :
    const_time NC L scratch P = none := by
  unfold const_time fdiv
  simp [hT]

/-! ## Landau gauge -/

/-- The temporal potential summed over a time slice. -/
noncomputable def sliceCharge (NC : ℕ) (L : Latt) (lat : Gauge) (t : ℕ) : Matrix (Fin NC) (Fin NC) ℂ :=
  ∑ i ∈ range (lcu L), lieHerm (link NC lat (lcu L * t + i) (L.ND - 1))

theorem theta_zero_iff {NC : ℕ} (hN : 2 ≤ NC) {L : Latt} (hL : Valid L) (scratch : Arr ℂ) {lat : Gauge}
    (hU : SUField NC L lat) {D : ℕ} (hD : D ≤ L.ND) :
    theta_test_lin NC L scratch lat D = some 0 ↔ ∀ i < volume L, divergence NC L lat i D = 0 := by
  have hV : 0 < volume L := volume_pos hL
  have hpos : (0 : ℝ) < 4 / (NC * volume L) := by
    have : (0 : ℝ) < NC := by exact_mod_cast (show 0 < NC by omega)
    have : (0 : ℝ) < volume L := by exact_mod_cast hV
    positivity
  have hh := fun i => divergence_herm (NC := NC) L lat i D
  rw [C80_theta hN hL scratch hU hD, Option.some_inj, mul_eq_zero, or_iff_right hpos.ne',
    sum_eq_zero_iff_of_nonneg fun i _ => herm_sq_nonneg (hh i).1]
  exact ⟨fun h i hi => (herm_sq_zero (hh i).1).1 (h i (mem_range.2 hi)),
    fun h i hi => (herm_sq_zero (hh i).1).2 (h i (mem_range.1 hi))⟩

theorem slice_shift {L : Latt} (hL : Valid L) {t mu : ℕ} (ht : t < L.dims (L.ND - 1)) (hmu : mu < L.ND - 1) {V : Type*}
    [AddCommMonoid V] (f : ℕ → V) :
    ∑ i ∈ range (lcu L), f (back L (lcu L * t + i) mu) = ∑ i ∈ range (lcu L), f (lcu L * t + i) := by
  have h0 : 0 < L.dims (L.ND - 1) := by omega
  have hlt : ∀ i < lcu L, i < volume L := fun i hi => by simpa using slice_lt h0 hi
  refine sum_nbij' (fun i => back L i mu) (fun i => neighbor L i mu) (fun i hi => ?_) (fun i hi => ?_) (fun i hi => ?_)
    (fun i hi => ?_) (fun i hi => ?_)
  · exact mem_range.2 (slice_back hL ht (mem_range.1 hi) hmu).1
  · exact mem_range.2 ((slice_neighbor hL ht (mem_range.1 hi)).1 mu hmu).1
  · exact (C02_inverse hL (hlt i (mem_range.1 hi)) (by omega)).2
  · exact (C02_inverse hL (hlt i (mem_range.1 hi)) (by omega)).1
  · rw [(slice_back hL ht (mem_range.1 hi) hmu).2]

/-- The change of the sum from one slice to the next is the divergence summed over the slice. -/
theorem slice_divergence {NC : ℕ} {L : Latt} (hL : Valid L) (lat : Gauge) {t : ℕ} (ht : t + 1 < L.dims (L.ND - 1)) :
    ∑ i ∈ range (lcu L), divergence NC L lat (lcu L * (t + 1) + i) L.ND = sliceCharge NC L lat t - sliceCharge NC L lat (t + 1) := by
  have hnd := hL.nd
  unfold divergence sliceCharge
  rw [sum_comm, show range L.ND = range (L.ND - 1 + 1) by rw [Nat.sub_add_cancel (by omega)], sum_range_succ]
  have hz : ∑ mu ∈ range (L.ND - 1), ∑ i ∈ range (lcu L), (lieHerm (link NC lat (back L (lcu L * (t + 1) + i) mu) mu) -
      lieHerm (link NC lat (lcu L * (t + 1) + i) mu)) = 0 := by
    refine sum_eq_zero fun mu hmu => ?_
    rw [sum_sub_distrib, slice_shift hL ht (mem_range.1 hmu) fun x => lieHerm (link NC lat x mu), sub_self]
  rw [hz, zero_add, sum_sub_distrib]
  congr 1
  refine sum_congr rfl fun i hi => ?_
  have := Smear.slice_back hL (t := t + 1) ht (mem_range.1 hi)
  rw [this]
  have e : (t + 1 + (Smear.extent L - 1)) % Smear.extent L = t := by
    have hx : Smear.extent L = L.dims (L.ND - 1) := rfl
    rw [hx, show t + 1 + (L.dims (L.ND - 1) - 1) = t + L.dims (L.ND - 1) by omega, Nat.add_mod_right,
      Nat.mod_eq_of_lt (by omega)]
  rw [e]

/-- **C118**, Landau gauge: if the convergence test of the Landau gauge is exactly zero then the sum of the temporal potential is the
same for all time slices, and the temporal constance printed is zero. -/
theorem C118_landau_constant {NC : ℕ} (hN : 2 ≤ NC) {L : Latt} (hL : Valid L) (scratch : Arr ℂ) {lat : Gauge}
    (hU : SUField NC L lat) (h : theta_test_lin NC L scratch lat L.ND = some 0) :
    (∀ t < L.dims (L.ND - 1), sliceCharge NC L lat t = sliceCharge NC L lat 0) ∧
    (2 ≤ L.dims (L.ND - 1) → const_lin NC L scratch lat = some 0) := by
  rw [theta_zero_iff hN hL scratch hU le_rfl] at h
  have h1 : ∀ t < L.dims (L.ND - 1), sliceCharge NC L lat t = sliceCharge NC L lat 0 := by
    intro t
    induction t with
    | zero => intro _; rfl
    | succ t ih =>
      intro ht
      have := slice_divergence (NC := NC) hL lat ht
      rw [sum_eq_zero fun i hi => h _ (slice_lt ht (mem_range.1 hi))] at this
      rw [← ih (by omega), ← sub_eq_zero.1 this.symm]
  refine ⟨h1, fun hT => ?_⟩
  have hnd := hL.nd
  have hP : ∀ t < L.dims (L.ND - 1), ∀ i < lcu L, toM NC (Hermitian_proj NC scratch (lat (lcu L * t + i, L.ND - 1))) =
      lieHerm (link NC lat (lcu L * t + i) (L.ND - 1)) := fun t ht i hi =>
    C70_hermitian (by omega) scratch (quatForm_su (hU _ (slice_lt ht hi) _ (by omega)))
  have hs : ∀ t < L.dims (L.ND - 1), ∑ i ∈ range (lcu L), toM NC (Hermitian_proj NC scratch (lat (lcu L * t + i, L.ND - 1))) =
      sliceCharge NC L lat t := fun t ht => sum_congr rfl fun i hi => hP t ht i (mem_range.1 hi)
  have hs0 := hs 0 (by omega)
  simp only [Nat.mul_zero, Nat.zero_add] at hs0
  by_cases h2 : NC = 2
  · subst h2
    obtain ⟨x, e, -, hx⟩ := C118_constance_two_partial L scratch
      (fun i => Hermitian_proj 2 scratch (lat (i, L.ND - 1))) hT
    rw [const_lin, e, hx.2 fun t ht => by rw [hs t ht, hs0, h1 t ht]]
  · obtain ⟨x, e, -, hx⟩ := C118_constance (by omega) h2 L scratch
      (P := fun i => Hermitian_proj NC scratch (lat (i, L.ND - 1))) hT fun t ht i hi => by
        unfold HermTraceless
        rw [hP t ht i hi]
        exact ⟨lieHerm_hermitian _, lieHerm_traceless _⟩
    rw [const_lin, e, hx.2 fun t ht => by rw [hs t ht, hs0, h1 t ht]]

/-! ## Two colours -/

/-- Unit links, except that the temporal links of the time slice 1 are `diag( i , -i )`. -/
noncomputable def stepField (L : Latt) : Gauge := fun l =>
  if l.2 = L.ND - 1 ∧ l.1 / lcu L = 1 then arr [I, 0, 0, -I] else arr [1, 0, 0, 1]

theorem stepField_su (L : Latt) : SUField 2 L (stepField L) := by
  intro i _ mu _
  unfold stepField
  split_ifs
  all_goals
    unfold IsSU
    rw [mem_specialUnitaryGroup_iff, mem_unitaryGroup_iff]
    constructor
    · ext a b
      fin_cases a <;> fin_cases b <;> simp [Matrix.mul_apply, Fin.sum_univ_two, arr, star_eq_conjTranspose]
    · simp [det_fin_two, arr]

theorem stepField_charge {L : Latt} (hL : Valid L) {t : ℕ} :
    sliceCharge 2 L (stepField L) t = if t = 1 then (lcu L : ℂ) • !![1, 0; 0, -1] else 0 := by
  have e : ∀ i ∈ range (lcu L), lieHerm (link 2 (stepField L) (lcu L * t + i) (L.ND - 1)) =
      if t = 1 then !![1, 0; 0, -1] else 0 := by
    intro i hi
    have hd : (lcu L * t + i) / lcu L = t := by
      rw [Nat.mul_add_div (lcu_pos hL), Nat.div_eq_of_lt (mem_range.1 hi), Nat.add_zero]
    unfold link stepField
    simp only [hd, true_and]
    split_ifs with h
    · ext a b
      rw [lieHerm_apply]
      fin_cases a <;> fin_cases b <;> simp [Fin.sum_univ_two, arr] <;> apply Complex.ext <;> simp <;> norm_num
    · ext a b
      rw [lieHerm_apply]
      fin_cases a <;> fin_cases b <;> simp [Fin.sum_univ_two, arr]
  unfold sliceCharge
  rw [sum_congr rfl e]
  split_ifs
  · rw [sum_const, card_range, ← Nat.cast_smul_eq_nsmul ℂ]
  · simp

/-- **C118** fails for two colours: on every lattice with two time slices or more there is a special unitary field whose temporal
potential is not constant in time, for which the temporal constance printed is zero. -/
theorem C118_constance_two_fails {L : Latt} (hL : Valid L) (scratch : Arr ℂ) (hT : 2 ≤ L.dims (L.ND - 1)) :
    ∃ lat, SUField 2 L lat ∧ sliceCharge 2 L lat 1 ≠ sliceCharge 2 L lat 0 ∧ const_lin 2 L scratch lat = some 0 := by
  have hnd := hL.nd
  refine ⟨stepField L, stepField_su L, ?_, ?_⟩
  · rw [stepField_charge hL, stepField_charge hL, if_pos rfl, if_neg (by norm_num)]
    intro h
    have := congrFun (congrFun h 0) 0
    have hp := lcu_pos hL
    simp at this
    omega
  · obtain ⟨x, e, -, hx⟩ := C118_constance_two_partial L scratch
      (fun i => Hermitian_proj 2 scratch (stepField L (i, L.ND - 1))) hT
    have hs : ∀ t < L.dims (L.ND - 1), (∑ i ∈ range (lcu L),
        toM 2 (Hermitian_proj 2 scratch (stepField L (lcu L * t + i, L.ND - 1)))) 0 1 = 0 := by
      intro t ht
      have h1 : ∑ i ∈ range (lcu L), toM 2 (Hermitian_proj 2 scratch (stepField L (lcu L * t + i, L.ND - 1))) =
          sliceCharge 2 L (stepField L) t := sum_congr rfl fun i hi =>
        C70_hermitian (by norm_num) scratch (quatForm_su (stepField_su L _ (slice_lt ht (mem_range.1 hi)) _ (by omega)))
      rw [h1, stepField_charge hL]
      split_ifs <;> simp
    have hs0 := hs 0 (by omega)
    simp only [Nat.mul_zero, Nat.zero_add] at hs0
    rw [const_lin, e, hx.2 fun t ht => by rw [hs t ht, hs0]]

/-- The unit field is in Landau gauge: the hypotheses of `C118_landau_constant` can be met. -/
example : theta_test_lin 2 L2345 (fun _ => 0) (fun _ => arr [1, 0, 0, 1]) L2345.ND = some 0 := by
  have hU : SUField 2 L2345 (fun _ => arr [1, 0, 0, 1]) := by
    intro i _ mu _
    unfold IsSU
    rw [mem_specialUnitaryGroup_iff, mem_unitaryGroup_iff]
    constructor
    · ext a b
      fin_cases a <;> fin_cases b <;> simp [Matrix.mul_apply, Fin.sum_univ_two, arr, star_eq_conjTranspose]
    · simp [det_fin_two, arr]
  rw [theta_zero_iff (by norm_num) valid_L2345 _ hU le_rfl]
  intro i _
  unfold divergence
  exact sum_eq_zero fun mu _ => sub_self _

end GLU.Gfix
