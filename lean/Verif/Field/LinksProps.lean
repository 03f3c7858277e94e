import Verif.Field.Props

/-!
# Link traces and the threaded plaquette
-/

namespace GLU.Field

open Complex Matrix GLU.Mat GLU.Geom GLU.Sched Finset

/-! ## Real part of the trace of a unitary matrix -/

theorem re_trace_gap {n : ℕ} {U : Matrix (Fin n) (Fin n) ℂ} (h : Uᴴ * U = 1) :
    ∑ i, ∑ j, normSq ((1 - U) i j) = 2 * (n - (Matrix.trace U).re) := by
  have e : Matrix.trace ((1 - U)ᴴ * (1 - U)) = 2 * n - Matrix.trace U - Matrix.trace Uᴴ := by
    rw [conjTranspose_sub, conjTranspose_one, sub_mul, mul_sub, mul_sub, h]
    simp only [Matrix.trace_sub, one_mul, mul_one, Matrix.trace_one, Fintype.card_fin]
    ring
  have e2 : (Matrix.trace ((1 - U)ᴴ * (1 - U))).re = ∑ i, ∑ j, normSq ((1 - U) i j) := by
    rw [sum_comm]
    simp only [Matrix.trace, Matrix.diag_apply, Matrix.mul_apply, Complex.re_sum]
    refine sum_congr rfl fun j _ => sum_congr rfl fun i _ => ?_
    rw [conjTranspose_apply]
    simp [normSq_apply]
    ring
  rw [← e2, e]
  have := re_trace_star U
  simp only [Complex.sub_re, this]
  simp
  ring

theorem re_trace_le {n : ℕ} {U : Matrix (Fin n) (Fin n) ℂ} (h : Uᴴ * U = 1) : (Matrix.trace U).re ≤ n := by
  have := re_trace_gap h
  have h0 : 0 ≤ ∑ i, ∑ j, normSq ((1 - U) i j) := sum_nonneg fun i _ => sum_nonneg fun j _ => normSq_nonneg _
  linarith

theorem neg_le_re_trace {n : ℕ} {U : Matrix (Fin n) (Fin n) ℂ} (h : Uᴴ * U = 1) : -(n : ℝ) ≤ (Matrix.trace U).re := by
  have := re_trace_le (U := -U) (by simpa using h)
  simp only [Matrix.trace_neg, Complex.neg_re] at this
  linarith

theorem re_trace_eq {n : ℕ} {U : Matrix (Fin n) (Fin n) ℂ} (h : Uᴴ * U = 1) :
    (Matrix.trace U).re = n ↔ U = 1 := by
  constructor
  · intro e
    have hg := re_trace_gap h
    rw [e, sub_self, mul_zero] at hg
    have hg := (sum_eq_zero_iff_of_nonneg fun i _ => sum_nonneg fun j _ => normSq_nonneg ((1 - U) i j)).1 hg
    ext i j
    have := hg i (mem_univ _)
    rw [sum_eq_zero_iff_of_nonneg fun j _ => normSq_nonneg _] at this
    have := normSq_eq_zero.1 (this j (mem_univ _))
    rw [Matrix.sub_apply, sub_eq_zero] at this
    exact this.symm
  · rintro rfl
    simp

/-! ## C66 -/

theorem volume_pos {L : Latt} (hL : Valid L) : 0 < volume L := by
  rw [volume_eq L hL.nd]; exact hL.radix_pos _ (le_refl _)

/-- **C66**, what is measured: the average link trace is the mean of the real trace over the number of colours, over
all sites and directions; the spatial one only over the first `ND - 1` directions, the temporal one only over the
last; `all_links` gives the same three numbers, and they are consistent with each other. -/
theorem C66_average {NC : ℕ} {L : Latt} (hN : 1 ≤ NC) (hL : Valid L) (lat : Gauge) :
    let w : ℕ → ℕ → ℝ := fun i mu => (Matrix.trace (link NC lat i mu)).re / NC
    let a := (∑ i ∈ range (volume L), ∑ mu ∈ range L.ND, w i mu) / (volume L * L.ND)
    let s := (∑ i ∈ range (volume L), ∑ mu ∈ range (L.ND - 1), w i mu) / (volume L * (L.ND - 1))
    let t := (∑ i ∈ range (volume L), w i (L.ND - 1)) / volume L
    links NC L lat = some a ∧ s_links NC L lat = some s ∧ t_links NC L lat = some t ∧
    all_links NC L lat = some (a, s, t) ∧ a = ((L.ND - 1) * s + t) / L.ND := by
  intro w a s t
  have hV := volume_pos hL
  have hnd := hL.nd
  have hNr : (NC : ℝ) ≠ 0 := by positivity
  have hVr : (volume L : ℝ) ≠ 0 := by positivity
  have e1 : ((L.ND - 1 : ℕ) : ℝ) = (L.ND : ℝ) - 1 := by push_cast [show 1 ≤ L.ND by omega]; ring
  have hndr : (L.ND : ℝ) - 1 ≠ 0 := by rw [← e1]; exact_mod_cast (by omega : L.ND - 1 ≠ 0)
  have hnd0 : (L.ND : ℝ) ≠ 0 := by positivity
  have hsp : forN (volume L) (fun i link =>
      link + forN (L.ND - 1) (fun mu p => p + speed_trace_Re NC (lat (i, mu))) 0) 0 =
      NC * ∑ i ∈ range (volume L), ∑ mu ∈ range (L.ND - 1), w i mu := by
    simp only [forN_sum, zero_add, C12_speed_trace_Re, mul_sum]
    refine sum_congr rfl fun i _ => sum_congr rfl fun mu _ => ?_
    simp only [w, link]; field_simp
  have htm : forN (volume L) (fun i link => link + speed_trace_Re NC (lat (i, L.ND - 1))) 0 =
      NC * ∑ i ∈ range (volume L), w i (L.ND - 1) := by
    simp only [forN_sum, zero_add, C12_speed_trace_Re, mul_sum]
    refine sum_congr rfl fun i _ => ?_
    simp only [w, link]; field_simp
  have hall : forN (volume L) (fun i link =>
      link + forN L.ND (fun mu p => p + speed_trace_Re NC (lat (i, mu))) 0) 0 =
      NC * ∑ i ∈ range (volume L), ∑ mu ∈ range L.ND, w i mu := by
    simp only [forN_sum, zero_add, C12_speed_trace_Re, mul_sum]
    refine sum_congr rfl fun i _ => sum_congr rfl fun mu _ => ?_
    simp only [w, link]; field_simp
  have hsplit : (∑ i ∈ range (volume L), ∑ mu ∈ range L.ND, w i mu) =
      (∑ i ∈ range (volume L), ∑ mu ∈ range (L.ND - 1), w i mu) + ∑ i ∈ range (volume L), w i (L.ND - 1) := by
    rw [← sum_add_distrib]
    refine sum_congr rfl fun i _ => ?_
    obtain ⟨n, hn⟩ : ∃ n, L.ND = n + 1 := ⟨L.ND - 1, by omega⟩
    rw [hn, sum_range_succ, Nat.add_sub_cancel]
  have d1 : ((L.ND * NC * volume L : ℕ) : ℝ) ≠ 0 := by push_cast; positivity
  have d2 : ((volume L * (L.ND - 1) * NC : ℕ) : ℝ) ≠ 0 := by push_cast; rw [e1]; positivity
  have d3 : ((volume L * NC : ℕ) : ℝ) ≠ 0 := by push_cast; positivity
  have d4 : (((L.ND - 1) * NC * volume L : ℕ) : ℝ) ≠ 0 := by push_cast; rw [e1]; positivity
  have d5 : ((NC * volume L : ℕ) : ℝ) ≠ 0 := by push_cast; positivity
  refine ⟨?_, ?_, ?_, ?_, ?_⟩
  · unfold links fdiv
    rw [if_neg d1, hall]; simp only [a, Option.some_inj]; push_cast; field_simp
  · unfold s_links fdiv
    rw [if_neg d2, hsp]; simp only [s, Option.some_inj]; push_cast; rw [e1]; field_simp
  · unfold t_links fdiv
    rw [if_neg d3, htm]; simp only [t, Option.some_inj]; push_cast; field_simp
  · unfold all_links fdiv
    rw [forN_sum2]
    rw [forN_sum, zero_add] at hsp htm
    simp only [zero_add]
    rw [hsp, htm, if_neg d4, if_neg d5, if_neg d1]
    simp only [Option.bind_some, Option.map_some, Option.some_inj, Prod.mk.injEq, a, s, t]
    push_cast
    rw [e1, hsplit]
    refine ⟨?_, ?_, ?_⟩ <;> field_simp
  · simp only [a, s, t]
    rw [hsplit]
    field_simp

/-- **C66**, range: on any configuration of special unitary links the average link trace lies between -1 and 1, and
it is 1 exactly on the configuration of unit links, so the measurement recognises it. -/
theorem C66_range {NC : ℕ} {L : Latt} (hN : 1 ≤ NC) (hL : Valid L) {lat : Gauge} (hU : SUField NC L lat) :
    ∃ a, links NC L lat = some a ∧ -1 ≤ a ∧ a ≤ 1 ∧ (a = 1 ↔ ∀ i < volume L, ∀ mu < L.ND, toM NC (lat (i, mu)) = 1) := by
  have hV := volume_pos hL
  have hnd := hL.nd
  have hNr : (0 : ℝ) < NC := by positivity
  refine ⟨_, (C66_average hN hL lat).1, ?_⟩
  have hd : (0 : ℝ) < volume L * L.ND := by positivity
  have hc : ∀ c : ℝ, ∑ i ∈ range (volume L), ∑ mu ∈ range L.ND, c = volume L * L.ND * c := by
    intro c; simp [mul_assoc]
  have hle : ∀ i ∈ range (volume L), ∀ mu ∈ range L.ND, (Matrix.trace (link NC lat i mu)).re / NC ≤ 1 := by
    intro i hi mu hmu
    rw [div_le_one hNr]
    exact re_trace_le (su_star_mul (hU i (mem_range.1 hi) mu (mem_range.1 hmu)))
  refine ⟨?_, ?_, ?_⟩
  · rw [le_div_iff₀ hd]
    calc -1 * ((volume L : ℝ) * L.ND) = ∑ i ∈ range (volume L), ∑ mu ∈ range L.ND, (-1 : ℝ) := by rw [hc]; ring
      _ ≤ _ := by
        refine sum_le_sum fun i hi => sum_le_sum fun mu hmu => ?_
        rw [le_div_iff₀ hNr]
        have := neg_le_re_trace (su_star_mul (hU i (mem_range.1 hi) mu (mem_range.1 hmu)))
        unfold link; linarith
  · rw [div_le_one hd]
    calc _ ≤ ∑ i ∈ range (volume L), ∑ mu ∈ range L.ND, (1 : ℝ) :=
          sum_le_sum fun i hi => sum_le_sum fun mu hmu => hle i hi mu hmu
      _ = _ := by rw [hc]; ring
  · rw [div_eq_one_iff_eq hd.ne']
    have h1 : ((volume L : ℝ) * L.ND) = ∑ i ∈ range (volume L), ∑ mu ∈ range L.ND, (1 : ℝ) := by rw [hc]; ring
    rw [h1, sum_eq_sum_iff_of_le fun i hi => sum_le_sum fun mu hmu => hle i hi mu hmu]
    constructor
    · intro h i hi mu hmu
      have := (sum_eq_sum_iff_of_le fun mu hmu => hle i (mem_range.2 hi) mu hmu).1 (h i (mem_range.2 hi)) mu (mem_range.2 hmu)
      rw [div_eq_one_iff_eq hNr.ne'] at this
      exact (re_trace_eq (su_star_mul (hU i hi mu hmu))).1 this
    · intro h i hi
      refine sum_congr rfl fun mu hmu => ?_
      rw [div_eq_one_iff_eq hNr.ne']
      exact (re_trace_eq (su_star_mul (hU i (mem_range.1 hi) mu (mem_range.1 hmu)))).2
        (h i (mem_range.1 hi) mu (mem_range.1 hmu))

/-- The unit configuration and its negative for two colours meet the hypotheses of `C66_range`. -/
example : ∃ (L : Latt) (lat : Gauge), Valid L ∧ SUField 2 L lat ∧
    ¬∀ i < volume L, ∀ mu < L.ND, toM 2 (lat (i, mu)) = 1 := by
  refine ⟨⟨2, fun _ => 2⟩, fun _ => arr [-1, 0, 0, -1], ⟨by norm_num, by norm_num, by norm_num [prod_range_succ]⟩, ?_, ?_⟩
  · intro i _ mu _
    unfold IsSU
    rw [mem_specialUnitaryGroup_iff, mem_unitaryGroup_iff]
    constructor
    · ext i j; fin_cases i <;> fin_cases j <;> simp [Matrix.mul_apply, Fin.sum_univ_two, toM, arr]
    · simp [Matrix.det_fin_two, toM, arr]
  · intro h
    have := h 0 (volume_pos ⟨by norm_num, by norm_num, by norm_num [prod_range_succ]⟩) 0 (by norm_num)
    have := congrFun (congrFun this 0) 0
    simp [toM, arr] at this
    norm_num [Complex.ext_iff] at this

theorem max_loop (n : ℕ) (f : ℕ → ℝ) (s : ℝ × ℝ) :
    let r := forN n (fun k (s : ℝ × ℝ) => (s.1 + f k, if s.2 < f k then f k else s.2)) s
    r.1 = s.1 + ∑ k ∈ range n, f k ∧ s.2 ≤ r.2 ∧ (∀ k < n, f k ≤ r.2) ∧ (r.2 = s.2 ∨ ∃ k < n, r.2 = f k) := by
  induction n with
  | zero => simp [forN]
  | succ n ih =>
    dsimp only at ih ⊢
    rw [forN]
    obtain ⟨h1, h2, h3, h4⟩ := ih
    set r := forN n (fun k (s : ℝ × ℝ) => (s.1 + f k, if s.2 < f k then f k else s.2)) s
    dsimp only
    refine ⟨by rw [h1, sum_range_succ]; ring, ?_, ?_, ?_⟩
    · split <;> linarith
    · intro k hk
      rcases Nat.lt_succ_iff_lt_or_eq.1 hk with hk | rfl
      · have := h3 k hk; split <;> linarith
      · split <;> linarith
    · split
      · exact Or.inr ⟨n, by omega, rfl⟩
      · rcases h4 with h | ⟨k, hk, h⟩
        · exact Or.inl h
        · exact Or.inr ⟨k, by omega, h⟩

/-- **C66**, largest trace: `indivlinks` returns the same average as `links`, and its second result is at least the
real trace of every link; it is attained by a link unless every real trace is negative or zero, when it is zero. -/
theorem C66_max_partial {NC : ℕ} {L : Latt} (hN : 1 ≤ NC) (hL : Valid L) (lat : Gauge) :
    ∃ a m, links NC L lat = some a ∧ indivlinks NC L lat = some (a, m) ∧
      (∀ i < volume L, ∀ mu < L.ND, (Matrix.trace (link NC lat i mu)).re ≤ m) ∧
      (m = 0 ∨ ∃ i < volume L, ∃ mu < L.ND, m = (Matrix.trace (link NC lat i mu)).re) := by
  have key : ∀ n, let r := forN n (fun i (r : ℝ × ℝ) =>
      let s := forN L.ND (fun mu (s : ℝ × ℝ) =>
        let res := speed_trace_Re NC (lat (i, mu))
        (s.1 + res, if s.2 < res then res else s.2)) (0, r.2)
      (r.1 + s.1, s.2)) (0, 0)
      r.1 = (∑ i ∈ range n, ∑ mu ∈ range L.ND, speed_trace_Re NC (lat (i, mu))) ∧
      (∀ i < n, ∀ mu < L.ND, (Matrix.trace (link NC lat i mu)).re ≤ r.2) ∧
      (r.2 = 0 ∨ ∃ i < n, ∃ mu < L.ND, r.2 = (Matrix.trace (link NC lat i mu)).re) := by
    intro n
    induction n with
    | zero => simp [forN]
    | succ n ih =>
      dsimp only at ih ⊢
      rw [forN]
      set r := forN n (fun i (r : ℝ × ℝ) =>
        (r.1 + (forN L.ND (fun mu (s : ℝ × ℝ) => (s.1 + speed_trace_Re NC (lat (i, mu)),
          if s.2 < speed_trace_Re NC (lat (i, mu)) then speed_trace_Re NC (lat (i, mu)) else s.2)) (0, r.2)).1,
        (forN L.ND (fun mu (s : ℝ × ℝ) => (s.1 + speed_trace_Re NC (lat (i, mu)),
          if s.2 < speed_trace_Re NC (lat (i, mu)) then speed_trace_Re NC (lat (i, mu)) else s.2)) (0, r.2)).2)) (0, 0)
      obtain ⟨h1, h2, h3⟩ := ih
      obtain ⟨g1, g2, g3, g4⟩ := max_loop L.ND (fun mu => speed_trace_Re NC (lat (n, mu))) (0, r.2)
      dsimp only at g1 g2 g3 g4 ⊢
      refine ⟨by rw [h1, g1, sum_range_succ, zero_add], ?_, ?_⟩
      · intro i hi mu hmu
        rcases Nat.lt_succ_iff_lt_or_eq.1 hi with hi | rfl
        · exact le_trans (h2 i hi mu hmu) g2
        · have := g3 mu hmu; rwa [C12_speed_trace_Re] at this
      · rcases g4 with h | ⟨k, hk, h⟩
        · rw [h]
          rcases h3 with h3 | ⟨i, hi, mu, hmu, h3⟩
          · exact Or.inl h3
          · exact Or.inr ⟨i, by omega, mu, hmu, h3⟩
        · exact Or.inr ⟨n, by omega, k, hk, by rw [h, C12_speed_trace_Re]; rfl⟩
  obtain ⟨k1, k2, k3⟩ := key (volume L)
  have hl := (C66_average hN hL lat).1
  refine ⟨_, _, hl, ?_, k2, k3⟩
  unfold links at hl
  simp only [forN_sum, zero_add] at hl
  unfold indivlinks
  dsimp only at k1 ⊢
  rw [k1, hl]
  rfl

/-- **C66** fails for the largest trace: with two colours and every link minus the unit matrix, all real traces are
-2 and the reported largest trace is 0. -/
theorem C66_max_fails :
    ∃ (L : Latt) (lat : Gauge), Valid L ∧ SUField 2 L lat ∧
      (∀ i < volume L, ∀ mu < L.ND, (Matrix.trace (link 2 lat i mu)).re = -2) ∧
      indivlinks 2 L lat = some (-1, 0) := by
  have hL : Valid ⟨2, fun _ => 2⟩ := ⟨by norm_num, by norm_num, by norm_num [prod_range_succ]⟩
  have htr : ∀ i mu, (Matrix.trace (link 2 (fun _ => arr [-1, 0, 0, -1]) i mu)).re = -2 := by
    intro i mu; simp [Matrix.trace, Fin.sum_univ_two, link, toM, arr]; norm_num
  refine ⟨⟨2, fun _ => 2⟩, fun _ => arr [-1, 0, 0, -1], hL, ?_, fun i _ mu _ => htr i mu, ?_⟩
  · intro i _ mu _
    unfold IsSU
    rw [mem_specialUnitaryGroup_iff, mem_unitaryGroup_iff]
    constructor
    · ext i j; fin_cases i <;> fin_cases j <;> simp [Matrix.mul_apply, Fin.sum_univ_two, toM, arr]
    · simp [Matrix.det_fin_two, toM, arr]
  · obtain ⟨a, m, h1, h2, h3, h4⟩ := C66_max_partial (NC := 2) (by norm_num) hL (fun _ => arr [-1, 0, 0, -1])
    have ha := (C66_average (NC := 2) (by norm_num) hL (fun _ => arr [-1, 0, 0, -1])).1
    simp only [htr] at ha
    rw [h1] at ha
    have hv : volume ⟨2, fun _ => 2⟩ = 4 := by rw [volume_eq _ hL.nd]; rfl
    rw [hv] at ha
    have hm : m = 0 := by
      rcases h4 with h | ⟨i, hi, mu, hmu, h⟩
      · exact h
      · have := forN_inv (fun _ (r : ℝ × ℝ) => 0 ≤ r.2) (n := 4) (s := (0, 0))
          (body := fun i (r : ℝ × ℝ) =>
            let s := forN 2 (fun mu (s : ℝ × ℝ) =>
              let res := speed_trace_Re 2 ((fun _ => arr [-1, 0, 0, -1] : Gauge) (i, mu))
              (s.1 + res, if s.2 < res then res else s.2)) (0, r.2)
            (r.1 + s.1, s.2)) (le_refl _) (by
              intro i _ r hr
              exact le_trans hr (max_loop 2 (fun mu => speed_trace_Re 2 ((fun _ => arr [-1, 0, 0, -1] : Gauge) (i, mu))) (0, r.2)).2.1)
        unfold indivlinks at h2
        rw [hv] at h2
        dsimp only at h2 this
        obtain ⟨y, -, hy⟩ := Option.map_eq_some_iff.1 h2
        rw [Prod.mk.injEq] at hy
        rw [hy.2, h, htr] at this
        norm_num at this
    rw [h2, hm]
    simp only [Option.some_inj] at ha
    rw [ha]
    norm_num

/-! ## Range of the plaquette -/

theorem square_unitary {NC : ℕ} {L : Latt} (hL : Valid L) {lat : Gauge} (hU : SUField NC L lat) {i mu nu : ℕ}
    (hi : i < volume L) (hmu : mu < L.ND) (hnu : nu < L.ND) :
    (square NC L lat i mu nu)ᴴ * square NC L lat i mu nu = 1 := by
  have a1 := su_star_mul (hU i hi mu hmu)
  have a2 := su_star_mul (hU _ (neighbor_lt hL i hmu) nu hnu)
  have a3 := su_mul_star (hU _ (neighbor_lt hL i hnu) mu hmu)
  have a4 := su_mul_star (hU i hi nu hnu)
  unfold square link
  simp only [conjTranspose_mul, conjTranspose_conjTranspose, Matrix.mul_assoc]
  rw [cancel_left a1, cancel_left a2, cancel_left a3, a4]

/-- **C29**, range: on special unitary links the average plaquette lies between -1 and 1 and is 1 exactly when the
product around every elementary square is the unit matrix. -/
theorem C29_range {NC : ℕ} {L : Latt} (hN : 1 ≤ NC) (hL : Valid L) {lat : Gauge} (hU : SUField NC L lat) :
    ∃ a, av_plaquette NC L lat = some a ∧ -1 ≤ a ∧ a ≤ 1 ∧
      (a = 1 ↔ ∀ i < volume L, ∀ mu < L.ND, ∀ nu < mu, square NC L lat i mu nu = 1) := by
  have hV := volume_pos hL
  have hnd := hL.nd
  have hNr : (0 : ℝ) < NC := by positivity
  have hn1 : (0 : ℝ) < (L.ND : ℝ) - 1 := by
    have : (2 : ℝ) ≤ L.ND := by exact_mod_cast hnd
    linarith
  refine ⟨_, C29_average hN hL hU, ?_⟩
  have hd : (0 : ℝ) < volume L * (L.ND * (L.ND - 1) / 2) := by positivity
  have hc : ∀ c : ℝ, ∑ i ∈ range (volume L), ∑ mu ∈ range L.ND, ∑ nu ∈ range mu, c =
      volume L * (L.ND * (L.ND - 1) / 2) * c := by
    intro c
    have := sum_triangle L.ND c
    rw [sum_const, card_range, nsmul_eq_mul]
    linear_combination (volume L / 2 : ℝ) * this
  have hu : ∀ i ∈ range (volume L), ∀ mu ∈ range L.ND, ∀ nu ∈ range mu,
      (square NC L lat i mu nu)ᴴ * square NC L lat i mu nu = 1 := by
    intro i hi mu hmu nu hnu
    rw [mem_range] at hi hmu hnu
    exact square_unitary hL hU hi hmu (by omega)
  have hle : ∀ i ∈ range (volume L), ∀ mu ∈ range L.ND, ∀ nu ∈ range mu,
      (Matrix.trace (square NC L lat i mu nu)).re / NC ≤ 1 := by
    intro i hi mu hmu nu hnu
    rw [div_le_one hNr]
    exact re_trace_le (hu i hi mu hmu nu hnu)
  refine ⟨?_, ?_, ?_⟩
  · rw [le_div_iff₀ hd]
    calc -1 * ((volume L : ℝ) * (L.ND * (L.ND - 1) / 2)) =
        ∑ i ∈ range (volume L), ∑ mu ∈ range L.ND, ∑ nu ∈ range mu, (-1 : ℝ) := by rw [hc]; ring
      _ ≤ _ := by
        refine sum_le_sum fun i hi => sum_le_sum fun mu hmu => sum_le_sum fun nu hnu => ?_
        rw [le_div_iff₀ hNr]
        have := neg_le_re_trace (hu i hi mu hmu nu hnu)
        linarith
  · rw [div_le_one hd]
    calc _ ≤ ∑ i ∈ range (volume L), ∑ mu ∈ range L.ND, ∑ nu ∈ range mu, (1 : ℝ) :=
          sum_le_sum fun i hi => sum_le_sum fun mu hmu => sum_le_sum fun nu hnu => hle i hi mu hmu nu hnu
      _ = _ := by rw [hc]; ring
  · rw [div_eq_one_iff_eq hd.ne']
    have h1 : ((volume L : ℝ) * (L.ND * (L.ND - 1) / 2)) =
        ∑ i ∈ range (volume L), ∑ mu ∈ range L.ND, ∑ nu ∈ range mu, (1 : ℝ) := by rw [hc]; ring
    rw [h1, sum_eq_sum_iff_of_le fun i hi => sum_le_sum fun mu hmu => sum_le_sum fun nu hnu => hle i hi mu hmu nu hnu]
    constructor
    · intro h i hi mu hmu nu hnu
      rw [← mem_range] at hi hmu hnu
      have h2 := (sum_eq_sum_iff_of_le fun mu hmu => sum_le_sum fun nu hnu => hle i hi mu hmu nu hnu).1 (h i hi) mu hmu
      have h3 := (sum_eq_sum_iff_of_le fun nu hnu => hle i hi mu hmu nu hnu).1 h2 nu hnu
      rw [div_eq_one_iff_eq hNr.ne'] at h3
      exact (re_trace_eq (hu i hi mu hmu nu hnu)).1 h3
    · intro h i hi
      refine sum_congr rfl fun mu hmu => sum_congr rfl fun nu hnu => ?_
      rw [div_eq_one_iff_eq hNr.ne']
      exact (re_trace_eq (hu i hi mu hmu nu hnu)).2
        (h i (mem_range.1 hi) mu (mem_range.1 hmu) nu (mem_range.1 hnu))

/-! ## The plaquette summed by several threads -/

/-- `sched` is a possible distribution of the loop over `V` sites on `Nthreads` threads: every site once, in some
order, each on an existing thread. -/
def IsSchedule (V Nthreads : ℕ) (sched : List (ℕ × ℕ)) : Prop :=
  (sched.map Prod.fst).Perm (List.range V) ∧ ∀ it ∈ sched, it.2 < Nthreads

theorem th_zero (c n : ℕ) (hc : 0 < c) (red : ℕ → ℝ) : ∀ k < n,
    forN n (fun i red => Function.update red (3 + c * i) (0 : ℝ)) red (3 + c * k) = 0 := by
  induction n with
  | zero => intro k hk; omega
  | succ n ih =>
    intro k hk
    rw [forN]
    by_cases h : k = n
    · subst h; rw [Function.update_self]
    · rw [Function.update_of_ne (by
        intro e
        exact h (Nat.eq_of_mul_eq_mul_left hc (by omega))), ih k (by omega)]

theorem th_sum (c n : ℕ) (hc : 0 < c) (f : ℕ → ℝ) (sched : List (ℕ × ℕ)) (h : ∀ it ∈ sched, it.2 < n) (red : ℕ → ℝ) :
    ∑ k ∈ range n, (sched.foldl (fun red it => Function.update red (3 + c * it.2)
      (red (3 + c * it.2) + f it.1)) red) (3 + c * k) = (∑ k ∈ range n, red (3 + c * k)) + (sched.map fun it => f it.1).sum := by
  induction sched generalizing red with
  | nil => simp
  | cons it sched ih =>
    rw [List.foldl_cons, ih (fun it hi => h it (List.mem_cons_of_mem _ hi)), List.map_cons, List.sum_cons, ← add_assoc]
    congr 1
    have h0 : it.2 ∈ range n := mem_range.2 (h it List.mem_cons_self)
    rw [← add_sum_erase _ _ h0, ← add_sum_erase (range n) (fun k => red (3 + c * k)) h0, Function.update_self]
    have he : ∑ k ∈ (range n).erase it.2, Function.update red (3 + c * it.2) (red (3 + c * it.2) + f it.1) (3 + c * k) =
        ∑ k ∈ (range n).erase it.2, red (3 + c * k) := by
      refine sum_congr rfl fun k hk => Function.update_of_ne ?_ _ _
      intro e
      have e : c * k = c * it.2 := by omega
      exact (mem_erase.1 hk).1 (Nat.eq_of_mul_eq_mul_left hc e)
    rw [he]
    ring

theorem th_total {NC : ℕ} {L : Latt} (Nthreads : ℕ) {sched : List (ℕ × ℕ)}
    (hs : IsSchedule (volume L) Nthreads sched) {lat : Gauge} {red : ℕ → ℝ} :
    forN Nthreads (fun k p => p + av_plaquette_th NC L Nthreads sched lat red (3 + cline L.ND * k)) 0 =
      ∑ i ∈ range (volume L), sitePlaq NC L lat L.ND i := by
  have hc : 0 < cline L.ND := by unfold cline; split <;> omega
  rw [forN_sum, zero_add]
  unfold av_plaquette_th
  rw [th_sum _ _ hc _ _ hs.2, sum_congr rfl fun k hk => th_zero _ _ hc red k (mem_range.1 hk), sum_const_zero, zero_add,
    show (fun it : ℕ × ℕ => sitePlaq NC L lat L.ND it.1) = (fun i => sitePlaq NC L lat L.ND i) ∘ Prod.fst from rfl,
    ← List.map_map, (hs.1.map _).sum_eq]
  rw [Finset.sum_eq_multiset_sum, Finset.range_val, ← Multiset.coe_range, Multiset.map_coe, Multiset.sum_coe]

/-- **C29** with threads: in four dimensions the plaquette measured inside the update and the flow is the average
plaquette, whatever the number of threads, the distribution of the sites over them, and the old contents of the
reduction array. -/
theorem C29_threads_partial {NC : ℕ} {L : Latt} (h4 : L.ND = 4) (Nthreads : ℕ)
    {sched : List (ℕ × ℕ)} (hs : IsSchedule (volume L) Nthreads sched) (lat : Gauge) (red : ℕ → ℝ) :
    get_plaq_th NC L Nthreads sched lat red = av_plaquette NC L lat := by
  unfold get_plaq_th
  dsimp only
  rw [th_total _ hs]
  unfold av_plaquette fdiv
  rw [forN_sum, zero_add, h4]
  have e1 : ((NC * (4 - 1) * (4 - 2) * volume L : ℕ) : ℝ) = 6 * (NC * volume L) := by push_cast; ring
  have e2 : ((NC * 4 * (4 - 1) * volume L : ℕ) : ℝ) = 12 * (NC * volume L) := by push_cast; ring
  rw [e1, e2]
  by_cases h : (NC * volume L : ℝ) = 0
  · rw [if_pos (by rw [h]; ring), if_pos (by rw [h]; ring)]
  · rw [if_neg (by simpa using h), if_neg (by simpa using h)]
    congr 1
    field_simp
    ring

/-- Two threads taking alternate sites, in an order of their own, meet the hypothesis of `C29_threads_partial`. -/
example : IsSchedule 4 2 [(1, 1), (0, 0), (3, 1), (2, 0)] := by
  refine ⟨?_, by decide⟩
  decide

/-- **C29** with threads fails in three dimensions: on unit links the plaquette measured inside the update and the
flow is 3/2 for every schedule, while the average plaquette is 1; in two dimensions it is undefined. -/
theorem C29_threads_fails :
    (∃ L : Latt, Valid L ∧ L.ND = 3 ∧ ∀ (NC Nthreads : ℕ) (sched : List (ℕ × ℕ)) (lat : Gauge) (red : ℕ → ℝ),
      1 ≤ NC → IsSchedule (volume L) Nthreads sched → Trivial NC L lat →
      get_plaq_th NC L Nthreads sched lat red = some (3 / 2) ∧ av_plaquette NC L lat = some 1) ∧
    (∀ (L : Latt), L.ND = 2 → ∀ (NC Nthreads : ℕ) (sched : List (ℕ × ℕ)) (lat : Gauge) (red : ℕ → ℝ),
      get_plaq_th NC L Nthreads sched lat red = none) := by
  constructor
  · have hL : Valid ⟨3, fun _ => 2⟩ := ⟨by norm_num, by norm_num, by norm_num [prod_range_succ]⟩
    refine ⟨⟨3, fun _ => 2⟩, hL, rfl, ?_⟩
    intro NC Nthreads sched lat red hN hs h
    refine ⟨?_, (C29_trivial_average hN hL h).1⟩
    unfold get_plaq_th
    dsimp only
    rw [th_total _ hs]
    have h2 : ∑ i ∈ range (volume ⟨3, fun _ => 2⟩), 2 * sitePlaq NC ⟨3, fun _ => 2⟩ lat 3 i =
        ∑ i ∈ range (volume ⟨3, fun _ => 2⟩), (6 * NC : ℝ) := by
      refine sum_congr rfl fun i hi => ?_
      rw [trivial_sitePlaq hL h (le_refl _) (mem_range.1 hi)]
      push_cast
      ring
    rw [← mul_sum, sum_const, card_range, nsmul_eq_mul] at h2
    have hV := volume_pos hL
    have hVr : (volume ⟨3, fun _ => 2⟩ : ℝ) ≠ 0 := by positivity
    have hNr : (NC : ℝ) ≠ 0 := by positivity
    unfold fdiv
    rw [if_neg (by push_cast; positivity), Option.some_inj]
    push_cast
    rw [div_eq_iff (by positivity)]
    linarith
  · intro L h2 NC Nthreads sched lat red
    unfold get_plaq_th fdiv
    simp [h2]

end GLU.Field
