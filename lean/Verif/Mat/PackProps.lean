import Verif.Mat.UNopsProps

/-!
# Properties of the compressed storage formats

C13 (packed Hermitian matrices), C12 for packed operands, C14 (eight-parameter
SU(3) and three-parameter SU(2) storage).
-/

namespace GLU.Mat

open Complex Matrix

/-! ## C13 -/

/-- Traceless and Hermitian. -/
def HermTraceless (NC : ℕ) (b : Arr ℂ) : Prop :=
  (toM NC b).IsHermitian ∧ Matrix.trace (toM NC b) = 0

/-- Traceless and anti-Hermitian. -/
def AntiHermTraceless (NC : ℕ) (b : Arr ℂ) : Prop :=
  (toM NC b)ᴴ = -toM NC b ∧ Matrix.trace (toM NC b) = 0

/-- Position of row `r`, column `c ≥ r` in the packed array. -/
def packedPos (NC r c : ℕ) : ℕ := r * NC - r * (r - 1) / 2 + (c - r)

/-- Number of packed entries, `HERMSIZE`, `GLU_definitions.h:222`. -/
def HERMSIZE (NC : ℕ) : ℕ := NC * (NC + 1) / 2 - 1

theorem tri_succ (r : ℕ) : (r + 1) * r / 2 = r * (r - 1) / 2 + r := by
  have h : (r + 1) * r = r * (r - 1) + r * 2 := by
    cases r with
    | zero => rfl
    | succ n => simp; ring
  rw [h, Nat.add_mul_div_right _ _ (by omega)]

theorem tri_le (r : ℕ) : r * (r - 1) / 2 ≤ r * r :=
  (Nat.div_le_self _ _).trans (Nat.mul_le_mul_left _ (Nat.sub_le _ _))

theorem off_eq (NC r : ℕ) (hr : r ≤ NC) : off NC r = r * NC - r * (r - 1) / 2 := by
  induction r with
  | zero => simp [off]
  | succ r ih =>
    rw [off, ih (by omega), show r + 1 - 1 = r by omega, tri_succ, Nat.add_mul]
    have h1 := tri_le r
    have h2 : r * r ≤ r * NC := Nat.mul_le_mul_left _ (by omega)
    omega

theorem off_last {NC : ℕ} (hN : 1 ≤ NC) : off NC (NC - 1) = HERMSIZE NC := by
  obtain ⟨n, rfl⟩ : ∃ n, NC = n + 1 := ⟨NC - 1, by omega⟩
  rw [off_eq _ _ (by omega), HERMSIZE, show n + 1 - 1 = n by omega, Nat.mul_comm (n + 1),
    show (n + 1 + 1) * (n + 1) / 2 = (n + 1) * (n + 1 - 1) / 2 + (n + 1) from tri_succ (n + 1),
    show n + 1 - 1 = n by omega, tri_succ]
  have h : n * (n - 1) / 2 + n * (n - 1) / 2 + n = n * n := by
    have e : n * (n - 1) % 2 = 0 := by
      rcases Nat.even_or_odd n with ⟨k, hk⟩ | ⟨k, hk⟩
      · rw [Nat.mul_mod, show n % 2 = 0 by omega]; simp
      · rw [Nat.mul_mod, show (n - 1) % 2 = 0 by omega]; simp
    have e2 : n * (n - 1) + n = n * n := by
      cases n with
      | zero => rfl
      | succ m => simp; ring
    omega
  rw [Nat.mul_add]
  omega

theorem packed_cover {NC x : ℕ} (hx : x < HERMSIZE NC) :
    ∃ r c, r < NC - 1 ∧ r ≤ c ∧ c < NC ∧ x = off NC r + (c - r) := by
  have hN : 1 ≤ NC := by
    by_contra h
    have : NC = 0 := by omega
    subst this; simp [HERMSIZE] at hx
  rw [← off_last hN] at hx
  have aux : ∀ m, x < off NC m → ∃ r, r < m ∧ off NC r ≤ x ∧ x < off NC (r + 1) := by
    intro m
    induction m with
    | zero => intro h; simp [off] at h
    | succ m ih =>
      intro h
      by_cases h2 : x < off NC m
      · obtain ⟨r, h3, h4⟩ := ih h2
        exact ⟨r, by omega, h4⟩
      · exact ⟨m, by omega, by omega, h⟩
  obtain ⟨r, h1, h2, h3⟩ := aux _ hx
  rw [off] at h3
  exact ⟨r, r + (x - off NC r), h1, by omega, by omega, by omega⟩

theorem last_index {NC : ℕ} (h : 1 ≤ NC) : NC * NC - 1 = (NC - 1) + NC * (NC - 1) := by
  obtain ⟨n, rfl⟩ : ∃ n, NC = n + 1 := ⟨NC - 1, by omega⟩
  rw [show n + 1 - 1 = n by omega, show (n + 1) * (n + 1) = n + (n + 1) * n + 1 by ring]
  omega

theorem trace_range (NC : ℕ) (b : Arr ℂ) :
    Matrix.trace (toM NC b) = ∑ k ∈ Finset.range NC, b (k + NC * k) := by
  rw [Finset.sum_range]; rfl

/-- C13: rebuilding a packed traceless Hermitian matrix returns it. -/
theorem C13_rebuild_pack {NC : ℕ} (hN : 2 ≤ NC) {b : Arr ℂ} (hb : HermTraceless NC b)
    (a p : Arr ℂ) : toM NC (rebuild_hermitian NC a (pack_hermitian NC p b)) = toM NC b := by
  obtain ⟨hH, hT⟩ := hb
  unfold rebuild_hermitian
  have hp : ∀ r c, r < NC - 1 → r ≤ c → c < NC → _ := fun r c h1 h2 h3 => pack_apply NC p b h1 h2 h3
  split
  · next h =>
    subst h
    have p0 := hp 0 0; have p1 := hp 0 1; have p2 := hp 0 2; have p3 := hp 1 1; have p4 := hp 1 2
    simp [off] at p0 p1 p2 p3 p4
    have t := hT
    rw [trace_range] at t
    simp [Finset.sum_range_succ] at t
    have h1 := herm_entry hH (i := 0) (j := 1); have h2 := herm_entry hH (i := 0) (j := 2)
    have h3 := herm_entry hH (i := 1) (j := 2)
    norm_num at h1 h2 h3
    ext i j
    fin_cases i <;> fin_cases j <;> simp [rebuild_hermitian3, p0, p1, p2, p3, p4, conj, h1, h2, h3]
    linear_combination -t
  split
  · next h =>
    subst h
    have p0 := hp 0 0; have p1 := hp 0 1
    simp [off] at p0 p1
    have t := hT
    rw [trace_range] at t
    simp [Finset.sum_range_succ] at t
    have h1 := herm_entry hH (i := 0) (j := 1)
    norm_num at h1
    ext i j
    fin_cases i <;> fin_cases j <;> simp [rebuild_hermitian2, p0, p1, conj, h1]
    linear_combination -t
  · have loop := rebuild_loop NC conj a (pack_hermitian NC p b)
    simp only [] at loop ⊢
    have entry : ∀ r c, r < NC → c < NC → ¬ (r = NC - 1 ∧ c = NC - 1) →
        (forN (NC - 1) (fun i s => forFrom i NC (fun j (s : ℕ × Arr ℂ) =>
          (s.1 + 1, Function.update (Function.update s.2 (j + NC * i) (pack_hermitian NC p b s.1))
            (i + NC * j) (conj (pack_hermitian NC p b s.1)))) s) (0, a)).2 (c + NC * r) =
        b (c + NC * r) := by
      intro r c hr hc hne
      rcases Nat.lt_trichotomy r c with h | h | h
      · rw [(loop r c (by omega) (by omega) hc).2 h, hp r c (by omega) (by omega) hc]
      · subst h
        rw [(loop r r (by omega) le_rfl hc).1, hp r r (by omega) le_rfl hc]
        exact (herm_entry hH hr hr).symm
      · rw [(loop c r (by omega) (by omega) hr).1, hp c r (by omega) (by omega) hr]
        exact (herm_entry hH hc hr).symm
    apply toM_ext
    intro r hr c hc
    rw [Function.update_apply]
    split
    · next h =>
      have hlast : c + NC * r = (NC - 1) + NC * (NC - 1) := by
        rw [h]
        exact last_index (by omega)
      obtain ⟨rfl, rfl⟩ := index_inj hc (by omega) hlast
      rw [trace_range, show NC = (NC - 1) + 1 by omega, Finset.sum_range_succ,
        show (NC - 1) + 1 = NC by omega] at hT
      have hs : loopSum (NC - 1) (fun k => (forN (NC - 1) (fun i s => forFrom i NC
          (fun j (s : ℕ × Arr ℂ) =>
          (s.1 + 1, Function.update (Function.update s.2 (j + NC * i) (pack_hermitian NC p b s.1))
            (i + NC * j) (conj (pack_hermitian NC p b s.1)))) s) (0, a)).2 (k * (NC + 1))) =
          ∑ k ∈ Finset.range (NC - 1), b (k + NC * k) := by
        rw [loopSum_eq]
        refine Finset.sum_congr rfl fun k hk => ?_
        have := Finset.mem_range.1 hk
        rw [← entry k k (by omega) (by omega) (by omega)]
        ring_nf
      rw [hs]
      linear_combination -hT
    · next h =>
      refine entry r c hr hc ?_
      rintro ⟨rfl, rfl⟩
      exact h (last_index (by omega)).symm

/-- C13: rebuilding a packed traceless anti-Hermitian matrix returns it. -/
theorem C13_rebuild_pack_anti {NC : ℕ} (hN : 2 ≤ NC) {b : Arr ℂ} (hb : AntiHermTraceless NC b)
    (a p : Arr ℂ) : toM NC (rebuild_antihermitian NC a (pack_hermitian NC p b)) = toM NC b := by
  obtain ⟨hH, hT⟩ := hb
  have hE : ∀ {i j : ℕ}, i < NC → j < NC → b (i + NC * j) = -star (b (j + NC * i)) := by
    intro i j hi hj
    have := congrFun (congrFun hH ⟨j, hj⟩) ⟨i, hi⟩
    simp only [conjTranspose_apply, Matrix.neg_apply, toM_apply] at this
    rw [this, neg_neg]
  unfold rebuild_antihermitian
  have hp : ∀ r c, r < NC - 1 → r ≤ c → c < NC → _ := fun r c h1 h2 h3 => pack_apply NC p b h1 h2 h3
  split
  · next h =>
    subst h
    have p0 := hp 0 0; have p1 := hp 0 1; have p2 := hp 0 2; have p3 := hp 1 1; have p4 := hp 1 2
    simp [off] at p0 p1 p2 p3 p4
    have t := hT
    rw [trace_range] at t
    simp [Finset.sum_range_succ] at t
    have h1 := hE (i := 0) (j := 1); have h2 := hE (i := 0) (j := 2)
    have h3 := hE (i := 1) (j := 2)
    norm_num at h1 h2 h3
    ext i j
    fin_cases i <;> fin_cases j <;>
      simp [rebuild_antihermitian3, p0, p1, p2, p3, p4, conj, h1, h2, h3]
    linear_combination -t
  split
  · next h =>
    subst h
    have p0 := hp 0 0; have p1 := hp 0 1
    simp [off] at p0 p1
    have t := hT
    rw [trace_range] at t
    simp [Finset.sum_range_succ] at t
    have h1 := hE (i := 0) (j := 1)
    norm_num at h1
    ext i j
    fin_cases i <;> fin_cases j <;> simp [rebuild_antihermitian2, p0, p1, conj, h1]
    linear_combination -t
  · have loop := rebuild_loop NC (fun z => -conj z) a (pack_hermitian NC p b)
    simp only [] at loop ⊢
    have entry : ∀ r c, r < NC → c < NC → ¬ (r = NC - 1 ∧ c = NC - 1) →
        (forN (NC - 1) (fun i s => forFrom i NC (fun j (s : ℕ × Arr ℂ) =>
          (s.1 + 1, Function.update (Function.update s.2 (j + NC * i) (pack_hermitian NC p b s.1))
            (i + NC * j) (-conj (pack_hermitian NC p b s.1)))) s) (0, a)).2 (c + NC * r) =
        b (c + NC * r) := by
      intro r c hr hc hne
      rcases Nat.lt_trichotomy r c with h | h | h
      · rw [(loop r c (by omega) (by omega) hc).2 h, hp r c (by omega) (by omega) hc]
      · subst h
        rw [(loop r r (by omega) le_rfl hc).1, hp r r (by omega) le_rfl hc]
        exact (hE hr hr).symm
      · rw [(loop c r (by omega) (by omega) hr).1, hp c r (by omega) (by omega) hr]
        exact (hE hc hr).symm
    apply toM_ext
    intro r hr c hc
    rw [Function.update_apply]
    split
    · next h =>
      have hlast : c + NC * r = (NC - 1) + NC * (NC - 1) := by
        rw [h]
        exact last_index (by omega)
      obtain ⟨rfl, rfl⟩ := index_inj hc (by omega) hlast
      rw [trace_range, show NC = (NC - 1) + 1 by omega, Finset.sum_range_succ,
        show (NC - 1) + 1 = NC by omega] at hT
      have hs : loopSum (NC - 1) (fun k => (forN (NC - 1) (fun i s => forFrom i NC
          (fun j (s : ℕ × Arr ℂ) =>
          (s.1 + 1, Function.update (Function.update s.2 (j + NC * i) (pack_hermitian NC p b s.1))
            (i + NC * j) (-conj (pack_hermitian NC p b s.1)))) s) (0, a)).2 (k * (NC + 1))) =
          ∑ k ∈ Finset.range (NC - 1), b (k + NC * k) := by
        rw [loopSum_eq]
        refine Finset.sum_congr rfl fun k hk => ?_
        have := Finset.mem_range.1 hk
        rw [← entry k k (by omega) (by omega) (by omega)]
        ring_nf
      rw [hs]
      linear_combination -hT
    · next h =>
      refine entry r c hr hc ?_
      rintro ⟨rfl, rfl⟩
      exact h (last_index (by omega)).symm

/-- C13: packing a rebuilt matrix returns the packed data, when the stored diagonal
entries are real. -/
theorem C13_pack_rebuild {NC : ℕ} (hN : 2 ≤ NC) (b : Arr ℂ)
    (hreal : ∀ r < NC - 1, (b (packedPos NC r r)).im = 0) (a p : Arr ℂ) {x : ℕ}
    (hx : x < HERMSIZE NC) :
    pack_hermitian NC p (rebuild_hermitian NC a b) x = b x := by
  obtain ⟨r, c, hr, hrc, hc, rfl⟩ := packed_cover hx
  rw [pack_apply NC p _ hr hrc hc]
  have hpos : ∀ r, r < NC - 1 → packedPos NC r r = off NC r := by
    intro r hr
    rw [packedPos, off_eq NC r (by omega)]; omega
  unfold rebuild_hermitian
  split
  · next h =>
    subst h
    rcases (show r = 0 ∨ r = 1 by omega) with rfl | rfl
    · rcases (show c = 0 ∨ c = 1 ∨ c = 2 by omega) with rfl | rfl | rfl <;>
        simp [rebuild_hermitian3, off]
    · rcases (show c = 1 ∨ c = 2 by omega) with rfl | rfl <;>
        simp [rebuild_hermitian3, off]
  split
  · next h =>
    subst h
    have : r = 0 := by omega
    subst this
    rcases (show c = 0 ∨ c = 1 by omega) with rfl | rfl <;> simp [rebuild_hermitian2, off]
  · have loop := rebuild_loop NC conj a b r c hr hrc hc
    simp only [] at loop ⊢
    rw [Function.update_apply, if_neg]
    · rcases Nat.lt_or_ge r c with h | h
      · exact loop.2 h
      · have : c = r := by omega
        subst this
        rw [loop.1, Nat.sub_self, Nat.add_zero]
        have := hreal c hr
        rw [hpos c hr] at this
        exact Complex.conj_eq_iff_im.2 this
    · intro h
      have hlast : c + NC * r = (NC - 1) + NC * (NC - 1) := by
        rw [h]
        exact last_index (by omega)
      have := index_inj hc (by omega) hlast
      omega

/-! ## C12 for packed operands -/

/-- C12: `trace_ab_herm_short` applied to packed traceless Hermitian matrices. -/
theorem C12_trace_ab_herm_short {NC : ℕ} (hN : 2 ≤ NC) {a b : Arr ℂ} (ha : HermTraceless NC a)
    (hb : HermTraceless NC b) (p q : Arr ℂ) :
    (trace_ab_herm_short NC (pack_hermitian NC p a) (pack_hermitian NC q b) : ℂ) =
      Matrix.trace (toM NC a * toM NC b) := by
  rw [← C12_trace_ab_herm ha.1 hb.1 fun _ => ⟨ha.2, hb.2⟩]
  congr 1
  have hp : ∀ r c, r < NC - 1 → r ≤ c → c < NC → _ := fun r c h1 h2 h3 => pack_apply NC p a h1 h2 h3
  have hq : ∀ r c, r < NC - 1 → r ≤ c → c < NC → _ := fun r c h1 h2 h3 => pack_apply NC q b h1 h2 h3
  have ta := congrArg Complex.re ha.2
  have tb := congrArg Complex.re hb.2
  rw [trace_range, Complex.re_sum] at ta tb
  unfold trace_ab_herm_short trace_ab_herm
  split
  · next h =>
    subst h
    have p0 := hp 0 0; have p1 := hp 0 1; have p2 := hp 0 2; have p3 := hp 1 1; have p4 := hp 1 2
    have q0 := hq 0 0; have q1 := hq 0 1; have q2 := hq 0 2; have q3 := hq 1 1; have q4 := hq 1 2
    simp [off] at p0 p1 p2 p3 p4 q0 q1 q2 q3 q4
    simp [Finset.sum_range_succ] at ta tb
    rw [p0, p1, p2, p3, p4, q0, q1, q2, q3, q4, show (a 8).re = -(a 0).re - (a 4).re by linarith,
      show (b 8).re = -(b 0).re - (b 4).re by linarith]
    ring
  split
  · next h =>
    subst h
    have p0 := hp 0 0; have p1 := hp 0 1
    have q0 := hq 0 0; have q1 := hq 0 1
    simp [off] at p0 p1 q0 q1
    rw [p0, p1, q0, q1]
  · set A := pack_hermitian NC p a
    set B := pack_hermitian NC q b
    have key := forN_inv (fun i (s : ℕ × ℝ × ℝ × ℝ) => s.1 = off NC i ∧
        s.2.1 = forN i (fun i sum =>
          forFrom (i + 1) NC (fun j sum =>
            sum + 2 * ((a (j + NC * i)).re * (b (j + NC * i)).re +
              (a (j + NC * i)).im * (b (j + NC * i)).im))
            (sum + (a (i + NC * i)).re * (b (i + NC * i)).re)) 0 ∧
        s.2.2.1 = ∑ k ∈ Finset.range i, (a (k + NC * k)).re ∧
        s.2.2.2 = ∑ k ∈ Finset.range i, (b (k + NC * k)).re)
      (n := NC - 1) (body := fun i s =>
        let s : ℕ × ℝ × ℝ × ℝ := (s.1 + 1, s.2.1 + (A s.1).re * (B s.1).re,
          s.2.2.1 + (A s.1).re, s.2.2.2 + (B s.1).re)
        forFrom (i + 1) NC (fun _ s =>
          (s.1 + 1, s.2.1 + 2 * ((A s.1).re * (B s.1).re + (A s.1).im * (B s.1).im),
            s.2.2.1, s.2.2.2)) s) (s := (0, 0, 0, 0)) (by simp [off, forN])
      (fun i hi s hs => by
        obtain ⟨h1, h2, h3, h4⟩ := hs
        have eA : A s.1 = a (i + NC * i) := by
          have := hp i i hi le_rfl (by omega)
          rw [Nat.sub_self, Nat.add_zero] at this
          rw [h1]; exact this
        have eB : B s.1 = b (i + NC * i) := by
          have := hq i i hi le_rfl (by omega)
          rw [Nat.sub_self, Nat.add_zero] at this
          rw [h1]; exact this
        have inner := forFrom_inv (fun j (t : ℕ × ℝ × ℝ × ℝ) => t.1 = off NC i + (j - i) ∧
            t.2.1 = (s.2.1 + (A s.1).re * (B s.1).re) + ∑ j ∈ Finset.Ico (i + 1) j,
              2 * ((a (j + NC * i)).re * (b (j + NC * i)).re +
              (a (j + NC * i)).im * (b (j + NC * i)).im) ∧
            t.2.2.1 = s.2.2.1 + (A s.1).re ∧ t.2.2.2 = s.2.2.2 + (B s.1).re)
          (lo := i + 1) (hi := NC) (by omega)
          (body := fun _ s =>
            (s.1 + 1, s.2.1 + 2 * ((A s.1).re * (B s.1).re + (A s.1).im * (B s.1).im),
              s.2.2.1, s.2.2.2))
          (s := (s.1 + 1, s.2.1 + (A s.1).re * (B s.1).re,
            s.2.2.1 + (A s.1).re, s.2.2.2 + (B s.1).re))
          ⟨by simp only [h1]; omega, by simp, rfl, rfl⟩
          (fun j hj hj' t ht => by
            obtain ⟨t1, t2, t3, t4⟩ := ht
            refine ⟨by simp only [t1]; omega, ?_, t3, t4⟩
            rw [Finset.sum_Ico_succ_top hj]
            have fA : A t.1 = a (j + NC * i) := by
              rw [t1]; exact hp i j hi (by omega) hj'
            have fB : B t.1 = b (j + NC * i) := by
              rw [t1]; exact hq i j hi (by omega) hj'
            simp only [fA, fB, t2]
            ring)
        refine ⟨by rw [inner.1]; rfl, ?_, ?_, ?_⟩
        · rw [inner.2.1, forN, forFrom_sum, ← h2, eA, eB]
        · rw [inner.2.2.1, h3, eA, Finset.sum_range_succ]
        · rw [inner.2.2.2, h4, eB, Finset.sum_range_succ])
    simp only [] at key ⊢
    rw [key.2.1, key.2.2.1, key.2.2.2]
    conv_rhs => rw [show NC = (NC - 1) + 1 by omega, forN, show (NC - 1) + 1 = NC by omega]
    rw [show NC = (NC - 1) + 1 by omega, Finset.sum_range_succ, show (NC - 1) + 1 = NC by omega]
      at ta tb
    rw [forFrom_sum, Finset.Ico_eq_empty (by omega), Finset.sum_empty, add_zero]
    simp only [Complex.zero_re] at ta tb
    rw [show ∑ k ∈ Finset.range (NC - 1), (a (k + NC * k)).re =
        -(a (NC - 1 + NC * (NC - 1))).re by linarith,
      show ∑ k ∈ Finset.range (NC - 1), (b (k + NC * k)).re =
        -(b (NC - 1 + NC * (NC - 1))).re by linarith]
    ring

/-- A non-trivial traceless Hermitian matrix for three colours. -/
noncomputable def hermExample : Arr ℂ := arr [1, I, 2, -I, 3, 1 + I, 2, 1 - I, -4]

example : HermTraceless 3 hermExample := by
  constructor
  · ext i j
    fin_cases i <;> fin_cases j <;> simp [hermExample, conjTranspose_apply]
    ring
  · rw [trace_range]
    simp [Finset.sum_range_succ, hermExample]
    norm_num

/-! ## C14 -/

theorem polar_form (z : ℂ) : (√(normSq z) : ℂ) * (Real.cos (arg z) + I * Real.sin (arg z)) = z := by
  have h : (√(normSq z) : ℝ) = ‖z‖ := rfl
  rw [h]
  have := Complex.norm_mul_cos_add_sin_mul_I z
  rw [← Complex.ofReal_cos, ← Complex.ofReal_sin] at this
  rw [mul_comm I]
  exact this

theorem su_row_norm {NC : ℕ} {A : Matrix (Fin NC) (Fin NC) ℂ}
    (hA : A ∈ specialUnitaryGroup (Fin NC) ℂ) (i j : Fin NC) :
    ∑ k, A i k * star (A j k) = if i = j then 1 else 0 := by
  have h := (mem_unitaryGroup_iff).1 (mem_specialUnitaryGroup_iff.1 hA).1
  have := congrFun (congrFun h i) j
  simpa [Matrix.mul_apply, Matrix.star_apply, Matrix.one_apply] using this

theorem su_col_norm {NC : ℕ} {A : Matrix (Fin NC) (Fin NC) ℂ}
    (hA : A ∈ specialUnitaryGroup (Fin NC) ℂ) (i j : Fin NC) :
    ∑ k, star (A k i) * A k j = if i = j then 1 else 0 := by
  have h := (mem_unitaryGroup_iff').1 (mem_specialUnitaryGroup_iff.1 hA).1
  have := congrFun (congrFun h i) j
  simpa [Matrix.mul_apply, Matrix.star_apply, Matrix.one_apply] using this

/-- C14 for two colours: every SU(2) matrix is recovered. -/
theorem C14_rebuild_shorten_two {b : Arr ℂ} (hb : IsSU 2 b) :
    toM 2 (rebuild2 (shorten2 b)) = toM 2 b := by
  have hn := su_row_norm hb 0 0
  simp only [Fin.sum_univ_two, toM_apply] at hn
  norm_num at hn
  have hn' : normSq (b 0) + normSq (b 1) = 1 := by
    have := congrArg Complex.re hn
    simp only [Complex.mul_conj] at this
    simpa using this
  have hR : 1 - ((b 1).re * (b 1).re + (b 1).im * (b 1).im) = normSq (b 0) := by
    rw [← normSq_apply]; linarith
  have h1 : ((b 1).re : ℂ) + I * (b 1).im = b 1 := by rw [mul_comm]; exact Complex.re_add_im _
  refine complete2 hb ?_ ?_ ?_ ?_ <;> simp only [rebuild2, shorten2, arr_zero, arr_succ]
  · rw [hR]; exact polar_form _
  · exact h1

/-- C14 for three colours, when the two off-diagonal entries of the first row do not
vanish (in magnitude squared, not below the smallest normal double). -/
theorem C14_rebuild_shorten_three_partial {b : Arr ℂ} (hb : IsSU 3 b)
    (hne : DBL_MIN ≤ normSq (b 1) + normSq (b 2)) :
    toM 3 (rebuild3 (shorten3 b)) = toM 3 b := by
  have hpos : 0 < DBL_MIN := by unfold DBL_MIN; positivity
  have hr := su_row_norm hb 0 0
  have hr01 := su_row_norm hb 1 0
  have hc := su_col_norm hb 0 0
  obtain ⟨r0, r1, r2⟩ := su3_row hb
  simp only [Fin.sum_univ_three, toM_apply] at hr hr01 hc r0 r1 r2
  norm_num at hr hr01 hc r0 r1 r2
  have hr' : normSq (b 0) + normSq (b 1) + normSq (b 2) = 1 := by
    have := congrArg Complex.re hr
    simp only [Complex.mul_conj] at this
    simpa using this
  have hc' : normSq (b 0) + normSq (b 3) + normSq (b 6) = 1 := by
    have := congrArg Complex.re hc
    simp only [mul_comm ((starRingEnd ℂ) _), Complex.mul_conj] at this
    simpa using this
  have htmp : (b 1).re * (b 1).re + (b 1).im * (b 1).im + (b 2).re * (b 2).re + (b 2).im * (b 2).im
      = normSq (b 1) + normSq (b 2) := by rw [normSq_apply, normSq_apply]; ring
  have hreg1 : 1 - ((b 1).re * (b 1).re + (b 1).im * (b 1).im)
      - ((b 2).re * (b 2).re + (b 2).im * (b 2).im) = normSq (b 0) := by
    rw [← normSq_apply, ← normSq_apply]; linarith
  have hreg2 : 1 - ((b 0).re * (b 0).re + (b 0).im * (b 0).im)
      - ((b 3).re * (b 3).re + (b 3).im * (b 3).im) = normSq (b 6) := by
    rw [← normSq_apply, ← normSq_apply]; linarith
  have hri : ∀ z : ℂ, (z.re : ℂ) + I * z.im = z := fun z => by
    rw [mul_comm]; exact Complex.re_add_im _
  have hN : ((1 / (normSq (b 1) + normSq (b 2)) : ℝ) : ℂ) *
      (b 1 * star (b 1) + b 2 * star (b 2)) = 1 := by
    simp only [star_def, Complex.mul_conj]
    rw [← ofReal_add, ← ofReal_mul,
      one_div_mul_cancel (by linarith), ofReal_one]
  have c6 : star (b 6) = b 1 * b 5 - b 2 * b 4 := by rw [r0]; simp
  have key : rebuild3 (shorten3 b) =
      (let NORM : ℂ := ((1 / (normSq (b 1) + normSq (b 2)) : ℝ) : ℂ)
       arr [b 0, b 1, b 2, b 3,
        (-conj (b 6 * b 2) - b 3 * conj (b 0) * b 1) * NORM,
        (conj (b 6 * b 1) - conj (b 0) * b 2 * b 3) * NORM, b 6,
        (conj (b 3 * b 2) - conj (b 0) * (b 6 * b 1)) * NORM,
        (-conj (b 3 * b 1) - conj (b 0) * (b 6 * b 2)) * NORM]) := by
    have n1 : ¬ |normSq (b 1) + normSq (b 2)| < DBL_MIN := by
      rw [abs_of_nonneg (by linarith)]; linarith
    have n2 : ∀ z : ℂ, ¬ normSq z < 0 := fun z => not_lt.2 (normSq_nonneg z)
    simp only [rebuild3, shorten3, arr_zero, arr_succ, htmp, n1, n2, hreg1, hreg2, polar_form,
      if_false, hri]
  rw [key]
  have h6 : b 6 = star (b 1 * b 5 - b 2 * b 4) := by rw [← c6, star_star]
  have hcol : ∀ i j : Fin 3, _ := fun i j => su_col_norm hb i j
  have e4 : (-conj (b 6 * b 2) - b 3 * conj (b 0) * b 1) = b 4 * (b 1 * star (b 1) + b 2 * star (b 2)) := by
    simp only [conj, star_mul']
    rw [c6]
    simp only [star_def] at *
    linear_combination (-b 1) * hr01
  have e5 : (conj (b 6 * b 1) - conj (b 0) * b 2 * b 3) = b 5 * (b 1 * star (b 1) + b 2 * star (b 2)) := by
    simp only [conj, star_mul']
    rw [c6]
    simp only [star_def] at *
    linear_combination (-b 2) * hr01
  have hr02 := su_row_norm hb 2 0
  rw [if_neg (by decide)] at hr02
  simp only [Fin.sum_univ_three, toM_apply] at hr02
  norm_num at hr02
  have hadj := su_adjugate hb
  have c3 : star (b 3) = b 2 * b 7 - b 1 * b 8 := by
    have := congrFun (congrFun hadj 0) 1
    rw [adjugate_fin_three] at this
    simp [conjTranspose_apply] at this
    rw [star_def, ← this]; ring
  have e7 : (conj (b 3 * b 2) - conj (b 0) * (b 6 * b 1)) = b 7 * (b 1 * star (b 1) + b 2 * star (b 2)) := by
    simp only [conj, star_mul']
    rw [c3]
    simp only [star_def] at *
    linear_combination (-b 1) * hr02
  have e8 : (-conj (b 3 * b 1) - conj (b 0) * (b 6 * b 2)) = b 8 * (b 1 * star (b 1) + b 2 * star (b 2)) := by
    simp only [conj, star_mul']
    rw [c3]
    simp only [star_def] at *
    linear_combination (-b 2) * hr02
  have fin : ∀ z : ℂ, z * (b 1 * star (b 1) + b 2 * star (b 2)) *
      ((1 / (normSq (b 1) + normSq (b 2)) : ℝ) : ℂ) = z := by
    intro z
    rw [mul_assoc, mul_comm (b 1 * star (b 1) + b 2 * star (b 2)), hN, mul_one]
  ext i j
  simp only [e4, e5, e7, e8, fin]
  fin_cases i <;> fin_cases j <;> simp

/-- C14 fails for three colours on the special unitary matrices with vanishing
off-diagonal entries in the first row: they come back as the identity. -/
theorem C14_block_diagonal_fails :
    ∃ b : Arr ℂ, IsSU 3 b ∧ toM 3 (rebuild3 (shorten3 b)) ≠ toM 3 b := by
  refine ⟨arr [1, 0, 0, 0, I, 0, 0, 0, -I], ?_, ?_⟩
  · rw [IsSU, mem_specialUnitaryGroup_iff, mem_unitaryGroup_iff]
    constructor
    · ext i j
      fin_cases i <;> fin_cases j <;>
        simp [Matrix.mul_apply, Fin.sum_univ_three, Matrix.star_apply]
    · rw [det_fin_three]
      simp
  · intro h
    have hpos : 0 < DBL_MIN := by unfold DBL_MIN; positivity
    have e : rebuild3 (shorten3 (arr [1, 0, 0, 0, I, 0, 0, 0, -I])) = identity3 (arr []) := by
      simp [rebuild3, shorten3, hpos]
    rw [e] at h
    have := congrFun (congrFun h 1) 1
    simp [identity3] at this
    have := congrArg Complex.re this
    simp at this

/-- Non-vacuity of `C14_rebuild_shorten_three_partial`. -/
example : IsSU 3 suExample ∧ DBL_MIN ≤ normSq (suExample 1) + normSq (suExample 2) := by
  constructor
  · rw [IsSU, mem_specialUnitaryGroup_iff, mem_unitaryGroup_iff]
    constructor
    · ext i j
      fin_cases i <;> fin_cases j <;>
        simp [suExample, Matrix.mul_apply, Fin.sum_univ_three, Matrix.star_apply]
    · rw [det_fin_three]
      simp [suExample]
  · have : DBL_MIN ≤ 1 := by
      unfold DBL_MIN
      exact zpow_le_one_of_nonpos₀ (by norm_num) (by norm_num)
    simpa [suExample] using this

end GLU.Mat
