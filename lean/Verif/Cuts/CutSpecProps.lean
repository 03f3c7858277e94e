import Verif.Cuts.CutProps

/-!
# The cuts (C59)
-/

namespace GLU.Cuts
open GLU.Geom Finset

/-! ### Specification -/

/-- The direction of a diagonal through the corners of the unit cube of the first `D` directions. -/
def IsDiagonal (D : ℕ) (x : ℕ → ℤ) : Prop := (∀ mu < D, x mu = 1 ∨ x mu = -1) ∧ ∀ mu, D ≤ mu → x mu = 0

/-- The square of the distance of `q` from the line through the origin with direction `x`. -/
noncomputable def distSq (D : ℕ) (q : ℕ → ℝ) (x : ℕ → ℤ) : ℝ :=
  ∑ mu ∈ range D, (q mu - (∑ nu ∈ range D, q nu * x nu) / D * x mu) ^ 2

/-- The angle between `q` and the diagonal `x`. -/
noncomputable def angleTo (D : ℕ) (q : ℕ → ℝ) (x : ℕ → ℤ) : ℝ :=
  Real.arccos ((∑ nu ∈ range D, q nu * x nu) / (√(∑ mu ∈ range D, q mu ^ 2) * √D))

/-- The lattice momentum `2 sin( pi n / L )`. -/
noncomputable def sinMom (L : Latt) (D : ℕ) (n : ℕ → ℤ) (mu : ℕ) : ℝ :=
  if mu < D then 2 * Real.sin (Real.pi * n mu / L.dims mu) else 0

/-- The square of `n` measured in units of the smallest extent. -/
noncomputable def psq (L : Latt) (small D : ℕ) (n : ℕ → ℤ) : ℝ :=
  ∑ mu ∈ range D, ((small : ℝ) / L.dims mu * n mu) ^ 2

/-! ### The code -/

theorem diagonal_isDiagonal (i D : ℕ) : IsDiagonal D (get_diagonal i D) := by
  constructor
  · intro mu hmu
    unfold get_diagonal
    rw [if_pos hmu]
    dsimp only
    split <;> omega
  · intro mu hmu
    unfold get_diagonal
    rw [if_neg (by omega)]

theorem diagonal_surj {D N : ℕ} (hDN : D ≤ N) {x : ℕ → ℤ} (hx : IsDiagonal D x) :
    ∃ i < 2 ^ N, get_diagonal i D = x := by
  have hb : ∀ mu < N, (if x mu = 1 then 1 else 0) < (fun _ : ℕ => 2) mu := by intro mu _; dsimp only; split <;> omega
  have hr : ∀ k, radix (fun _ => 2) k = 2 ^ k := by intro k; simp [radix]
  refine ⟨∑ mu ∈ range N, (if x mu = 1 then 1 else 0) * radix (fun _ => 2) mu, ?_, ?_⟩
  · have := sum_lt_radix hb
    rwa [hr] at this
  · funext mu
    unfold get_diagonal
    by_cases hmu : mu < D
    · rw [if_pos hmu, sub_mod_div, ← hr mu, digit_of_sum hb (by omega)]
      rcases hx.1 mu hmu with h | h
      · rw [h]; simp
      · rw [h]; simp
    · rw [if_neg hmu, hx.2 mu (by omega)]

theorem diag_sq {D : ℕ} {x : ℕ → ℤ} (hx : IsDiagonal D x) {mu : ℕ} (hmu : mu < D) : (x mu : ℝ) * x mu = 1 := by
  rcases hx.1 mu hmu with h | h <;> rw [h] <;> norm_num

theorem sum_beyond {D N : ℕ} (hDN : D ≤ N) (f : ℕ → ℝ) (h : ∀ mu, D ≤ mu → f mu = 0) :
    ∑ mu ∈ range N, f mu = ∑ mu ∈ range D, f mu := by
  refine (sum_subset (range_subset_range.2 hDN) ?_).symm
  intro mu _ h2
  exact h mu (by simpa using h2)

/-- The distance from a diagonal in terms of the square and the projection. -/
theorem distSq_eq {D : ℕ} (hD : 0 < D) (q : ℕ → ℝ) {x : ℕ → ℤ} (hx : IsDiagonal D x) :
    distSq D q x = ∑ mu ∈ range D, q mu ^ 2 - (∑ nu ∈ range D, q nu * x nu) ^ 2 / D := by
  have hD' : (D : ℝ) ≠ 0 := by positivity
  unfold distSq
  set s := ∑ nu ∈ range D, q nu * x nu with hs
  have : ∀ mu ∈ range D, (q mu - s / D * x mu) ^ 2 = q mu ^ 2 - 2 * (s / D) * (q mu * x mu) + (s / D) ^ 2 := by
    intro mu hmu
    have := diag_sq hx (mem_range.1 hmu)
    linear_combination (s / D) ^ 2 * this
  rw [sum_congr rfl this, sum_add_distrib, sum_sub_distrib, ← mul_sum, ← hs, sum_const, card_range, nsmul_eq_mul]
  field_simp
  ring

/-- `cylinder_DF` in any number of directions: what is compared with the width. -/
theorem offAxisDF_eq {D N : ℕ} (hD : 0 < D) (hDN : D ≤ N) (q : ℕ → ℝ) (hq : ∀ mu, D ≤ mu → q mu = 0) {x : ℕ → ℤ}
    (hx : IsDiagonal D x) :
    offAxisDF N D q x = √(∑ mu ∈ range D, q mu ^ 2 -
      (∑ nu ∈ range D, q nu * x nu) ^ 2 * (1 / √D - 1 / 4)) := by
  have hs0 : (0 : ℝ) < √D := Real.sqrt_pos.2 (by positivity)
  have hss : √(D : ℝ) * √D = D := Real.mul_self_sqrt (by positivity)
  unfold offAxisDF
  dsimp only
  rw [acc_eq, acc_eq, sum_beyond hDN (fun nu => q nu * x nu) (fun mu h => by rw [hq mu h]; ring)]
  set s := ∑ nu ∈ range D, q nu * x nu with hs
  set c := s * (1 / (2 * √D)) with hc
  rw [sum_beyond hDN _ (fun mu h => by rw [hq mu h, hx.2 mu h]; simp)]
  have : ∀ mu ∈ range D, (q mu - c * x mu) * (q mu - c * x mu)
      = q mu ^ 2 - 2 * c * (q mu * x mu) + c ^ 2 := by
    intro mu hmu
    have := diag_sq hx (mem_range.1 hmu)
    linear_combination c ^ 2 * this
  rw [sum_congr rfl this, sum_add_distrib, sum_sub_distrib, ← mul_sum, ← hs, sum_const, card_range, nsmul_eq_mul]
  congr 1
  have h4 : (D : ℝ) * (1 / (2 * √D)) ^ 2 = 1 / 4 := by
    rw [div_pow, mul_pow, one_pow, sq (√(D : ℝ)), hss]
    field_simp
    norm_num
  have h5 : (D : ℝ) * c ^ 2 = s ^ 2 * (1 / 4) := by rw [hc, mul_pow]; linear_combination s ^ 2 * h4
  rw [h5, hc]
  field_simp
  ring

/-- **C59.** In four directions the cylinder cut accepts exactly the momenta not further than the width from a
diagonal. -/
theorem C59_cylinder {N : ℕ} (hN : 4 ≤ N) (q : ℕ → ℝ) (hq : ∀ mu, 4 ≤ mu → q mu = 0) (w : ℝ) :
    cylinder_DF N 4 q w ↔ ∃ x, IsDiagonal 4 x ∧ √(distSq 4 q x) ≤ w := by
  have h2 : √((4 : ℕ) : ℝ) = 2 := by
    rw [show ((4 : ℕ) : ℝ) = 2 ^ 2 by norm_num]; exact Real.sqrt_sq (by norm_num)
  have key : ∀ x, IsDiagonal 4 x → offAxisDF N 4 q x = √(distSq 4 q x) := by
    intro x hx
    rw [offAxisDF_eq (by norm_num) hN q hq hx, distSq_eq (by norm_num) q hx, h2]
    congr 1
    push_cast
    ring
  unfold cylinder_DF
  constructor
  · rintro ⟨i, -, h⟩
    exact ⟨_, diagonal_isDiagonal i 4, by rw [← key _ (diagonal_isDiagonal i 4)]; exact h⟩
  · rintro ⟨x, hx, h⟩
    obtain ⟨i, hi, rfl⟩ := diagonal_surj hN hx
    exact ⟨i, hi, by rw [key _ hx]; exact h⟩

/-- **C59.** In three directions, as used for the cuts of spatial momenta, the cylinder cut is wrong: a momentum exactly
on a diagonal is refused when it is longer than about four widths. -/
theorem C59_cylinder_fails (t w : ℝ) (ht : 0 < t) (hw : 0 ≤ w) (h : w ^ 2 < t ^ 2 / 20) :
    ¬ cylinder_DF 4 3 (fun mu => if mu < 3 then t else 0) w ∧
    ∃ x, IsDiagonal 3 x ∧ distSq 3 (fun mu => if mu < 3 then t else 0) x = 0 := by
  have h3 : √((3 : ℕ) : ℝ) * √((3 : ℕ) : ℝ) = 3 := by
    rw [Real.mul_self_sqrt (by positivity)]; norm_num
  have h30 : 0 < √((3 : ℕ) : ℝ) := Real.sqrt_pos.2 (by norm_num)
  have h31 : (1.732 : ℝ) < √((3 : ℕ) : ℝ) := Real.lt_sqrt_of_sq_lt (by norm_num)
  have hinv : 1 / √((3 : ℕ) : ℝ) < 0.5774 := by
    rw [div_lt_iff₀ h30]; nlinarith
  constructor
  · rintro ⟨i, -, hi⟩
    have hx := diagonal_isDiagonal i 3
    rw [offAxisDF_eq (by norm_num) (by norm_num) _ (fun mu hmu => if_neg (by omega)) hx] at hi
    have hle := (Real.sqrt_le_left hw).1 hi
    simp only [sum_range_succ, sum_range_zero, Nat.ofNat_pos, if_true, Nat.one_lt_ofNat, Nat.lt_add_one, zero_add]
      at hle
    have hs : ∀ a b c : ℤ, (a = 1 ∨ a = -1) → (b = 1 ∨ b = -1) → (c = 1 ∨ c = -1) →
        (t * (a : ℝ) + t * (b : ℝ) + t * (c : ℝ)) ^ 2 ≤ 9 * t ^ 2 := by
      rintro a b c (rfl | rfl) (rfl | rfl) (rfl | rfl) <;> push_cast <;> nlinarith [sq_nonneg t]
    have hs' := hs _ _ _ (hx.1 0 (by norm_num)) (hx.1 1 (by norm_num)) (hx.1 2 (by norm_num))
    have hpos : 0 ≤ 1 / √((3 : ℕ) : ℝ) - 1 / 4 := by
      have : 1 / √((3 : ℕ) : ℝ) * √((3 : ℕ) : ℝ) = 1 := by field_simp
      have : √((3 : ℕ) : ℝ) < 2 := by nlinarith
      nlinarith
    have := mul_le_mul_of_nonneg_right hs' hpos
    have h9 : 9 * t ^ 2 * (1 / √((3 : ℕ) : ℝ) - 1 / 4) ≤ 9 * t ^ 2 * (0.5774 - 1 / 4) :=
      mul_le_mul_of_nonneg_left (by linarith) (by positivity)
    have : 0 < t ^ 2 := by positivity
    linarith
  · refine ⟨fun mu => if mu < 3 then 1 else 0, ⟨fun mu hmu => Or.inl (if_pos hmu), fun mu hmu => if_neg (by omega)⟩, ?_⟩
    simp only [distSq, sum_range_succ, sum_range_zero]
    norm_num
    ring

/-- **C59.** The combined cut accepts, besides momenta of practically zero length, exactly the momenta not further than
the width from a diagonal that includes at most the given angle with the momentum, in any number of directions. -/
theorem C59_conical {D N : ℕ} (hD : 0 < D) (hDN : D ≤ N) (q : ℕ → ℝ) (w rad tol : ℝ) (htol : 0 < tol) :
    cylinder_CJD N D q w rad tol ↔ ∑ mu ∈ range D, q mu ^ 2 < tol ∨
      ∃ x, IsDiagonal D x ∧ √(distSq D q x) ≤ w ∧ angleTo D q x ≤ rad := by
  have hsum : acc (fun mu => q mu * q mu) D = ∑ mu ∈ range D, q mu ^ 2 := by
    rw [acc_eq]; exact sum_congr rfl fun mu _ => by ring
  unfold cylinder_CJD
  rw [hsum]
  by_cases hsmall : ∑ mu ∈ range D, q mu ^ 2 < tol
  · exact ⟨fun _ => Or.inl hsmall, fun _ => Or.inl hsmall⟩
  have hq0 : 0 < ∑ mu ∈ range D, q mu ^ 2 := by linarith
  set Q := ∑ mu ∈ range D, q mu ^ 2 with hQ
  have hQs : 0 < √Q := Real.sqrt_pos.2 hq0
  have hDs : (0 : ℝ) < √D := Real.sqrt_pos.2 (by positivity)
  have key : ∀ x, IsDiagonal D x → thetaCJD D q x = angleTo D q x ∧
      Real.sin (thetaCJD D q x) / (1 / √Q) = √(distSq D q x) := by
    intro x hx
    have hn : acc (fun nu => (x nu : ℝ) * x nu) D = D := by
      rw [acc_eq, sum_congr rfl fun mu hmu => diag_sq hx (mem_range.1 hmu)]
      simp
    have ht : thetaCJD D q x = angleTo D q x := by
      unfold thetaCJD angleTo
      dsimp only
      rw [hsum, hn, acc_eq, ← sum_mul, ← hQ]
      congr 1
      field_simp
    refine ⟨ht, ?_⟩
    rw [ht, angleTo, Real.sin_arccos, distSq_eq hD q hx, ← hQ]
    rw [div_div_eq_mul_div, div_one, ← Real.sqrt_mul' _ hq0.le]
    congr 1
    rw [div_pow, mul_pow, Real.sq_sqrt hq0.le, Real.sq_sqrt (by positivity)]
    have : (D : ℝ) ≠ 0 := by positivity
    field_simp
  constructor
  · rintro (h | ⟨i, -, h1, h2⟩)
    · exact Or.inl h
    · have hx := diagonal_isDiagonal i D
      exact Or.inr ⟨_, hx, by rw [← (key _ hx).2]; exact h1, by rw [← (key _ hx).1]; exact h2⟩
  · rintro (h | ⟨x, hx, h1, h2⟩)
    · exact Or.inl h
    · obtain ⟨i, hi, rfl⟩ := diagonal_surj hDN hx
      exact Or.inr ⟨i, hi, by rw [(key _ hx).2]; exact h1, by rw [(key _ hx).1]; exact h2⟩

theorem hypFlag_le (rats : ℕ → ℝ) (k : ℕ → ℤ) (root : ℝ) (D : ℕ) : hypFlag rats k root D ≤ D := by
  induction D with
  | zero => exact le_rfl
  | succ D ih => rw [hypFlag]; split <;> omega

theorem hypFlag_eq (rats : ℕ → ℝ) (k : ℕ → ℤ) (root : ℝ) (D : ℕ) :
    hypFlag rats k root D = D ↔ ∀ mu < D, |(k mu : ℝ) * rats mu| ≤ root := by
  induction D with
  | zero => simp [hypFlag]
  | succ D ih =>
    have := hypFlag_le rats k root D
    rw [hypFlag, Nat.forall_lt_succ_right, ← ih]
    split
    · rename_i h; constructor
      · intro h'; exact ⟨by omega, h⟩
      · intro h'; omega
    · rename_i h; constructor
      · intro h'; omega
      · intro h'; exact absurd h'.2 h

theorem gen_calc_psq_eq (L : Latt) (small D : ℕ) (n : ℕ → ℤ) : gen_calc_psq (ratio L small) n D = psq L small D n := by
  unfold gen_calc_psq psq ratio
  rw [acc_eq]
  exact sum_congr rfl fun mu _ => by ring

theorem compute_p_eq (L : Latt) (D : ℕ) (n : ℕ → ℤ) : compute_p L n D = sinMom L D n := by
  funext mu
  unfold compute_p sinMom
  split
  · congr 2; ring
  · rfl

/-- **C59.** What the four cuts accept: every entry below the root of the maximum; the square below the maximum; and
with that the distance of the lattice momentum from a diagonal (in four directions), or distance and angle. -/
theorem C59_cuts (L : Latt) (small : ℕ) (tol : ℝ) (htol : 0 < tol) (c : Cut) {D : ℕ} (hD : 0 < D) (hDN : D ≤ L.ND)
    (n : ℕ → ℤ) :
    (c.type = .hypercubic → (safe_momenta L small tol c D n ↔
      ∀ mu < D, |(n mu : ℝ) * ((small : ℝ) / L.dims mu)| ≤ √c.max_mom)) ∧
    (c.type = .psq → (safe_momenta L small tol c D n ↔ psq L small D n ≤ c.max_mom)) ∧
    (c.type = .cylinder → D = 4 → (safe_momenta L small tol c D n ↔ psq L small D n ≤ c.max_mom ∧
      ∃ x, IsDiagonal D x ∧ √(distSq D (sinMom L D n) x) ≤ 2 * Real.pi * c.cyl_width / small)) ∧
    (c.type = .cylinderConical → (safe_momenta L small tol c D n ↔ psq L small D n ≤ c.max_mom ∧
      (∑ mu ∈ range D, sinMom L D n mu ^ 2 < tol ∨ ∃ x, IsDiagonal D x ∧
        √(distSq D (sinMom L D n) x) ≤ 2 * Real.pi * c.cyl_width / small ∧
        angleTo D (sinMom L D n) x ≤ c.angle * 0.01745329251994330))) := by
  refine ⟨?_, ?_, ?_, ?_⟩
  · intro h
    unfold safe_momenta
    rw [h]
    dsimp only
    rw [hypFlag_eq]
    rfl
  · intro h
    unfold safe_momenta
    rw [h]
    dsimp only
    rw [gen_calc_psq_eq]
  · intro h h4
    subst h4
    unfold safe_momenta
    rw [h]
    dsimp only
    rw [gen_calc_psq_eq, compute_p_eq, C59_cylinder hDN (sinMom L 4 n) (fun mu hmu => if_neg (by omega))]
  · intro h
    unfold safe_momenta
    rw [h]
    dsimp only
    rw [gen_calc_psq_eq, compute_p_eq, C59_conical hD hDN _ _ _ _ htol]

theorem psq_neg (L : Latt) (small D : ℕ) (n : ℕ → ℤ) : psq L small D (fun mu => -n mu) = psq L small D n := by
  unfold psq
  exact sum_congr rfl fun mu _ => by push_cast; ring

theorem sinMom_neg (L : Latt) (D : ℕ) (n : ℕ → ℤ) (mu : ℕ) : sinMom L D (fun mu => -n mu) mu = -sinMom L D n mu := by
  unfold sinMom
  split
  · have : Real.pi * ((-n mu : ℤ) : ℝ) / L.dims mu = -(Real.pi * n mu / L.dims mu) := by push_cast; ring
    rw [this, Real.sin_neg]; ring
  · ring

/-- **C59.** All cuts treat a momentum and its reflection alike. -/
theorem C59_even (L : Latt) (small : ℕ) (tol : ℝ) (htol : 0 < tol) (c : Cut) {D : ℕ} (hD : 0 < D) (hDN : D ≤ L.ND)
    (n : ℕ → ℤ) : safe_momenta L small tol c D (fun mu => -n mu) ↔ safe_momenta L small tol c D n := by
  unfold safe_momenta
  dsimp only
  cases c.type
  · dsimp only
    rw [hypFlag_eq, hypFlag_eq]
    refine forall_congr' fun mu => forall_congr' fun _ => ?_
    push_cast
    rw [neg_mul, abs_neg]
  · dsimp only
    rw [gen_calc_psq_eq, gen_calc_psq_eq, psq_neg]
  · dsimp only
    rw [gen_calc_psq_eq, gen_calc_psq_eq, psq_neg, compute_p_eq, compute_p_eq]
    refine and_congr_right fun _ => ?_
    unfold cylinder_DF
    refine exists_congr fun i => and_congr_right fun _ => ?_
    have hx := diagonal_isDiagonal i D
    rw [offAxisDF_eq hD hDN (sinMom L D fun mu => -n mu) (fun mu hmu => if_neg (by omega)) hx,
      offAxisDF_eq hD hDN (sinMom L D n) (fun mu hmu => if_neg (by omega)) hx]
    have e1 : ∑ mu ∈ range D, sinMom L D (fun mu => -n mu) mu ^ 2 = ∑ mu ∈ range D, sinMom L D n mu ^ 2 :=
      sum_congr rfl fun mu _ => by rw [sinMom_neg]; ring
    have e2 : ∑ mu ∈ range D, sinMom L D (fun mu => -n mu) mu * (get_diagonal i D mu : ℝ)
        = -∑ mu ∈ range D, sinMom L D n mu * (get_diagonal i D mu : ℝ) := by
      rw [← sum_neg_distrib]
      exact sum_congr rfl fun mu _ => by rw [sinMom_neg]; ring
    rw [e1, e2, neg_sq]
  · dsimp only
    rw [gen_calc_psq_eq, gen_calc_psq_eq, psq_neg, compute_p_eq, compute_p_eq,
      C59_conical hD hDN _ _ _ _ htol, C59_conical hD hDN _ _ _ _ htol]
    refine and_congr_right fun _ => ?_
    have e1 : ∑ mu ∈ range D, sinMom L D (fun mu => -n mu) mu ^ 2 = ∑ mu ∈ range D, sinMom L D n mu ^ 2 :=
      sum_congr rfl fun mu _ => by rw [sinMom_neg]; ring
    have e2 : ∀ x : ℕ → ℤ, ∑ mu ∈ range D, sinMom L D (fun mu => -n mu) mu * (x mu : ℝ)
        = ∑ mu ∈ range D, sinMom L D n mu * ((-x mu : ℤ) : ℝ) := fun x =>
      sum_congr rfl fun mu _ => by rw [sinMom_neg]; push_cast; ring
    have hneg : ∀ x, IsDiagonal D x → IsDiagonal D (fun mu => -x mu) := by
      intro x hx
      refine ⟨fun mu hmu => ?_, fun mu hmu => by dsimp only; rw [hx.2 mu hmu]; rfl⟩
      rcases hx.1 mu hmu with h | h <;> simp [h]
    have hswap : ∀ x, IsDiagonal D x → distSq D (sinMom L D fun mu => -n mu) x = distSq D (sinMom L D n) (fun mu => -x mu)
        ∧ angleTo D (sinMom L D fun mu => -n mu) x = angleTo D (sinMom L D n) (fun mu => -x mu) := by
      intro x hx
      rw [distSq_eq hD _ hx, distSq_eq hD _ (hneg x hx), angleTo, angleTo, e1, e2]
      exact ⟨rfl, rfl⟩
    rw [e1]
    refine or_congr_right ⟨?_, ?_⟩
    · rintro ⟨x, hx, h1, h2⟩
      obtain ⟨s1, s2⟩ := hswap x hx
      exact ⟨_, hneg x hx, by rw [← s1]; exact h1, by rw [← s2]; exact h2⟩
    · rintro ⟨x, hx, h1, h2⟩
      obtain ⟨s1, s2⟩ := hswap _ (hneg x hx)
      simp only [neg_neg] at s1 s2
      exact ⟨_, hneg x hx, by rw [s1]; exact h1, by rw [s2]; exact h2⟩

theorem acc_congr {f g : ℕ → ℝ} {n : ℕ} (h : ∀ i < n, f i = g i) : acc f n = acc g n := by
  rw [acc_eq, acc_eq]; exact sum_congr rfl fun i hi => h i (mem_range.1 hi)

/-- **C59.** All cuts look only at the directions they are given. -/
theorem C59_local (L : Latt) (small : ℕ) (tol : ℝ) (c : Cut) (D : ℕ) (n n' : ℕ → ℤ) (h : ∀ mu < D, n mu = n' mu) :
    safe_momenta L small tol c D n ↔ safe_momenta L small tol c D n' := by
  have hp : gen_calc_psq (ratio L small) n D = gen_calc_psq (ratio L small) n' D := by
    unfold gen_calc_psq; exact acc_congr fun i hi => by rw [h i hi]
  have hc : compute_p L n D = compute_p L n' D := by
    funext mu
    unfold compute_p
    split
    · rename_i hmu; rw [h mu hmu]
    · rfl
  unfold safe_momenta
  dsimp only
  rw [hp, hc, hypFlag_eq, hypFlag_eq]
  have : (∀ mu < D, |(n mu : ℝ) * ratio L small mu| ≤ √(c.max_mom : ℝ)) ↔
      ∀ mu < D, |(n' mu : ℝ) * ratio L small mu| ≤ √(c.max_mom : ℝ) :=
    forall_congr' fun mu => forall_congr' fun hmu => by rw [h mu hmu]
  rw [this]

open Classical in
/-- **C59.** All together: the momentum list of `compute_veclist` for the actual cuts. -/
theorem C59_momenta {L : Latt} (hL : Valid L) {D : ℕ} (hD : SliceDims L D) (hD0 : 0 < D) (tol : ℝ) (htol : 0 < tol)
    (c : Cut) :
    let keep : (ℕ → ℤ) → Bool := fun n => decide (safe_momenta L (smallest L.dims D) tol c D n)
    let list := get_mom_veclist L keep D
    (∀ n, InZone L D n → ((∃ v ∈ list, ∀ mu < D, v.MOM mu = n mu) ↔ safe_momenta L (smallest L.dims D) tol c D n)) ∧
    list.Pairwise (fun v w => v.idx ≠ w.idx ∧ ∃ mu < D, v.MOM mu ≠ w.MOM mu) ∧
    ((∀ n, safe_momenta L (smallest L.dims D) tol c D n → InZone L D n → ∀ mu < D, 2 * n mu ≠ -(L.dims mu : ℤ)) →
      ∀ k (h : k < list.length), ∀ mu < D, (list[list.length - 1 - k]'(by omega)).MOM mu = -(list[k]).MOM mu) ∧
    compute_veclist L keep D false = if list = [] then none else some list := by
  intro keep list
  have hloc : Local D keep := fun n n' h => by
    simp only [keep]; exact decide_eq_decide.2 (C59_local L _ tol c D n n' h)
  obtain ⟨h1, -, h3⟩ := C59_list hL hD keep hloc
  refine ⟨fun n hn => by rw [h1 n hn]; simp [keep], h3, ?_, ?_⟩
  · intro hb
    exact C59_reflect hL hD keep hloc
      (fun n => by simp only [keep]; exact decide_eq_decide.2 (C59_even L _ tol htol c hD0 hD.le n))
      (fun n hn => hb n (by simpa [keep] using hn))
  · unfold compute_veclist
    simp only [Bool.false_eq_true, if_false, List.length_eq_zero_iff]
    rfl

/-- A lattice with three different extents and a cut below the zone boundary. -/
example : let L : Latt := ⟨4, fun mu => if mu = 3 then 16 else 8⟩
    Valid L ∧ SliceDims L 4 ∧ SliceDims L 3 ∧
    ∀ n : ℕ → ℤ, safe_momenta L (smallest L.dims 4) 1 ⟨.psq, 3, 0, 0⟩ 4 n → ∀ mu < 4, 2 * n mu ≠ -(L.dims mu : ℤ) := by
  intro L
  refine ⟨⟨by decide, by decide, by decide +kernel⟩, Or.inl rfl, Or.inr rfl, ?_⟩
  intro n hn
  have hs : smallest L.dims 4 = 8 := by decide
  rw [hs] at hn
  have h := ((C59_cuts L 8 1 one_pos ⟨.psq, 3, 0, 0⟩ (D := 4) (by norm_num) le_rfl n).2.1 rfl).1 hn
  intro mu hmu he
  have hle : ((8 : ℕ) / (L.dims mu : ℝ) * n mu) ^ 2 ≤ psq L 8 4 n :=
    single_le_sum (f := fun mu => ((8 : ℕ) / (L.dims mu : ℝ) * n mu) ^ 2) (fun i _ => sq_nonneg _) (mem_range.2 hmu)
  have h2 : (2 : ℝ) * n mu = -(L.dims mu : ℝ) := by exact_mod_cast he
  have hpos : (L.dims mu : ℝ) ≠ 0 := by
    have : 0 < L.dims mu := by simp only [L]; split <;> norm_num
    positivity
  have h3 : ((8 : ℕ) : ℝ) / (L.dims mu : ℝ) * n mu = -4 := by
    field_simp
    push_cast
    linarith
  rw [h3] at hle
  norm_num at h hle
  linarith

end GLU.Cuts
