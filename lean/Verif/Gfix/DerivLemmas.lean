import Verif.Gfix.OrSweep
import Verif.Mat.ExpLemmas
import Verif.Field.CloverProps

/-!
# The divergence of the gauge field: lemmas
-/

namespace GLU.Gfix

open Complex GLU.Mat GLU.Geom GLU.Field GLU.Update GLU.Draught Matrix Finset

/-! ## Specification -/

/-- The lattice divergence of the gauge potential at a site, over the first `D` directions.  The gauge potential of a
link is the traceless Hermitian part of `U / i`. -/
noncomputable def divergence (NC : ℕ) (L : Latt) (lat : Gauge) (i D : ℕ) : Matrix (Fin NC) (Fin NC) ℂ :=
  ∑ mu ∈ range D, (lieHerm (link NC lat (back L i mu) mu) - lieHerm (link NC lat i mu))

/-! ## Packed storage -/

theorem pack_above (NC : ℕ) (hN : 1 ≤ NC) (a b : Arr ℂ) {k : ℕ} (hk : HERMSIZE NC ≤ k) : pack_hermitian NC a b k = a k := by
  have := tri_inv NC (NC - 1) (fun i j (s : ℕ × Arr ℂ) => s.1 = off NC i + (j - i) ∧ s.2 k = a k)
    (body := fun i j s => (s.1 + 1, Function.update s.2 s.1 (b (j + i * NC)))) (s := (0, a))
    (by omega) ⟨rfl, rfl⟩
    (fun i hi j hij hj s hs => by
      obtain ⟨h1, h2⟩ := hs
      refine ⟨by simp only [h1]; omega, ?_⟩
      have := off_lt NC (show i < NC - 1 by omega) (j := j - i) (by omega)
      rw [off_last hN] at this
      simp only [Function.update_apply, h1]
      rw [if_neg (by omega), h2])
    (fun i hi s hs => ⟨by rw [hs.1]; simp [off], hs.2⟩)
  exact this.2

theorem short_entry {NC : ℕ} (hN : 2 ≤ NC) (Q : Arr ℂ) {U : Arr ℂ} (hU : IsSU NC U) {r c : ℕ} (hr : r < NC - 1)
    (hrc : r ≤ c) (hc : c < NC) :
    Hermitian_proj_short NC Q U (off NC r + (c - r)) = lieHerm (toM NC U) ⟨r, by omega⟩ ⟨c, hc⟩ := by
  have hq := quatForm_su hU
  have hlt := off_lt NC (show r < NC - 1 by omega) (j := c - r) (by omega)
  rw [off_last (by omega)] at hlt
  rw [C70_hermitian_short hN Q Q Q hq _ hlt, pack_apply NC Q _ hr hrc hc, ← C70_hermitian (by omega) Q hq, toM_apply]

theorem derivSum_entry {NC : ℕ} (hN : 2 ≤ NC) {L : Latt} (hL : Valid L) (scratch sum : Arr ℂ) {lat : Gauge}
    (hU : SUField NC L lat) {i D : ℕ} (hi : i < volume L) (hD : D ≤ L.ND) {r c : ℕ} (hr : r < NC - 1)
    (hrc : r ≤ c) (hc : c < NC) :
    derivSum NC L scratch sum lat i D (off NC r + (c - r)) =
      sum (off NC r + (c - r)) + divergence NC L lat i D ⟨r, by omega⟩ ⟨c, hc⟩ := by
  have hlt := off_lt NC (show r < NC - 1 by omega) (j := c - r) (by omega)
  rw [off_last (by omega)] at hlt
  unfold derivSum divergence
  induction D with
  | zero => simp [forN]
  | succ D ih =>
    rw [forN, a_plus_Sxbminc_short, mapN_apply, if_pos hlt, ih (by omega), sum_range_succ, Matrix.add_apply,
      short_entry hN _ (hU _ (back_lt hL i (mu := D) (by omega)) D (by omega)) hr hrc hc,
      short_entry hN _ (hU _ hi D (by omega)) hr hrc hc]
    simp only [link, Matrix.sub_apply]
    push_cast
    ring

theorem divergence_herm {NC : ℕ} (L : Latt) (lat : Gauge) (i D : ℕ) :
    (divergence NC L lat i D).IsHermitian ∧ (divergence NC L lat i D).trace = 0 := by
  constructor
  · unfold Matrix.IsHermitian divergence
    rw [conjTranspose_sum]
    exact sum_congr rfl fun mu _ => by rw [conjTranspose_sub, lieHerm_hermitian, lieHerm_hermitian]
  · unfold divergence
    rw [Matrix.trace_sum]
    exact sum_eq_zero fun mu _ => by rw [Matrix.trace_sub, lieHerm_traceless, lieHerm_traceless, sub_zero]

theorem derivSum_pack {NC : ℕ} (hN : 2 ≤ NC) {L : Latt} (hL : Valid L) (scratch : Arr ℂ) {lat : Gauge}
    (hU : SUField NC L lat) {i D : ℕ} (hi : i < volume L) (hD : D ≤ L.ND) :
    pack_hermitian NC (derivSum NC L scratch (fun _ => 0) lat i D) (arrOf (divergence NC L lat i D)) =
      derivSum NC L scratch (fun _ => 0) lat i D := by
  funext k
  by_cases hk : k < HERMSIZE NC
  · obtain ⟨r, c, hr, hrc, hc, rfl⟩ := packed_cover hk
    rw [pack_apply _ _ _ hr hrc hc, derivSum_entry hN hL scratch _ hU hi hD hr hrc hc, zero_add]
    have := congrFun (congrFun (toM_arrOf (divergence NC L lat i D)) ⟨r, by omega⟩) ⟨c, hc⟩
    rw [← this, toM_apply]
  · exact pack_above NC (by omega) _ _ (by omega)

theorem trace_deriv_eq {NC : ℕ} (sum : Arr ℂ) : trace_deriv NC sum = 2 * trace_ab_herm_short NC sum sum := by
  unfold trace_deriv
  split_ifs with h3 h2
  · subst h3
    unfold trace_ab_herm_short
    rw [if_pos rfl]
    ring
  · subst h2
    unfold trace_ab_herm_short
    rw [if_neg (by norm_num), if_pos rfl]
    ring
  · rfl

theorem latt_deriv_eq {NC : ℕ} (hN : 2 ≤ NC) {L : Latt} (hL : Valid L) (scratch : Arr ℂ) {lat : Gauge}
    (hU : SUField NC L lat) {i D : ℕ} (hi : i < volume L) (hD : D ≤ L.ND) :
    latt_deriv_AntiHermitian_proj NC L scratch (fun _ => 0) lat i D =
      2 * (divergence NC L lat i D * divergence NC L lat i D).trace.re := by
  have hh : HermTraceless NC (arrOf (divergence NC L lat i D)) := by
    unfold HermTraceless
    rw [toM_arrOf]
    exact divergence_herm L lat i D
  have h := C12_trace_ab_herm_short hN hh hh (derivSum NC L scratch (fun _ => 0) lat i D)
    (derivSum NC L scratch (fun _ => 0) lat i D)
  rw [derivSum_pack hN hL scratch hU hi hD, toM_arrOf] at h
  rw [latt_deriv_AntiHermitian_proj, trace_deriv_eq, ← h, ofReal_re]

theorem herm_sq {n : ℕ} {A : Matrix (Fin n) (Fin n) ℂ} (h : A.IsHermitian) :
    (A * A).trace.re = ∑ a, ∑ b, ‖A a b‖ ^ 2 := by
  rw [Matrix.trace, re_sum]
  refine sum_congr rfl fun a _ => ?_
  rw [diag_apply, Matrix.mul_apply, re_sum]
  refine sum_congr rfl fun b _ => ?_
  have : A b a = star (A a b) := by rw [h.apply]
  rw [this, ← normSq_eq_norm_sq, normSq_apply]
  simp [mul_re]

theorem herm_sq_nonneg {n : ℕ} {A : Matrix (Fin n) (Fin n) ℂ} (h : A.IsHermitian) : 0 ≤ (A * A).trace.re := by
  rw [herm_sq h]; positivity

theorem herm_sq_zero {n : ℕ} {A : Matrix (Fin n) (Fin n) ℂ} (h : A.IsHermitian) : (A * A).trace.re = 0 ↔ A = 0 := by
  constructor
  · intro h0
    rw [herm_sq h, sum_eq_zero_iff_of_nonneg (fun _ _ => by positivity)] at h0
    ext a b
    have h1 := h0 a (mem_univ _)
    rw [sum_eq_zero_iff_of_nonneg (fun _ _ => by positivity)] at h1
    have h2 := h1 b (mem_univ _)
    simpa using h2
  · rintro rfl; simp

/-! ## The divergence and the sum over the links of the site -/

theorem lieHerm_add {n : ℕ} (A B : Matrix (Fin n) (Fin n) ℂ) : lieHerm (A + B) = lieHerm A + lieHerm B := by
  ext a b
  simp only [lieHerm_apply, Matrix.add_apply, add_im, sum_add_distrib, star_add]
  push_cast
  split_ifs <;> ring

theorem lieHerm_zero (n : ℕ) : lieHerm (0 : Matrix (Fin n) (Fin n) ℂ) = 0 := lieHerm_real (by simp)

theorem divergence_eq {NC : ℕ} (L : Latt) (lat : Gauge) (i D : ℕ) :
    divergence NC L lat i D = -lieHerm (siteSum NC L lat i D) := by
  unfold divergence siteSum
  induction D with
  | zero => simp [lieHerm_zero]
  | succ D ih =>
    rw [sum_range_succ, sum_range_succ, ih, lieHerm_add, lieHerm_add, lieHerm_star]
    abel

theorem lieHerm_zero_iff {n : ℕ} (A : Matrix (Fin n) (Fin n) ℂ) :
    lieHerm A = 0 ↔ ∀ p q : Fin n, p < q → (A p p).im = (A q q).im ∧ A p q = star (A q p) := by
  constructor
  · intro h p q hpq
    have h1 := congrFun (congrFun h p) p
    have h2 := congrFun (congrFun h q) q
    have h3 := congrFun (congrFun h p) q
    rw [lieHerm_apply, if_pos rfl, Matrix.zero_apply, sub_eq_zero] at h1 h2
    rw [lieHerm_apply, if_neg hpq.ne, Matrix.zero_apply, sub_zero] at h3
    refine ⟨?_, ?_⟩
    · have h4 := congrArg Complex.re (h1.trans h2.symm)
      simp [mul_re, div_re, div_im] at h4
      linarith
    · have : (-I / 2 : ℂ) ≠ 0 := by simp
      rcases mul_eq_zero.1 h3 with h4 | h4
      · exact absurd h4 this
      · exact sub_eq_zero.1 h4
  · intro h
    have hd : ∀ p q, (A p p).im = (A q q).im := fun p q => by
      rcases lt_trichotomy p q with hl | rfl | hl
      · exact (h p q hl).1
      · rfl
      · exact (h q p hl).1.symm
    ext p q
    rw [lieHerm_apply, Matrix.zero_apply]
    split_ifs with e
    · subst e
      have hn : (n : ℂ) ≠ 0 := by
        have := p.2
        exact_mod_cast (show n ≠ 0 by omega)
      rw [sum_congr rfl fun k _ => hd k p]
      simp only [sum_const, card_univ, Fintype.card_fin, nsmul_eq_mul]
      push_cast
      rw [mul_div_cancel_left₀ _ hn]
      apply Complex.ext <;> simp [mul_re, mul_im, div_re, div_im]
      ring
    · rcases lt_or_gt_of_ne e with hl | hl
      · rw [(h p q hl).2, sub_self, mul_zero, sub_zero]
      · rw [(h q p hl).2, star_star, sub_self, mul_zero, sub_zero]

end GLU.Gfix
