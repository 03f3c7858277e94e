import Verif.Gfix.FASpec
import Verif.Gfix.StepDeriv
import Verif.Gfix.DerivProps
import Mathlib.Analysis.Matrix.PosDef

/-!
# Lemmas on the Fourier-accelerated steps
-/

namespace GLU.Gfix

open Complex Matrix Finset GLU.Mat GLU.Geom GLU.Field
open scoped ComplexOrder

theorem upper_diag_re {NC : ℕ} (hN : 2 ≤ NC) {inp : ℕ → ℂ} (h : ImagDiag NC inp) {r : ℕ} (hr : r < NC - 1) :
    (upper NC inp r r).re = 0 := by
  unfold upper
  split
  · rw [if_pos rfl]; split <;> simp
  · split
    · rw [if_pos rfl]; simp
    · exact h (by omega) r hr

theorem upper_smul (NC : ℕ) (a : ℝ) (inp : ℕ → ℂ) (r c : ℕ) :
    upper NC (fun mu => a * inp mu) r c = a * upper NC inp r c := by
  unfold upper
  split_ifs <;> simp <;> ring

theorem upper_zero (NC : ℕ) (r c : ℕ) : upper NC (fun _ => 0) r c = 0 := by
  unfold upper
  split_ifs <;> simp

theorem star_of_re {z : ℂ} (h : z.re = 0) : star z = -z := by
  apply Complex.ext <;> simp [h]

theorem direction_skew {NC : ℕ} (hN : 2 ≤ NC) {inp : ℕ → ℂ} (h : ImagDiag NC inp) :
    (direction NC inp)ᴴ = -direction NC inp := by
  ext r c
  rw [conjTranspose_apply, Matrix.neg_apply]
  unfold direction
  rcases Nat.lt_trichotomy (r : ℕ) c with h1 | h1 | h1
  · rw [if_neg (by omega), if_pos h1, if_pos h1, star_neg, star_star]
  · have : r = c := Fin.ext h1
    subst this
    rw [if_neg (by omega), if_neg (by omega)]
    split
    · next h2 => exact star_of_re (upper_diag_re hN h h2)
    · rw [star_neg, star_sum, neg_neg, ← sum_neg_distrib]
      exact sum_congr rfl fun k hk => by rw [star_of_re (upper_diag_re hN h (mem_range.1 hk)), neg_neg]
  · rw [if_pos h1, if_neg (by omega), if_pos h1, neg_neg]

theorem direction_trace {NC : ℕ} (hN : 2 ≤ NC) (inp : ℕ → ℂ) : (direction NC inp).trace = 0 := by
  obtain ⟨m, rfl⟩ : ∃ m, NC = m + 1 := ⟨NC - 1, by omega⟩
  unfold Matrix.trace
  rw [Fin.sum_univ_castSucc]
  have h1 : ∀ k : Fin m, (direction (m + 1) inp).diag k.castSucc = upper (m + 1) inp k k := fun k => by
    rw [diag_apply]
    unfold direction
    rw [if_neg (by omega), if_neg (by omega), if_pos (by simp)]
    rfl
  have h2 : (direction (m + 1) inp).diag (Fin.last m) = -∑ k ∈ range m, upper (m + 1) inp k k := by
    rw [diag_apply]
    unfold direction
    rw [if_neg (by omega), if_neg (by omega), if_neg (by simp)]
    rfl
  rw [h2, Finset.sum_congr rfl fun k _ => h1 k, Finset.sum_range fun k => upper (m + 1) inp k k, add_neg_cancel]

theorem direction_smul (NC : ℕ) (a : ℝ) (inp : ℕ → ℂ) :
    direction NC (fun mu => a * inp mu) = (a : ℂ) • direction NC inp := by
  ext r c
  rw [Matrix.smul_apply, smul_eq_mul]
  unfold direction
  simp only [upper_smul]
  split_ifs
  · rfl
  · simp
  · rfl
  · rw [mul_neg, mul_sum]

/-- One plus an anti-Hermitian matrix is invertible. -/
theorem one_add_skew_det {n : ℕ} {B : Matrix (Fin n) (Fin n) ℂ} (hB : Bᴴ = -B) : (1 + B).det ≠ 0 := by
  have h1 : (1 + B)ᴴ * (1 + B) = 1 + Bᴴ * B := by
    rw [conjTranspose_add, conjTranspose_one, hB]
    noncomm_ring
  have h2 : ((1 + B)ᴴ * (1 + B)).PosDef := by
    rw [h1]
    exact PosDef.one.add_posSemidef (posSemidef_conjTranspose_mul_self B)
  have h3 := h2.det_pos.ne'
  rw [det_mul] at h3
  exact right_ne_zero_of_mul h3

/-- The vectors handed to the reunitarisation are those of `1 + alpha A`. -/
theorem gaugeStep_lead {NC : ℕ} (hN : 2 ≤ NC) (scratch : Arr ℂ) {inp : Planes} (alpha : ℝ) (i : ℕ)
    (h : ImagDiag NC fun mu => inp mu i) {k : ℕ} (hk : k < NC - 1) (c : Fin NC) :
    lead NC (gaugeStep NC scratch inp alpha i) k c =
      if NC ≤ 3 then (1 + (alpha : ℂ) • direction NC fun mu => inp mu i) c ⟨k, by omega⟩
      else (1 + (alpha : ℂ) • direction NC fun mu => inp mu i) ⟨k, by omega⟩ c := by
  by_cases h3 : NC = 3
  · subst h3
    have hk' : k = 0 ∨ k = 1 := by omega
    unfold lead gaugeStep
    simp only [if_true, le_refl]
    rcases hk' with rfl | rfl <;> fin_cases c
    all_goals
      simp [direction, upper, Matrix.one_apply, GLU.Mat.conj]
      try ring
  by_cases h2 : NC = 2
  · subst h2
    obtain rfl : k = 0 := by omega
    unfold lead gaugeStep
    simp only [if_true, show (2:ℕ) ≤ 3 by norm_num, show ¬ (2:ℕ) = 3 by norm_num, if_false]
    fin_cases c
    all_goals
      simp [direction, upper, Matrix.one_apply, GLU.Mat.conj]
      try ring
  have h4 : ¬ NC ≤ 3 := by omega
  unfold lead
  rw [if_neg h4, if_neg h4]
  have e : toM NC (gaugeStep NC scratch inp alpha i) = 1 + (alpha : ℂ) • direction NC fun mu => inp mu i := by
    unfold gaugeStep
    rw [if_neg h3, if_neg h2, C63_add_constant, one_smul, add_comm]
    congr 1
    have hI : ImagDiag NC fun mu => alpha * inp mu i := fun h5 r hr => by
      have := h h5 r hr
      simp only [] at this ⊢
      rw [re_ofReal_mul, this, mul_zero]
    rw [← direction_smul]
    have hp : (fun mu => (alpha : ℂ) * inp mu i) =
        pack_hermitian NC (fun mu => (alpha : ℂ) * inp mu i) (arrOf (direction NC fun mu => (alpha : ℂ) * inp mu i)) := by
      funext x
      by_cases hx : x < HERMSIZE NC
      · obtain ⟨r, c, hr, hrc, hc, rfl⟩ := packed_cover hx
        rw [pack_apply _ _ _ hr hrc hc]
        have e := congrFun (congrFun (toM_arrOf (direction NC fun mu => (alpha : ℂ) * inp mu i)) ⟨r, by omega⟩) ⟨c, hc⟩
        rw [toM_apply] at e
        simp only [] at e
        rw [e]
        unfold direction upper
        simp only [if_neg h3, if_neg h2]
        have hpos : packedPos NC r c = off NC r + (c - r) := by rw [off_eq _ _ (by omega)]; rfl
        by_cases hlt : r < c
        · rw [if_pos hlt, hpos]
        · have : c = r := by omega
          subst this
          rw [if_neg (by omega), if_neg (by omega), if_pos hr, hpos]
      · rw [pack_above NC (by omega) _ _ (Nat.le_of_not_lt hx)]
    conv_lhs => rw [hp]
    rw [C13_rebuild_pack_anti (by omega), toM_arrOf]
    refine ⟨?_, ?_⟩
    · rw [toM_arrOf]; exact direction_skew (by omega) hI
    · rw [toM_arrOf]; exact direction_trace (by omega) _
  have := congrFun (congrFun e ⟨k, by omega⟩) c
  rw [toM_apply] at this
  exact this

theorem set_gauge_defined {NC : ℕ} (hN : 2 ≤ NC) (hN' : NC ≤ 18) (scratch : Arr ℂ) {inp : Planes} (alpha : ℝ) (i : ℕ)
    (h : ImagDiag NC fun mu => inp mu i) :
    ∃ g, set_gauge_matrix NC scratch inp alpha i = some g ∧ IsSU NC g := by
  have hskew : ((alpha : ℂ) • direction NC fun mu => inp mu i)ᴴ = -((alpha : ℂ) • direction NC fun mu => inp mu i) := by
    rw [conjTranspose_smul, direction_skew hN h, star_def, conj_ofReal, smul_neg]
  have hdet := one_add_skew_det hskew
  set M := 1 + (alpha : ℂ) • direction NC fun mu => inp mu i with hM
  have hinj : Function.Injective fun k : Fin (NC - 1) => (⟨k, by omega⟩ : Fin NC) := fun a b hab => by
    have := congrArg Fin.val hab
    exact Fin.ext this
  have hli : LinearIndependent ℂ (leading NC (gaugeStep NC scratch inp alpha i)) := by
    by_cases h3 : NC ≤ 3
    · have h1 : LinearIndependent ℂ fun k => Mᵀ k := linearIndependent_rows_of_det_ne_zero (by rwa [det_transpose])
      have h2 := h1.comp _ hinj
      convert h2 using 1
      funext k c
      have := gaugeStep_lead hN scratch alpha i h k.2 c
      rw [if_pos h3] at this
      exact this
    · have h1 : LinearIndependent ℂ fun k => M k := linearIndependent_rows_of_det_ne_zero hdet
      have h2 := h1.comp _ hinj
      convert h2 using 1
      funext k c
      have := gaugeStep_lead hN scratch alpha i h k.2 c
      rw [if_neg h3] at this
      exact this
  obtain ⟨g, hg⟩ := C15_defined (by omega) scratch hli
  refine ⟨g, ?_, C15_special_unitary (by omega) hg⟩
  unfold set_gauge_matrix
  rw [if_neg (by omega), hg]

/-! ## The derivative -/

theorem fast_entry {NC : ℕ} (hN : 2 ≤ NC) {L : Latt} (hL : Valid L) (scratch : Arr ℂ) {lat : Gauge}
    (hU : SUField NC L lat) {i : ℕ} (hi : i < volume L) {r c : ℕ} (hr : r < NC - 1) (hrc : r ≤ c) (hc : c < NC) :
    (fast_deriv_AntiHermitian_proj NC L scratch lat i).1 (off NC r + (c - r)) =
      divergence NC L lat i L.ND ⟨r, by omega⟩ ⟨c, hc⟩ := by
  have hlt : off NC r + (c - r) < HERMSIZE NC := by
    have := off_lt NC (show r < NC - 1 by omega) (j := c - r) (by omega)
    rwa [off_last (by omega)] at this
  rw [(C80_fast L scratch lat i).1 _ hlt, derivSum_entry hN hL scratch _ hU hi le_rfl hr hrc hc, zero_add]

theorem herm_diag {n : ℕ} {A : Matrix (Fin n) (Fin n) ℂ} (h : A.IsHermitian) (r : Fin n) : (A r r).im = 0 := by
  have := congrFun (congrFun h r) r
  rw [conjTranspose_apply] at this
  exact Complex.conj_eq_iff_im.1 this

theorem mulI (z : ℂ) : I * (z.re : ℂ) - z.im = I * z := by
  apply Complex.ext <;> simp

theorem upper_planes {NC : ℕ} (S : Arr ℂ) (hS : ∀ r < NC - 1, (S (off NC r)).im = 0) {r c : ℕ} (hr : r < NC - 1)
    (hrc : r ≤ c) (hc : c < NC) : upper NC (derivPlanes NC S) r c = I * S (off NC r + (c - r)) := by
  by_cases h3 : NC = 3
  · subst h3
    have d0 : (S 0).im = 0 := hS 0 (by norm_num)
    have d1 : (S 3).im = 0 := hS 1 (by norm_num)
    have : r = 0 ∧ c = 0 ∨ r = 0 ∧ c = 1 ∨ r = 0 ∧ c = 2 ∨ r = 1 ∧ c = 1 ∨ r = 1 ∧ c = 2 := by omega
    rcases this with ⟨rfl, rfl⟩ | ⟨rfl, rfl⟩ | ⟨rfl, rfl⟩ | ⟨rfl, rfl⟩ | ⟨rfl, rfl⟩
    · change _ = I * S 0
      rw [← mulI, d0]
      simp [upper, derivPlanes]
    · change _ = I * S 1
      rw [← mulI]
      simp [upper, derivPlanes]
    · change _ = I * S 2
      rw [← mulI]
      simp [upper, derivPlanes]
    · change _ = I * S 3
      rw [← mulI, d1]
      simp [upper, derivPlanes]
    · change _ = I * S 4
      rw [← mulI]
      simp [upper, derivPlanes]
  by_cases h2 : NC = 2
  · subst h2
    have d0 : (S 0).im = 0 := hS 0 (by norm_num)
    have : r = 0 ∧ c = 0 ∨ r = 0 ∧ c = 1 := by omega
    rcases this with ⟨rfl, rfl⟩ | ⟨rfl, rfl⟩
    · change _ = I * S 0
      rw [← mulI, d0]
      simp [upper, derivPlanes]
    · change _ = I * S 1
      rw [← mulI]
      simp [upper, derivPlanes]
  · have hpos : packedPos NC r c = off NC r + (c - r) := by rw [off_eq _ _ (by omega)]; rfl
    unfold upper derivPlanes
    rw [if_neg h3, if_neg h2, if_neg h3, if_neg h2, hpos, mulI]

theorem upper_deriv {NC : ℕ} (hN : 2 ≤ NC) {L : Latt} (hL : Valid L) (scratch : Arr ℂ) {lat : Gauge}
    (hU : SUField NC L lat) {i : ℕ} (hi : i < volume L) {r c : ℕ} (hr : r < NC - 1) (hrc : r ≤ c) (hc : c < NC) :
    upper NC (derivPlanes NC (fast_deriv_AntiHermitian_proj NC L scratch lat i).1) r c =
      I * divergence NC L lat i L.ND ⟨r, by omega⟩ ⟨c, hc⟩ := by
  rw [upper_planes _ _ hr hrc hc, fast_entry hN hL scratch hU hi hr hrc hc]
  intro k hk
  have := fast_entry hN hL scratch hU hi hk le_rfl (show k < NC by omega)
  rw [Nat.sub_self, Nat.add_zero] at this
  rw [this]
  exact herm_diag (divergence_herm (NC := NC) L lat i L.ND).1 _

/-- The derivative planes stand for `i` times the divergence. -/
theorem direction_deriv {NC : ℕ} (hN : 2 ≤ NC) {L : Latt} (hL : Valid L) (scratch : Arr ℂ) {lat : Gauge}
    (hU : SUField NC L lat) {i : ℕ} (hi : i < volume L) :
    direction NC (derivPlanes NC (fast_deriv_AntiHermitian_proj NC L scratch lat i).1) =
      I • divergence NC L lat i L.ND := by
  obtain ⟨hd, ht⟩ := divergence_herm (NC := NC) L lat i L.ND
  ext r c
  rw [Matrix.smul_apply, smul_eq_mul]
  unfold direction
  rcases Nat.lt_trichotomy (r : ℕ) c with h1 | h1 | h1
  · rw [if_pos h1, upper_deriv hN hL scratch hU hi (by omega) (by omega) c.2]
  · have : r = c := Fin.ext h1
    subst this
    rw [if_neg (by omega), if_neg (by omega)]
    split
    · next h2 => rw [upper_deriv hN hL scratch hU hi h2 le_rfl r.2]
    · next h2 =>
      obtain ⟨m, rfl⟩ : ∃ m, NC = m + 1 := ⟨NC - 1, by omega⟩
      rw [Finset.sum_range]
      have e1 : ∀ k : Fin (m + 1 - 1), upper (m + 1) (derivPlanes (m + 1)
          (fast_deriv_AntiHermitian_proj (m + 1) L scratch lat i).1) k k =
          I * divergence (m + 1) L lat i L.ND (Fin.castSucc (n := m) k) (Fin.castSucc (n := m) k) := fun k => by
        have hk : (k : ℕ) < m + 1 - 1 := k.2
        exact upper_deriv hN hL scratch hU hi hk le_rfl (show (k : ℕ) < m + 1 by omega)
      rw [Finset.sum_congr rfl fun k _ => e1 k, ← mul_sum]
      unfold Matrix.trace at ht
      rw [Fin.sum_univ_castSucc] at ht
      simp only [diag_apply] at ht
      have hr : r = Fin.last m := by
        apply Fin.ext
        have := r.2
        simp only [Fin.val_last]
        omega
      rw [hr]
      have ht2 : ∑ k : Fin (m + 1 - 1), divergence (m + 1) L lat i L.ND (Fin.castSucc (n := m) k)
        (Fin.castSucc (n := m) k) = -divergence (m + 1) L lat i L.ND (Fin.last m) (Fin.last m) := by
        exact eq_neg_of_add_eq_zero_left ht
      rw [ht2]
      ring
  · rw [if_neg (by omega), if_pos h1, upper_deriv hN hL scratch hU hi (by omega) (by omega) r.2]
    have := congrFun (congrFun hd r) c
    rw [conjTranspose_apply] at this
    rw [← this, star_def, map_mul, conj_I]
    ring

theorem derivPlanes_imag {NC : ℕ} (hN : 2 ≤ NC) {L : Latt} (hL : Valid L) (scratch : Arr ℂ) {lat : Gauge}
    (hU : SUField NC L lat) {i : ℕ} (hi : i < volume L) :
    ImagDiag NC (derivPlanes NC (fast_deriv_AntiHermitian_proj NC L scratch lat i).1) := by
  intro h4 r hr
  have := upper_deriv hN hL scratch hU hi hr le_rfl (show r < NC by omega)
  unfold upper at this
  rw [if_neg (by omega), if_neg (by omega)] at this
  rw [this]
  have hd := herm_diag (divergence_herm (NC := NC) L lat i L.ND).1 ⟨r, by omega⟩
  simp [hd]

end GLU.Gfix
