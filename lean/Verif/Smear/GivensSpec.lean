import Verif.Smear.GivensLemmas

/-! # Specification of the trace-maximising projection -/

namespace GLU.Smear

open Complex Matrix GLU.Mat GLU.Update

/-- `Re tr( M V^dagger )`. -/
noncomputable def overlap {n : ℕ} (M V : Matrix (Fin n) (Fin n) ℂ) : ℝ := (M * Vᴴ).trace.re

/-- The square of the distance of two matrices, the sum over the entries. -/
noncomputable def dist2 {n : ℕ} (M V : Matrix (Fin n) (Fin n) ℂ) : ℝ := ∑ i, ∑ j, normSq (M i j - V i j)

/-- `V` is a critical point of `Re tr( M V^dagger )` on the group: the derivative vanishes in every direction `X` of the Lie
algebra (anti-Hermitian and traceless). -/
def CriticalPoint {n : ℕ} (M V : Matrix (Fin n) (Fin n) ℂ) : Prop :=
  ∀ X : Matrix (Fin n) (Fin n) ℂ, Xᴴ = -X → X.trace = 0 → (X * (M * Vᴴ)).trace.re = 0

/-- `V'` is obtained from `V` by one sweep of subgroup rotations, each of which maximises the overlap with `M` among the
rotations of its two rows. -/
inductive Swept (n : ℕ) (M : Matrix (Fin n) (Fin n) ℂ) : ℕ → Matrix (Fin n) (Fin n) ℂ → Matrix (Fin n) (Fin n) ℂ → Prop
  | refl (V) : Swept n M 0 V V
  | step {k : ℕ} {V W : Matrix (Fin n) (Fin n) ℂ} (p q : Fin n) (a b : ℂ) (h : Swept n M k V W)
      (hpq : ((p : ℕ), (q : ℕ)) = rowsOf n k) (hu : normSq a + normSq b = 1)
      (hmax : ∀ c d : ℂ, normSq c + normSq d = 1 →
        overlap M (subgroupMatrix p q c d * W) ≤ overlap M (subgroupMatrix p q a b * W)) :
      Swept n M (k + 1) V (subgroupMatrix p q a b * W)

theorem dist2_overlap {n : ℕ} (M : Matrix (Fin n) (Fin n) ℂ) {V : Matrix (Fin n) (Fin n) ℂ}
    (hV : V ∈ specialUnitaryGroup (Fin n) ℂ) :
    dist2 M V = (∑ i, ∑ j, normSq (M i j)) + n - 2 * overlap M V := by
  have h1 : (V * Vᴴ).trace.re = n := by rw [unitary_mul_star hV, trace_one]; simp
  have t : ∀ A B : Matrix (Fin n) (Fin n) ℂ, (A * Bᴴ).trace.re =
      ∑ i, ∑ j, ((A i j).re * (B i j).re + (A i j).im * (B i j).im) := by
    intro A B
    simp only [Matrix.trace, Matrix.diag_apply, Matrix.mul_apply, conjTranspose_apply, re_sum, mul_re, Complex.star_def,
      conj_re, conj_im]
    exact Finset.sum_congr rfl fun i _ => Finset.sum_congr rfl fun j _ => by ring
  unfold dist2 overlap
  rw [← h1, t, t, Finset.mul_sum, ← Finset.sum_add_distrib, ← Finset.sum_sub_distrib]
  refine Finset.sum_congr rfl fun i _ => ?_
  rw [Finset.mul_sum, ← Finset.sum_add_distrib, ← Finset.sum_sub_distrib]
  refine Finset.sum_congr rfl fun j _ => ?_
  rw [normSq_apply, normSq_apply, sub_re, sub_im]
  ring

/-- The overlap after a rotation of two rows, against the rotation chosen. -/
theorem rotation_best {n : ℕ} {p q : Fin n} (hne : p ≠ q) {A : Matrix (Fin n) (Fin n) ℂ} {a b : ℂ} {k : ℝ}
    (h : normalise (A p p) (A p q) (A q p) (A q q) = some (a, b, k)) {c d : ℂ} (hcd : normSq c + normSq d = 1) :
    (A * (subgroupMatrix p q a b)ᴴ).trace.re - (A * (subgroupMatrix p q c d)ᴴ).trace.re =
      (normSq (a - c) + normSq (b - d)) / (2 * k) := by
  obtain ⟨hk, ha, hb, hab⟩ := normalise_some h
  have e1 : ∀ x y, (A * (subgroupMatrix p q x y)ᴴ).trace = star (subgroupMatrix p q x y * Aᴴ).trace := by
    intro x y
    rw [← trace_conjTranspose, conjTranspose_mul, conjTranspose_conjTranspose]
  rw [e1, e1, trace_rotated hne, trace_rotated hne, trace_conjTranspose]
  simp only [conjTranspose_apply, Complex.star_def, map_add, map_mul, map_neg, map_sub, map_one, conj_conj, add_re, mul_re,
    sub_re, neg_re, one_re, conj_re, conj_im, sub_im, neg_im, one_im]
  have hk' : k ≠ 0 := hk.ne'
  have u : A p p + star (A q q) = a / k := by rw [ha]; exact (mul_div_cancel_right₀ _ (ofReal_ne_zero.2 hk')).symm
  have v : A p q - star (A q p) = b / k := by rw [hb]; exact (mul_div_cancel_right₀ _ (ofReal_ne_zero.2 hk')).symm
  have ur := congrArg Complex.re u
  have ui := congrArg Complex.im u
  have vr := congrArg Complex.re v
  have vi := congrArg Complex.im v
  simp only [add_re, add_im, sub_re, sub_im, Complex.star_def, conj_re, conj_im, div_ofReal_re, div_ofReal_im] at ur ui vr vi
  rw [normSq_apply, normSq_apply] at hab hcd
  have key : (normSq (a - c) + normSq (b - d)) / (2 * k) =
      (a.re - c.re) * (a.re / k) + (a.im - c.im) * (a.im / k) + (b.re - d.re) * (b.re / k) + (b.im - d.im) * (b.im / k) := by
    rw [normSq_apply, normSq_apply]
    simp only [sub_re, sub_im]
    field_simp
    linarith
  rw [key, ← ur, ← ui, ← vr, ← vi]
  ring

theorem real_of_product {n : ℕ} {A W M : Matrix (Fin n) (Fin n) ℂ} (hW : W ∈ specialUnitaryGroup (Fin n) ℂ)
    (h : A * W = M) : A = M * Wᴴ := by
  rw [← h, Matrix.mul_assoc, unitary_mul_star hW, Matrix.mul_one]

/-- A sweep of the model is a sweep. -/
theorem sweep_swept {NC : ℕ} {s s' : Arr ℂ × Arr ℂ} (hw : IsSU NC s.2) (h : givensSweep NC s = some s') :
    Swept NC (toM NC s.1 * toM NC s.2) (NSU2SUBGROUPS NC) (toM NC s.2) (toM NC s'.2) := by
  have H := forN_inv (fun n (o : Option (Arr ℂ × Arr ℂ)) => ∀ t, o = some t →
      IsSU NC t.2 ∧ toM NC t.1 * toM NC t.2 = toM NC s.1 * toM NC s.2 ∧
      Swept NC (toM NC s.1 * toM NC s.2) n (toM NC s.2) (toM NC t.2))
    (n := NSU2SUBGROUPS NC) (body := fun k o => o.bind (givensRotation NC k)) (s := some s)
    (by rintro t ⟨⟩; exact ⟨hw, rfl, .refl _⟩) (by
      intro i hi o ho t ht
      obtain ⟨u, rfl, hu⟩ := Option.bind_eq_some_iff.1 ht
      obtain ⟨g1, g2, g3⟩ := ho u rfl
      obtain ⟨p, q, a, b, c, hpq, hne, hb, hc, hab, e1, e2, e3, e4, -⟩ := rotation_spec hi g1 hu
      refine ⟨e3, e4.trans g2, ?_⟩
      rw [e2]
      refine .step p q a b g3 hpq hab fun c' d' hcd => ?_
      have hA := real_of_product g1 g2
      have := rotation_best hne hb hcd
      unfold overlap
      rw [conjTranspose_mul, conjTranspose_mul, ← Matrix.mul_assoc, ← Matrix.mul_assoc, ← hA]
      have h0 : 0 ≤ (normSq (a - c') + normSq (b - d')) / (2 * c) :=
        div_nonneg (add_nonneg (normSq_nonneg _) (normSq_nonneg _)) (by linarith)
      linarith)
  exact (H s' h).2.2

end GLU.Smear
