import Verif.Smear.Givens
import Verif.Update.Props
import Verif.Mat.GramTri
import Verif.Mat.MMulProps
import Verif.Mat.UNopsProps

/-! # Lemmas on the trace-maximising projection -/

namespace GLU.Smear

open Complex Matrix GLU.Mat GLU.Update

theorem subgroups_pos {NC : ℕ} {k : ℕ} (hk : k < NSU2SUBGROUPS NC) : 2 ≤ NC := by
  rcases Nat.lt_or_ge NC 2 with h | h
  · exfalso
    have : NC = 0 ∨ NC = 1 := by omega
    rcases this with rfl | rfl <;> simp [NSU2SUBGROUPS] at hk
  · exact h

theorem block_eq {NC k : ℕ} (hk : k < NSU2SUBGROUPS NC) (p q : Fin NC)
    (hp : (p : ℕ) = (rowsOf NC k).1) (hq : (q : ℕ) = (rowsOf NC k).2) (U : Arr ℂ) :
    givensBlock NC k U = normalise (toM NC U p p) (toM NC U p q) (toM NC U q p) (toM NC U q q) := by
  unfold givensBlock
  unfold rowsOf at hp hq
  split
  · next h3 =>
    subst h3
    rw [if_pos rfl] at hp hq
    have h012 : k = 0 ∨ k = 1 ∨ k = 2 := by
      have : NSU2SUBGROUPS 3 = 3 := rfl
      omega
    rcases h012 with rfl | rfl | rfl
    · obtain rfl : p = 0 := Fin.ext hp
      obtain rfl : q = 1 := Fin.ext hq
      rfl
    · obtain rfl : p = 1 := Fin.ext hp
      obtain rfl : q = 2 := Fin.ext hq
      rfl
    · obtain rfl : p = 2 := Fin.ext hp
      obtain rfl : q = 0 := Fin.ext hq
      rfl
  · next h3 =>
    split
    · next h2 =>
      subst h2
      rw [if_neg h3, if_pos rfl] at hp hq
      obtain rfl : p = 0 := Fin.ext hp
      obtain rfl : q = 1 := Fin.ext hq
      rfl
    · next h2 =>
      rw [if_neg h3, if_neg h2] at hp hq
      obtain ⟨d, i, rfl, h⟩ := index_split hk
      rw [rowPair_at h] at hp hq
      rw [su2_data_at h]
      simp only [toM_apply]
      rw [hp, hq]

theorem cols_eq {NC k : ℕ} (hk : k < NSU2SUBGROUPS NC) (p q : Fin NC)
    (hp : (p : ℕ) = (rowsOf NC k).1) (hq : (q : ℕ) = (rowsOf NC k).2) (U : Arr ℂ) (a b : ℂ) :
    toM NC (givensCols NC k a b U) = toM NC U * (subgroupMatrix p q a b)ᴴ := by
  have hne : p ≠ q := fun e => (rowsOf_spec (subgroups_pos hk) hk).2.2 (by rw [← hp, ← hq, e])
  unfold givensCols
  unfold rowsOf at hp hq
  split
  · next h3 =>
    subst h3
    rw [if_pos rfl] at hp hq
    have h012 : k = 0 ∨ k = 1 ∨ k = 2 := by
      have : NSU2SUBGROUPS 3 = 3 := rfl
      omega
    ext i j
    rw [mul_subgroup hne]
    rcases h012 with rfl | rfl | rfl
    · obtain rfl : p = 0 := Fin.ext hp
      obtain rfl : q = 1 := Fin.ext hq
      fin_cases i <;> fin_cases j <;> simp [toM, arr]
    · obtain rfl : p = 1 := Fin.ext hp
      obtain rfl : q = 2 := Fin.ext hq
      fin_cases i <;> fin_cases j <;> simp [toM, arr]
    · obtain rfl : p = 2 := Fin.ext hp
      obtain rfl : q = 0 := Fin.ext hq
      fin_cases i <;> fin_cases j <;> simp [toM, arr] <;> ring
  · next h3 =>
    split
    · next h2 =>
      subst h2
      rw [if_neg h3, if_pos rfl] at hp hq
      obtain rfl : p = 0 := Fin.ext hp
      obtain rfl : q = 1 := Fin.ext hq
      rw [C10_multab_dag]
      congr 2
      ext i j
      fin_cases i <;> fin_cases j <;> simp [toM, arr, subgroupMatrix]
    · next h2 =>
      rw [if_neg h3, if_neg h2] at hp hq
      exact multiply_dag_eq hk p q hp hq hne U a b

theorem rows_eq {NC k : ℕ} (hk : k < NSU2SUBGROUPS NC) (p q : Fin NC)
    (hp : (p : ℕ) = (rowsOf NC k).1) (hq : (q : ℕ) = (rowsOf NC k).2) {w : Arr ℂ} (hw : IsSU NC w) {a b : ℂ}
    (hab : normSq a + normSq b = 1) :
    toM NC (givensRows NC k a b w) = subgroupMatrix p q a b * toM NC w := by
  have hne : p ≠ q := fun e => (rowsOf_spec (subgroups_pos hk) hk).2.2 (by rw [← hp, ← hq, e])
  unfold givensRows
  unfold rowsOf at hp hq
  split
  · next h3 =>
    subst h3
    rw [if_pos rfl] at hp hq
    have h012 : k = 0 ∨ k = 1 ∨ k = 2 := by
      have : NSU2SUBGROUPS 3 = 3 := rfl
      omega
    ext i j
    rw [subgroup_mul hne]
    rcases h012 with rfl | rfl | rfl
    · obtain rfl : p = 0 := Fin.ext hp
      obtain rfl : q = 1 := Fin.ext hq
      fin_cases i <;> fin_cases j <;> simp [toM, arr]
    · obtain rfl : p = 1 := Fin.ext hp
      obtain rfl : q = 2 := Fin.ext hq
      fin_cases i <;> fin_cases j <;> simp [toM, arr]
    · obtain rfl : p = 2 := Fin.ext hp
      obtain rfl : q = 0 := Fin.ext hq
      fin_cases i <;> fin_cases j <;> simp [toM, arr] <;> ring
  · next h3 =>
    split
    · next h2 =>
      subst h2
      rw [if_neg h3, if_pos rfl] at hp hq
      obtain rfl : p = 0 := Fin.ext hp
      obtain rfl : q = 1 := Fin.ext hq
      have e : toM 2 (arr [a, b, -star b, star a]) = subgroupMatrix 0 1 a b := by
        ext i j
        fin_cases i <;> fin_cases j <;> simp [toM, arr, subgroupMatrix]
      have hs : IsSU 2 (arr [a, b, -star b, star a]) := by
        unfold IsSU; rw [e]; exact subgroup_su hne hab
      rw [(C11_multab_suNC hs hw _).1, e]
    · next h2 =>
      rw [if_neg h3, if_neg h2] at hp hq
      exact multiply_eq hk p q hp hq hne w a b

/-- The change of the real trace under the rotation chosen. -/
theorem rotation_gain {NC : ℕ} {p q : Fin NC} (hne : p ≠ q) {A : Matrix (Fin NC) (Fin NC) ℂ} {a b : ℂ} {k : ℝ}
    (h : normalise (A p p) (A p q) (A q p) (A q q) = some (a, b, k)) :
    (A * (subgroupMatrix p q a b)ᴴ).trace.re = A.trace.re + (1 - a.re) / k := by
  obtain ⟨hk, ha, hb, hab⟩ := normalise_some h
  have e1 : (A * (subgroupMatrix p q a b)ᴴ).trace = star (subgroupMatrix p q a b * Aᴴ).trace := by
    rw [← trace_conjTranspose, conjTranspose_mul, conjTranspose_conjTranspose]
  rw [e1, trace_rotated hne, trace_conjTranspose]
  simp only [conjTranspose_apply, Complex.star_def, map_add, map_mul, map_neg, map_sub, map_one, conj_conj, add_re, mul_re,
    sub_re, neg_re, one_re, conj_re, conj_im, sub_im, neg_im, one_im]
  have hk' : k ≠ 0 := hk.ne'
  have u : A p p + star (A q q) = a / k := by rw [ha]; exact (mul_div_cancel_right₀ _ (ofReal_ne_zero.2 hk')).symm
  have v : A p q - star (A q p) = b / k := by rw [hb]; exact (mul_div_cancel_right₀ _ (ofReal_ne_zero.2 hk')).symm
  have ur := congrArg Complex.re u
  have ui := congrArg Complex.im u
  have vr := congrArg Complex.re v
  have vi := congrArg Complex.im v
  simp only [add_re, add_im, sub_re, sub_im, Complex.star_def, conj_re, conj_im, div_ofReal_re, div_ofReal_im] at ur ui vr vi
  rw [normSq_apply, normSq_apply] at hab
  have key : (1 - a.re) / k = (a.re * (a.re / k) + a.im * (a.im / k) + b.re * (b.re / k) + b.im * (b.im / k)) - a.re / k := by
    field_simp
    linarith
  rw [key, ← ur, ← ui, ← vr, ← vi]
  ring

theorem unit_re_le {a b : ℂ} (h : normSq a + normSq b = 1) : a.re ≤ 1 := by
  rw [normSq_apply, normSq_apply] at h
  nlinarith [mul_self_nonneg a.im, mul_self_nonneg b.re, mul_self_nonneg b.im]

theorem unit_re_one {a b : ℂ} (h : normSq a + normSq b = 1) (h1 : a.re = 1) : a = 1 ∧ b = 0 := by
  rw [normSq_apply, normSq_apply, h1] at h
  have h2 := mul_self_nonneg a.im
  have h3 := mul_self_nonneg b.re
  have h4 := mul_self_nonneg b.im
  refine ⟨Complex.ext h1 ?_, Complex.ext ?_ ?_⟩
  · rw [one_im]; exact mul_self_eq_zero.1 (by linarith)
  · rw [zero_re]; exact mul_self_eq_zero.1 (by linarith)
  · rw [zero_im]; exact mul_self_eq_zero.1 (by linarith)

theorem subgroup_one {NC : ℕ} {p q : Fin NC} (hne : p ≠ q) : subgroupMatrix p q 1 0 = 1 := by
  rw [subgroup_emb hne]
  have : su2M 1 0 = 1 := by
    ext i j; fin_cases i <;> fin_cases j <;> simp [su2M]
  rw [this, sub_self, Matrix.zero_mul, Matrix.mul_zero, add_zero]

theorem unitary_star_mul {NC : ℕ} {A : Matrix (Fin NC) (Fin NC) ℂ} (h : A ∈ specialUnitaryGroup (Fin NC) ℂ) : Aᴴ * A = 1 :=
  mem_unitaryGroup_iff'.1 (mem_specialUnitaryGroup_iff.1 h).1

theorem unitary_mul_star {NC : ℕ} {A : Matrix (Fin NC) (Fin NC) ℂ} (h : A ∈ specialUnitaryGroup (Fin NC) ℂ) : A * Aᴴ = 1 :=
  mem_unitaryGroup_iff.1 (mem_specialUnitaryGroup_iff.1 h).1

/-- One rotation, in terms of matrices. -/
theorem rotation_spec {NC k : ℕ} (hk : k < NSU2SUBGROUPS NC) {s s' : Arr ℂ × Arr ℂ} (hw : IsSU NC s.2)
    (h : givensRotation NC k s = some s') :
    ∃ (p q : Fin NC) (a b : ℂ) (c : ℝ), ((p : ℕ), (q : ℕ)) = rowsOf NC k ∧ p ≠ q ∧
      normalise (toM NC s.1 p p) (toM NC s.1 p q) (toM NC s.1 q p) (toM NC s.1 q q) = some (a, b, c) ∧
      0 < c ∧ normSq a + normSq b = 1 ∧
      toM NC s'.1 = toM NC s.1 * (subgroupMatrix p q a b)ᴴ ∧ toM NC s'.2 = subgroupMatrix p q a b * toM NC s.2 ∧
      IsSU NC s'.2 ∧ toM NC s'.1 * toM NC s'.2 = toM NC s.1 * toM NC s.2 ∧
      (toM NC s'.1).trace.re = (toM NC s.1).trace.re + (1 - a.re) / c := by
  obtain ⟨h1, h2, h3⟩ := rowsOf_spec (subgroups_pos hk) hk
  unfold givensRotation at h
  obtain ⟨⟨a, b, c⟩, hb, rfl⟩ := Option.map_eq_some_iff.1 h
  have hne : (⟨_, h1⟩ : Fin NC) ≠ ⟨_, h2⟩ := fun e => h3 (congrArg Fin.val e)
  rw [block_eq hk ⟨_, h1⟩ ⟨_, h2⟩ rfl rfl] at hb
  obtain ⟨hc, -, -, hab⟩ := normalise_some hb
  have e1 := cols_eq hk ⟨_, h1⟩ ⟨_, h2⟩ rfl rfl s.1 a b
  have e2 := rows_eq hk ⟨_, h1⟩ ⟨_, h2⟩ rfl rfl hw hab
  have hr := subgroup_su hne hab
  refine ⟨⟨_, h1⟩, ⟨_, h2⟩, a, b, c, rfl, hne, hb, hc, hab, e1, e2, ?_, ?_, ?_⟩
  · unfold IsSU
    dsimp only
    rw [e2]
    exact isSU_mul hr hw
  · dsimp only
    rw [e1, e2, Matrix.mul_assoc, ← Matrix.mul_assoc _ _ (toM NC s.2), unitary_star_mul hr, Matrix.one_mul]
  · dsimp only
    rw [e1, rotation_gain hne hb]

/-- A sweep keeps the product, keeps the second matrix in the group and does not lower the trace; when it does not raise it
either, nothing has moved and every block was already the right one. -/
theorem sweep_spec {NC : ℕ} {s s' : Arr ℂ × Arr ℂ} (hw : IsSU NC s.2) (h : givensSweep NC s = some s') :
    IsSU NC s'.2 ∧ toM NC s'.1 * toM NC s'.2 = toM NC s.1 * toM NC s.2 ∧
      (toM NC s.1).trace.re ≤ (toM NC s'.1).trace.re ∧
      ((toM NC s'.1).trace.re = (toM NC s.1).trace.re → toM NC s'.2 = toM NC s.2 ∧ toM NC s'.1 = toM NC s.1 ∧
        ∀ k < NSU2SUBGROUPS NC, ∀ p q : Fin NC, ((p : ℕ), (q : ℕ)) = rowsOf NC k →
          ∃ c : ℝ, normalise (toM NC s.1 p p) (toM NC s.1 p q) (toM NC s.1 q p) (toM NC s.1 q q) = some (1, 0, c)) := by
  have H := forN_inv (fun n (o : Option (Arr ℂ × Arr ℂ)) => ∀ t, o = some t →
      IsSU NC t.2 ∧ toM NC t.1 * toM NC t.2 = toM NC s.1 * toM NC s.2 ∧ (toM NC s.1).trace.re ≤ (toM NC t.1).trace.re ∧
      ((toM NC t.1).trace.re = (toM NC s.1).trace.re → toM NC t.2 = toM NC s.2 ∧ toM NC t.1 = toM NC s.1 ∧
        ∀ k < n, ∀ p q : Fin NC, ((p : ℕ), (q : ℕ)) = rowsOf NC k →
          ∃ c : ℝ, normalise (toM NC s.1 p p) (toM NC s.1 p q) (toM NC s.1 q p) (toM NC s.1 q q) = some (1, 0, c)))
    (n := NSU2SUBGROUPS NC) (body := fun k o => o.bind (givensRotation NC k)) (s := some s)
    (by rintro t ⟨⟩; exact ⟨hw, rfl, le_refl _, fun _ => ⟨rfl, rfl, fun k hk => absurd hk (by omega)⟩⟩) (by
      intro i hi o ho t ht
      obtain ⟨u, rfl, hu⟩ := Option.bind_eq_some_iff.1 ht
      obtain ⟨g1, g2, g3, g4⟩ := ho u rfl
      obtain ⟨p, q, a, b, c, hpq, hne, hb, hc, hab, e1, e2, e3, e4, e5⟩ := rotation_spec hi g1 hu
      have hge : 0 ≤ (1 - a.re) / c := div_nonneg (by have := unit_re_le hab; linarith) hc.le
      refine ⟨e3, e4.trans g2, by rw [e5]; linarith, fun he => ?_⟩
      have hz : (1 - a.re) / c = 0 := by rw [e5] at he; linarith
      have ha : a.re = 1 := by
        rcases div_eq_zero_iff.1 hz with h | h
        · linarith
        · exact absurd h hc.ne'
      obtain ⟨rfl, rfl⟩ := unit_re_one hab ha
      obtain ⟨f1, f2, f3⟩ := g4 (by rw [e5, hz] at he; linarith)
      rw [subgroup_one hne] at e1 e2
      rw [Matrix.one_mul] at e2
      rw [conjTranspose_one, Matrix.mul_one] at e1
      refine ⟨e2.trans f1, e1.trans f2, fun k hk p' q' hpq' => ?_⟩
      rcases Nat.lt_succ_iff_lt_or_eq.1 hk with hlt | rfl
      · exact f3 k hlt p' q' hpq'
      · rw [← hpq] at hpq'
        obtain ⟨x1, x2⟩ := Prod.mk.inj hpq'
        obtain rfl := Fin.ext x1
        obtain rfl := Fin.ext x2
        rw [f2] at hb
        exact ⟨c, hb⟩)
  exact H s' h

end GLU.Smear
