import Verif.Smear.GivensProps

/-! # C84: critical points, two colours, fixed points, definedness -/

namespace GLU.Smear

open Complex Matrix GLU.Mat GLU.Update

/-! ## Where the sweeps stand still -/

theorem rows_cover {NC : ℕ} {i j : Fin NC} (h : i < j) : ∃ k < NSU2SUBGROUPS NC,
    ((i : ℕ), (j : ℕ)) = rowsOf NC k ∨ ((j : ℕ), (i : ℕ)) = rowsOf NC k := by
  obtain ⟨k, ⟨hk, he⟩, -⟩ := (C26_enumeration NC).2 i j h j.2
  refine ⟨k, hk, ?_⟩
  rcases rowsOf_table hk _ _ rfl rfl with h1 | h1
  · left; rw [← he, ← h1]
  · right
    rw [he, Prod.mk.injEq] at h1
    rw [← h1.1, ← h1.2]

theorem normalise_one {t0 t1 t2 t3 : ℂ} {c : ℝ} (h : normalise t0 t1 t2 t3 = some (1, 0, c)) :
    t0.im = t3.im ∧ t1 = star t2 ∧ 0 < t0.re + t3.re := by
  obtain ⟨hc, h0, h1, -⟩ := normalise_some h
  have hc' : (c : ℂ) ≠ 0 := ofReal_ne_zero.2 hc.ne'
  refine ⟨?_, ?_, ?_⟩
  · have := congrArg Complex.im h0
    rw [one_im, mul_im, ofReal_im, ofReal_re, mul_zero, zero_add, add_im, Complex.star_def, conj_im] at this
    have := (mul_eq_zero.1 this.symm).resolve_right hc.ne'
    linarith
  · exact sub_eq_zero.1 ((mul_eq_zero.1 h1.symm).resolve_right hc')
  · have := congrArg Complex.re h0
    rw [one_re, mul_re, ofReal_im, ofReal_re, mul_zero, sub_zero, add_re, Complex.star_def, conj_re] at this
    exact pos_of_mul_pos_left (by rw [← this]; norm_num) hc.le

theorem critical_of {n : ℕ} {A X : Matrix (Fin n) (Fin n) ℂ} (hd : ∀ i j, (A i i).im = (A j j).im)
    (ho : ∀ i j, i ≠ j → A i j = star (A j i)) (hX : Xᴴ = -X) (ht : X.trace = 0) : (X * A).trace.re = 0 := by
  rcases Nat.eq_zero_or_pos n with rfl | hn
  · simp [Matrix.trace]
  set θ : ℝ := (A ⟨0, hn⟩ ⟨0, hn⟩).im with hθ
  have hA : A - ((θ : ℂ) * I) • (1 : Matrix (Fin n) (Fin n) ℂ) = (A - ((θ : ℂ) * I) • (1 : Matrix (Fin n) (Fin n) ℂ))ᴴ := by
    ext i j
    rw [conjTranspose_apply, Matrix.sub_apply, Matrix.sub_apply, Matrix.smul_apply, Matrix.smul_apply]
    by_cases h : i = j
    · subst h
      have := hd i ⟨0, hn⟩
      apply Complex.ext
      · simp
      · simp [← hθ, this]
    · rw [one_apply_ne h, one_apply_ne (Ne.symm h), ho i j h]
      simp
  set H := A - ((θ : ℂ) * I) • (1 : Matrix (Fin n) (Fin n) ℂ) with hH
  have e : (X * A).trace = (X * H).trace := by
    rw [hH, Matrix.mul_sub, trace_sub, Matrix.mul_smul, Matrix.mul_one, trace_smul, ht, smul_zero, sub_zero]
  have e2 : star (X * H).trace = -(X * H).trace := by
    rw [← trace_conjTranspose, conjTranspose_mul, ← hA, hX, Matrix.mul_neg, trace_neg, trace_mul_comm]
  have := congrArg Complex.re e2
  rw [Complex.star_def, conj_re, neg_re] at this
  rw [e]
  linarith

/-- **C84**: if a sweep from a special unitary `W` does not raise the overlap, it leaves `W` alone and `W` is a critical point
of the overlap on the group; it is then also the best matrix in each subgroup. -/
theorem C84_stationary {NC : ℕ} {A W A' W' : Arr ℂ} (hW : IsSU NC W) (h : givensSweep NC (A, W) = some (A', W'))
    (he : overlap (toM NC A * toM NC W) (toM NC W') = overlap (toM NC A * toM NC W) (toM NC W)) :
    toM NC W' = toM NC W ∧ CriticalPoint (toM NC A * toM NC W) (toM NC W) := by
  obtain ⟨g1, g2, -, g4⟩ := sweep_spec (s := (A, W)) hW h
  dsimp only at g1 g2 g4
  have o1 : (toM NC A * toM NC W) * (toM NC W)ᴴ = toM NC A := (real_of_product hW rfl).symm
  unfold overlap at he
  rw [o1, ← real_of_product g1 g2] at he
  obtain ⟨h1, -, h3⟩ := g4 he
  refine ⟨h1, fun X hX ht => ?_⟩
  rw [o1]
  have blk : ∀ i j : Fin NC, i < j → (toM NC A i i).im = (toM NC A j j).im ∧ toM NC A i j = star (toM NC A j i) := by
    intro i j hij
    obtain ⟨k, hk, hr | hr⟩ := rows_cover hij
    · obtain ⟨c, hc⟩ := h3 k hk i j hr
      exact ⟨(normalise_one hc).1, (normalise_one hc).2.1⟩
    · obtain ⟨c, hc⟩ := h3 k hk j i hr
      exact ⟨(normalise_one hc).1.symm, by rw [(normalise_one hc).2.1, star_star]⟩
  refine critical_of (fun i j => ?_) (fun i j hij => ?_) hX ht
  · rcases lt_trichotomy i j with h | h | h
    · exact (blk i j h).1
    · rw [h]
    · exact (blk j i h).1.symm
  · rcases lt_or_gt_of_ne hij with h | h
    · exact (blk i j h).2
    · rw [(blk j i h).2, star_star]

/-! ## Two colours -/

theorem su2_form {V : Matrix (Fin 2) (Fin 2) ℂ} (h : V ∈ specialUnitaryGroup (Fin 2) ℂ) :
    V = subgroupMatrix 0 1 (V 0 0) (V 0 1) ∧ normSq (V 0 0) + normSq (V 0 1) = 1 := by
  obtain ⟨h1, h2⟩ := su2_row h
  refine ⟨?_, ?_⟩
  · ext i j
    fin_cases i <;> fin_cases j <;> simp [subgroupMatrix, h1, h2]
  · have := (mem_specialUnitaryGroup_iff.1 h).2
    rw [det_fin_two, h1, h2] at this
    have := congrArg Complex.re this
    rw [normSq_apply, normSq_apply]
    simp at this
    linarith

theorem sub_count2 : NSU2SUBGROUPS 2 = 1 := rfl

theorem rowsOf2 : rowsOf 2 0 = (0, 1) := rfl

/-- **C84**, two colours: the result is the special unitary matrix with the largest overlap, and the only one. -/
theorem C84_two_colours {M array W : Arr ℂ} (h : givens_reunit 2 M array = some W)
    {V : Matrix (Fin 2) (Fin 2) ℂ} (hV : V ∈ specialUnitaryGroup (Fin 2) ℂ) :
    overlap (toM 2 M) V ≤ overlap (toM 2 M) (toM 2 W) ∧
      (overlap (toM 2 M) V = overlap (toM 2 M) (toM 2 W) → V = toM 2 W) := by
  obtain ⟨n, G, s, hn, hG, hs, rfl⟩ := givens_split h
  have hsu := C15_special_unitary (by norm_num) hG
  obtain ⟨m, rfl⟩ : ∃ m, n = m + 1 := ⟨74, hn⟩
  rw [givensLoop] at hs
  obtain ⟨t, ht, hs⟩ := Option.bind_eq_some_iff.1 hs
  rw [if_pos rfl] at hs
  obtain rfl := Option.some.inj hs
  have ht' : givensRotation 2 0 (multab_dag 2 M G M, G) = some t := by
    have := ht
    unfold givensSweep at this
    rw [sub_count2] at this
    exact this
  obtain ⟨p, q, a, b, c, hpq, hne, hb, hc, hab, e1, e2, e3, e4, -⟩ := rotation_spec (s := (multab_dag 2 M G M, G))
    (by rw [sub_count2]; omega) hsu ht'
  rw [rowsOf2] at hpq
  obtain ⟨x1, x2⟩ := Prod.mk.inj hpq
  obtain rfl : p = 0 := Fin.ext x1
  obtain rfl : q = 1 := Fin.ext x2
  dsimp only at hb e2 e4
  rw [start_product hsu] at e4
  have hA : toM 2 (multab_dag 2 M G M) = toM 2 M * (toM 2 G)ᴴ := C10_multab_dag 2 _ _ _
  obtain ⟨f1, f2⟩ := su2_form (isSU_mul hV (isSU_star hsu))
  set Y := V * (toM 2 G)ᴴ with hY
  have hVG : V = Y * toM 2 G := by rw [hY, Matrix.mul_assoc, unitary_star_mul hsu, Matrix.mul_one]
  have key := rotation_best hne hb f2
  rw [← f1, hA] at key
  have o1 : overlap (toM 2 M) (toM 2 t.2) = (toM 2 M * (toM 2 G)ᴴ * (subgroupMatrix 0 1 a b)ᴴ).trace.re := by
    unfold overlap; rw [e2, conjTranspose_mul, Matrix.mul_assoc]
  have o2 : overlap (toM 2 M) V = (toM 2 M * (toM 2 G)ᴴ * Yᴴ).trace.re := by
    unfold overlap; rw [hVG, conjTranspose_mul, Matrix.mul_assoc]
  rw [← o1, ← o2] at key
  have n1 := normSq_nonneg (a - Y 0 0)
  have n2 := normSq_nonneg (b - Y 0 1)
  refine ⟨?_, fun he => ?_⟩
  · have : 0 ≤ (normSq (a - Y 0 0) + normSq (b - Y 0 1)) / (2 * c) := by positivity
    linarith
  · rw [he, sub_self] at key
    have hz := (div_eq_zero_iff.1 key.symm).resolve_right (by positivity)
    have z1 := sub_eq_zero.1 (normSq_eq_zero.1 (by linarith : normSq (a - Y 0 0) = 0))
    have z2 := sub_eq_zero.1 (normSq_eq_zero.1 (by linarith : normSq (b - Y 0 1) = 0))
    rw [e2, z1, z2, ← f1, ← hVG]

/-- **C84**, two colours: the projection commutes with gauge transformations, `P( A M B ) = A P( M ) B`. -/
theorem C84_covariant_two {M N array array' W X : Arr ℂ} (h : givens_reunit 2 M array = some W)
    (h' : givens_reunit 2 N array' = some X) {A B : Matrix (Fin 2) (Fin 2) ℂ}
    (hA : A ∈ specialUnitaryGroup (Fin 2) ℂ) (hB : B ∈ specialUnitaryGroup (Fin 2) ℂ)
    (he : toM 2 N = A * toM 2 M * B) : toM 2 X = A * toM 2 W * B := by
  have hW := (C84_projection (by norm_num) h).1
  have hX := (C84_projection (by norm_num) h').1
  have tr : ∀ V : Matrix (Fin 2) (Fin 2) ℂ, overlap (toM 2 N) (A * V * B) = overlap (toM 2 M) V := by
    intro V
    unfold overlap
    rw [he, conjTranspose_mul, conjTranspose_mul]
    have : A * toM 2 M * B * (Bᴴ * (Vᴴ * Aᴴ)) = A * (toM 2 M * Vᴴ) * Aᴴ := by
      rw [← Matrix.mul_assoc (A * toM 2 M * B) Bᴴ, Matrix.mul_assoc (A * toM 2 M) B, unitary_mul_star hB, Matrix.mul_one]
      simp only [Matrix.mul_assoc]
    rw [this, trace_mul_comm, ← Matrix.mul_assoc, unitary_star_mul hA, Matrix.one_mul]
  set V := Aᴴ * toM 2 X * Bᴴ with hV
  have hVs : V ∈ specialUnitaryGroup (Fin 2) ℂ := isSU_mul (isSU_mul (isSU_star hA) hX) (isSU_star hB)
  have hXV : toM 2 X = A * V * B := by
    rw [hV]
    have : A * (Aᴴ * toM 2 X * Bᴴ) * B = (A * Aᴴ) * toM 2 X * (Bᴴ * B) := by simp only [Matrix.mul_assoc]
    rw [this, unitary_mul_star hA, unitary_star_mul hB, Matrix.one_mul, Matrix.mul_one]
  have l1 := (C84_two_colours h hVs).1
  have l2 := (C84_two_colours h' (isSU_mul (isSU_mul hA hW) hB)).1
  rw [tr, hXV, tr] at l2
  have := (C84_two_colours h hVs).2 (le_antisymm l1 l2)
  rw [hXV, this]

end GLU.Smear
