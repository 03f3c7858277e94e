import Verif.Update.Lemmas
import Mathlib.Analysis.Complex.ExponentialBounds

/-!
# C26, C27, C28: subgroup rotations, overrelaxation, heat bath
-/

namespace GLU.Update

open Complex Matrix GLU.Mat

/-! ## C26 -/

/-- **C26**, enumeration: the table of subgroups lists every pair of rows exactly
once. -/
theorem C26_enumeration (NC : ℕ) :
    (∀ s < NSU2SUBGROUPS NC, (rowPair NC s).1 < (rowPair NC s).2 ∧ (rowPair NC s).2 < NC) ∧
    ∀ i j, i < j → j < NC → ∃! s, s < NSU2SUBGROUPS NC ∧ rowPair NC s = (i, j) := by
  refine ⟨fun s hs => ?_, fun i j hij hj => ?_⟩
  · obtain ⟨d, i, rfl, h⟩ := index_split hs
    rw [rowPair_at h]
    refine ⟨?_, h⟩
    simp only
    omega
  · refine ⟨tri NC (j - i - 1) + i, ⟨?_, ?_⟩, ?_⟩
    · rw [← tri_last (by omega)]
      have := tri_mono NC (show j - i - 1 + 1 ≤ NC - 1 by omega)
      rw [tri] at this
      omega
    · rw [rowPair_at (by omega), show i + (j - i - 1) + 1 = j by omega]
    · rintro s ⟨hs, he⟩
      obtain ⟨d, i', rfl, h⟩ := index_split hs
      rw [rowPair_at h, Prod.mk.injEq] at he
      obtain ⟨rfl, rfl⟩ := he
      rw [show i' + d + 1 - i' - 1 = d by omega]

/-- The rows used for subgroup `s` are those of the table, possibly in the other
order. -/
theorem rowsOf_table {NC s : ℕ} (hs : s < NSU2SUBGROUPS NC) (p q : ℕ) (hp : p = (rowsOf NC s).1)
    (hq : q = (rowsOf NC s).2) : (p, q) = rowPair NC s ∨ (q, p) = rowPair NC s := by
  subst hp hq
  unfold rowsOf
  split
  · next h =>
    subst h
    have : s = 0 ∨ s = 1 ∨ s = 2 := by
      have : NSU2SUBGROUPS 3 = 3 := rfl
      omega
    rcases this with rfl | rfl | rfl <;> decide
  · split
    · next h =>
      subst h
      have : s = 0 := by
        have : NSU2SUBGROUPS 2 = 1 := rfl
        omega
      subst this
      decide
    · exact Or.inl rfl

/-- **C26**, rotation: with a unit `(s0,s1)` the update multiplies the link from the
left by a special unitary matrix equal to the identity outside two rows `p`, `q`,
which are those of the table (for three colours in cyclic order), and the link
stays special unitary. -/
theorem C26_rotate {NC s : ℕ} (hN : 2 ≤ NC) (hs : s < NSU2SUBGROUPS NC) {U : Arr ℂ} (hU : IsSU NC U)
    {s0 s1 : ℂ} (hn : normSq s0 + normSq s1 = 1) :
    ∃ p q : Fin NC, p ≠ q ∧
      (((p : ℕ), (q : ℕ)) = rowPair NC s ∨ ((q : ℕ), (p : ℕ)) = rowPair NC s) ∧
      subgroupMatrix p q s0 s1 ∈ specialUnitaryGroup (Fin NC) ℂ ∧
      toM NC (su2_rotate NC U s0 s1 s) = subgroupMatrix p q s0 s1 * toM NC U ∧
      IsSU NC (su2_rotate NC U s0 s1 s) := by
  obtain ⟨h1, h2, h3⟩ := rowsOf_spec hN hs
  refine ⟨⟨_, h1⟩, ⟨_, h2⟩, fun e => h3 (congrArg Fin.val e), ?_, ?_, ?_, ?_⟩
  · exact rowsOf_table hs _ _ rfl rfl
  · exact subgroup_su (fun e => h3 (congrArg Fin.val e)) hn
  · exact rotate_eq hN hs _ _ rfl rfl U s0 s1 fun _ => hU
  · unfold IsSU
    rw [rotate_eq hN hs ⟨_, h1⟩ ⟨_, h2⟩ rfl rfl U s0 s1 fun _ => hU]
    exact isSU_mul (subgroup_su (fun e => h3 (congrArg Fin.val e)) hn) hU

/-- **C26**, the row and column rotations used by gauge fixing: left multiplication
by the subgroup matrix and right multiplication by its adjoint, on any matrix. -/
theorem C26_shortened {NC s : ℕ} (hs : s < NSU2SUBGROUPS NC) (a b : ℂ) (U : Arr ℂ) :
    ∃ p q : Fin NC, p < q ∧ ((p : ℕ), (q : ℕ)) = rowPair NC s ∧
      toM NC (shortened_su2_multiply NC U a b s) = subgroupMatrix p q a b * toM NC U ∧
      toM NC (shortened_su2_multiply_dag NC U a b s) = toM NC U * (subgroupMatrix p q a b)ᴴ := by
  obtain ⟨h1, h2⟩ := (C26_enumeration NC).1 s hs
  have hlt : (⟨_, h1.trans h2⟩ : Fin NC) < ⟨_, h2⟩ := h1
  exact ⟨⟨_, h1.trans h2⟩, ⟨_, h2⟩, h1, rfl, multiply_eq hs _ _ rfl rfl (ne_of_lt hlt) U a b,
    multiply_dag_eq hs _ _ rfl rfl (ne_of_lt hlt) U a b⟩

/-! ## C27 -/

/-- **C27**: an overrelaxation update of a link in the group leaves
`Re Tr( U S^dagger )` unchanged and the link in the group, for every staple `S`
for which it is defined. -/
theorem C27_overrelax {NC : ℕ} (hN : 2 ≤ NC) {U staple U' : Arr ℂ} (hU : IsSU NC U)
    (h : overrelax NC U staple = some U') :
    ((toM NC U' * (toM NC staple)ᴴ).trace).re = ((toM NC U * (toM NC staple)ᴴ).trace).re ∧
      IsSU NC U' := by
  have H := forN_inv (fun _ (o : Option (Arr ℂ)) => ∀ V, o = some V →
      ((toM NC V * (toM NC staple)ᴴ).trace).re = ((toM NC U * (toM NC staple)ᴴ).trace).re ∧ IsSU NC V)
    (n := NSU2SUBGROUPS NC) (body := fun i U => U.bind fun U =>
      (only_subgroup NC U staple i).map fun s =>
        let t := microcanonical s.1 s.2.1
        su2_rotate NC U t.1 t.2 i) (s := some U)
    (by rintro V ⟨⟩; exact ⟨rfl, hU⟩) (by
      intro i hi o ho V hV
      obtain ⟨W, rfl, hW⟩ := Option.bind_eq_some_iff.1 hV
      obtain ⟨⟨s0, s1, k⟩, hs, rfl⟩ := Option.map_eq_some_iff.1 hW
      obtain ⟨hre, hsu⟩ := ho W rfl
      obtain ⟨h1, h2, h3⟩ := rowsOf_spec hN hi
      have hne : (⟨_, h1⟩ : Fin NC) ≠ ⟨_, h2⟩ := fun e => h3 (congrArg Fin.val e)
      rw [only_subgroup_eq hN hi ⟨_, h1⟩ ⟨_, h2⟩ rfl rfl] at hs
      have hm := micro_norm (normalise_some hs).2.2.2
      have hrot := rotate_eq hN hi ⟨_, h1⟩ ⟨_, h2⟩ rfl rfl W (microcanonical s0 s1).1
        (microcanonical s0 s1).2 fun _ => hsu
      constructor
      · simp only
        rw [hrot, Matrix.mul_assoc, trace_rotated hne, add_re, micro_trace hs, add_zero, hre]
      · unfold IsSU
        simp only
        rw [hrot]
        exact isSU_mul (subgroup_su hne hm) hsu)
  exact H U' h

/-- **C27**, when the update is defined: the projection onto a subgroup fails
exactly when the quaternion part of the corresponding block of `U S^dagger`
vanishes. -/
theorem C27_projection_defined {NC s : ℕ} (hN : 2 ≤ NC) (hs : s < NSU2SUBGROUPS NC) (U st : Arr ℂ) :
    ∃ p q : Fin NC, p ≠ q ∧
      (((p : ℕ), (q : ℕ)) = rowPair NC s ∨ ((q : ℕ), (p : ℕ)) = rowPair NC s) ∧
      (only_subgroup NC U st s = none ↔
        (toM NC U * (toM NC st)ᴴ) p p + star ((toM NC U * (toM NC st)ᴴ) q q) = 0 ∧
        (toM NC U * (toM NC st)ᴴ) p q - star ((toM NC U * (toM NC st)ᴴ) q p) = 0) := by
  obtain ⟨h1, h2, h3⟩ := rowsOf_spec hN hs
  refine ⟨⟨_, h1⟩, ⟨_, h2⟩, fun e => h3 (congrArg Fin.val e), ?_, ?_⟩
  · exact rowsOf_table hs _ _ rfl rfl
  · rw [only_subgroup_eq hN hs ⟨_, h1⟩ ⟨_, h2⟩ rfl rfl, normalise_none]

/-! ## C28 -/

/-- The norm of the generated element. -/
theorem su2From_norm (d r1 r2 : ℝ) (h0 : 0 ≤ r1) (h1 : r1 ≤ 1) (s0 s1 : ℂ) :
    normSq (su2From d r1 r2 s0 s1).1 + normSq (su2From d r1 r2 s0 s1).2 =
      ((1 - d) * (1 - d) + |1 - (1 - d) * (1 - d)|) * (normSq s0 + normSq s1) := by
  simp only [su2From]
  set a0 := 1 - d
  set ar2 := |1 - a0 * a0| with har
  have hz : 0 ≤ ar2 := abs_nonneg _
  set a3 := √ar2 * (2 * r1 - 1) with ha3
  have hs : √ar2 * √ar2 = ar2 := Real.mul_self_sqrt hz
  have h3 : a3 * a3 ≤ ar2 := by
    have : a3 * a3 = ar2 * ((2 * r1 - 1) * (2 * r1 - 1)) := by rw [ha3]; linear_combination (2 * r1 - 1) ^ 2 * hs
    rw [this]
    nlinarith [mul_nonneg h0 (sub_nonneg.2 h1)]
  rw [abs_of_nonneg (sub_nonneg.2 h3)]
  set rho := √(ar2 - a3 * a3)
  have hr : rho * rho = ar2 - a3 * a3 := Real.mul_self_sqrt (sub_nonneg.2 h3)
  have hc := Real.cos_sq_add_sin_sq (2 * Real.pi * r2)
  set c := Real.cos (2 * Real.pi * r2)
  set t := Real.sin (2 * Real.pi * r2)
  simp only [normSq_apply]
  have e : a0 * a0 + ar2 = a0 * a0 + a3 * a3 + c * rho * (c * rho) + t * rho * (t * rho) := by
    linear_combination (-1) * hr - rho * rho * hc
  rw [e]
  ring

/-- An accepted draw lies in the allowed range. -/
theorem kp_accept {NORM : ℝ} (hN : 0 ≤ NORM) {r : ℕ → ℝ} (hr : ∀ n, 0 ≤ r n ∧ r n < 1) {n : ℕ}
    (h : ¬ (KP NORM r n).2) : ∃ d, (KP NORM r n).1 = some d ∧ 0 ≤ d ∧ d ≤ 2 := by
  unfold KP at h ⊢
  simp only [] at h ⊢
  split
  · next hz => rw [if_pos hz] at h; exact absurd trivial h
  · next hz =>
    rw [if_neg hz] at h
    refine ⟨_, rfl, ?_, ?_⟩
    · have l1 := Real.log_nonpos (hr (n + 2)).1 (hr (n + 2)).2.le
      have l2 := Real.log_nonpos (hr (n + 3)).1 (hr (n + 3)).2.le
      have : Real.log (r (n + 3)) * Real.cos (2 * Real.pi * r (n + 1)) * Real.cos (2 * Real.pi * r (n + 1)) ≤ 0 := by
        rw [mul_assoc]
        exact mul_nonpos_of_nonpos_of_nonneg l2 (mul_self_nonneg _)
      exact mul_nonneg (by linarith) hN
    · simp only [not_lt] at h
      have := mul_self_nonneg (r n)
      linarith

theorem kpWhile_accept {NORM : ℝ} (hN : 0 ≤ NORM) {r : ℕ → ℝ} (hr : ∀ n, 0 ≤ r n ∧ r n < 1)
    (fuel n : ℕ) (h : ∃ m ≤ fuel, ¬ (KP NORM r (n + 4 * m)).2) :
    ∃ d, (kpWhile NORM r fuel n).1 = some d ∧ 0 ≤ d ∧ d ≤ 2 := by
  induction fuel generalizing n with
  | zero =>
    obtain ⟨m, hm, h⟩ := h
    rw [show m = 0 by omega] at h
    exact kp_accept hN hr h
  | succ fuel ih =>
    rw [kpWhile]
    split
    · next hrej =>
      obtain ⟨m, hm, h⟩ := h
      rcases Nat.eq_zero_or_pos m with h0 | h0
      · subst h0; exact absurd hrej h
      · exact ih (n + 4) ⟨m - 1, by omega, by rwa [show n + 4 + 4 * (m - 1) = n + 4 * m by omega]⟩
    · next hacc => exact kp_accept hN hr hacc

/-- **C28** when one of the 43 draws the code allows itself is accepted: the
generated element is special unitary (its top row is a unit vector), whatever the
random numbers.  Missing: the case in which all draws are rejected, see
`C28_fails`. -/
theorem C28_unit_partial {NORM : ℝ} (hN : 0 ≤ NORM) {r : ℕ → ℝ} (hr : ∀ n, 0 ≤ r n ∧ r n < 1) (n : ℕ)
    {s0 s1 : ℂ} (hs : normSq s0 + normSq s1 = 1) (h : ∃ m ≤ 42, ¬ (KP NORM r (n + 4 * m)).2) :
    ∃ g, generate_SU2 s0 s1 NORM r n = some g ∧ normSq g.1.1 + normSq g.1.2 = 1 := by
  have hd : ∃ d, (drawD NORM r n).1 = some d ∧ 0 ≤ d ∧ d ≤ 2 := by
    unfold drawD
    split
    · next hrej =>
      obtain ⟨m, hm, h⟩ := h
      rcases Nat.eq_zero_or_pos m with h0 | h0
      · subst h0; exact absurd hrej h
      · exact kpWhile_accept hN hr _ _ ⟨m - 1, by simp only [NHBMAX]; omega,
          by rwa [show n + 4 + 4 * (m - 1) = n + 4 * m by omega]⟩
    · next hacc => exact kp_accept hN hr hacc
  obtain ⟨d, hd, h0, h2⟩ := hd
  unfold generate_SU2
  simp only [hd, Option.map_some]
  refine ⟨_, rfl, ?_⟩
  simp only
  rw [su2From_norm _ _ _ (hr _).1 (hr _).2.le, hs, abs_of_nonneg (by nlinarith)]
  ring

/-- **C28** fails: with every random number one half and weight 10, all draws are
rejected, the last one is used all the same, and the result is not unitary. -/
theorem C28_fails : ∃ (r : ℕ → ℝ) (NORM : ℝ) (s0 s1 : ℂ), (∀ n, 0 ≤ r n ∧ r n < 1) ∧ 0 < NORM ∧
    normSq s0 + normSq s1 = 1 ∧
    ∃ g, generate_SU2 s0 s1 NORM r 0 = some g ∧ normSq g.1.1 + normSq g.1.2 ≠ 1 := by
  have hl : Real.log (1 / 2) < -(1 / 2) := by
    rw [one_div, Real.log_inv]
    have := Real.log_two_gt_d9
    linarith
  set l := Real.log (1 / 2) with hldef
  have hKP : ∀ n, KP 10 (fun _ => 1 / 2) n = (some (-(l + l) * 10), True) := by
    intro n
    unfold KP
    simp only
    rw [if_neg (by norm_num), ← hldef]
    have hc : Real.cos (2 * Real.pi * (1 / 2)) = -1 := by
      rw [show 2 * Real.pi * (1 / 2) = Real.pi by ring]; exact Real.cos_pi
    rw [hc]
    have hd : -(l + l * -1 * -1) * 10 = -(l + l) * 10 := by ring
    rw [hd, Prod.mk.injEq]
    refine ⟨rfl, eq_true ?_⟩
    nlinarith
  have hW : ∀ fuel n, (kpWhile 10 (fun _ => 1 / 2) fuel n).1 = some (-(l + l) * 10) := by
    intro fuel
    induction fuel with
    | zero => intro n; rw [kpWhile, hKP]
    | succ f ih => intro n; rw [kpWhile, hKP, if_pos trivial]; exact ih _
  have hD : (drawD 10 (fun _ => 1 / 2) 0).1 = some (-(l + l) * 10) := by
    rw [drawD, hKP, if_pos trivial]; exact hW _ _
  refine ⟨fun _ => 1 / 2, 10, 1, 0, fun _ => by norm_num, by norm_num, by simp, ?_⟩
  unfold generate_SU2
  simp only [hD, Option.map_some]
  refine ⟨_, rfl, ?_⟩
  simp only
  rw [su2From_norm _ _ _ (by norm_num) (by norm_num)]
  have hneg : 1 - (1 - -(l + l) * 10) * (1 - -(l + l) * 10) < 0 := by nlinarith
  rw [abs_of_neg hneg]
  simp
  nlinarith

/-- A non-singular link has independent leading vectors. -/
theorem leading_indep {NC : ℕ} {U : Arr ℂ} (h : (toM NC U).det ≠ 0) : LinearIndependent ℂ (leading NC U) := by
  have hu : IsUnit (toM NC U) := (Matrix.isUnit_iff_isUnit_det _).2 h.isUnit
  by_cases h3 : NC ≤ 3
  · have := (Matrix.linearIndependent_cols_iff_isUnit.2 hu).comp
      (Fin.castLE (show NC - 1 ≤ NC by omega)) (Fin.castLE_injective _)
    rwa [show leading NC U = (toM NC U).col ∘ Fin.castLE (show NC - 1 ≤ NC by omega) from by
      funext k c; simp [leading, h3, toM, Matrix.col]; rfl]
  · have := (Matrix.linearIndependent_rows_iff_isUnit.2 hu).comp
      (Fin.castLE (show NC - 1 ≤ NC by omega)) (Fin.castLE_injective _)
    rwa [show leading NC U = (toM NC U).row ∘ Fin.castLE (show NC - 1 ≤ NC by omega) from by
      funext k c; simp [leading, h3, toM, Matrix.row]; rfl]

/-- **C28** for the stored link: whatever the random numbers (also when all draws
are rejected), the link left in the lattice after the final reunitarisation is
special unitary, for every staple for which the subgroup projections exist and
the draws are finite. -/
theorem C28_link {NC : ℕ} (hN : 2 ≤ NC) {U staple : Arr ℂ} (hU : IsSU NC U) (invbeta : ℝ) {r : ℕ → ℝ}
    (hr : ∀ n, 0 ≤ r n ∧ r n < 1) (n : ℕ) (array : Arr ℂ) {st : Arr ℂ × ℕ}
    (h : hb NC U staple invbeta r n = some st) :
    ∃ V, hbLink NC U staple invbeta r n array = some (V, st.2) ∧ IsSU NC V := by
  have H := forN_inv (fun i (o : Option (Arr ℂ × ℕ)) => ∀ s, o = some s →
      (toM NC s.1).det ≠ 0 ∧ (i = 0 → IsSU NC s.1)) (n := NSU2SUBGROUPS NC)
    (body := fun i st => st.bind fun st =>
      (only_subgroup NC st.1 staple i).bind fun s =>
        (generate_SU2 s.1 s.2.1 (invbeta * s.2.2) r st.2).map fun g =>
          (su2_rotate NC st.1 g.1.1 g.1.2 i, g.2)) (s := some (U, n))
    (by
      rintro s ⟨⟩
      refine ⟨?_, fun _ => hU⟩
      rw [(mem_specialUnitaryGroup_iff.1 hU).2]
      exact one_ne_zero) (by
      intro i hi o ho s hs
      obtain ⟨W, rfl, hW⟩ := Option.bind_eq_some_iff.1 hs
      obtain ⟨⟨s0, s1, k⟩, hp, hW⟩ := Option.bind_eq_some_iff.1 hW
      obtain ⟨g, hg, rfl⟩ := Option.map_eq_some_iff.1 hW
      obtain ⟨hdet, hsu⟩ := ho W rfl
      refine ⟨?_, fun h => absurd h (by omega)⟩
      obtain ⟨h1, h2, h3⟩ := rowsOf_spec hN hi
      have hne : (⟨_, h1⟩ : Fin NC) ≠ ⟨_, h2⟩ := fun e => h3 (congrArg Fin.val e)
      rw [only_subgroup_eq hN hi ⟨_, h1⟩ ⟨_, h2⟩ rfl rfl] at hp
      have hunit := (normalise_some hp).2.2.2
      simp only
      rw [rotate_eq hN hi ⟨_, h1⟩ ⟨_, h2⟩ rfl rfl W.1 g.1.1 g.1.2 (fun h2 => hsu (by
        have : NSU2SUBGROUPS 2 = 1 := rfl
        rw [h2] at hi
        omega)), det_mul, subgroup_det hne]
      refine mul_ne_zero ?_ hdet
      rw [Complex.star_def, mul_conj, mul_conj]
      unfold generate_SU2 at hg
      simp only [] at hg
      obtain ⟨d, hd, rfl⟩ := Option.map_eq_some_iff.1 hg
      have hnorm := su2From_norm d (r (drawD (invbeta * k) r W.2).2) (r ((drawD (invbeta * k) r W.2).2 + 1))
        (hr _).1 (hr _).2.le s0 s1
      rw [hunit, mul_one] at hnorm
      have hpos : 0 < (1 - d) * (1 - d) + |1 - (1 - d) * (1 - d)| := by
        rcases le_or_gt ((1 - d) * (1 - d)) 0 with hle | hgt
        · have : (1 - d) * (1 - d) = 0 := le_antisymm hle (mul_self_nonneg _)
          rw [this]; norm_num
        · have := abs_nonneg (1 - (1 - d) * (1 - d))
          linarith
      have hnn := hnorm.trans_ne hpos.ne'
      intro h0
      exact hnn (by exact_mod_cast h0))
  obtain ⟨hdet, -⟩ := H st h
  obtain ⟨V, hV⟩ := C15_defined (by omega) array (leading_indep hdet)
  exact ⟨V, by unfold hbLink; rw [h]; simp [hV], C15_special_unitary (by omega) hV⟩

/-! ## Non-vacuity -/

/-- The identity link with the identity staple: every projection is defined. -/
example : only_subgroup 3 (arr [1, 0, 0, 0, 1, 0, 0, 0, 1]) (arr [1, 0, 0, 0, 1, 0, 0, 0, 1]) 0 =
    some (1, 0, 1 / 2) := by
  simp only [only_subgroup, normalise, arr, if_true]
  have : √(4 : ℝ) = 2 := by
    rw [show (4 : ℝ) = 2 * 2 by norm_num]; exact Real.sqrt_mul_self (by norm_num)
  norm_num [this]

/-- A draw that is accepted at once: all random numbers one half, weight one tenth. -/
example : ∃ r : ℕ → ℝ, (∀ n, 0 ≤ r n ∧ r n < 1) ∧ ∃ m ≤ 42, ¬ (KP (1 / 10) r (0 + 4 * m)).2 := by
  refine ⟨fun _ => 1 / 2, fun _ => by norm_num, 0, by norm_num, ?_⟩
  unfold KP
  simp only
  rw [if_neg (by norm_num)]
  have hc : Real.cos (2 * Real.pi * (1 / 2)) = -1 := by
    rw [show 2 * Real.pi * (1 / 2) = Real.pi by ring]; exact Real.cos_pi
  rw [hc]
  simp only [not_lt]
  rw [one_div 2, Real.log_inv]
  have := Real.log_two_lt_d9
  linarith

end GLU.Update
