import Verif.Smear.GivensCases

/-! # C84: fixed points and definedness -/

namespace GLU.Smear

open Complex Matrix GLU.Mat GLU.Update

/-! ## The Gram-Schmidt guess for a multiple of a special unitary matrix -/

theorem lead_congr {NC : ℕ} {U V : Arr ℂ} (h : toM NC U = toM NC V) {k : ℕ} (hk : k < NC) : lead NC U k = lead NC V k := by
  funext c
  unfold lead
  split
  · exact congrFun (congrFun h c) ⟨k, hk⟩
  · exact congrFun (congrFun h ⟨k, hk⟩) c

theorem leading_independent {NC : ℕ} {V : Arr ℂ} (h : IsSU NC V) : LinearIndependent ℂ (leading NC V) := by
  have hu : IsUnit (toM NC V) := ⟨⟨toM NC V, (toM NC V)ᴴ, unitary_mul_star h, unitary_star_mul h⟩, rfl⟩
  have inj : Function.Injective (Fin.castLE (Nat.sub_le NC 1)) := Fin.castLE_injective _
  by_cases h3 : NC ≤ 3
  · have := (linearIndependent_cols_of_isUnit hu).comp _ inj
    have e : leading NC V = (toM NC V).col ∘ Fin.castLE (Nat.sub_le NC 1) := by
      funext k c
      simp only [leading, if_pos h3]
      rfl
    rw [e]
    exact this
  · have := (linearIndependent_rows_of_isUnit hu).comp _ inj
    have e : leading NC V = (toM NC V).row ∘ Fin.castLE (Nat.sub_le NC 1) := by
      funext k c
      simp only [leading, if_neg h3]
      rfl
    rw [e]
    exact this

theorem gram_scaled {NC : ℕ} (hN : 1 < NC) {M V : Arr ℂ} (array : Arr ℂ) (hV : IsSU NC V) {c : ℝ} (hc : 0 < c)
    (hl : ∀ k < NC - 1, lead NC M k = (c : ℂ) • lead NC V k) :
    ∃ G, gram_reunit NC M array = some G ∧ toM NC G = toM NC V := by
  have hc' : (c : ℂ) ≠ 0 := ofReal_ne_zero.2 hc.ne'
  obtain ⟨G, hG⟩ := C15_defined hN (U := M) array (by
    have := (leading_independent hV).units_smul fun _ => Units.mk0 (c : ℂ) hc'
    convert this using 1
    funext k
    exact hl k k.2)
  refine ⟨G, hG, ?_⟩
  obtain ⟨V', hV', e⟩ := C15_fixes hN array hV
  have gs := C15_gram_schmidt hN hV'
  refine (C15_unique hN hG hV ⟨fun k hk => ?_, fun k hk => ?_⟩).symm
  · rw [← lead_congr e (by omega)]; exact gs.unit k hk
  · obtain ⟨r, hr, he⟩ := gs.step k hk
    refine ⟨c * r, mul_pos hc hr, ?_⟩
    rw [← lead_congr e (by omega), hl k hk, ofReal_mul, mul_smul, he, smul_sub, Finset.smul_sum]
    congr 1
    refine Finset.sum_congr rfl fun j hj => ?_
    have hj' := Finset.mem_range.1 hj
    rw [← lead_congr e (show j < NC by omega), ip_smul_right, smul_smul]

/-! ## Rotations by a sign -/

theorem normalise_real {t0 t1 t2 t3 : ℂ} {x : ℝ} (hx : x ≠ 0) (h0 : t0 + star t3 = (x : ℂ)) (h1 : t1 = star t2) :
    normalise t0 t1 t2 t3 = some (((x / |x| : ℝ) : ℂ), 0, 1 / |x|) := by
  unfold normalise
  simp only []
  rw [h0, h1, sub_self]
  have : √((x : ℂ).re * (x : ℂ).re + (x : ℂ).im * (x : ℂ).im + (0 : ℂ).re * (0 : ℂ).re + (0 : ℂ).im * (0 : ℂ).im) = |x| := by
    simp [Real.sqrt_mul_self_eq_abs]
  rw [this, if_neg (abs_ne_zero.2 hx)]
  simp [div_eq_mul_inv]

theorem rotation_real {NC k : ℕ} (hk : k < NSU2SUBGROUPS NC) {s : Arr ℂ × Arr ℂ} (hw : IsSU NC s.2) (p q : Fin NC)
    (hpq : ((p : ℕ), (q : ℕ)) = rowsOf NC k) {x : ℝ} (hx : x ≠ 0)
    (h0 : toM NC s.1 p p + star (toM NC s.1 q q) = (x : ℂ)) (h1 : toM NC s.1 p q = star (toM NC s.1 q p)) :
    ∃ s', givensRotation NC k s = some s' ∧ IsSU NC s'.2 ∧
      toM NC s'.1 = toM NC s.1 * (subgroupMatrix p q ((x / |x| : ℝ) : ℂ) 0)ᴴ ∧
      toM NC s'.2 = subgroupMatrix p q ((x / |x| : ℝ) : ℂ) 0 * toM NC s.2 := by
  have hb : givensBlock NC k s.1 = some (((x / |x| : ℝ) : ℂ), 0, 1 / |x|) := by
    rw [block_eq hk p q (congrArg Prod.fst hpq) (congrArg Prod.snd hpq), normalise_real hx h0 h1]
  have hr : ∃ s', givensRotation NC k s = some s' := by
    unfold givensRotation; rw [hb]; exact ⟨_, rfl⟩
  obtain ⟨s', hs⟩ := hr
  refine ⟨s', hs, ?_⟩
  obtain ⟨p', q', a, b, c, hpq', hne, hn, -, -, e1, e2, e3, -⟩ := rotation_spec hk hw hs
  rw [← hpq'] at hpq
  obtain ⟨x1, x2⟩ := Prod.mk.inj hpq
  obtain rfl := Fin.ext x1
  obtain rfl := Fin.ext x2
  rw [normalise_real hx h0 h1] at hn
  obtain ⟨rfl, rfl, -⟩ : _ = a ∧ _ = b ∧ _ = c := by
    have := Option.some.inj hn
    exact ⟨congrArg Prod.fst this, congrArg (fun z => z.2.1) this, congrArg (fun z => z.2.2) this⟩
  exact ⟨e3, e1, e2⟩

/-- A sweep that finds every block in place does nothing. -/
theorem sweep_still {NC : ℕ} {s : Arr ℂ × Arr ℂ} (hw : IsSU NC s.2)
    (h : ∀ k < NSU2SUBGROUPS NC, ∀ p q : Fin NC, ((p : ℕ), (q : ℕ)) = rowsOf NC k →
      ∃ x : ℝ, 0 < x ∧ toM NC s.1 p p + star (toM NC s.1 q q) = (x : ℂ) ∧ toM NC s.1 p q = star (toM NC s.1 q p)) :
    ∃ s', givensSweep NC s = some s' ∧ toM NC s'.1 = toM NC s.1 ∧ toM NC s'.2 = toM NC s.2 := by
  unfold givensSweep
  have H : ∀ n ≤ NSU2SUBGROUPS NC, ∃ s', forN n (fun k o => o.bind (givensRotation NC k)) (some s) = some s' ∧
      toM NC s'.1 = toM NC s.1 ∧ toM NC s'.2 = toM NC s.2 := by
    intro n
    induction n with
    | zero => intro _; exact ⟨s, rfl, rfl, rfl⟩
    | succ n ih =>
      intro hn
      obtain ⟨t, h1, h2, h3⟩ := ih (by omega)
      have hk : n < NSU2SUBGROUPS NC := hn
      obtain ⟨l1, l2, l3⟩ := rowsOf_spec (subgroups_pos hk) hk
      obtain ⟨x, hx, e0, e1⟩ := h n hk ⟨_, l1⟩ ⟨_, l2⟩ rfl
      rw [← h2] at e0 e1
      obtain ⟨s', f1, -, f2, f3⟩ := rotation_real hk (s := t) (by unfold IsSU; rw [h3]; exact hw) ⟨_, l1⟩ ⟨_, l2⟩ rfl hx.ne'
        e0 e1
      have hne : (⟨_, l1⟩ : Fin NC) ≠ ⟨_, l2⟩ := fun e => l3 (congrArg Fin.val e)
      rw [abs_of_pos hx, div_self hx.ne', ofReal_one, subgroup_one hne] at f2 f3
      rw [conjTranspose_one, Matrix.mul_one] at f2
      rw [Matrix.one_mul] at f3
      exact ⟨s', by rw [forN, h1]; exact f1, f2.trans h2, f3.trans h3⟩
  exact H _ (le_refl _)

theorem prec_pos {NC : ℕ} (h : 0 < NC) : 0 < Utils.PREC_TOL NC := by unfold Utils.PREC_TOL; positivity

/-- The loop stops when a sweep does nothing and the trace is positive. -/
theorem loop_still {NC n : ℕ} (hN : 0 < NC) {s s' : Arr ℂ × Arr ℂ} (h : givensSweep NC s = some s')
    (he : toM NC s'.1 = toM NC s.1) (hp : 0 < (toM NC s.1).trace.re) :
    givensLoop NC (n + 1) (speed_trace_Re NC s.1) s = some s' := by
  rw [givensLoop, h]
  dsimp only [Option.bind]
  split
  · rfl
  · rw [C12_speed_trace_Re, C12_speed_trace_Re, he, if_pos]
    refine ⟨hp.ne', ?_⟩
    rw [sub_self, abs_zero, zero_div]
    exact prec_pos hN

/-- **C84**: a positive multiple of a special unitary matrix is projected onto that matrix; in particular special unitary
matrices are left alone. -/
theorem C84_fixes {NC : ℕ} (hN : 1 < NC) {M V : Arr ℂ} (array : Arr ℂ) (hV : IsSU NC V) {c : ℝ} (hc : 0 < c)
    (h : toM NC M = (c : ℂ) • toM NC V) : ∃ W, givens_reunit NC M array = some W ∧ toM NC W = toM NC V := by
  obtain ⟨G, hG, hGV⟩ := gram_scaled hN (M := M) array hV hc (fun k hk => by
    funext i
    rw [Pi.smul_apply]
    unfold lead
    split
    · exact congrFun (congrFun h i) ⟨k, by omega⟩
    · exact congrFun (congrFun h ⟨k, by omega⟩) i)
  have hsu := C15_special_unitary hN hG
  have hU : toM NC (multab_dag NC M G M) = (c : ℂ) • (1 : Matrix (Fin NC) (Fin NC) ℂ) := by
    rw [C10_multab_dag, h, hGV, Matrix.smul_mul, unitary_mul_star hV]
  obtain ⟨s', h1, h2, h3⟩ := sweep_still (NC := NC) (s := (multab_dag NC M G M, G)) hsu (by
    intro k hk p q hpq
    have hne : p ≠ q := fun e => (rowsOf_spec (subgroups_pos hk) hk).2.2 (by rw [← hpq, e])
    refine ⟨2 * c, by linarith, ?_, ?_⟩
    · dsimp only
      rw [hU, Matrix.smul_apply, Matrix.smul_apply, one_apply_eq, one_apply_eq]
      simp
      ring
    · dsimp only
      rw [hU, Matrix.smul_apply, Matrix.smul_apply, one_apply_ne hne, one_apply_ne (Ne.symm hne)]
      simp)
  refine ⟨s'.2, ?_, h3.trans hGV⟩
  unfold givens_reunit
  rw [hG]
  dsimp only [Option.bind]
  rw [loop_still (n := 74) (s := (multab_dag NC M G M, G)) (by omega) h1 h2 (by
    dsimp only
    rw [hU, trace_smul, trace_one, smul_eq_mul, Fintype.card_fin]
    have : ((c : ℂ) * (NC : ℂ)).re = c * NC := by simp
    rw [this]
    positivity)]
  rfl

/-! ## Definedness -/

/-- **C84**, when the projection is defined: the Gram-Schmidt guess exists and its overlap is larger than what the other
`NC - 2` diagonal entries can contribute, whatever the special unitary matrix. -/
theorem C84_defined {NC : ℕ} (hN : 1 < NC) {M array G : Arr ℂ} (hG : gram_reunit NC M array = some G) {B : ℝ}
    (hB : ∀ V ∈ specialUnitaryGroup (Fin NC) ℂ, ∀ i, ((toM NC M * Vᴴ) i i).re ≤ B)
    (h : (NC - 2 : ℝ) * B < overlap (toM NC M) (toM NC G)) : ∃ W, givens_reunit NC M array = some W := by
  have hsu := C15_special_unitary hN hG
  -- a rotation is defined
  have rot : ∀ k < NSU2SUBGROUPS NC, ∀ s : Arr ℂ × Arr ℂ, IsSU NC s.2 → toM NC s.1 * toM NC s.2 = toM NC M →
      (NC - 2 : ℝ) * B < (toM NC s.1).trace.re → ∃ s', givensRotation NC k s = some s' := by
    intro k hk s hs hp hl
    obtain ⟨l1, l2, l3⟩ := rowsOf_spec hN hk
    have hne : (⟨_, l1⟩ : Fin NC) ≠ ⟨_, l2⟩ := fun e => l3 (congrArg Fin.val e)
    rcases hb : givensBlock NC k s.1 with _ | r
    · exfalso
      rw [block_eq hk ⟨_, l1⟩ ⟨_, l2⟩ rfl rfl, normalise_none] at hb
      have h0 := congrArg Complex.re hb.1
      rw [add_re, Complex.star_def, conj_re, zero_re] at h0
      have ht : (toM NC s.1).trace.re = ∑ i, (toM NC s.1 i i).re := by
        rw [Matrix.trace, re_sum]; rfl
      rw [ht, ← Finset.add_sum_erase _ _ (Finset.mem_univ (⟨_, l1⟩ : Fin NC)),
        ← Finset.add_sum_erase _ _ (Finset.mem_erase.2 ⟨hne.symm, Finset.mem_univ (⟨_, l2⟩ : Fin NC)⟩), ← add_assoc, h0,
        zero_add] at hl
      have hle : ∑ i ∈ (Finset.univ.erase (⟨_, l1⟩ : Fin NC)).erase ⟨_, l2⟩, (toM NC s.1 i i).re ≤ (NC - 2 : ℝ) * B := by
        have := Finset.sum_le_card_nsmul ((Finset.univ.erase (⟨_, l1⟩ : Fin NC)).erase ⟨_, l2⟩)
          (fun i => (toM NC s.1 i i).re) B (fun i _ => by rw [real_of_product hs hp]; exact hB _ hs i)
        rw [Finset.card_erase_of_mem (Finset.mem_erase.2 ⟨hne.symm, Finset.mem_univ _⟩),
          Finset.card_erase_of_mem (Finset.mem_univ _), Finset.card_univ, Fintype.card_fin, nsmul_eq_mul] at this
        have e : ((NC - 1 - 1 : ℕ) : ℝ) = (NC : ℝ) - 2 := by
          rw [show NC - 1 - 1 = NC - 2 by omega, Nat.cast_sub hN]; norm_num
        rw [e] at this
        exact this
      linarith
    · unfold givensRotation
      rw [hb]
      exact ⟨_, rfl⟩
  -- a sweep is defined
  have swp : ∀ s : Arr ℂ × Arr ℂ, IsSU NC s.2 → toM NC s.1 * toM NC s.2 = toM NC M →
      (NC - 2 : ℝ) * B < (toM NC s.1).trace.re → ∃ s', givensSweep NC s = some s' := by
    intro s hs hp hl
    have H : ∀ n ≤ NSU2SUBGROUPS NC, ∃ s', forN n (fun k o => o.bind (givensRotation NC k)) (some s) = some s' ∧
        IsSU NC s'.2 ∧ toM NC s'.1 * toM NC s'.2 = toM NC M ∧ (NC - 2 : ℝ) * B < (toM NC s'.1).trace.re := by
      intro n
      induction n with
      | zero => intro _; exact ⟨s, rfl, hs, hp, hl⟩
      | succ n ih =>
        intro hn
        obtain ⟨t, h1, h2, h3, h4⟩ := ih (by omega)
        obtain ⟨s', h5⟩ := rot n hn t h2 h3 h4
        obtain ⟨p, q, a, b, c, -, -, -, hc, hab, -, -, e3, e4, e5⟩ := rotation_spec hn h2 h5
        refine ⟨s', by rw [forN, h1]; exact h5, e3, e4.trans h3, ?_⟩
        have : 0 ≤ (1 - a.re) / c := div_nonneg (by have := unit_re_le hab; linarith) hc.le
        rw [e5]; linarith
    obtain ⟨s', h1, -⟩ := H _ (le_refl _)
    exact ⟨s', h1⟩
  have lp : ∀ (n : ℕ) (tr : ℝ) (s : Arr ℂ × Arr ℂ), IsSU NC s.2 → toM NC s.1 * toM NC s.2 = toM NC M →
      (NC - 2 : ℝ) * B < (toM NC s.1).trace.re → ∃ s', givensLoop NC n tr s = some s' := by
    intro n
    induction n with
    | zero => intro tr s _ _ _; exact ⟨s, rfl⟩
    | succ n ih =>
      intro tr s hs hp hl
      obtain ⟨t, ht⟩ := swp s hs hp hl
      obtain ⟨g1, g2, g3, -⟩ := sweep_spec hs ht
      obtain ⟨s', h'⟩ := ih (speed_trace_Re NC t.1) t g1 (g2.trans hp) (lt_of_lt_of_le hl g3)
      rw [givensLoop, ht]
      dsimp only [Option.bind]
      split
      · exact ⟨_, rfl⟩
      · split
        · exact ⟨_, rfl⟩
        · exact ⟨s', h'⟩
  obtain ⟨s', h'⟩ := lp 75 (speed_trace_Re NC (multab_dag NC M G M)) (multab_dag NC M G M, G) hsu (start_product hsu) (by
    unfold overlap at h
    rw [C10_multab_dag]; exact h)
  refine ⟨s'.2, ?_⟩
  unfold givens_reunit
  rw [hG]
  dsimp only [Option.bind]
  rw [h']
  rfl

end GLU.Smear
