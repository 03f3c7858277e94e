import Verif.Smear.Stout
import Verif.Smear.LocalProps
import Verif.Mat.ExpProps
import Verif.Mat.ProjProps
import Verif.Field.Props

/-!
# Lemmas for stout smearing
-/

namespace GLU.Smear

open GLU.Geom GLU.Sched GLU.Mat GLU.Field Complex Matrix

/-- Equal matrices have equal entries in memory. -/
theorem toM_entry {NC : ℕ} {a b : Arr ℂ} (h : toM NC a = toM NC b) {k : ℕ} (hk : k < NC * NC) :
    a k = b k := by
  have hN : 0 < NC := by
    rcases Nat.eq_zero_or_pos NC with rfl | h
    · simp at hk
    · exact h
  have := congrFun (congrFun h ⟨k / NC, Nat.div_lt_of_lt_mul hk⟩) ⟨k % NC, Nat.mod_lt _ hN⟩
  simp only [toM_apply] at this
  rwa [Nat.mod_add_div] at this

theorem toM_scaleHerm {NC : ℕ} (α : ℝ) {a : Arr ℂ} (ha : HermTraceless NC a) :
    toM NC (scaleHerm NC α a) = (α : ℂ) • toM NC a := by
  unfold scaleHerm
  split
  · next h =>
    subst h
    obtain ⟨i0, i4, i8, h3, h6, h7, h8⟩ := herm3_facts ha
    ext i j
    fin_cases i <;> fin_cases j <;> simp [arr, toM_apply, h3, h6, h7, h8, conj] <;> ring
  split
  · next h =>
    subst h
    obtain ⟨i0, h2, h3⟩ := herm2_facts ha
    ext i j
    fin_cases i <;> fin_cases j <;> simp [arr, toM_apply, h2, h3, conj] <;> ring
  · have key : ∀ n, (∀ k, forN n (fun k a => Function.update a k (a k * (α : ℂ))) a k =
        if k < n then a k * α else a k) := by
      intro n
      induction n with
      | zero => intro k; simp [forN]
      | succ n ih =>
        intro k
        rw [forN]
        by_cases hk : k = n
        · subst hk
          rw [Function.update_self, ih, if_neg (lt_irrefl _), if_pos (Nat.lt_succ_self _)]
        · rw [Function.update_of_ne hk, ih]
          by_cases h : k < n
          · rw [if_pos h, if_pos (by omega)]
          · rw [if_neg h, if_neg (by omega)]
    ext i j
    have := i.2; have := j.2
    have hlt : (j : ℕ) + i * NC < NC * NC := by
      calc (j : ℕ) + i * NC < NC + i * NC := by omega
        _ = (i + 1) * NC := by ring
        _ ≤ NC * NC := Nat.mul_le_mul_right _ (by omega)
    rw [toM_apply, key, Matrix.smul_apply, toM_apply, smul_eq_mul, mul_comm, if_pos hlt, mul_comm]

/-- The exponential routine is exact at `A`: this is what `C20_three_partial` and
`C20_two_partial` give for separated eigenvalues. -/
def ExpExact (NC : ℕ) (A : Matrix (Fin NC) (Fin NC) ℂ) : Prop :=
  ∀ Q g, toM NC Q = A → ∃ U, exponentiate NC Q g = some U ∧ toM NC U = NormedSpace.exp (I • A)

theorem hermTraceless_smul {NC : ℕ} {Q A : Arr ℂ} (hA : HermTraceless NC A) {α : ℝ}
    (h : toM NC Q = (α : ℂ) • toM NC A) : HermTraceless NC Q := by
  unfold HermTraceless
  rw [h]
  refine ⟨?_, ?_⟩
  · show ((α : ℂ) • toM NC A)ᴴ = _
    rw [conjTranspose_smul, hA.1.eq]; simp
  · rw [Matrix.trace_smul, hA.2, smul_zero]

/-- The argument of the exponential in `project_STOUT`. -/
noncomputable def expArg (NC : ℕ) (α al : ℝ) (staple link : Arr ℂ) : Arr ℂ :=
  scaleHerm NC α (Hermitian_proj NC (Function.update (fun _ => 0) 0 (al : ℂ))
    (multab_dag NC staple link fun _ => 0))

theorem toM_expArg {NC : ℕ} (hN : 1 ≤ NC) (α al : ℝ) {staple link : Arr ℂ}
    (hq : QuatForm NC (multab_dag NC staple link fun _ => 0)) :
    toM NC (expArg NC α al staple link) = (α : ℂ) • lieHerm (toM NC staple * (toM NC link)ᴴ) ∧
    HermTraceless NC (expArg NC α al staple link) := by
  have ha := C70_algebra hN (Function.update (fun _ => 0) 0 (al : ℂ)) hq
  have h1 := toM_scaleHerm α ha
  refine ⟨?_, hermTraceless_smul ha h1⟩
  rw [expArg, h1, C70_hermitian hN _ hq, C10_multab_dag]

/-! ### Products with an approximately unitary factor -/

theorem su_entry_le {NC : ℕ} {A : Matrix (Fin NC) (Fin NC) ℂ} (hA : A ∈ specialUnitaryGroup (Fin NC) ℂ)
    (i j : Fin NC) : ‖A i j‖ ≤ 1 := by
  have h := mem_unitaryGroup_iff.1 (mem_specialUnitaryGroup_iff.1 hA).1
  have hi := congrFun (congrFun h i) i
  rw [Matrix.mul_apply, Matrix.one_apply_eq] at hi
  have hr : ∑ k, ‖A i k‖ ^ 2 = 1 := by
    have := congrArg Complex.re hi
    rw [Complex.re_sum] at this
    rw [← Complex.one_re, ← this]
    refine Finset.sum_congr rfl fun k _ => ?_
    rw [star_apply, Complex.sq_norm, Complex.normSq_apply]
    simp
  have h1 : ‖A i j‖ ^ 2 ≤ 1 := by
    rw [← hr]
    exact Finset.single_le_sum (f := fun k => ‖A i k‖ ^ 2) (fun k _ => by positivity) (Finset.mem_univ j)
  exact (sq_le_one_iff₀ (norm_nonneg _)).1 h1

theorem suMul3_rows (b c a : Arr ℂ) :
    let x := multab_suNC 3 b c a
    let P := toM 3 b * toM 3 c
    (x 0 = P 0 0 ∧ x 1 = P 0 1 ∧ x 2 = P 0 2 ∧ x 3 = P 1 0 ∧ x 4 = P 1 1 ∧ x 5 = P 1 2) ∧
    x 6 = conj (x 1 * x 5 - x 2 * x 4) ∧ x 7 = conj (x 2 * x 3 - x 0 * x 5) ∧
    x 8 = conj (x 0 * x 4 - x 1 * x 3) := by
  have e : multab_suNC 3 b c a = multab_suNC3 b c := by simp [multab_suNC]
  rw [e]
  refine ⟨⟨?_, ?_, ?_, ?_, ?_, ?_⟩, conj_parts _ _ _ _, conj_parts _ _ _ _, conj_parts _ _ _ _⟩ <;>
    · simp only [multab_suNC3, arr_zero, arr_succ, Matrix.mul_apply, Fin.sum_univ_three, toM_apply]
      apply Complex.ext <;> simp [creal, cimag] <;> ring

theorem mul_close {x y X Y : ℂ} {ρ : ℝ} (hx : ‖x - X‖ ≤ ρ) (hy : ‖y - Y‖ ≤ ρ) (hX : ‖X‖ ≤ 1)
    (hY : ‖Y‖ ≤ 1) : ‖x * y - X * Y‖ ≤ 2 * ρ + ρ * ρ := by
  have hρ : 0 ≤ ρ := le_trans (norm_nonneg _) hx
  have e : x * y - X * Y = (x - X) * (y - Y) + (x - X) * Y + X * (y - Y) := by ring
  rw [e]
  refine (norm_add₃_le).trans ?_
  rw [norm_mul, norm_mul, norm_mul]
  have h1 := mul_le_mul hx hy (norm_nonneg _) hρ
  have h2 := mul_le_mul hx hY (norm_nonneg _) hρ
  have h3 := mul_le_mul hX hy (norm_nonneg _) (by norm_num)
  linarith

theorem cross_close {x y z w X Y Z W : ℂ} {ρ : ℝ} (hx : ‖x - X‖ ≤ ρ) (hy : ‖y - Y‖ ≤ ρ)
    (hz : ‖z - Z‖ ≤ ρ) (hw : ‖w - W‖ ≤ ρ) (hX : ‖X‖ ≤ 1) (hY : ‖Y‖ ≤ 1) (hZ : ‖Z‖ ≤ 1) (hW : ‖W‖ ≤ 1) :
    ‖conj (x * y - z * w) - conj (X * Y - Z * W)‖ ≤ 4 * ρ + 2 * (ρ * ρ) := by
  have h1 := mul_close hx hy hX hY
  have h2 := mul_close hz hw hZ hW
  unfold conj
  rw [← star_sub, norm_star]
  have e : x * y - z * w - (X * Y - Z * W) = (x * y - X * Y) - (z * w - Z * W) := by ring
  rw [e]
  refine (norm_sub_le _ _).trans ?_
  linarith

/-- A product whose left factor is only near a special unitary matrix. -/
theorem suMul3_close {b c : Arr ℂ} (a : Arr ℂ) {B : Matrix (Fin 3) (Fin 3) ℂ} {δ : ℝ} (hδ : δ ≤ 1 / 100)
    (hB : B ∈ specialUnitaryGroup (Fin 3) ℂ) (hc : IsSU 3 c) (hb : ∀ i j, ‖toM 3 b i j - B i j‖ ≤ δ)
    (i j : Fin 3) : ‖toM 3 (multab_suNC 3 b c a) i j - (B * toM 3 c) i j‖ ≤ 13 * δ := by
  have hδ0 : 0 ≤ δ := le_trans (norm_nonneg _) (hb 0 0)
  obtain ⟨⟨e0, e1, e2, e3, e4, e5⟩, e6, e7, e8⟩ := suMul3_rows b c a
  have hP : B * toM 3 c ∈ specialUnitaryGroup (Fin 3) ℂ := mul_mem hB hc
  obtain ⟨q0, q1, q2⟩ := su3_row hP
  have hrow : ∀ i j, ‖(toM 3 b * toM 3 c) i j - (B * toM 3 c) i j‖ ≤ 3 * δ := by
    intro i j
    rw [← Matrix.sub_apply, ← Matrix.sub_mul, Matrix.mul_apply, Fin.sum_univ_three]
    refine (norm_add₃_le).trans ?_
    rw [norm_mul, norm_mul, norm_mul]
    have h : ∀ k, ‖(toM 3 b - B) i k‖ * ‖toM 3 c k j‖ ≤ δ * 1 := fun k =>
      mul_le_mul (hb i k) (su_entry_le hc k j) (norm_nonneg _) hδ0
    linarith [h 0, h 1, h 2]
  have hS := su_entry_le hP
  have k0 := hrow 0 0; have k1 := hrow 0 1; have k2 := hrow 0 2
  have k3 := hrow 1 0; have k4 := hrow 1 1; have k5 := hrow 1 2
  rw [← e0] at k0; rw [← e1] at k1; rw [← e2] at k2; rw [← e3] at k3; rw [← e4] at k4; rw [← e5] at k5
  have hb2 : 4 * (3 * δ) + 2 * (3 * δ * (3 * δ)) ≤ 13 * δ := by nlinarith
  have t6 := cross_close k1 k5 k2 k4 (hS 0 1) (hS 1 2) (hS 0 2) (hS 1 1)
  have t7 := cross_close k2 k3 k0 k5 (hS 0 2) (hS 1 0) (hS 0 0) (hS 1 2)
  have t8 := cross_close k0 k4 k1 k3 (hS 0 0) (hS 1 1) (hS 0 1) (hS 1 0)
  rw [← e6, show conj (_ - _) = (B * toM 3 c) 2 0 from q0.symm] at t6
  rw [← e7, show conj (_ - _) = (B * toM 3 c) 2 1 from q1.symm] at t7
  rw [← e8, show conj (_ - _) = (B * toM 3 c) 2 2 from q2.symm] at t8
  have hc3 : 3 * δ ≤ 13 * δ := by linarith
  fin_cases i <;> fin_cases j
  · exact k0.trans hc3
  · exact k1.trans hc3
  · exact k2.trans hc3
  · exact k3.trans hc3
  · exact k4.trans hc3
  · exact k5.trans hc3
  · exact t6.trans hb2
  · exact t7.trans hb2
  · exact t8.trans hb2

/-- As `suMul3_close` for two colours. -/
theorem suMul2_close {b c : Arr ℂ} (a : Arr ℂ) {B : Matrix (Fin 2) (Fin 2) ℂ} {δ : ℝ}
    (hB : B ∈ specialUnitaryGroup (Fin 2) ℂ) (hc : IsSU 2 c) (hb : ∀ i j, ‖toM 2 b i j - B i j‖ ≤ δ)
    (i j : Fin 2) : ‖toM 2 (multab_suNC 2 b c a) i j - (B * toM 2 c) i j‖ ≤ 2 * δ := by
  have hδ0 : 0 ≤ δ := le_trans (norm_nonneg _) (hb 0 0)
  have e : multab_suNC 2 b c a = multab_suNC2 b c := by simp [multab_suNC]
  have e0 : multab_suNC 2 b c a 0 = (toM 2 b * toM 2 c) 0 0 := by
    rw [e]
    simp only [multab_suNC2, arr_zero, arr_succ, Matrix.mul_apply, Fin.sum_univ_two, toM_apply]
    apply Complex.ext <;> simp [creal, cimag] <;> ring
  have e1 : multab_suNC 2 b c a 1 = (toM 2 b * toM 2 c) 0 1 := by
    rw [e]
    simp only [multab_suNC2, arr_zero, arr_succ, Matrix.mul_apply, Fin.sum_univ_two, toM_apply]
    apply Complex.ext <;> simp [creal, cimag] <;> ring
  have e2 : multab_suNC 2 b c a 2 = -conj (multab_suNC 2 b c a 1) := by rw [e]; rfl
  have e3 : multab_suNC 2 b c a 3 = conj (multab_suNC 2 b c a 0) := by rw [e]; rfl
  have hP : B * toM 2 c ∈ specialUnitaryGroup (Fin 2) ℂ := mul_mem hB hc
  have hrow : ∀ i j, ‖(toM 2 b * toM 2 c) i j - (B * toM 2 c) i j‖ ≤ 2 * δ := by
    intro i j
    rw [← Matrix.sub_apply, ← Matrix.sub_mul, Matrix.mul_apply, Fin.sum_univ_two]
    refine (norm_add_le _ _).trans ?_
    rw [norm_mul, norm_mul]
    have h : ∀ k, ‖(toM 2 b - B) i k‖ * ‖toM 2 c k j‖ ≤ δ * 1 := fun k =>
      mul_le_mul (hb i k) (su_entry_le hc k j) (norm_nonneg _) hδ0
    linarith [h 0, h 1]
  have k0 := hrow 0 0; have k1 := hrow 0 1
  rw [← e0] at k0; rw [← e1] at k1
  obtain ⟨q0, q1⟩ := su2_row hP
  fin_cases i <;> fin_cases j
  · exact k0
  · exact k1
  · show ‖multab_suNC 2 b c a 2 - (B * toM 2 c) 1 0‖ ≤ _
    rw [e2, q0, conj, ← neg_sub_neg, neg_neg, neg_neg, ← star_sub, norm_star, norm_sub_rev]
    exact k1
  · show ‖multab_suNC 2 b c a 3 - (B * toM 2 c) 1 1‖ ≤ _
    rw [e3, q1, conj, ← star_sub, norm_star]
    exact k0

theorem quatForm_mul_dag {a b : Arr ℂ} (ha : QuatForm 2 a) (hb : QuatForm 2 b) (g : Arr ℂ) :
    QuatForm 2 (multab_dag 2 a b g) := by
  intro _
  obtain ⟨a1, a2⟩ := ha rfl
  obtain ⟨b1, b2⟩ := hb rfl
  have h := C10_multab_dag 2 a b g
  have e : ∀ i j : Fin 2, multab_dag 2 a b g (j + 2 * i) = a (2 * i) * star (b (2 * j)) +
      a (1 + 2 * i) * star (b (1 + 2 * j)) := by
    intro i j
    have := congrFun (congrFun h i) j
    simpa [Matrix.mul_apply, Fin.sum_univ_two, toM_apply] using this
  have e00 := e 0 0; have e01 := e 0 1; have e10 := e 1 0; have e11 := e 1 1
  simp [a1, a2, b1, b2, conj] at e00 e01 e10 e11
  refine ⟨?_, ?_⟩
  · rw [e10, e01]; simp [conj]
  · rw [e11, e00]; simp [conj]; ring

theorem separated_congr {n : ℕ} {A B : Matrix (Fin n) (Fin n) ℂ} (e : A = B) (hA : A.IsHermitian)
    (hB : B.IsHermitian) {δ : ℝ} (h : Separated hA δ) : Separated hB δ := by
  subst e; exact h

theorem expExact_three {A : Matrix (Fin 3) (Fin 3) ℂ} (hA : A.IsHermitian) (hT : Matrix.trace A = 0)
    (h : Separated hA (1 / 10)) : ExpExact 3 A := by
  intro Q g hQ
  have hh : HermTraceless 3 Q := by unfold HermTraceless; rw [hQ]; exact ⟨hA, hT⟩
  obtain ⟨U, h1, _, h3⟩ := C20_three_partial hh g
  have := (h3 (separated_congr hQ.symm hA hh.1 h)).1
  rw [hQ] at this
  exact ⟨U, h1, this⟩

theorem expExact_two {A : Matrix (Fin 2) (Fin 2) ℂ} (hA : A.IsHermitian) (hT : Matrix.trace A = 0)
    (h : Separated hA (2 / 10 ^ 4)) : ExpExact 2 A := by
  intro Q g hQ
  have hh : HermTraceless 2 Q := by unfold HermTraceless; rw [hQ]; exact ⟨hA, hT⟩
  obtain ⟨U, h1, _, h3⟩ := C20_two_partial hh g
  have := (h3 (separated_congr hQ.symm hA hh.1 h)).1
  rw [hQ] at this
  exact ⟨U, h1, this⟩

theorem expExact_three_zero : ExpExact 3 0 := by
  intro Q g hQ
  have e : ∀ k < 9, Q k = 0 := fun k hk => by
    have := toM_entry (a := Q) (b := fun _ => 0) (NC := 3) (by rw [hQ]; rfl) (k := k) (by omega)
    exact this
  refine ⟨arr [1, 0, 0, 0, 1, 0, 0, 0, 1], ?_, ?_⟩
  · simp only [exponentiate, if_true, exponentiate3, e 0 (by norm_num), e 1 (by norm_num),
      e 2 (by norm_num), e 4 (by norm_num), e 5 (by norm_num)]
    rw [if_pos]
    norm_num [DBL_MIN]
  · rw [smul_zero, NormedSpace.exp_zero]
    ext i j
    fin_cases i <;> fin_cases j <;> simp [toM_apply, arr]

theorem expExact_two_zero : ExpExact 2 0 := by
  intro Q g hQ
  have e : ∀ k < 4, Q k = 0 := fun k hk => by
    have := toM_entry (a := Q) (b := fun _ => 0) (NC := 2) (by rw [hQ]; rfl) (k := k) (by omega)
    exact this
  refine ⟨exponentiate2 Q, by simp [exponentiate], ?_⟩
  rw [smul_zero, NormedSpace.exp_zero]
  ext i j
  fin_cases i <;> fin_cases j <;>
    simp [toM_apply, arr, exponentiate2, e 0 (by norm_num), e 1 (by norm_num)]

/-! ### Staples of fields that are defined everywhere -/

theorem staples_some (NC : ℕ) (L : Latt) (U : Gauge) (i mu dir : ℕ) (z : Arr ℂ) :
    all_staples L (opsO NC) (fun l => some (U l)) i mu dir (some z) =
      some (all_staples L (ops NC) U i mu dir z) := by
  unfold all_staples
  generalize List.range (dir - 1) = l
  induction l generalizing z with
  | nil => rfl
  | cons j l ih =>
    rw [List.foldl_cons, List.foldl_cons, ← ih]
    rfl

theorem quat_staple {L : Latt} (hL : Valid L) {NC : ℕ} {U : Gauge} (hU : SUField NC L U) {i mu dir : ℕ}
    (hi : i < volume L) (hmu : mu < dir) (hdir : dir ≤ L.ND) : QuatForm NC (staple NC L U i mu dir) := by
  intro h2
  subst h2
  have hs := C32_staple hL hU hi hmu hdir
  have key : ∀ s ⊆ (Finset.range dir).erase mu, ∀ A : Matrix (Fin 2) (Fin 2) ℂ,
      A = ∑ nu ∈ s, (link 2 U i nu * link 2 U (neighbor L i nu) mu * (link 2 U (neighbor L i mu) nu)ᴴ +
        (link 2 U (back L i nu) nu)ᴴ * link 2 U (back L i nu) mu *
        link 2 U (neighbor L (back L i nu) mu) nu) → A 1 0 = -star (A 0 1) ∧ A 1 1 = star (A 0 0) := by
    intro s
    induction s using Finset.induction_on with
    | empty => rintro - A rfl; simp
    | insert nu s hn ih =>
      intro hsub A hA
      rw [Finset.sum_insert hn] at hA
      obtain ⟨r1, r2⟩ := ih ((Finset.subset_insert _ _).trans hsub) _ rfl
      have hnu := hsub (Finset.mem_insert_self nu s)
      rw [Finset.mem_erase, Finset.mem_range] at hnu
      have hb := back_lt hL i (show nu < L.ND by omega)
      have hm : mu < L.ND := by omega
      have hn' : nu < L.ND := by omega
      have q1 := su2_row (A := link 2 U i nu * link 2 U (neighbor L i nu) mu *
          (link 2 U (neighbor L i mu) nu)ᴴ)
        (isSU_mul (isSU_mul (hU i hi nu hn') (hU _ (neighbor_lt hL i hn') mu hm))
          (isSU_star (hU _ (neighbor_lt hL i hm) nu hn')))
      have q2 := su2_row (A := (link 2 U (back L i nu) nu)ᴴ * link 2 U (back L i nu) mu *
          link 2 U (neighbor L (back L i nu) mu) nu)
        (isSU_mul (isSU_mul (isSU_star (hU _ hb nu hn')) (hU _ hb mu hm))
          (hU _ (neighbor_lt hL _ hm) nu hn'))
      rw [hA]
      simp only [Matrix.add_apply, q1.1, q1.2, q2.1, q2.2, r1, r2, star_add]
      exact ⟨by ring, trivial⟩
  have := key _ (Finset.Subset.refl _) _ hs
  simpa [toM_apply, conj] using this

end GLU.Smear
