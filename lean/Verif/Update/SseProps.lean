import Verif.Update.Sse
import Verif.Update.Props
import Verif.Mat.SseGramLemmas

/-!
# C116: the vectorised SU(2) subgroup operations
-/

namespace GLU.Update.Sse

open Complex Matrix GLU.Mat GLU.Mat.Sse

theorem normalise_eq (s : ISA) (sm0 sm1 : V2 ℝ) {t0 t1 t2 t3 : ℂ} (h0 : Mat.Sse.st sm0 = t0 + star t3)
    (h1 : Mat.Sse.st sm1 = t1 - star t2) : normalise s sm0 sm1 = Update.normalise t0 t1 t2 t3 := by
  unfold normalise Update.normalise
  rw [← h0, ← h1]
  extract_lets z z' p0 p1 nrm scale
  have hz : z' = ⟨sm0.lo * sm0.lo + sm0.hi * sm0.hi + sm1.lo * sm1.lo + sm1.hi * sm1.hi,
      sm0.lo * sm0.lo + sm0.hi * sm0.hi + sm1.lo * sm1.lo + sm1.hi * sm1.hi⟩ := by
    cases s <;> apply V2.ext <;> simp [z', z, SSE2_FMA, mm_fmadd, mm_add, mm_mul, mm_shuffle1] <;> ring
  have hn : nrm = √(sm0.lo * sm0.lo + sm0.hi * sm0.hi + sm1.lo * sm1.lo + sm1.hi * sm1.hi) := rfl
  rw [hz, invSqrt_both, hn]
  have hp : 0 ≤ sm0.lo * sm0.lo + sm0.hi * sm0.hi + sm1.lo * sm1.lo + sm1.hi * sm1.hi := by
    nlinarith [mul_self_nonneg sm0.lo, mul_self_nonneg sm0.hi, mul_self_nonneg sm1.lo, mul_self_nonneg sm1.hi]
  simp only [Real.sqrt_eq_zero hp]
  split
  · rfl
  · simp only [Option.map_some, Option.some.injEq, Prod.mk.injEq, and_true]
    refine ⟨?_, ?_, rfl⟩ <;> apply Complex.ext <;> simp [p0, p1, scale, hn, mm_mul, Mat.Sse.st]

/-- C116: the projection on a subgroup. -/
theorem C116_only_subgroup (s : ISA) (NC : ℕ) (U staple : Arr ℂ) (su2_index : ℕ) :
    only_subgroup s NC U staple su2_index = Update.only_subgroup NC U staple su2_index := by
  unfold only_subgroup Update.only_subgroup
  split
  · have h3 : su2_index % 3 = 0 ∨ su2_index % 3 = 1 ∨ su2_index % 3 = 2 := by omega
    rcases h3 with h | h | h <;> simp only [h] <;> apply normalise_eq <;>
      simp [conj, Mat.Sse.st_ldA] <;> ring
  split
  · apply normalise_eq <;> simp [conj, Mat.Sse.st_ldA]
  · extract_lets u stp row_a col_b sm
    have h := forN_rel (fun n (sm : V2 ℝ × V2 ℝ) (_ : Unit) =>
        Mat.Sse.st sm.1 = loopSum n (fun i => U (i + NC * row_a) * star (staple (i + NC * row_a))) +
          star (loopSum n (fun i => U (i + NC * col_b) * star (staple (i + NC * col_b)))) ∧
        Mat.Sse.st sm.2 = loopSum n (fun i => U (i + NC * row_a) * star (staple (i + NC * col_b))) -
          star (loopSum n (fun i => U (i + NC * col_b) * star (staple (i + NC * row_a)))))
      (n := NC) (f := fun i (sm : V2 ℝ × V2 ℝ) =>
      (mm_add sm.1 (mm_add (SSE2_MUL_CONJ s (u (NC * row_a + i)) (stp (NC * row_a + i)))
        (SSE2_MULCONJ s (u (NC * col_b + i)) (stp (NC * col_b + i)))),
       mm_add sm.2 (mm_sub (SSE2_MUL_CONJ s (u (NC * row_a + i)) (stp (NC * col_b + i)))
        (SSE2_MULCONJ s (u (NC * col_b + i)) (stp (NC * row_a + i))))))
      (g := fun _ x => x) (s := (mm_setzero, mm_setzero)) (t := ())
      (by simp [loopSum, forN])
      (fun i hi sm _ hsm => by
        simp only [st_add, st_sub, st_mul_conj, st_mulconj, hsm.1, hsm.2, u, stp, st_ldA]
        simp only [loopSum, forN, conj, star_add, star_mul', star_star, Nat.add_comm i]
        constructor <;> ring)
    exact normalise_eq s _ _ h.1 h.2

theorem stA_forN {n : ℕ} {f : ℕ → Arr (V2 ℝ) → Arr (V2 ℝ)} {g : ℕ → Arr ℂ → Arr ℂ}
    (h : ∀ i w, stA (f i w) = g i (stA w)) (w : Arr (V2 ℝ)) : stA (forN n f w) = forN n g (stA w) :=
  forN_sim stA h w

/-- C116: the multiplication of two rows, for distinct rows. -/
theorem C116_shortened (s : ISA) {NC su2_index : ℕ} (hs : su2_index < NSU2SUBGROUPS NC) (w : Arr ℂ)
    (a b : ℂ) :
    shortened_su2_multiply s NC w a b su2_index = Update.shortened_su2_multiply NC w a b su2_index := by
  unfold shortened_su2_multiply Update.shortened_su2_multiply
  extract_lets A B row_a row_c
  have hne : ∀ i, row_c + i ≠ row_a + i := by
    obtain ⟨h1, h2⟩ := (C26_enumeration NC).1 su2_index hs
    intro i he
    have : NC * (rowPair NC su2_index).2 = NC * (rowPair NC su2_index).1 := by
      rw [← data_c hs]
      exact Nat.add_right_cancel he
    exact absurd (Nat.eq_of_mul_eq_mul_left (by omega) this) (Nat.ne_of_gt h1)
  rw [forN_sim stA (body' := fun i w =>
    let W1 := w (row_a + i)
    let W2 := w (row_c + i)
    let w := Function.update w (row_a + i) (a * W1 + b * W2)
    Function.update w (row_c + i) (-star b * W1 + star a * W2)) (fun i w => by
      simp only [stA_update, Function.update_of_ne (hne i), st_add, st_sub, st_mul, st_mulconj, A, B,
        st_ld, stA_apply, conj]
      congr 1
      ring), stA_ldA]

/-- C116: the multiplication of two columns. -/
theorem C116_shortened_dag (s : ISA) {NC su2_index : ℕ} (hs : su2_index < NSU2SUBGROUPS NC) (U : Arr ℂ)
    (a b : ℂ) :
    shortened_su2_multiply_dag s NC U a b su2_index =
      Update.shortened_su2_multiply_dag NC U a b su2_index := by
  unfold shortened_su2_multiply_dag Update.shortened_su2_multiply_dag
  extract_lets A B col_a col_b
  have hne : ∀ i, col_b + i * NC ≠ col_a + i * NC := by
    obtain ⟨h1, h2⟩ := (C26_enumeration NC).1 su2_index hs
    intro i he
    have : (rowPair NC su2_index).2 = (rowPair NC su2_index).1 := by
      rw [← data_a_mod hs]
      exact Nat.add_right_cancel he
    exact absurd this (Nat.ne_of_gt h1)
  have hA : Mat.Sse.st A = star a := by apply Complex.ext <;> simp [A, Mat.Sse.st]
  have hB : Mat.Sse.st B = star b := by apply Complex.ext <;> simp [B, Mat.Sse.st]
  rw [forN_sim stA (body' := fun i U =>
    let U1 := U (col_a + i * NC)
    let U2 := U (col_b + i * NC)
    let U := Function.update U (col_a + i * NC) (U1 * star a + U2 * star b)
    Function.update U (col_b + i * NC) (-U1 * b + U2 * a)) (fun i w => by
      simp only [stA_update, Function.update_of_ne (hne i), st_add, st_sub, st_mul, st_mul_conj, hA, hB,
        stA_apply, conj, star_star]
      congr 1
      ring), stA_ldA]

/-- C116: the rotation by a subgroup matrix, on the entries of the matrix. -/
theorem C116_su2_rotate (s : ISA) {NC su2_index : ℕ} (hs : su2_index < NSU2SUBGROUPS NC) (U : Arr ℂ)
    (s0 s1 : ℂ) :
    toM NC (su2_rotate s NC U s0 s1 su2_index) = toM NC (Update.su2_rotate NC U s0 s1 su2_index) := by
  unfold su2_rotate Update.su2_rotate
  split
  · next h =>
    subst h
    have h3 : su2_index % 3 = 0 ∨ su2_index % 3 = 1 ∨ su2_index % 3 = 2 := by omega
    rcases h3 with h | h | h <;> simp only [h] <;>
    · ext i j
      fin_cases i <;> fin_cases j <;>
        simp [toM_apply, stA_update, Function.update_apply, arr, conj, st_ldA, stA_apply] <;> ring
  split
  · next h =>
    subst h
    ext i j
    fin_cases i <;> fin_cases j <;>
        simp [toM_apply, stA_update, Function.update_apply, arr, conj, st_ldA, stA_apply]
  · rw [C116_shortened s hs]

/-- C116: the update of a link by the vectorised operations leaves the action and the group as they
are. -/
theorem C116_overrelax (s : ISA) {NC : ℕ} (hN : 2 ≤ NC) {U staple U' : Arr ℂ} (hU : IsSU NC U)
    (h : overrelax s NC U staple = some U') :
    ((toM NC U' * (toM NC staple)ᴴ).trace).re = ((toM NC U * (toM NC staple)ᴴ).trace).re ∧
      IsSU NC U' := by
  have H := forN_inv (fun _ (o : Option (Arr ℂ)) => ∀ V, o = some V →
      ((toM NC V * (toM NC staple)ᴴ).trace).re = ((toM NC U * (toM NC staple)ᴴ).trace).re ∧ IsSU NC V)
    (n := NSU2SUBGROUPS NC) (body := fun i U => U.bind fun U =>
      (only_subgroup s NC U staple i).map fun x =>
        let t := microcanonical x.1 x.2.1
        su2_rotate s NC U t.1 t.2 i) (s := some U)
    (by rintro V ⟨⟩; exact ⟨rfl, hU⟩) (by
      intro i hi o ho V hV
      obtain ⟨W, rfl, hW⟩ := Option.bind_eq_some_iff.1 hV
      obtain ⟨⟨s0, s1, k⟩, hs, rfl⟩ := Option.map_eq_some_iff.1 hW
      obtain ⟨hre, hsu⟩ := ho W rfl
      obtain ⟨h1, h2, h3⟩ := rowsOf_spec hN hi
      have hne : (⟨_, h1⟩ : Fin NC) ≠ ⟨_, h2⟩ := fun e => h3 (congrArg Fin.val e)
      rw [C116_only_subgroup, only_subgroup_eq hN hi ⟨_, h1⟩ ⟨_, h2⟩ rfl rfl] at hs
      have hm := micro_norm (normalise_some hs).2.2.2
      have hrot := rotate_eq hN hi ⟨_, h1⟩ ⟨_, h2⟩ rfl rfl W (microcanonical s0 s1).1
        (microcanonical s0 s1).2 fun _ => hsu
      rw [← C116_su2_rotate s hi] at hrot
      constructor
      · simp only
        rw [hrot, Matrix.mul_assoc, trace_rotated hne, add_re, micro_trace hs, add_zero, hre]
      · unfold IsSU
        simp only
        rw [hrot]
        exact isSU_mul (subgroup_su hne hm) hsu)
  exact H U' h

/-- C116: with a unit `(s0,s1)` the rotation multiplies from the left by a special unitary matrix
that differs from the identity in the two rows of the table. -/
theorem C116_rotate (s : ISA) {NC i : ℕ} (hN : 2 ≤ NC) (hi : i < NSU2SUBGROUPS NC) {U : Arr ℂ}
    (hU : IsSU NC U) {s0 s1 : ℂ} (hn : normSq s0 + normSq s1 = 1) :
    ∃ p q : Fin NC, p ≠ q ∧
      (((p : ℕ), (q : ℕ)) = rowPair NC i ∨ ((q : ℕ), (p : ℕ)) = rowPair NC i) ∧
      subgroupMatrix p q s0 s1 ∈ specialUnitaryGroup (Fin NC) ℂ ∧
      toM NC (su2_rotate s NC U s0 s1 i) = subgroupMatrix p q s0 s1 * toM NC U ∧
      IsSU NC (su2_rotate s NC U s0 s1 i) := by
  obtain ⟨p, q, h1, h2, h3, h4, h5⟩ := C26_rotate hN hi hU hn
  refine ⟨p, q, h1, h2, h3, by rw [C116_su2_rotate s hi, h4], ?_⟩
  unfold IsSU at h5 ⊢
  rwa [C116_su2_rotate s hi]

/-- Non-vacuity: the third subgroup of three colours acts on rows 2 and 0. -/
example (s : ISA) (U : Arr ℂ) : toM 3 (su2_rotate s 3 U 0 1 2) 0 1 = -U 7 ∧
    toM 3 (su2_rotate s 3 U 0 1 2) 2 1 = U 1 := by
  rw [C116_su2_rotate s (by decide)]
  simp [Update.su2_rotate, toM_apply, arr]

/-- Non-vacuity: a projection that is defined. -/
example (s : ISA) : only_subgroup s 2 (arr [1, 0, 0, 1]) (arr [2, 0, 0, 2]) 0 = some (1, 0, 1 / 4) := by
  rw [C116_only_subgroup]
  simp [Update.only_subgroup, Update.normalise, arr]
  norm_num

end GLU.Update.Sse
