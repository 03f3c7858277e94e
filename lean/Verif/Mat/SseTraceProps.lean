import Verif.Mat.SseTrace
import Verif.Mat.SseGramLemmas
import Verif.Mat.LogTwo

/-!
# C115: the vectorised traces of products of three matrices
-/

namespace GLU.Mat.Sse

open Complex Matrix

theorem st_insum (s : ISA) (NC : ℕ) (a b : Arr ℂ) (i j : Fin NC) :
    st (insum s NC (ldA a) (ldA b) i j) = (toM NC a * toM NC b) j i := by
  unfold insum
  rw [forN_sim st (body' := fun k (z : ℂ) => z + a (j * NC + k) * b (k * NC + i))
    (fun k v => by rw [st_add, st_mul, st_ldA, st_ldA]), forN_sum, st_zero, zero_add, Finset.sum_range,
    Matrix.mul_apply]
  refine Finset.sum_congr rfl fun k _ => ?_
  rw [toM_apply, toM_apply, show (j : ℕ) * NC + k = k + NC * j by ring,
    show (k : ℕ) * NC + i = i + NC * k by ring]

/-- Two nested loops that add up. -/
theorem forN_forN_sum (n : ℕ) (f : ℕ → ℕ → ℂ) (z : ℂ) :
    forN n (fun i z => forN n (fun j z => z + f i j) z) z = z + ∑ i : Fin n, ∑ j : Fin n, f i j := by
  have : ∀ i z, forN n (fun j z => z + f i j) z = z + ∑ j : Fin n, f i j := fun i z => by
    rw [forN_sum, Finset.sum_range]
  simp only [this]
  rw [forN_sum, Finset.sum_range]

/-- C115: the vectorised trace of a product of three matrices. -/
theorem C115_trace_abc (s : ISA) (NC : ℕ) (a b c : Arr ℂ) :
    trace_abc s NC a b c = Matrix.trace (toM NC a * toM NC b * toM NC c) := by
  unfold trace_abc
  split
  · next h =>
    subst h
    rw [← C12_trace_abc]
    simp only [trace_abc3, Mat.trace_abc, if_true, st_add, st_mul, st_ldA, st_zero]
    ring
  split
  · next h =>
    subst h
    rw [← C12_trace_abc]
    simp only [trace_abc2, Mat.trace_abc, if_true, st_add, st_mul, st_ldA, st_zero]
    norm_num
  · have h : ∀ n t, forN n (fun i t => forN NC (fun j (t : V2 ℝ × ℕ) =>
        (mm_add t.1 (SSE2_MUL s (insum s NC (ldA a) (ldA b) i j) (ldA c t.2)), t.2 + 1)) t) t =
        (forN n (fun i v => forN NC (fun j v => mm_add v (SSE2_MUL s (insum s NC (ldA a) (ldA b) i j)
          (ldA c (t.2 + i * NC + j)))) v) t.1, t.2 + n * NC) := by
      intro n t
      have h1 : ∀ i m (t : V2 ℝ × ℕ), forN m (fun j (t : V2 ℝ × ℕ) =>
          (mm_add t.1 (SSE2_MUL s (insum s NC (ldA a) (ldA b) i j) (ldA c t.2)), t.2 + 1)) t =
          (forN m (fun j v => mm_add v (SSE2_MUL s (insum s NC (ldA a) (ldA b) i j)
            (ldA c (t.2 + j)))) t.1, t.2 + m) := by
        intro i m t
        induction m with
        | zero => rfl
        | succ m ih => rw [forN, ih]; rfl
      induction n with
      | zero => simp [forN]
      | succ n ih =>
        rw [forN, ih, h1]
        simp only [forN, Prod.mk.injEq, true_and]
        ring
    unfold trace_abcN
    rw [h]
    simp only [Nat.zero_add]
    have hin : ∀ i v, st (forN NC (fun j v => mm_add v (SSE2_MUL s (insum s NC (ldA a) (ldA b) i j)
          (ldA c (i * NC + j)))) v) = forN NC (fun j z => z + st (insum s NC (ldA a) (ldA b) i j) *
            c (i * NC + j)) (st v) := fun i v =>
      forN_sim st (fun j v => by rw [st_add, st_mul, st_ldA]) v
    rw [forN_sim st (fun i v => hin i v), forN_forN_sum, st_zero, zero_add, Matrix.trace,
      Finset.sum_comm]
    refine Finset.sum_congr rfl fun j _ => ?_
    rw [diag_apply, Matrix.mul_apply]
    refine Finset.sum_congr rfl fun i _ => ?_
    rw [st_insum, toM_apply, show (i : ℕ) * NC + j = j + NC * i by ring]

/-- C115: the vectorised trace with the last factor daggered. -/
theorem C115_trace_abc_dag (s : ISA) (NC : ℕ) (a b c : Arr ℂ) :
    trace_abc_dag s NC a b c = Matrix.trace (toM NC a * toM NC b * (toM NC c)ᴴ) := by
  unfold trace_abc_dag
  split
  · next h =>
    subst h
    rw [← C12_trace_abc_dag]
    simp only [trace_abc_dag3, Mat.trace_abc_dag, if_true, st_add, st_mul, st_mul_conj, st_ldA, st_zero]
    ring
  split
  · next h =>
    subst h
    rw [← C12_trace_abc_dag]
    simp only [trace_abc_dag2, Mat.trace_abc_dag, if_true, st_add, st_mul, st_mul_conj, st_ldA, st_zero]
    norm_num
  · unfold trace_abc_dagN
    have hin : ∀ i v, st (forN NC (fun j v => mm_add v (SSE2_MUL_CONJ s (insum s NC (ldA a) (ldA b) i j)
          (ldA c (i + j * NC)))) v) = forN NC (fun j z => z + st (insum s NC (ldA a) (ldA b) i j) *
            conj (c (i + j * NC))) (st v) := fun i v =>
      forN_sim st (fun j v => by rw [st_add, st_mul_conj, st_ldA]) v
    rw [forN_sim st (fun i v => hin i v), forN_forN_sum, st_zero, zero_add, Matrix.trace,
      Finset.sum_comm]
    refine Finset.sum_congr rfl fun j _ => ?_
    rw [diag_apply, Matrix.mul_apply]
    refine Finset.sum_congr rfl fun i _ => ?_
    rw [st_insum, conjTranspose_apply, toM_apply, show (i : ℕ) + j * NC = i + NC * j by ring]
    rfl

/-- C115: its real part. -/
theorem C115_trace_abc_dag_Re (s : ISA) (NC : ℕ) (a b c : Arr ℂ) :
    trace_abc_dag_Re s NC a b c = (Matrix.trace (toM NC a * toM NC b * (toM NC c)ᴴ)).re := by
  unfold trace_abc_dag_Re
  rw [C115_trace_abc_dag]

/-- C115: the short cut for special unitary matrices. -/
theorem C115_Re_trace_abc_dag_suNC (s : ISA) {NC : ℕ} {a b : Arr ℂ} (ha : IsSU NC a) (hb : IsSU NC b)
    (c : Arr ℂ) (hc : NC = 2 → IsSU NC c) :
    Re_trace_abc_dag_suNC s NC a b c = (Matrix.trace (toM NC a * toM NC b * (toM NC c)ᴴ)).re := by
  unfold Re_trace_abc_dag_suNC
  split
  · next h =>
    subst h
    rw [← C12_Re_trace_abc_dag_suNC ha hb c]
    simp only [Mat.Re_trace_abc_dag_suNC, if_true]
    simp [Re_trace_abc_dag_suNC3, Mat.Re_trace_abc_dag_suNC3, mul_lanes, mm_add, mm_mul, mm_sub,
      SSE2_CONJ, mm_move_sd, SSE_FLIP, mm_setzero, ldA, ld, st]
    ring
  split
  · next h =>
    subst h
    obtain ⟨b3, b2, -⟩ := su2_facts hb
    obtain ⟨c3, c2, -⟩ := su2_facts (hc rfl)
    rw [← C12_Re_trace_abc_dag_suNC ha hb c]
    simp only [Mat.Re_trace_abc_dag_suNC, if_true, b2, b3, c2, c3]
    simp [Re_trace_abc_dag_suNC2, mul_lanes, mul_conj_lanes, mm_add, mm_mul, mm_sub, ldA, ld, st]
    ring
  · rw [← C115_trace_abc_dag s]
    unfold trace_abc_dag
    rw [if_neg ‹_›, if_neg ‹_›]
    unfold Re_trace_abc_dag_suNCN trace_abc_dagN
    have h1 : ∀ z w : V2 ℝ, (st (mm_mul z w)).re + (st (mm_mul z w)).im = (st (SSE2_MUL_CONJ s z w)).re := by
      intro z w
      rw [mul_conj_lanes]
      rfl
    refine forN_rel (fun _ (x y : V2 ℝ) => (st x).re + (st x).im = (st y).re) (by simp [st, mm_setzero])
      fun i _ x y hxy => ?_
    refine forN_rel (fun _ (x y : V2 ℝ) => (st x).re + (st x).im = (st y).re) hxy fun j _ x y hxy => ?_
    rw [st_add, st_add, add_re, add_re, add_im, ← hxy, ← h1]
    ring

/-- C115: for three and for four or more colours the third matrix may be any. -/
theorem C115_Re_trace_abc_dag_suNC_any (s : ISA) {NC : ℕ} (hN : NC ≠ 2) {a b : Arr ℂ} (ha : IsSU NC a)
    (hb : IsSU NC b) (c : Arr ℂ) :
    Re_trace_abc_dag_suNC s NC a b c = (Matrix.trace (toM NC a * toM NC b * (toM NC c)ᴴ)).re :=
  C115_Re_trace_abc_dag_suNC s ha hb c fun h => absurd h hN

/-- C115: for two colours the vectorised short cut needs a special unitary third matrix, the
portable one does not; on other matrices the builds differ. -/
theorem C115_two_colours_third_needed (s : ISA) : ∃ a b c : Arr ℂ, IsSU 2 a ∧ IsSU 2 b ∧
    Mat.Re_trace_abc_dag_suNC 2 a b c = (Matrix.trace (toM 2 a * toM 2 b * (toM 2 c)ᴴ)).re ∧
    Re_trace_abc_dag_suNC s 2 a b c ≠ (Matrix.trace (toM 2 a * toM 2 b * (toM 2 c)ᴴ)).re := by
  have h1 : toM 2 (arr [1, 0, 0, 1] : Arr ℂ) = 1 := by
    ext i j; fin_cases i <;> fin_cases j <;> simp [toM_apply, arr]
  have hU : IsSU 2 (arr [1, 0, 0, 1] : Arr ℂ) := by
    unfold IsSU; rw [h1]; exact one_mem _
  refine ⟨arr [1, 0, 0, 1], arr [1, 0, 0, 1], arr [1, 0, 0, 0], hU, hU,
    C12_Re_trace_abc_dag_suNC hU hU _, ?_⟩
  rw [h1]
  simp [Re_trace_abc_dag_suNC, Re_trace_abc_dag_suNC2, mul_lanes, mul_conj_lanes, mm_add, mm_mul,
    mm_sub, ldA, ld, st, arr, Matrix.trace, Fin.sum_univ_two, toM_apply]

/-- Non-vacuity: three special unitary two by two matrices whose traced product is not trivial. -/
example (s : ISA) : Re_trace_abc_dag_suNC s 2 (arr [I, 0, 0, -I]) (arr [0, 1, -1, 0]) (arr [0, I, I, 0]) = 2 := by
  simp [Re_trace_abc_dag_suNC, Re_trace_abc_dag_suNC2, mul_lanes, mul_conj_lanes, mm_add, mm_mul,
    mm_sub, ldA, ld, st, arr]
  norm_num

/-- Non-vacuity: a four colour trace. -/
example (s : ISA) (a b : Arr ℂ) : trace_abc s 4 a b (fun _ => 0) = 0 := by
  rw [C115_trace_abc]
  simp [show toM 4 (fun _ => (0 : ℂ)) = 0 from rfl]

end GLU.Mat.Sse
