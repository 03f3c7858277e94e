import Verif.Field.SseInline
import Verif.Field.Lemmas
import Verif.Mat.SseProps
import Verif.Mat.SseTraceProps
import Verif.Smear.Givens
import Verif.Update.SseProps

/-!
# C117: vector instructions used inline
-/

namespace GLU.Mat.Sse

open Complex Matrix GLU.Field

/-- C117: the vectorised plaquette. -/
theorem C117_plaquette {NC NB : ℕ} (h : Unrolls NC NB) (s : ISA) (ct : Arr (V2 ℝ)) {a b c : Arr ℂ}
    (ha : IsSU NC a) (hb : IsSU NC b) (hc : IsSU NC c) (d temp : Arr ℂ) :
    complete_plaquette s NC NB ct a b c d temp =
      (Matrix.trace (toM NC a * toM NC b * (toM NC c)ᴴ * (toM NC d)ᴴ)).re := by
  unfold complete_plaquette
  split
  · next h =>
    subst h
    rw [← Field.complete_plaquette_eq ha hb hc]
    simp only [complete_plaquette3, Field.complete_plaquette, if_true, st_add, st_mul, st_mul_conj,
      st_mulconj, st_ldA, conj]
    have e : ∀ x y : ℂ, (star x * y).re = (x * star y).re := fun x y => by
      simp
    simp only [add_re, e]
    simp only [← add_re]
    congr 1
    ring
  split
  · next h =>
    subst h
    rw [← Field.complete_plaquette_eq ha hb hc]
    simp only [complete_plaquette2, Field.complete_plaquette, st_add, st_mul, st_mul_conj,
      st_ldA, conj]
    norm_num
  · next h3 h2 =>
    have hm : IsSU NC (multab_dag s NC NB ct b c temp) := by
      unfold IsSU
      rw [C112_multab_dag h]
      exact isSU_mul hb (isSU_star hc)
    rw [C115_Re_trace_abc_dag_suNC_any s h2 ha hm, C112_multab_dag h]
    simp only [Matrix.mul_assoc]

/-- C117: the vectorised gauge transformation of a link. -/
theorem C117_gtransform {NC NB : ℕ} (h : Unrolls NC NB) (s : ISA) (ct : Arr (V2 ℝ)) {a b c : Arr ℂ}
    (ha : IsSU NC a) (hb : IsSU NC b) (hc : IsSU NC c) (temp : Arr ℂ) :
    toM NC (gtransform_local s NC NB ct a b c temp) = toM NC a * toM NC b * (toM NC c)ᴴ ∧
      IsSU NC (gtransform_local s NC NB ct a b c temp) := by
  have hM : toM NC a * toM NC b * (toM NC c)ᴴ ∈ specialUnitaryGroup (Fin NC) ℂ :=
    isSU_mul (isSU_mul ha hb) (isSU_star hc)
  have key : toM NC (gtransform_local s NC NB ct a b c temp) = toM NC a * toM NC b * (toM NC c)ᴴ := by
    unfold gtransform_local
    split
    · next h =>
      subst h
      obtain ⟨r0, r1, r2⟩ := su3_row (su_transpose hM)
      simp only [transpose_apply] at r0 r1 r2
      ext i j
      fin_cases i <;> fin_cases j <;>
        simp only [Fin.zero_eta, Fin.mk_one, Fin.reduceFinMk, r0, r1, r2] <;>
        simp [toM_apply, gtransform_local3, stA_apply, Function.update_apply, Matrix.mul_apply,
          Fin.sum_univ_three, st_ldA, conj] <;> ring
    split
    · next h =>
      subst h
      obtain ⟨r0, r1⟩ := su2_row (su_transpose hM)
      simp only [transpose_apply] at r0 r1
      ext i j
      fin_cases i <;> fin_cases j <;>
        simp only [Fin.zero_eta, Fin.mk_one, Fin.reduceFinMk, r0, r1] <;>
        simp [toM_apply, gtransform_local2, stA_apply, Function.update_apply, Matrix.mul_apply,
          Fin.sum_univ_two, st_ldA, conj] <;> ring
    · obtain ⟨e1, s1⟩ := C112_multab_dag_suNC h s ct hb hc temp
      obtain ⟨e2, s2⟩ := C112_multab_suNC h s ha s1 b
      rw [e2, e1, Matrix.mul_assoc]
  exact ⟨key, by unfold IsSU; rw [key]; exact hM⟩

/-- C117: the vectorised traceless hermitian projection of a link. -/
theorem C117_hermitian_proj_short (U : Arr ℂ) : Hermitian_proj_short3 U = Mat.Hermitian_proj_short3 U := by
  unfold Hermitian_proj_short3 Mat.Hermitian_proj_short3
  rw [stA_arr]
  congr 1
  simp only [List.map_cons, List.map_nil, List.cons.injEq, and_true]
  refine ⟨?_, ?_, ?_, ?_, ?_⟩ <;> apply Complex.ext <;>
    simp [st, SSE2_iMUL, mm_shuffle1, SSE_FLIP, mm_mul, mm_sub, SSE2_CONJ, mm_move_sd, ldA, ld, conj] <;>
    norm_num <;> ring

/-- The three rotations. -/
noncomputable def rotations (s : ISA) (k : ℕ) : Arr ℂ → Arr ℂ → Option (Arr ℂ × Arr ℂ) :=
  match k with
  | 0 => rotation1 s
  | 1 => rotation2 s
  | _ => rotation3 s

theorem rotNorm_eq {x y : V2 ℝ} {t0 t1 t2 t3 : ℂ} (h0 : st x = t0 + star t3) (h1 : st y = t1 - star t2) :
    (rotNorm x y).map (fun r => (st r.1, st r.2)) = (Update.normalise t0 t1 t2 t3).map fun r => (r.1, r.2.1) := by
  unfold rotNorm Update.normalise
  rw [← h0, ← h1]
  extract_lets sum0 sum sum' p q nrm scale
  have hs : sum = ⟨x.lo * x.lo + x.hi * x.hi + y.lo * y.lo + y.hi * y.hi,
      x.lo * x.lo + x.hi * x.hi + y.lo * y.lo + y.hi * y.hi⟩ := by
    apply V2.ext <;> simp [sum, sum0, mm_add, mm_mul, mm_shuffle1] <;> ring
  have hp : 0 ≤ x.lo * x.lo + x.hi * x.hi + y.lo * y.lo + y.hi * y.hi := by
    nlinarith [mul_self_nonneg x.lo, mul_self_nonneg x.hi, mul_self_nonneg y.lo, mul_self_nonneg y.hi]
  have hn : nrm = √(x.lo * x.lo + x.hi * x.hi + y.lo * y.lo + y.hi * y.hi) := rfl
  have hs' : sum' = ⟨nrm, nrm⟩ := by
    show (⟨√sum.lo, √sum.hi⟩ : V2 ℝ) = _
    rw [hs]
    rfl
  rw [hs', hn, hs]
  simp only [or_self, Real.sqrt_eq_zero hp]
  split
  · rfl
  · simp only [Option.map_some, Option.some.injEq, Prod.mk.injEq]
    constructor <;> apply Complex.ext <;> simp only [re_mul_ofReal, im_mul_ofReal, scale, one_div, ← div_eq_mul_inv] <;> rfl

theorem rot_core {x y : V2 ℝ} {t0 t1 t2 t3 : ℂ} (h0 : st x = t0 + star t3) (h1 : st y = t1 - star t2)
    {β : Type*} (F : V2 ℝ × V2 ℝ → β) (G : ℂ × ℂ × ℝ → β) (K : ℂ → ℂ → β)
    (hF : ∀ p q, F (p, q) = K (st p) (st q)) (hG : ∀ p q r, G (p, q, r) = K p q) :
    (rotNorm x y).map F = (Update.normalise t0 t1 t2 t3).map G := by
  have h := congrArg (Option.map fun r : ℂ × ℂ => K r.1 r.2) (rotNorm_eq h0 h1)
  rw [Option.map_map, Option.map_map] at h
  convert h using 2
  · funext r; exact hF r.1 r.2
  · funext r; exact hG r.1 r.2.1 r.2.2

/-- C117: the vectorised rotations of the trace maximisation are the portable ones. -/
theorem C117_rotations (s : ISA) {k : ℕ} (hk : k < 3) (U w : Arr ℂ) :
    (rotations s k U w).map (fun r => (toM 3 r.1, toM 3 r.2)) =
      (Smear.givensRotation 3 k (U, w)).map (fun r => (toM 3 r.1, toM 3 r.2)) := by
  have hk : k = 0 ∨ k = 1 ∨ k = 2 := by omega
  unfold Smear.givensRotation Smear.givensBlock
  rw [Option.map_map]
  rcases hk with rfl | rfl | rfl <;>
  · simp only [rotations, rotation1, rotation2, rotation3, if_true]
    rw [Option.map_map]
    first
    | refine rot_core (by simp [st_ldA, conj]) (by simp [st_ldA, conj]) _ _
        (fun p q => (toM 3 (Smear.givensCols 3 0 p q U), toM 3 (Smear.givensRows 3 0 p q w)))
        (fun p q => ?_) (fun p q r => rfl)
    | refine rot_core (by simp [st_ldA, conj]) (by simp [st_ldA, conj]) _ _
        (fun p q => (toM 3 (Smear.givensCols 3 1 p q U), toM 3 (Smear.givensRows 3 1 p q w)))
        (fun p q => ?_) (fun p q r => rfl)
    | refine rot_core (by simp [st_ldA, conj]) (by simp [st_ldA, conj]) _ _
        (fun p q => (toM 3 (Smear.givensCols 3 2 p q U), toM 3 (Smear.givensRows 3 2 p q w)))
        (fun p q => ?_) (fun p q r => rfl)
    simp only [Function.comp_apply, Smear.givensCols, Smear.givensRows, if_true, Prod.mk.injEq]
    constructor <;> ext i j <;> fin_cases i <;> fin_cases j <;>
      simp [toM_apply, stA_apply, Function.update_apply, arr, conj, st_ldA] <;> ring

/-- Non-vacuity: a rotation that is defined. -/
example (s : ISA) : ∃ r, rotations s 2 (arr [1, 0, 0, 0, 1, 0, 0, 0, 1]) (arr []) = some r := by
  have h := C117_rotations s (k := 2) (by norm_num) (arr [1, 0, 0, 0, 1, 0, 0, 0, 1]) (arr [])
  have hn : Smear.givensRotation 3 2 (arr [1, 0, 0, 0, 1, 0, 0, 0, 1], arr []) ≠ none := by
    simp [Smear.givensRotation, Smear.givensBlock, Update.normalise, arr]
  cases hr : rotations s 2 (arr [1, 0, 0, 0, 1, 0, 0, 0, 1]) (arr []) with
  | some r => exact ⟨r, rfl⟩
  | none =>
    rw [hr] at h
    exact absurd (Option.map_eq_none_iff.1 h.symm) hn

end GLU.Mat.Sse
