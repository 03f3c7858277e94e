import Verif.Mat.Sse
import Verif.Mat.MMulProps
import Verif.Mat.UNopsLemmas

/-! # Lemmas on the vectorised matrix products -/

namespace GLU.Mat.Sse

open Complex Finset Matrix

@[simp] theorem st_ld (z : ℂ) : st (ld z) = z := rfl
@[simp] theorem ld_st (v : V2 ℝ) : ld (st v) = v := rfl
theorem st_ldA (a : Arr ℂ) (n : ℕ) : st (ldA a n) = a n := rfl
@[simp] theorem stA_ldA (a : Arr ℂ) : stA (ldA a) = a := rfl
theorem stA_apply (a : Arr (V2 ℝ)) (n : ℕ) : stA a n = st (a n) := rfl

@[simp] theorem st_zero : st mm_setzero = 0 := rfl
@[simp] theorem st_zero' : st 0 = 0 := rfl
@[simp] theorem st_add (a b : V2 ℝ) : st (mm_add a b) = st a + st b := rfl
@[simp] theorem st_sub (a b : V2 ℝ) : st (mm_sub a b) = st a - st b := by
  apply Complex.ext <;> simp [st, mm_sub]
@[simp] theorem st_flip (a : V2 ℝ) : st (SSE_FLIP a) = - st a := rfl
@[simp] theorem st_conj (a : V2 ℝ) : st (SSE2_CONJ a) = conj (st a) := rfl
@[simp] theorem st_mul (s : ISA) (a b : V2 ℝ) : st (SSE2_MUL s a b) = st a * st b := by
  cases s <;> apply Complex.ext <;>
    simp [st, SSE2_MUL, mm_fmaddsub, mm_addsub, mm_add, mm_mul, mm_movedup, mm_unpackhi,
      mm_unpacklo, mm_shuffle1, SSE_FLIP] <;> ring
@[simp] theorem st_mulconj (s : ISA) (a b : V2 ℝ) :
    st (SSE2_MULCONJ s a b) = conj (st a) * st b := by
  cases s <;> apply Complex.ext <;>
    simp [st, SSE2_MULCONJ, mm_fmadd, mm_add, mm_mul, mm_movedup, mm_unpackhi,
      mm_unpacklo, mm_shuffle1, SSE_FLIP, conj] <;> ring
@[simp] theorem st_mul_conj (s : ISA) (a b : V2 ℝ) :
    st (SSE2_MUL_CONJ s a b) = st a * conj (st b) := by
  cases s <;> apply Complex.ext <;>
    simp [st, SSE2_MUL_CONJ, mm_fmaddsub, mm_addsub, mm_add, mm_mul, mm_movedup, mm_unpackhi,
      mm_unpacklo, mm_shuffle1, SSE_FLIP, conj] <;> ring
@[simp] theorem st_mul_conjconj (s : ISA) (a b : V2 ℝ) :
    st (SSE2_MUL_CONJCONJ s a b) = conj (st a) * conj (st b) := by
  cases s <;> apply Complex.ext <;>
    simp [st, SSE2_MUL_CONJCONJ, mm_hsub, mm_add, mm_mul, mm_unpackhi,
      mm_unpacklo, mm_shuffle1, SSE_FLIP, conj] <;> ring

theorem stA_arr (l : List (V2 ℝ)) : stA (arr l) = arr (l.map st) := by
  funext n
  simp only [stA, arr, List.getD_eq_getElem?_getD, List.getElem?_map]
  cases l[n]? <;> rfl

theorem stA_update (a : Arr (V2 ℝ)) (k : ℕ) (v : V2 ℝ) :
    stA (Function.update a k v) = Function.update (stA a) k (st v) := by
  funext n
  by_cases h : n = k
  · subst h; simp [stA]
  · simp [stA, h]

/-- Two loops whose bodies correspond. -/
theorem forN_sim {σ τ : Type*} (f : σ → τ) {n : ℕ} {body : ℕ → σ → σ} {body' : ℕ → τ → τ}
    (h : ∀ i s, f (body i s) = body' i (f s)) (s : σ) :
    f (forN n body s) = forN n body' (f s) := by
  induction n with
  | zero => rfl
  | succ n ih => rw [forN, forN, h, ih]

theorem forN_iterate {σ : Type*} (n : ℕ) (f : σ → σ) (s : σ) :
    forN n (fun _ => f) s = f^[n] s := by
  induction n with
  | zero => rfl
  | succ n ih => rw [forN, ih, Function.iterate_succ_apply']

/-! ## The unrolled row -/

theorem accRow_eq {NC NB : ℕ} (h : Unrolls NC NB) (op : V2 ℝ → V2 ℝ) (C : Arr (V2 ℝ))
    (t : ℕ × ℕ × Arr (V2 ℝ)) : accRow NC NB op C t = (accStep op C)^[NC] t := by
  have blocks : ∀ n t, NB ∣ n → forN (n / NB)
      (fun _ t => forN NB (fun _ t => accStep op C t) t) t = (accStep op C)^[n] t := by
    intro n t hd
    have e : (fun (_ : ℕ) t => forN NB (fun _ t => accStep op C t) t) =
        fun _ => (accStep op C)^[NB] := by
      funext _ t
      exact forN_iterate NB (accStep op C) t
    rw [e, forN_iterate, ← Function.iterate_mul, Nat.mul_div_cancel' hd]
  unfold accRow
  unfold Unrolls at h
  split
  · next ho =>
    rw [if_pos ho] at h
    rw [blocks _ _ h, ← Function.iterate_succ_apply, Nat.succ_eq_add_one,
      Nat.sub_add_cancel (by omega)]
  · next he =>
    rw [if_neg he] at h
    exact blocks _ _ h

theorem accStep_iter (op : V2 ℝ → V2 ℝ) (C : Arr (V2 ℝ)) (n p q : ℕ) (A : Arr (V2 ℝ)) :
    ((accStep op C)^[n] (p, q, A)).1 = p + n ∧ ((accStep op C)^[n] (p, q, A)).2.1 = q + n ∧
    ∀ x, st (((accStep op C)^[n] (p, q, A)).2.2 x) =
      if p ≤ x ∧ x < p + n then st (A x) + st (op (C (q + (x - p)))) else st (A x) := by
  induction n with
  | zero =>
    refine ⟨rfl, rfl, fun x => ?_⟩
    rw [if_neg (by omega)]; rfl
  | succ n ih =>
    obtain ⟨h1, h2, h3⟩ := ih
    rw [Function.iterate_succ_apply']
    generalize (accStep op C)^[n] (p, q, A) = t at h1 h2 h3
    refine ⟨by simp only [accStep, h1]; ring, by simp only [accStep, h2]; ring, fun x => ?_⟩
    simp only [accStep]
    by_cases hx : x = t.1
    · subst hx
      rw [Function.update_self, st_add, h3, h2, h1, if_neg (by omega), if_pos (by omega)]
      congr 4
      omega
    · rw [Function.update_of_ne hx, h3]
      by_cases hc : p ≤ x ∧ x < p + n
      · rw [if_pos hc, if_pos (by omega)]
      · rw [if_neg hc, if_neg (by omega)]

/-- One row of the innermost loop. -/
theorem accRow_spec {NC NB : ℕ} (h : Unrolls NC NB) (op : V2 ℝ → V2 ℝ) (C : Arr (V2 ℝ))
    (p q : ℕ) (A : Arr (V2 ℝ)) :
    (accRow NC NB op C (p, q, A)).1 = p + NC ∧ (accRow NC NB op C (p, q, A)).2.1 = q + NC ∧
    ∀ x, st ((accRow NC NB op C (p, q, A)).2.2 x) =
      if p ≤ x ∧ x < p + NC then st (A x) + st (op (C (q + (x - p)))) else st (A x) := by
  rw [accRow_eq h]
  exact accStep_iter op C NC p q A

theorem zeroA_apply (NC : ℕ) (a : Arr (V2 ℝ)) (x : ℕ) (hx : x < NC * NC) :
    st (zeroA NC a x) = 0 := by
  have : ∀ n, st (forN n (fun i a => Function.update a i mm_setzero) a x) =
      if x < n then 0 else st (a x) := by
    intro n
    induction n with
    | zero => rw [if_neg (by omega)]; rfl
    | succ n ih =>
      rw [forN]
      by_cases h : x = n
      · subst h; rw [Function.update_self, if_pos (by omega)]; rfl
      · rw [Function.update_of_ne h, ih]
        by_cases h2 : x < n
        · rw [if_pos h2, if_pos (by omega)]
        · rw [if_neg h2, if_neg (by omega)]
  rw [zeroA, this, if_pos hx]

/-- Membership in a row by offset. -/
theorem row_mem {NC i r c : ℕ} (hc : c < NC) :
    (i * NC ≤ c + NC * r ∧ c + NC * r < i * NC + NC) ↔ r = i := by
  constructor
  · rintro ⟨h1, h2⟩
    rcases Nat.lt_trichotomy r i with h | h | h
    · have : NC * r + NC ≤ i * NC := by nlinarith
      omega
    · exact h
    · have : i * NC + NC ≤ NC * r := by nlinarith
      omega
  · rintro rfl
    have : NC * r = r * NC := Nat.mul_comm _ _
    omega

/-- The triple loop accumulates the products over the middle index. -/
theorem accumulate_spec {NC NB : ℕ} (h : Unrolls NC NB) (op : V2 ℝ → V2 ℝ → V2 ℝ)
    (B C a : Arr (V2 ℝ)) {r c : ℕ} (hr : r < NC) (hc : c < NC) :
    st (accumulate NC NB op B C a (c + NC * r)) =
      st (a (c + NC * r)) + ∑ m ∈ range NC, st (op (B (m + NC * r)) (C (c + NC * m))) := by
  have outer := forN_inv (fun i (w : ℕ × Arr (V2 ℝ)) => w.1 = i * NC ∧
      ∀ r c, c < NC → st (w.2 (c + NC * r)) = if r < i then
        st (a (c + NC * r)) + ∑ m ∈ range NC, st (op (B (m + NC * r)) (C (c + NC * m)))
        else st (a (c + NC * r))) (n := NC)
    (body := fun i (w : ℕ × Arr (V2 ℝ)) =>
      let r := forN NC (fun _ (t : ℕ × ℕ × Arr (V2 ℝ)) =>
        let mul := B t.1
        let u := accRow NC NB (op mul) C (i * NC, t.2.1, t.2.2)
        (t.1 + 1, u.2.1, u.2.2)) (w.1, 0, w.2)
      (r.1, r.2.2)) (s := (0, a))
    ⟨by simp, fun r c _ => by simp⟩
    (fun i hi w hw => by
      obtain ⟨w1, w2⟩ := hw
      have inner := forN_inv (fun m (t : ℕ × ℕ × Arr (V2 ℝ)) => t.1 = i * NC + m ∧
          t.2.1 = m * NC ∧ ∀ r c, c < NC → st (t.2.2 (c + NC * r)) = if r = i then
            st (w.2 (c + NC * r)) + ∑ m ∈ range m, st (op (B (m + NC * r)) (C (c + NC * m)))
            else st (w.2 (c + NC * r))) (n := NC)
        (body := fun _ (t : ℕ × ℕ × Arr (V2 ℝ)) =>
          let mul := B t.1
          let u := accRow NC NB (op mul) C (i * NC, t.2.1, t.2.2)
          (t.1 + 1, u.2.1, u.2.2)) (s := (w.1, 0, w.2))
        ⟨by simp [w1], by simp, fun r c _ => by simp⟩
        (fun m hm t ht => by
          obtain ⟨t1, t2, t3⟩ := ht
          obtain ⟨u1, u2, u3⟩ := accRow_spec h (op (B t.1)) C (i * NC) t.2.1 t.2.2
          refine ⟨by simp only [t1]; ring, u2.trans (by rw [t2]; ring), fun r c hc => ?_⟩
          simp only []
          rw [u3]
          by_cases hri : r = i
          · rw [if_pos ((row_mem hc).2 hri), t3 r c hc, if_pos hri, if_pos hri,
              sum_range_succ, ← add_assoc]
            subst hri
            have e1 : t.1 = m + NC * r := by rw [t1]; ring
            have e2 : t.2.1 + (c + NC * r - r * NC) = c + NC * m := by
              rw [t2, Nat.mul_comm r NC, Nat.add_sub_cancel]; ring
            rw [e1, e2]
          · rw [if_neg (fun hh => hri ((row_mem hc).1 hh)), t3 r c hc, if_neg hri, if_neg hri])
      obtain ⟨i1, i2, i3⟩ := inner
      refine ⟨by simp only [i1]; ring, fun r c hc => ?_⟩
      simp only []
      rw [i3 r c hc]
      by_cases hri : r = i
      · rw [if_pos hri, w2 r c hc, if_neg (by omega), if_pos (by omega)]
      · rw [if_neg hri, w2 r c hc]
        by_cases hlt : r < i
        · rw [if_pos hlt, if_pos (by omega)]
        · rw [if_neg hlt, if_neg (by omega)])
  have := outer.2 r c hc
  rw [if_pos hr] at this
  exact this

/-- The sweep over the result of the left adjoint product. -/
theorem multabdagN_spec {NC NB : ℕ} (h : Unrolls NC NB) (s : ISA)
    (b c a : Arr (V2 ℝ)) {r k : ℕ} (hr : r < NC) (hk : k < NC) :
    st (multabdagN s NC NB b c a (k + NC * r)) =
      ∑ m ∈ range NC, conj (st (b (r + NC * m))) * st (c (k + NC * m)) := by
  have outer := forN_inv (fun m (w : ℕ × Arr (V2 ℝ)) => w.1 = m * NC ∧
      ∀ r k, r < NC → k < NC → st (w.2 (k + NC * r)) =
        ∑ m ∈ range m, conj (st (b (r + NC * m))) * st (c (k + NC * m))) (n := NC)
    (body := fun m (w : ℕ × Arr (V2 ℝ)) =>
      let r := forN NC (fun _ (t : ℕ × ℕ × Arr (V2 ℝ)) =>
        let mul := b t.1
        let u := accRow NC NB (SSE2_MULCONJ s mul) c (t.2.1, NC * m, t.2.2)
        (t.1 + 1, u.1, u.2.2)) (w.1, 0, w.2)
      (r.1, r.2.2)) (s := (0, zeroA NC a))
    ⟨by simp, fun r k hr hk => by
      rw [zeroA_apply NC a _ (index_lt hr hk)]; simp⟩
    (fun m hm w hw => by
      obtain ⟨w1, w2⟩ := hw
      have inner := forN_inv (fun i (t : ℕ × ℕ × Arr (V2 ℝ)) => t.1 = m * NC + i ∧
          t.2.1 = i * NC ∧ ∀ r k, r < NC → k < NC → st (t.2.2 (k + NC * r)) = if r < i then
            st (w.2 (k + NC * r)) + conj (st (b (r + NC * m))) * st (c (k + NC * m))
            else st (w.2 (k + NC * r))) (n := NC)
        (body := fun _ (t : ℕ × ℕ × Arr (V2 ℝ)) =>
          let mul := b t.1
          let u := accRow NC NB (SSE2_MULCONJ s mul) c (t.2.1, NC * m, t.2.2)
          (t.1 + 1, u.1, u.2.2)) (s := (w.1, 0, w.2))
        ⟨by simp [w1], by simp, fun r k _ _ => by simp⟩
        (fun i hi t ht => by
          obtain ⟨t1, t2, t3⟩ := ht
          obtain ⟨u1, u2, u3⟩ := accRow_spec h (SSE2_MULCONJ s (b t.1)) c t.2.1 (NC * m) t.2.2
          refine ⟨by simp only [t1]; ring, u1.trans (by rw [t2]; ring), fun r k hr hk => ?_⟩
          simp only []
          rw [u3, t2]
          by_cases hri : r = i
          · rw [if_pos ((row_mem hk).2 hri), t3 r k hr hk, if_neg (by omega), if_pos (by omega),
              st_mulconj]
            subst hri
            have e1 : t.1 = r + NC * m := by rw [t1]; ring
            have e2 : NC * m + (k + NC * r - r * NC) = k + NC * m := by
              rw [Nat.mul_comm r NC, Nat.add_sub_cancel]; ring
            rw [e1, e2]
          · rw [if_neg (fun hh => hri ((row_mem hk).1 hh)), t3 r k hr hk]
            by_cases hlt : r < i
            · rw [if_pos hlt, if_pos (by omega)]
            · rw [if_neg hlt, if_neg (by omega)])
      obtain ⟨i1, i2, i3⟩ := inner
      refine ⟨by simp only [i1]; ring, fun r k hr hk => ?_⟩
      simp only []
      rw [i3 r k hr hk, if_pos hr, w2 r k hr hk, sum_range_succ])
  exact outer.2 r k hr hk

/-! ## Transpositions -/

theorem transposed_spec (NC : ℕ) (c ct : Arr (V2 ℝ)) {r k : ℕ} (hr : r < NC) (hk : k < NC) :
    transposed NC c ct (k + NC * r) = c (r + NC * k) := by
  have outer := forN_inv (fun i (ct : Arr (V2 ℝ)) => ∀ r k, r < NC → k < NC → min r k < i →
      ct (k + NC * r) = c (r + NC * k)) (n := NC)
    (body := fun i ct =>
      let ct := Function.update ct (i * (NC + 1)) (c (i * (NC + 1)))
      forFrom (i + 1) NC (fun j ct =>
        let ct := Function.update ct (j + i * NC) (c (i + j * NC))
        Function.update ct (i + j * NC) (c (j + i * NC))) ct) (s := ct)
    (fun r k _ _ h => by omega)
    (fun i hi ct hct => by
      have ediag : i * (NC + 1) = i + NC * i := by ring
      have base : ∀ r k, r < NC → k < NC → (min r k < i ∨ (r = i ∧ k = i)) →
          Function.update ct (i * (NC + 1)) (c (i * (NC + 1))) (k + NC * r) =
            c (r + NC * k) := by
        intro r k hr hk hm
        by_cases he : r = i ∧ k = i
        · obtain ⟨rfl, rfl⟩ := he
          rw [ediag, Function.update_self]
        · rw [Function.update_of_ne]
          · exact hct r k hr hk (by omega)
          · intro hh
            rw [ediag] at hh
            have := index_inj hk hi hh
            omega
      have inner := forN_inv (fun n (ct : Arr (V2 ℝ)) => ∀ r k, r < NC → k < NC →
          (min r k < i ∨ (min r k = i ∧ max r k < i + 1 + n)) →
          ct (k + NC * r) = c (r + NC * k)) (n := NC - (i + 1))
        (body := fun n => (fun (j : ℕ) (ct : Arr (V2 ℝ)) =>
          let ct := Function.update ct (j + i * NC) (c (i + j * NC))
          Function.update ct (i + j * NC) (c (j + i * NC))) (i + 1 + n))
        (s := Function.update ct (i * (NC + 1)) (c (i * (NC + 1))))
        (fun r k hr hk hm => base r k hr hk (by omega))
        (fun n hn ct hct r k hr hk hm => by
          dsimp only
          have hj : i + 1 + n < NC := by omega
          have hm' : min r k < i ∨ (min r k = i ∧ max r k ≤ i + 1 + n) := by omega
          generalize i + 1 + n = j at *
          rw [Function.update_apply, Function.update_apply]
          by_cases h1 : k + NC * r = i + j * NC
          · rw [if_pos h1]
            rw [Nat.mul_comm j NC] at h1
            obtain ⟨rfl, rfl⟩ := index_inj hk hi h1
            rw [Nat.mul_comm]
          · rw [if_neg h1]
            by_cases h2 : k + NC * r = j + i * NC
            · rw [if_pos h2]
              rw [Nat.mul_comm i NC] at h2
              obtain ⟨rfl, rfl⟩ := index_inj hk hj h2
              rw [Nat.mul_comm]
            · rw [if_neg h2]
              refine hct r k hr hk ?_
              have e1 : ¬ (r = j ∧ k = i) := by
                rintro ⟨rfl, rfl⟩; exact h1 (by rw [Nat.mul_comm])
              have e2 : ¬ (r = i ∧ k = j) := by
                rintro ⟨rfl, rfl⟩; exact h2 (by rw [Nat.mul_comm])
              omega)
      intro r k hr hk hm
      exact inner r k hr hk (by omega))
  exact outer r k hr hk (by omega)

theorem transposeInPlace_spec (NC : ℕ) (a : Arr (V2 ℝ)) {r k : ℕ} (hr : r < NC) (hk : k < NC) :
    transposeInPlace NC a (k + NC * r) = a (r + NC * k) := by
  have outer := forN_inv (fun j (w : Arr (V2 ℝ)) => ∀ r k, r < NC → k < NC →
      w (k + NC * r) = if min r k < j then a (r + NC * k) else a (k + NC * r)) (n := NC)
    (body := fun j w => forFrom (j + 1) NC (fun i w =>
      let temp := w (j + i * NC)
      let w := Function.update w (j + i * NC) (w (i + j * NC))
      Function.update w (i + j * NC) temp) w) (s := a)
    (fun r k _ _ => by rw [if_neg (by omega)])
    (fun j hj w hw => by
      have inner := forN_inv (fun n (v : Arr (V2 ℝ)) => ∀ r k, r < NC → k < NC →
          v (k + NC * r) = if min r k < j ∨ (min r k = j ∧ max r k < j + 1 + n)
            then a (r + NC * k) else a (k + NC * r)) (n := NC - (j + 1))
        (body := fun n => (fun (i : ℕ) (w : Arr (V2 ℝ)) =>
          let temp := w (j + i * NC)
          let w := Function.update w (j + i * NC) (w (i + j * NC))
          Function.update w (i + j * NC) temp) (j + 1 + n)) (s := w)
        (fun r k hr hk => by
          rw [hw r k hr hk]
          by_cases hm : min r k < j
          · rw [if_pos hm, if_pos (by omega)]
          · rw [if_neg hm]
            by_cases hd : r = j ∧ k = j
            · obtain ⟨rfl, rfl⟩ := hd
              simp
            · rw [if_neg (by omega)])
        (fun n hn v hv r k hr hk => by
          dsimp only
          have hi : j + 1 + n < NC := by omega
          have hji : j < j + 1 + n := by omega
          have hle : ∀ x, x < j + 1 + (n + 1) ↔ x ≤ j + 1 + n := by intro x; omega
          simp only [hle]
          generalize j + 1 + n = i at *
          rw [Function.update_apply, Function.update_apply]
          by_cases h1 : k + NC * r = i + j * NC
          · rw [if_pos h1]
            rw [Nat.mul_comm j NC] at h1
            obtain ⟨rfl, rfl⟩ := index_inj hk hi h1
            rw [Nat.mul_comm k NC, hv k r hk hr, if_neg (by omega), if_pos (by omega)]
          · rw [if_neg h1]
            by_cases h2 : k + NC * r = j + i * NC
            · rw [if_pos h2]
              rw [Nat.mul_comm i NC] at h2
              obtain ⟨rfl, rfl⟩ := index_inj hk hj h2
              rw [Nat.mul_comm k NC, hv k r hk hr, if_neg (by omega), if_pos (by omega)]
            · rw [if_neg h2, hv r k hr hk]
              have e1 : ¬ (r = j ∧ k = i) := by
                rintro ⟨rfl, rfl⟩; exact h1 (by rw [Nat.mul_comm])
              have e2 : ¬ (r = i ∧ k = j) := by
                rintro ⟨rfl, rfl⟩; exact h2 (by rw [Nat.mul_comm])
              by_cases hm : min r k < j ∨ min r k = j ∧ max r k < i
              · rw [if_pos hm, if_pos (by omega)]
              · rw [if_neg hm, if_neg (by omega)])
      intro r k hr hk
      have := inner r k hr hk
      rw [forFrom]
      refine this.trans ?_
      by_cases hm : min r k < j + 1
      · rw [if_pos (by omega), if_pos hm]
      · rw [if_neg (by omega), if_neg hm])
  have := outer r k hr hk
  rw [if_pos (by omega)] at this
  exact this

end GLU.Mat.Sse
