import Verif.Mat.GramTri
import Verif.Mat.SseGram
import Verif.Mat.SseLemmas
import Verif.Mat.GramProps

namespace GLU.Mat.Sse

open Complex Matrix

theorem forN_rel {σ τ : Type*} (R : ℕ → σ → τ → Prop) {n : ℕ} {f : ℕ → σ → σ} {g : ℕ → τ → τ} {s : σ}
    {t : τ} (h0 : R 0 s t) (h : ∀ k, k < n → ∀ s t, R k s t → R (k + 1) (f k s) (g k t)) :
    R n (forN n f s) (forN n g t) := by
  induction n with
  | zero => exact h0
  | succ n ih => exact h n (by omega) _ _ (ih fun k hk => h k (by omega))

/-! ## Determinant -/

theorem sqBoth_eq (v : V2 ℝ) : sqBoth v = ⟨modsq (st v), modsq (st v)⟩ := by
  apply V2.ext
  · rfl
  · simp [sqBoth, mm_add, mm_mul, mm_shuffle1, modsq, st, add_comm]

theorem findPivot_eq {N i : ℕ} (hi : i < N) {a : Arr (V2 ℝ)} {U : Arr ℂ}
    (h : ∀ r, i ≤ r → r < N → st (a (i + r * N)) = U (i + r * N)) :
    findPivot N i a = ((Mat.findPivot N i U).1, ⟨(Mat.findPivot N i U).2, (Mat.findPivot N i U).2⟩) := by
  unfold findPivot Mat.findPivot forFrom
  refine forN_rel (fun _ (p : ℕ × V2 ℝ) (q : ℕ × ℝ) => p = (q.1, ⟨q.2, q.2⟩)) ?_ ?_
  · simp only []
    rw [sqBoth_eq, show i * (N + 1) = i + i * N by ring, h i (le_refl _) hi]
  · rintro k hk p q rfl
    simp only []
    rw [sqBoth_eq, h _ (by omega) (by omega)]
    simp only [gt_iff_lt]
    split <;> rfl

theorem swapRows_apply {N i piv : ℕ} (hne : piv ≠ i) (a : Arr (V2 ℝ)) {r c : ℕ} (hc : c < N) :
    swapRows N i piv a (c + r * N) =
      if r = i then a (c + piv * N) else if r = piv then a (c + i * N) else a (c + r * N) := by
  have := forN_inv (fun l (V : Arr (V2 ℝ)) => ∀ r c, c < N → V (c + r * N) =
      if c < l then (if r = i then a (c + piv * N) else if r = piv then a (c + i * N)
        else a (c + r * N)) else a (c + r * N)) (n := N)
    (body := fun l a =>
      let z1 := a (i * N + l)
      let a := Function.update a (i * N + l) (a (piv * N + l))
      Function.update a (piv * N + l) z1) (s := a)
    (fun r c _ => by rw [if_neg (by omega)])
    (fun l h2 V hV r c hc => by
      simp only [Function.update_apply, Nat.add_comm (i * N) l, Nat.add_comm (piv * N) l]
      by_cases hcl : c = l
      · subst hcl
        have n1 : ¬ c < c := by omega
        rw [if_pos (show c < c + 1 by omega)]
        by_cases hrp : r = piv
        · subst hrp
          rw [if_pos rfl, if_neg hne, if_pos rfl, hV _ _ hc, if_neg n1]
        · rw [if_neg (fun h => hrp (flat_inj hc hc h).1)]
          by_cases hri : r = i
          · subst hri
            rw [if_pos rfl, if_pos rfl, hV _ _ hc, if_neg n1]
          · rw [if_neg (fun h => hri (flat_inj hc hc h).1), hV _ _ hc, if_neg n1, if_neg hri,
              if_neg hrp]
      · rw [if_neg (fun h => hcl (flat_inj hc h2 h).2), if_neg (fun h => hcl (flat_inj hc h2 h).2),
          hV _ _ hc]
        by_cases h : c < l
        · rw [if_pos h, if_pos (show c < l + 1 by omega)]
        · rw [if_neg h, if_neg (show ¬ c < l + 1 by omega)])
  have h := this r c hc
  unfold swapRows
  rw [h, if_pos hc]

theorem eliminate_eq (s : ISA) {N i : ℕ} (best : V2 ℝ) (a : Arr (V2 ℝ))
    (h : st (mm_div (SSE2_CONJ (a (i * (N + 1)))) best) = 1 / stA a (i * (N + 1))) :
    stA (eliminate s N i best a) = Mat.eliminate N i (stA a) := by
  unfold eliminate Mat.eliminate
  simp only []
  refine forN_rel (fun _ (x : Arr (V2 ℝ)) (y : Arr ℂ) => stA x = y) rfl ?_
  rintro t ht x y rfl
  unfold forFrom
  rw [show N - (i + 1) = N - i - 1 by omega]
  refine forN_rel (fun _ (x : Arr (V2 ℝ)) (y : Arr ℂ) => stA x = y) rfl ?_
  rintro l hl z y rfl
  beta_reduce
  rw [stA_update, elim_entry, st_sub, st_mul, st_mul, h,
    show i + (N - 1 - t) * N + 1 + l = i + 1 + l + (N - 1 - t) * N by ring,
    show i * (N + 1) + 1 + l = i * N + (i + 1 + l) by ring]
  rfl

/-- The two states agree on the block that is still used. -/
def LURel (N i : ℕ) (t : LUState) (u : Mat.LUState) : Prop :=
  (∀ r c, i ≤ r → r < N → i ≤ c → c < N → st (t.a (c + r * N)) = u.U (c + r * N)) ∧
    st t.determinant = u.determinant ∧ t.perms = u.perms

theorem luStep_rel (s : ISA) {N i : ℕ} (hi : i + 1 < N) {t : LUState} {u : Mat.LUState}
    (h : LURel N i t u) :
    Option.Rel (LURel N (i + 1)) (luStep s N i t) (Mat.luStep N i u) := by
  classical
  obtain ⟨h1, h2, h3⟩ := h
  have hi' : i < N := by omega
  obtain ⟨p1, p2, p3, p4⟩ := findPivot_spec hi' u.U
  have hp := findPivot_eq hi' (a := t.a) (U := u.U) (fun r h5 h6 => h1 r i h5 h6 (le_refl _) hi')
  unfold luStep Mat.luStep
  rw [hp]
  set p := Mat.findPivot N i u.U with hpdef
  clear_value p
  simp only []
  have hnn : 0 ≤ p.2 := by rw [p3]; exact modsq_nonneg _
  by_cases hz : p.2 = 0
  · rw [if_pos hz, if_pos (by rw [hz])]
    exact Option.Rel.none
  rw [if_neg hz, if_neg (by rintro h; exact hz (le_antisymm h hnn))]
  -- after the swap
  let t' : LUState := if p.1 ≠ i then { t with a := swapRows N i p.1 t.a, perms := t.perms + 1 } else t
  let u' : Mat.LUState := if p.1 ≠ i then { u with U := Mat.swapRows N i p.1 u.U, perms := u.perms + 1 } else u
  have hr : LURel N i t' u' := by
    by_cases hne : p.1 ≠ i
    · simp only [t', u', if_pos hne]
      refine ⟨fun r c a1 a2 a3 a4 => ?_, h2, by simp [h3]⟩
      show st (swapRows N i p.1 t.a (c + r * N)) = Mat.swapRows N i p.1 u.U (c + r * N)
      rw [swapRows_apply hne t.a a4, Mat.swapRows_apply hi' p2 hne u.U a2 a4, if_pos a3]
      split
      · exact h1 _ _ p1 p2 a3 a4
      · split
        · exact h1 _ _ (le_refl _) hi' a3 a4
        · exact h1 _ _ a1 a2 a3 a4
    · simp only [t', u', if_neg hne]
      exact ⟨h1, h2, h3⟩
  have hbest : p.2 = modsq (u'.U (i + i * N)) := by
    by_cases hne : p.1 ≠ i
    · simp only [u', if_pos hne]
      rw [Mat.swapRows_apply hi' p2 hne u.U hi' hi', if_pos (le_refl _), if_pos rfl]
      exact p3
    · have : p.1 = i := by simpa using hne
      simp only [u', if_neg hne]
      rw [p3, this]
  have e0 : i * (N + 1) = i + i * N := by ring
  have hdt : st (mm_div (SSE2_CONJ (t'.a (i * (N + 1)))) ⟨p.2, p.2⟩) = 1 / stA t'.a (i * (N + 1)) := by
    have hd := hr.1 i i (le_refl _) hi' (le_refl _) hi'
    rw [e0, stA_apply, hbest, ← hd, one_div, Complex.inv_def]
    set v := t'.a (i + i * N)
    have e1 : modsq (st v) = normSq (st v) := rfl
    rw [e1]
    generalize normSq (st v) = q
    apply Complex.ext <;>
      simp [st, mm_div, SSE2_CONJ, mm_move_sd, SSE_FLIP, div_eq_mul_inv]
    all_goals
      left
      by_cases hq : q = 0
      · simp [hq]
      · field_simp
  show Option.Rel _ (some (⟨eliminate s N i ⟨p.2, p.2⟩ t'.a,
    SSE2_MUL s t'.determinant (eliminate s N i ⟨p.2, p.2⟩ t'.a (i * (N + 1))), t'.perms⟩ : LUState))
    (some (⟨Mat.eliminate N i u'.U, u'.determinant * Mat.eliminate N i u'.U (i * (N + 1)), u'.perms⟩ : Mat.LUState))
  have he := eliminate_eq s ⟨p.2, p.2⟩ t'.a hdt
  have key : ∀ r c, i ≤ r → r < N → i ≤ c → c < N →
      st (eliminate s N i ⟨p.2, p.2⟩ t'.a (c + r * N)) = Mat.eliminate N i u'.U (c + r * N) := by
    intro r c a1 a2 a3 a4
    rw [← stA_apply, he, Mat.eliminate_apply hi' _ a2 a4, Mat.eliminate_apply hi' _ a2 a4, e0]
    simp only [stA_apply]
    rw [hr.1 r c a1 a2 a3 a4, hr.1 r i a1 a2 (le_refl _) hi', hr.1 i i (le_refl _) hi' (le_refl _) hi',
      hr.1 i c (le_refl _) hi' a3 a4]
  refine Option.Rel.some ⟨fun r c a1 a2 a3 a4 => key r c (by omega) a2 (by omega) a4, ?_, hr.2.2⟩
  rw [st_mul, hr.2.1, e0, key i i (le_refl _) hi' (le_refl _) hi']

theorem LU_det_overwrite_eq (s : ISA) {N : ℕ} (hN : 0 < N) (U : Arr ℂ) :
    LU_det_overwrite s N U = Mat.LU_det_overwrite N U := by
  have hrel := forN_rel (fun i (o : Option LUState) (o' : Option Mat.LUState) =>
      Option.Rel (LURel N i) o o') (n := N - 1)
    (f := fun i o => o.bind (luStep s N i)) (g := fun i o => o.bind (Mat.luStep N i))
    (s := some ⟨ldA U, ⟨1, 0⟩, 0⟩) (t := some ⟨U, 1, 0⟩)
    (Option.Rel.some ⟨fun _ _ _ _ _ _ => rfl, rfl, rfl⟩)
    (fun i hi o o' h => by
      cases h with
      | none => exact Option.Rel.none
      | some h => exact luStep_rel s (by omega) h)
  unfold LU_det_overwrite Mat.LU_det_overwrite
  have e : N * N - 1 = N - 1 + (N - 1) * N := by
    obtain ⟨k, rfl⟩ : ∃ k, N = k + 1 := ⟨N - 1, by omega⟩
    simp; ring_nf; omega
  generalize forN (N - 1) (fun i o => o.bind (luStep s N i)) (some ⟨ldA U, ⟨1, 0⟩, 0⟩) = o at hrel ⊢
  generalize forN (N - 1) (fun i o => o.bind (Mat.luStep N i)) (some ⟨U, 1, 0⟩) = o' at hrel ⊢
  cases hrel with
  | none => rfl
  | some h =>
    obtain ⟨h1, h2, h3⟩ := h
    simp only []
    rw [st_mul, h2, e, h1 _ _ (le_refl _) (by omega) (le_refl _) (by omega), h3]

/-! ## Three and two colours -/

theorem mul_lanes (s : ISA) (a b : V2 ℝ) :
    SSE2_MUL s a b = ⟨a.lo * b.lo - a.hi * b.hi, a.lo * b.hi + a.hi * b.lo⟩ := by
  cases s <;> apply V2.ext <;>
    simp [SSE2_MUL, mm_fmaddsub, mm_addsub, mm_add, mm_mul, mm_movedup, mm_unpackhi,
      mm_unpacklo, mm_shuffle1, SSE_FLIP] <;> ring

theorem mul_conj_lanes (s : ISA) (a b : V2 ℝ) :
    SSE2_MUL_CONJ s a b = ⟨a.lo * b.lo + a.hi * b.hi, a.hi * b.lo - a.lo * b.hi⟩ := by
  cases s <;> apply V2.ext <;>
    simp [SSE2_MUL_CONJ, mm_fmaddsub, mm_addsub, mm_add, mm_mul, mm_movedup, mm_unpackhi,
      mm_unpacklo, mm_shuffle1, SSE_FLIP] <;> ring

theorem invSqrt_both (x : ℝ) :
    invSqrt ⟨x, x⟩ = if x = 0 then none else some ⟨1 / Real.sqrt x, 1 / Real.sqrt x⟩ := by
  unfold invSqrt
  simp only [or_self]

theorem norm3_eq (x y z : V2 ℝ) {n : ℝ}
    (h : n = z.lo * z.lo + z.hi * z.hi + (y.lo * y.lo + y.hi * y.hi + (x.lo * x.lo + x.hi * x.hi))) :
    norm3 x y z = ⟨n, n⟩ := by
  subst h
  apply V2.ext <;> simp [norm3, mm_add, mm_mul, mm_shuffle1] <;> ring

theorem gram_reunit3_eq (s : ISA) (U : Arr ℂ) :
    (gram_reunit3 s (ldA U)).map stA = Mat.gram_reunit3 U := by
  unfold gram_reunit3 Mat.gram_reunit3
  extract_lets a0R a0I b0R b0I a1R a1I b1R b1I a2R a2I b2R b2I n0 n1 n2 x p0R p0I p1R p1I p2R p2I
    cR0 cR1 cR cI0 cI1 cI w0R w0I w1R w1I w2R w2I m0 m1 m2 y q0R q0I q1R q1I q2R q2I
    r0R' r0R r0I' r0I r1R' r1R r1I' r1I r2R' r2R r2I' r2I
  rw [norm3_eq (n := n2) _ _ _ rfl, invSqrt_both]
  by_cases hz : n2 = 0
  · rw [if_pos hz, if_pos hz]; rfl
  rw [if_neg hz, if_neg hz, Option.bind_some]
  have hp0 : mm_mul (ldA U 0) ⟨1 / Real.sqrt n2, 1 / Real.sqrt n2⟩ = ⟨p0R, p0I⟩ := rfl
  have hp1 : mm_mul (ldA U 3) ⟨1 / Real.sqrt n2, 1 / Real.sqrt n2⟩ = ⟨p1R, p1I⟩ := rfl
  have hp2 : mm_mul (ldA U 6) ⟨1 / Real.sqrt n2, 1 / Real.sqrt n2⟩ = ⟨p2R, p2I⟩ := rfl
  have hb0 : ldA U 1 = ⟨b0R, b0I⟩ := rfl
  have hb1 : ldA U 4 = ⟨b1R, b1I⟩ := rfl
  have hb2 : ldA U 7 = ⟨b2R, b2I⟩ := rfl
  simp only [hp0, hp1, hp2, hb0, hb1, hb2]
  have hc : mm_add (mm_add (SSE2_MUL_CONJ s ⟨b0R, b0I⟩ ⟨p0R, p0I⟩) (SSE2_MUL_CONJ s ⟨b1R, b1I⟩ ⟨p1R, p1I⟩))
      (SSE2_MUL_CONJ s ⟨b2R, b2I⟩ ⟨p2R, p2I⟩) = ⟨cR, cI⟩ := by
    simp only [mul_conj_lanes, mm_add, cR, cR1, cR0, cI, cI1, cI0]
    apply V2.ext <;> simp only [] <;> ring
  rw [hc]
  clear_value p0R p0I p1R p1I p2R p2I b0R b0I b1R b1I b2R b2I cR cI
  have hw0 : mm_sub ⟨b0R, b0I⟩ (SSE2_MUL s ⟨cR, cI⟩ ⟨p0R, p0I⟩) = ⟨w0R, w0I⟩ := by
    rw [mul_lanes]; rfl
  have hw1 : mm_sub ⟨b1R, b1I⟩ (SSE2_MUL s ⟨cR, cI⟩ ⟨p1R, p1I⟩) = ⟨w1R, w1I⟩ := by
    rw [mul_lanes]; rfl
  have hw2 : mm_sub ⟨b2R, b2I⟩ (SSE2_MUL s ⟨cR, cI⟩ ⟨p2R, p2I⟩) = ⟨w2R, w2I⟩ := by
    rw [mul_lanes]; rfl
  rw [hw0, hw1, hw2]
  clear_value w0R w0I w1R w1I w2R w2I
  rw [norm3_eq (n := m2) _ _ _ rfl, invSqrt_both]
  by_cases hm : m2 = 0
  · rw [if_pos hm, if_pos hm]; rfl
  rw [if_neg hm, if_neg hm, Option.map_some, Option.map_some]
  have hq0 : mm_mul ⟨w0R, w0I⟩ ⟨1 / Real.sqrt m2, 1 / Real.sqrt m2⟩ = ⟨q0R, q0I⟩ := rfl
  have hq1 : mm_mul ⟨w1R, w1I⟩ ⟨1 / Real.sqrt m2, 1 / Real.sqrt m2⟩ = ⟨q1R, q1I⟩ := rfl
  have hq2 : mm_mul ⟨w2R, w2I⟩ ⟨1 / Real.sqrt m2, 1 / Real.sqrt m2⟩ = ⟨q2R, q2I⟩ := rfl
  rw [hq0, hq1, hq2]
  clear_value q0R q0I q1R q1I q2R q2I
  have h2 : SSE2_CONJ (mm_sub (SSE2_MUL s ⟨p1R, p1I⟩ ⟨q2R, q2I⟩) (SSE2_MUL s ⟨q1R, q1I⟩ ⟨p2R, p2I⟩)) =
      ⟨r0R, r0I⟩ := by
    simp only [mul_lanes, mm_sub, SSE2_CONJ, mm_move_sd, SSE_FLIP, r0R, r0R', r0I, r0I']
    apply V2.ext <;> simp only [] <;> ring
  have h5 : SSE2_CONJ (mm_sub (SSE2_MUL s ⟨q0R, q0I⟩ ⟨p2R, p2I⟩) (SSE2_MUL s ⟨p0R, p0I⟩ ⟨q2R, q2I⟩)) =
      ⟨r1R, r1I⟩ := by
    simp only [mul_lanes, mm_sub, SSE2_CONJ, mm_move_sd, SSE_FLIP, r1R, r1R', r1I, r1I']
    apply V2.ext <;> simp only [] <;> ring
  have h8 : SSE2_CONJ (mm_sub (SSE2_MUL s ⟨p0R, p0I⟩ ⟨q1R, q1I⟩) (SSE2_MUL s ⟨q0R, q0I⟩ ⟨p1R, p1I⟩)) =
      ⟨r2R, r2I⟩ := by
    simp only [mul_lanes, mm_sub, SSE2_CONJ, mm_move_sd, SSE_FLIP, r2R, r2R', r2I, r2I']
    apply V2.ext <;> simp only [] <;> ring
  rw [h2, h5, h8, stA_arr]
  rfl

theorem gram_reunit2_eq (U : Arr ℂ) : (gram_reunit2 (ldA U)).map stA = Mat.gram_reunit2 U := by
  unfold gram_reunit2 Mat.gram_reunit2
  extract_lets sum0 sum a b c d n m
  have hs : sum = ⟨a * a + b * b + c * c + d * d, a * a + b * b + c * c + d * d⟩ := by
    apply V2.ext <;> simp [sum, sum0, mm_add, mm_mul, mm_shuffle1, ldA, ld, a, b, c, d] <;> ring
  have h0 : 0 ≤ a * a + b * b + c * c + d * d := by
    nlinarith [mul_self_nonneg a, mul_self_nonneg b, mul_self_nonneg c, mul_self_nonneg d]
  rw [hs, invSqrt_both]
  have hn : n = 0 ↔ a * a + b * b + c * c + d * d = 0 := by
    simp only [n]; exact Real.sqrt_eq_zero h0
  by_cases hz : a * a + b * b + c * c + d * d = 0
  · rw [if_pos hz, if_pos (hn.2 hz)]; rfl
  rw [if_neg hz, if_neg (fun h => hz (hn.1 h)), Option.map_some, Option.map_some, stA_arr]
  congr 1
  simp only [List.map_cons, List.map_nil, st_flip, st_conj]
  have e0 : st (mm_mul (ldA U 0) ⟨1 / Real.sqrt (a * a + b * b + c * c + d * d),
      1 / Real.sqrt (a * a + b * b + c * c + d * d)⟩) = ⟨a * m, b * m⟩ := rfl
  have e2 : st (mm_mul (ldA U 2) ⟨1 / Real.sqrt (a * a + b * b + c * c + d * d),
      1 / Real.sqrt (a * a + b * b + c * c + d * d)⟩) = ⟨c * m, d * m⟩ := rfl
  rw [e0, e2]
  congr 1
  simp only [List.cons.injEq, and_true]
  refine ⟨?_, ?_, ?_, ?_⟩ <;> apply Complex.ext <;> simp [conj]

/-! ## Four and more colours -/

/-- Row `k` of an array of lanes. -/
def row (NC : ℕ) (U : Arr (V2 ℝ)) (k : ℕ) : Fin NC → ℂ := fun c => st (U (k * NC + c))

theorem rowUpdate {NC k : ℕ} (f : ℕ → Arr (V2 ℝ) → V2 ℝ) (U : Arr (V2 ℝ))
    (hf : ∀ j V, j < NC → (∀ x, (∀ j' < j, x ≠ k * NC + j') → V x = U x) → f j V = f j U) {r c : ℕ}
    (hc : c < NC) :
    forN NC (fun j U => Function.update U (k * NC + j) (f j U)) U (r * NC + c) =
      if r = k then f c U else U (r * NC + c) := by
  have := forN_inv (fun l (V : Arr (V2 ℝ)) => (∀ x, (∀ j' < l, x ≠ k * NC + j') → V x = U x) ∧
      ∀ j < l, V (k * NC + j) = f j U) (n := NC)
    (body := fun j U => Function.update U (k * NC + j) (f j U)) (s := U)
    ⟨fun _ _ => rfl, fun j hj => by omega⟩
    (fun l hl V hV => by
      refine ⟨fun x hx => ?_, fun j hj => ?_⟩
      · rw [Function.update_of_ne (hx l (by omega))]
        exact hV.1 x fun j' hj' => hx j' (by omega)
      · by_cases hjl : j = l
        · subst hjl
          rw [Function.update_self]
          exact hf j V hl hV.1
        · rw [Function.update_of_ne (by omega)]
          exact hV.2 j (by omega))
  by_cases h : r = k
  · subst h
    rw [if_pos rfl]
    exact this.2 c hc
  · rw [if_neg h]
    refine this.1 _ fun j' hj' he => h ?_
    exact (flat_inj hc hj' (show c + r * NC = j' + k * NC by omega)).1

theorem row_projectRow (s : ISA) {NC k i : ℕ} (hik : i ≠ k) (U : Arr (V2 ℝ)) (r : ℕ) :
    row NC (projectRow s NC k i U) r =
      if r = k then row NC U k - ip (row NC U i) (row NC U k) • row NC U i else row NC U r := by
  unfold projectRow
  extract_lets proj
  have hproj : st proj = ip (row NC U i) (row NC U k) := by
    have := forN_sim (n := NC) st (body := fun j (proj : V2 ℝ) =>
        mm_add proj (SSE2_MUL_CONJ s (U (k * NC + j)) (U (i * NC + j))))
      (body' := fun j (z : ℂ) => z + st (U (k * NC + j)) * conj (st (U (i * NC + j))))
      (fun j v => by rw [st_add, st_mul_conj]) mm_setzero
    simp only [proj]
    rw [this, forN_sum, st_zero, zero_add, Finset.sum_range]
    simp only [ip, dotProduct, row]
    exact Finset.sum_congr rfl fun c _ => by simp only [conj, Pi.star_apply, row]; exact mul_comm _ _
  have hne : ∀ j < NC, ∀ j' < NC, i * NC + j ≠ k * NC + j' := fun j hj j' hj' he =>
    hik (flat_inj hj hj' (show j + i * NC = j' + k * NC by omega)).1
  funext c
  have := rowUpdate (k := k) (fun j (V : Arr (V2 ℝ)) => mm_sub (V (k * NC + j)) (SSE2_MUL s proj (V (i * NC + j)))) U
    (fun j V hj hV => by
      rw [hV (k * NC + j) (fun j' hj' => by omega), hV (i * NC + j) (fun j' hj' => hne j hj j' (by omega))])
    (r := r) c.2
  simp only [row]
  rw [this]
  split
  · rw [st_sub, st_mul, hproj]
    rfl
  · rfl

theorem normRow_cases (NC k : ℕ) (U : Arr (V2 ℝ)) :
    (normRow NC k U = none ∧ row NC U k = 0) ∨
    (∃ V, normRow NC k U = some V ∧ row NC U k ≠ 0 ∧ ∀ r, row NC V r =
      if r = k then ((1 / Real.sqrt (∑ c, normSq (row NC U k c)) : ℝ) : ℂ) • row NC U k else row NC U r) := by
  unfold normRow
  extract_lets norm
  have hn : norm = ⟨∑ c, normSq (row NC U k c), ∑ c, normSq (row NC U k c)⟩ := by
    have h : ∀ n, forN n (fun j (norm : V2 ℝ) => mm_add norm (sqBoth (U (k * NC + j)))) mm_setzero =
        ⟨∑ c ∈ Finset.range n, normSq (st (U (k * NC + c))), ∑ c ∈ Finset.range n, normSq (st (U (k * NC + c)))⟩ := by
      intro n
      induction n with
      | zero => simp [forN, mm_setzero]
      | succ n ih =>
        rw [forN, ih, sqBoth_eq, Finset.sum_range_succ]
        rfl
    simp only [norm]
    rw [h, Finset.sum_range]
    rfl
  rw [hn, invSqrt_both]
  by_cases hz : ∑ c, normSq (row NC U k c) = 0
  · left
    rw [if_pos hz]
    exact ⟨rfl, ip_self_eq_zero hz⟩
  · right
    rw [if_neg hz, Option.map_some]
    refine ⟨_, rfl, fun h => hz (by rw [h]; simp), fun r => ?_⟩
    generalize 1 / Real.sqrt (∑ c, normSq (row NC U k c)) = q
    funext c
    have := rowUpdate (k := k) (fun j (V : Arr (V2 ℝ)) => mm_mul (V (k * NC + j)) ⟨q, q⟩) U
      (fun j V hj hV => by rw [hV (k * NC + j) (fun j' hj' => by omega)]) (r := r) c.2
    simp only [row]
    rw [this]
    split
    · apply Complex.ext <;> simp [st, mm_mul, row, mul_comm]
    · rfl

/-- The rows of the vectorised loop are the vectors of the portable one. -/
def GRel (NC : ℕ) (U : Arr (V2 ℝ)) (t : (ℕ → Arr ℂ) × Arr ℂ) : Prop := ∀ r, row NC U r = vec NC (t.1 r)

theorem gramStep_rel (s : ISA) {NC k : ℕ} {U : Arr (V2 ℝ)} {t : (ℕ → Arr ℂ) × Arr ℂ} (h : GRel NC U t) :
    Option.Rel (GRel NC) (normRow NC k (forN k (fun i U => projectRow s NC k i U) U)) (gramStep NC k t) := by
  have hp := forN_rel (fun _ (V : Arr (V2 ℝ)) (w : Arr ℂ) =>
      row NC V k = vec NC w ∧ ∀ r, r ≠ k → row NC V r = vec NC (t.1 r)) (n := k)
    (f := fun i U => projectRow s NC k i U) (g := fun i vk => project NC vk (t.1 i)) (s := U) (t := t.1 k)
    ⟨h k, fun r _ => h r⟩
    (fun i hi V w hV => by
      refine ⟨?_, fun r hr => ?_⟩
      · rw [row_projectRow s (by omega), if_pos rfl, project_vec, hV.1, hV.2 i (by omega)]
      · rw [row_projectRow s (by omega), if_neg hr, hV.2 r hr])
  unfold gramStep
  set W := forN k (fun i U => projectRow s NC k i U) U
  set w := forN k (fun i vk => project NC vk (t.1 i)) (t.1 k)
  rcases normRow_cases NC k W with ⟨a1, a2⟩ | ⟨V, a1, a2, a3⟩ <;>
    rcases vect_norm2_vec NC w with ⟨b1, b2⟩ | ⟨b, b1, b2, b3⟩
  · rw [a1, b1]; exact Option.Rel.none
  · exact absurd (hp.1 ▸ a2) b2
  · exact absurd (hp.1 ▸ b2) a2
  · rw [a1, b1]
    refine Option.Rel.some fun r => ?_
    rw [a3 r]
    simp only [Function.update_apply]
    split
    · rw [hp.1, b3]
    · next hr => exact hp.2 r hr

theorem forN_mul_eq {σ : Type*} (a b : ℕ) (f : ℕ → σ → σ) (s : σ) :
    forN a (fun i s => forN b (fun j s => f (i * b + j) s) s) s = forN (a * b) f s := by
  have hadd : ∀ m n s, forN (m + n) f s = forN n (fun j s => f (m + j) s) (forN m f s) := by
    intro m n s
    induction n with
    | zero => rfl
    | succ n ih => rw [← Nat.add_assoc, forN, ih]; rfl
  induction a with
  | zero => simp [forN]
  | succ a ih => rw [forN, ih, Nat.succ_mul, hadd]

theorem completeBottom_eq (s : ISA) {m : ℕ} (hm : 0 < m) (U array : Arr ℂ) :
    completeBottom s (m + 1) U array = Mat.completeBottom (m + 1) U array := by
  unfold completeBottom Mat.completeBottom
  refine forN_congr (fun k hk V => ?_) _
  have e1 : (m + 1) * (m + 1) - (m + 1) = m * (m + 1) := by
    rw [Nat.succ_mul, Nat.add_sub_cancel]
  have e2 : (m * (m + 1) + k) % (m + 1) = k := by
    rw [Nat.mul_add_mod_self_right, Nat.mod_eq_of_lt hk]
  have e3 : (m * (m + 1) + k) % 2 = k % 2 := by
    have : 2 ∣ m * (m + 1) := (Nat.even_mul_succ_self m).two_dvd
    omega
  have hpack : (forN (m + 1 - 1) (fun i (t : ℕ × Arr ℂ) => forN (m + 1) (fun j (t : ℕ × Arr ℂ) =>
      if j = k then t else (t.1 + 1, Function.update t.2 t.1 (V (j + i * (m + 1))))) t) (0, array)).2 =
      packKept (m * (m + 1)) (fun j => j % (m + 1) ≠ k) V array := by
    unfold packKept
    rw [← forN_mul_eq]
    congr 1
    refine forN_congr (fun i _ t => forN_congr (fun j hj t => ?_) _) _
    have : (i * (m + 1) + j) % (m + 1) = j := by
      rw [Nat.mul_add_mod_self_right, Nat.mod_eq_of_lt hj]
    simp only [this, decide_eq_true_eq, ne_eq, Nat.add_comm j]
    by_cases h : j = k
    · simp [h]
    · simp [h]
  simp only [e1, e2, e3]
  rw [hpack, LU_det_overwrite_eq s (by omega), Nat.add_sub_cancel, Nat.add_comm k]

end GLU.Mat.Sse
