import Verif.Utils.SumModel
import Mathlib.Algebra.BigOperators.Group.List.Lemmas
import Mathlib.Tactic.FieldSimp
import Mathlib.Tactic.Linarith
import Mathlib.Tactic.NormNum

/-!
# C52: sums and averages
-/

namespace GLU.Utils

theorem sizeSub_le {hi lo : ℕ} (h : lo ≤ hi) (hb : hi < 2 ^ 64) : sizeSub hi lo = hi - lo := by
  unfold sizeSub; omega

theorem sizeSub_wrap {hi lo : ℕ} (h : hi < lo) (hb : lo < 2 ^ 63) : 2 ≤ sizeSub hi lo := by
  unfold sizeSub; omega

/-- The part of the array from `lo` up to `hi`. -/
def part (a : List ℝ) (lo hi : ℕ) : List ℝ := (a.drop lo).take (hi - lo)

theorem part_append (a : List ℝ) {lo mid hi : ℕ} (h : lo ≤ mid) (h' : mid ≤ hi) :
    part a lo mid ++ part a mid hi = part a lo hi := by
  unfold part
  have e : hi - lo = (mid - lo) + (hi - mid) := by omega
  rw [e, List.take_add, List.drop_drop, show lo + (mid - lo) = mid by omega]

theorem part_all (a : List ℝ) : part a 0 a.length = a := by simp [part]

theorem dandc_part (a : List ℝ) (hb : a.length < 2 ^ 63) (k : ℕ) :
    ∀ stack lo hi, k < stack → lo < hi → hi ≤ a.length → hi - lo ≤ 2 ^ k →
      dandc_sum a stack lo hi = some (part a lo hi).sum := by
  induction k with
  | zero =>
    intro stack lo hi hk h1 h2 h3
    obtain ⟨s, rfl⟩ : ∃ s, stack = s + 1 := ⟨stack - 1, by omega⟩
    have e : hi = lo + 1 := by omega
    subst e
    rw [dandc_sum, sizeSub_le (by omega) (by omega), if_pos (by omega)]
    unfold cell part
    rw [List.getElem?_eq_getElem (by omega), show lo + 1 - lo = 1 by omega,
      List.drop_eq_getElem_cons (by omega)]
    rw [List.take_succ_cons]; simp
  | succ k ih =>
    intro stack lo hi hk h1 h2 h3
    obtain ⟨s, rfl⟩ : ∃ s, stack = s + 1 := ⟨stack - 1, by omega⟩
    by_cases h : hi - lo < 2
    · have e : hi = lo + 1 := by omega
      subst e
      rw [dandc_sum, sizeSub_le (by omega) (by omega), if_pos (by omega)]
      unfold cell part
      rw [List.getElem?_eq_getElem (by omega), show lo + 1 - lo = 1 by omega,
        List.drop_eq_getElem_cons (by omega)]
      rw [List.take_succ_cons]; simp
    · rw [dandc_sum, sizeSub_le (by omega) (by omega), if_neg h]
      have hp : 2 ^ (k + 1) = 2 * 2 ^ k := by ring
      rw [ih s lo ((hi + lo) / 2) (by omega) (by omega) (by omega) (by omega),
        ih s ((hi + lo) / 2) hi (by omega) (by omega) (by omega) (by omega)]
      rw [← part_append a (show lo ≤ (hi + lo) / 2 by omega) (show (hi + lo) / 2 ≤ hi by omega),
        List.sum_append]
      rfl

/-- **C52.** The divide-and-conquer sum over an array of any length (that fits in memory) is the sum of the
elements, and 64 nested calls are enough for it. -/
theorem C52_dandc (a : List ℝ) (h0 : a ≠ []) (hb : a.length < 2 ^ 63) (stack : ℕ)
    (hs : Nat.clog 2 a.length < stack) :
    dandc_sum a stack 0 a.length = some a.sum ∧ Nat.clog 2 a.length < 64 := by
  have hl : 0 < a.length := List.length_pos_iff.2 h0
  constructor
  · have := dandc_part a hb (Nat.clog 2 a.length) stack 0 a.length hs hl le_rfl
      (by simpa using Nat.le_pow_clog (by norm_num) a.length)
    rw [this, part_all]
  · have := Nat.clog_le_of_le_pow (show a.length ≤ 2 ^ 63 by omega)
    omega

/-- More generally any range of the array. -/
theorem C52_dandc_range (a : List ℝ) (hb : a.length < 2 ^ 63) (lo hi stack : ℕ) (h1 : lo < hi)
    (h2 : hi ≤ a.length) (hs : 64 ≤ stack) :
    dandc_sum a stack lo hi = some ((a.drop lo).take (hi - lo)).sum :=
  dandc_part a hb 63 stack lo hi (by omega) h1 h2 (by omega)

example : dandc_sum [1, 2, 3, 4, 5] 64 0 5 = some 15 := by
  have := (C52_dandc [1, 2, 3, 4, 5] (by simp) (by simp) 64 (by decide)).1
  norm_num at this; exact this

/-- A range whose ends are the wrong way round never ends. -/
theorem dandc_wrong_way (a : List ℝ) : ∀ stack lo hi, hi < lo → lo < 2 ^ 63 →
    dandc_sum a stack lo hi = none := by
  intro stack
  induction stack with
  | zero => intro lo hi _ _; rfl
  | succ s ih =>
    intro lo hi h hb
    rw [dandc_sum, if_neg (by have := sizeSub_wrap h hb; omega), ih lo _ (by omega) hb]
    rfl

theorem dandc_empty (a : List ℝ) (stack i : ℕ) (h : a.length ≤ i) : dandc_sum a stack i i = none := by
  cases stack with
  | zero => rfl
  | succ s =>
    rw [dandc_sum, if_pos (by unfold sizeSub; omega)]
    simp [cell, h]

theorem forN_none {β : Type*} (n : ℕ) (f : ℕ → Option β) (g : ℕ → β → β → β) (s : Option β)
    (h : ∃ i < n, f i = none) :
    forN n (fun i sum => do let s ← sum; let p ← f i; return g i s p) s = none := by
  induction n with
  | zero => obtain ⟨i, hi, _⟩ := h; omega
  | succ n ih =>
    rw [forN]
    by_cases hn : f n = none
    · rw [hn]
      generalize forN n _ s = z
      cases z <;> rfl
    · rw [ih]
      · rfl
      · obtain ⟨i, hi, h⟩ := h
        refine ⟨i, ?_, h⟩
        have : i ≠ n := fun e => hn (e ▸ h)
        omega

/-- The size of the part of each thread, rounded up. -/
def share (N Nth : ℕ) : ℕ := (N + Nth - 1) / Nth

/-- **C52.** The threaded sum is the sum of the elements if the part of every thread, rounded up, leaves
something for the last thread. -/
theorem C52_parallel_partial (a : List ℝ) (Nth stack : ℕ) (hb : a.length < 2 ^ 63) (hs : 64 ≤ stack)
    (hN : 0 < Nth) (h : (Nth - 1) * share a.length Nth < a.length) :
    par_danc_sum a stack Nth = some a.sum := by
  have hcov : a.length ≤ Nth * share a.length Nth := by
    unfold share
    have := Nat.div_add_mod (a.length + Nth - 1) Nth
    have := Nat.mod_lt (a.length + Nth - 1) hN
    omega
  set c := share a.length Nth with hc
  have hc0 : 0 < c := by
    rcases Nat.eq_zero_or_pos c with e | e
    · rw [e] at hcov; omega
    · exact e
  have key : ∀ n, n ≤ Nth → forN n (fun i sum => do
      let s ← sum
      let p ← dandc_sum a stack (i * c) (if (i + 1) * c > a.length then a.length else (i + 1) * c)
      return s + p) (some 0) = some (part a 0 (min a.length (n * c))).sum := by
    intro n
    induction n with
    | zero => intro _; simp [forN, part]
    | succ n ih =>
      intro hn
      have h1 : n * c < a.length := lt_of_le_of_lt (Nat.mul_le_mul_right c (by omega)) h
      have e2 : (if (n + 1) * c > a.length then a.length else (n + 1) * c) = min a.length ((n + 1) * c) := by
        split <;> omega
      have e1 : min a.length (n * c) = n * c := by omega
      have h3 : n * c < min a.length ((n + 1) * c) := by
        have : (n + 1) * c = n * c + c := by ring
        omega
      rw [forN, ih (by omega), e2, dandc_part a hb 63 stack _ _ (by omega) h3 (by omega) (by omega), e1]
      rw [← part_append a (show 0 ≤ n * c by omega) h3.le, List.sum_append]
      rfl
  have := key Nth le_rfl
  rw [show min a.length (Nth * c) = a.length by omega, part_all] at this
  exact this

/-- **C52.** Otherwise the threaded sum is undefined, however much stack there is: a thread reads past the
end of the array or calls itself for ever. -/
theorem C52_parallel_fails (a : List ℝ) (Nth stack : ℕ) (hb : a.length + Nth < 2 ^ 31)
    (hN : 0 < Nth) (h : a.length ≤ (Nth - 1) * share a.length Nth) :
    par_danc_sum a stack Nth = none := by
  unfold par_danc_sum
  have hs : share a.length Nth ≤ a.length := by
    unfold share
    rcases Nat.eq_zero_or_pos a.length with h0 | h0
    · rw [h0, Nat.div_eq_of_lt (by omega)]
    · rw [Nat.div_le_iff_le_mul_add_pred hN]
      have : Nth + a.length ≤ Nth * a.length + 1 := by nlinarith
      omega
  refine forN_none Nth (fun i => dandc_sum a stack (i * share a.length Nth)
    (if (i + 1) * share a.length Nth > a.length then a.length else (i + 1) * share a.length Nth))
    (fun _ s p => s + p) (some 0) ⟨Nth - 1, by omega, ?_⟩
  show dandc_sum a stack ((Nth - 1) * share a.length Nth) _ = none
  have e : (if (Nth - 1 + 1) * share a.length Nth > a.length then a.length else
      (Nth - 1 + 1) * share a.length Nth) = a.length := by
    have : (Nth - 1 + 1) * share a.length Nth = (Nth - 1) * share a.length Nth + share a.length Nth := by
      ring
    split
    · rfl
    · omega
  rw [e]
  have hb' : (Nth - 1) * share a.length Nth < 2 ^ 63 := by
    have := Nat.mul_le_mul (show Nth - 1 ≤ 2 ^ 31 by omega) (show share a.length Nth ≤ 2 ^ 31 by omega)
    omega
  rcases h.lt_or_eq with h | h
  · exact dandc_wrong_way a stack _ _ h hb'
  · rw [← h]; exact dandc_empty a stack _ le_rfl

/-- Five elements and four threads. -/
example : par_danc_sum [1, 2, 3, 4, 5] 64 4 = none :=
  C52_parallel_fails _ 4 64 (by simp) (by simp) (by decide)

/-- Nine elements and four threads. -/
example : par_danc_sum [1, 2, 3, 4, 5, 6, 7, 8, 9] 64 4 = none :=
  C52_parallel_fails _ 4 64 (by simp) (by simp) (by decide)

/-- Ten elements and four threads. -/
example : par_danc_sum [1, 2, 3, 4, 5, 6, 7, 8, 9, 10] 64 4 = some 55 := by
  have := C52_parallel_partial [1, 2, 3, 4, 5, 6, 7, 8, 9, 10] 4 64 (by simp) le_rfl (by simp) (by decide)
  norm_num at this; exact this

theorem kahan_fold (a : List ℝ) : ∀ s : ℝ, a.foldl (fun (s : ℝ × ℝ) v =>
    let y := v - s.2
    let t := s.1 + y
    (t, (t - s.1) - y)) (s, 0) = (s + a.sum, 0) := by
  induction a with
  | nil => intro s; simp
  | cons v l ih =>
    intro s
    rw [List.foldl_cons, List.sum_cons]
    have : ((s, (0 : ℝ)).1 + (v - (s, (0 : ℝ)).2), ((s, (0 : ℝ)).1 + (v - (s, (0 : ℝ)).2) - (s, (0 : ℝ)).1) -
        (v - (s, (0 : ℝ)).2)) = (s + v, (0 : ℝ)) := by ext <;> simp
    simp only [this]
    rw [ih, add_assoc]

/-- **C52.** The compensated sum is the sum. -/
theorem C52_kahan (a : List ℝ) : kahan_summation a = a.sum := by
  unfold kahan_summation; rw [kahan_fold]; simp

theorem averageFrom_eq (l : List ℝ) : ∀ (i : ℕ) (ave : ℝ),
    averageFrom i l ave * (i + l.length) = ave * i + l.sum := by
  induction l with
  | nil => intro i ave; simp [averageFrom]
  | cons v l ih =>
    intro i ave
    have := ih (i + 1) (ave + (v - ave) / (1 + i))
    rw [averageFrom, List.sum_cons, List.length_cons]
    push_cast at this ⊢
    have h1 : (1 + (i : ℝ)) ≠ 0 := by positivity
    rw [show (i : ℝ) + (l.length + 1) = i + 1 + l.length by ring, this]
    field_simp
    ring

/-- **C52.** The running average is the mean of the data. -/
theorem C52_average (a : List ℝ) (h : a ≠ []) : knuth_average a = a.sum / a.length := by
  have h0 : (a.length : ℝ) ≠ 0 := by
    have := List.length_pos_iff.2 h
    positivity
  rw [eq_div_iff h0]
  have := averageFrom_eq a 0 0
  unfold knuth_average
  simpa using this

/-- The sum of squared deviations from `m`. -/
def squares (l : List ℝ) (m : ℝ) : ℝ := (l.map fun v => (v - m) ^ 2).sum

theorem squares_shift (l : List ℝ) (m m' : ℝ) :
    squares l m' = squares l m - 2 * (m' - m) * (l.sum - l.length * m) + l.length * (m' - m) ^ 2 := by
  induction l with
  | nil => simp [squares]
  | cons v l ih =>
    have e : ∀ m, squares (v :: l) m = (v - m) ^ 2 + squares l m := fun m => by simp [squares]
    rw [e, e, ih, List.sum_cons, List.length_cons]
    push_cast
    ring

theorem errFrom_eq (l : List ℝ) : ∀ (p : List ℝ) (s : ℝ × ℝ),
    s.1 * p.length = p.sum → s.2 = squares p s.1 →
    (errFrom p.length l s).1 * (p.length + l.length) = p.sum + l.sum ∧
    (errFrom p.length l s).2 = squares (p ++ l) (errFrom p.length l s).1 := by
  induction l with
  | nil => intro p s h1 h2; simpa [errFrom] using ⟨h1, h2⟩
  | cons v l ih =>
    intro p s h1 h2
    have h0 : ((p.length : ℝ) + 1) ≠ 0 := by positivity
    have hlen : (p ++ [v]).length = p.length + 1 := by simp
    have := ih (p ++ [v]) (s.1 + (v - s.1) / (p.length + 1),
      s.2 + (v - s.1) * (v - (s.1 + (v - s.1) / (p.length + 1)))) ?_ ?_
    · rw [hlen] at this
      rw [errFrom]
      refine ⟨?_, ?_⟩
      · have t := this.1
        push_cast at t
        rw [List.length_cons, List.sum_cons]
        push_cast
        rw [show (p.length : ℝ) + (l.length + 1) = p.length + 1 + l.length by ring, t]
        simp [add_assoc]
      · have t := this.2
        rw [List.append_assoc, List.singleton_append] at t
        exact t
    · rw [hlen]
      push_cast
      simp only [List.sum_append, List.sum_singleton]
      rw [← h1]
      field_simp
      ring
    · have e : squares (p ++ [v]) (s.1 + (v - s.1) / (p.length + 1)) =
          squares p (s.1 + (v - s.1) / (p.length + 1)) +
            (v - (s.1 + (v - s.1) / (p.length + 1))) ^ 2 := by
        simp [squares]
      rw [e, squares_shift p s.1, ← h1, ← h2]
      field_simp
      ring

/-- **C52.** For two or more data the average is the mean and the error is the unbiased variance. -/
theorem C52_variance_partial (a : List ℝ) (h : 2 ≤ a.length) (hb : a.length < 2 ^ 64) :
    knuth_average_err a = (a.sum / a.length,
      some ((a.map fun v => (v - a.sum / a.length) ^ 2).sum / ((a.length : ℝ) - 1))) := by
  have key := errFrom_eq a [] (0, 0) (by simp) (by simp [squares])
  simp only [List.length_nil, List.nil_append, List.sum_nil, zero_add, Nat.cast_zero] at key
  have h0 : (a.length : ℝ) ≠ 0 := by
    have : 0 < a.length := by omega
    positivity
  have e1 : (errFrom 0 a (0, 0)).1 = a.sum / a.length := by rw [eq_div_iff h0]; exact key.1
  unfold knuth_average_err
  rw [sizeSub_le (by omega) hb]
  dsimp only
  rw [if_neg (by omega)]
  simp only [e1, key.2, squares]
  rw [Nat.cast_sub (by omega)]
  simp

example : knuth_average_err [1, 2, 6] = (3, some 7) := by
  rw [C52_variance_partial _ (by simp) (by simp)]; norm_num

/-- **C52.** For one datum the variance is not a number. -/
theorem C52_variance_fails (v : ℝ) : (knuth_average_err [v]).2 = none := by
  unfold knuth_average_err
  simp [sizeSub]

end GLU.Utils
