import Verif.Sched.RestartModel
import Mathlib.Tactic.NormNum
import Mathlib.Tactic.Linarith
import Mathlib.Algebra.BigOperators.Group.Finset.Basic
import Mathlib.Algebra.BigOperators.Intervals
import Mathlib.Tactic.FinCases
import Mathlib.Data.Real.Basic

/-!
# C126: the threads of a team start again together
-/

namespace GLU.Sched.Restart

variable {n : ℕ}

/-- What thread `i` comes to, from the entry of the function, when `omp for` gives site `s` to thread `owner s`. -/
noncomputable def thread (V : ℕ) (owner : ℕ → Fin n) (W : ℕ → Pass) (acc : ℝ) (max_iters passes : ℕ) (i : Fin n) :
    List Event :=
  steep_fix V (fun s => owner s = i) W acc max_iters passes 0 0 0 false

/-- What the function does when all sites are judged together, as with one thread. -/
noncomputable def alone (V : ℕ) (W : ℕ → Pass) (acc : ℝ) (max_iters passes : ℕ) : List Event :=
  steep_fix V (fun _ => true) W acc max_iters passes 0 0 0 false

theorem adequate_iff (V : ℕ) (own bad : ℕ → Bool) :
    adequate_solution V own bad = true ↔ ∀ s < V, own s = true → bad s = false := by
  unfold adequate_solution
  induction V with
  | zero => simp
  | succ V ih =>
    rw [List.range_succ, List.foldl_append]
    simp only [List.foldl_cons, List.foldl_nil]
    constructor
    · intro h s hs ho
      split_ifs at h with hc
      rcases Nat.lt_succ_iff_lt_or_eq.1 hs with hs | rfl
      · exact ih.1 h s hs ho
      · simpa [ho] using hc
    · intro h
      have hV := h V (by omega)
      rw [if_neg (by simp only [Bool.and_eq_true]; rintro ⟨a, b⟩; rw [hV a] at b; cases b)]
      exact ih.2 fun s hs => h s (by omega)

/-- The way through the function depends on the sites of the thread only through the verdict on them. -/
theorem steep_fix_congr {V : ℕ} {own own' : ℕ → Bool} {W : ℕ → Pass} (acc : ℝ) (max_iters : ℕ)
    (h : ∀ p, adequate_solution V own (W p).bad = adequate_solution V own' (W p).bad) (m p c tot : ℕ) (f : Bool) :
    steep_fix V own W acc max_iters m p c tot f = steep_fix V own' W acc max_iters m p c tot f := by
  induction m generalizing p c tot f with
  | zero => rfl
  | succ m ih => simp only [steep_fix, h p, ih]

/-- C126. With one thread there is nothing to disagree about. -/
theorem C126_one (V : ℕ) (owner : ℕ → Fin 1) (W : ℕ → Pass) (acc : ℝ) (max_iters passes : ℕ) (i : Fin 1) :
    thread V owner W acc max_iters passes i = alone V W acc max_iters passes := by
  unfold thread alone
  congr 1
  funext s
  simp [Subsingleton.elim (owner s) i]

/-- C126, for teams in which, in every pass, no thread has a wrong site or every thread has one. They come to the same
shared constructs in the same order, and do what one thread would do.

The full property is without the condition on the sites; it fails, see `C126_fails`. -/
theorem C126_together_partial (V : ℕ) (owner : ℕ → Fin n) (W : ℕ → Pass) (acc : ℝ) (max_iters passes : ℕ)
    (hW : ∀ p, (∀ s < V, (W p).bad s = false) ∨ ∀ i, ∃ s < V, owner s = i ∧ (W p).bad s = true) (i : Fin n) :
    thread V owner W acc max_iters passes i = alone V W acc max_iters passes := by
  unfold thread alone
  refine steep_fix_congr _ _ (fun p => ?_) _ _ _ _ _
  rcases hW p with h | h
  · rw [(adequate_iff ..).2 fun s hs _ => h s hs, (adequate_iff ..).2 fun s hs _ => h s hs]
  · obtain ⟨s, hs, ho, hb⟩ := h i
    have h1 : adequate_solution V (fun s => decide (owner s = i)) (W p).bad = false := by
      rw [Bool.eq_false_iff]
      intro hc
      have := (adequate_iff ..).1 hc s hs (by simp [ho])
      rw [hb] at this; cases this
    have h2 : adequate_solution V (fun _ => true) (W p).bad = false := by
      rw [Bool.eq_false_iff]
      intro hc
      have := (adequate_iff ..).1 hc s hs rfl
      rw [hb] at this; cases this
    rw [h1, h2]

theorem starts (V : ℕ) (own : ℕ → Bool) (W : ℕ → Pass) (acc : ℝ) (max_iters m p c tot : ℕ) (f : Bool) :
    ∃ l, steep_fix V own W acc max_iters (m + 1) p c tot f = .method :: l := by
  rw [steep_fix]; exact ⟨_, rfl⟩

/-- C126 fails. Whenever the first pass converges within the iterations, some thread has a wrong site and another has
none, the first thread goes on to the random transformation and calls the method again while the second leaves: it never
comes to the loop and to the barriers the first waits at. -/
theorem C126_fails (V : ℕ) (owner : ℕ → Fin n) (W : ℕ → Pass) (acc : ℝ) (max_iters passes : ℕ) (i j : Fin n)
    {x : ℝ} (hx : (W 0).tr = some x) (hconv : x < acc) (hit : (W 0).iters < max_iters)
    (hi : ∃ s < V, owner s = i ∧ (W 0).bad s = true) (hj : ∀ s < V, owner s = j → (W 0).bad s = false) :
    (∃ l, thread V owner W acc max_iters (passes + 2) i = [.method, .test, .random, .method] ++ l) ∧
    thread V owner W acc max_iters (passes + 2) j = [.method, .test, .leaves (W 0).iters 0] := by
  obtain ⟨s, hs, ho, hb⟩ := hi
  have h1 : adequate_solution V (fun s => decide (owner s = i)) (W 0).bad = false := by
    rw [Bool.eq_false_iff]
    intro hc
    have := (adequate_iff ..).1 hc s hs (by simp [ho])
    rw [hb] at this; cases this
  have h2 : adequate_solution V (fun s => decide (owner s = j)) (W 0).bad = true :=
    (adequate_iff ..).2 fun s hs ho => hj s hs (by simpa using ho)
  have hm : ¬ max_iters ≤ (W 0).iters := by omega
  constructor
  · obtain ⟨l, hl⟩ := starts V (fun s => decide (owner s = i)) W acc max_iters passes (0 + 1) (0 + 1) (0 + (W 0).iters) false
    refine ⟨l, ?_⟩
    unfold thread
    rw [steep_fix]
    simp only [hx, hconv, h1, hm, decide_true, false_and, if_false, if_true, Bool.false_or, Bool.not_false,
      Bool.and_self, decide_false, Bool.false_and, Bool.or_false, Nat.ofNat_pos, and_self, hl]
    rfl
  · unfold thread
    rw [steep_fix]
    simp [hx, hconv, h2, hm]

/-- C126, what one thread would do in that case: start again. So it is the second thread that is wrong. -/
theorem C126_alone (V : ℕ) (W : ℕ → Pass) (acc : ℝ) (max_iters passes : ℕ)
    {x : ℝ} (hx : (W 0).tr = some x) (hconv : x < acc) (hit : (W 0).iters < max_iters)
    (hb : ∃ s < V, (W 0).bad s = true) :
    ∃ l, alone V W acc max_iters (passes + 2) = [.method, .test, .random, .method] ++ l := by
  obtain ⟨s, hs, hb⟩ := hb
  have := (C126_fails (n := 2) V (fun _ => 0) W acc max_iters passes 0 1 hx hconv hit ⟨s, hs, rfl, hb⟩
    (fun s _ h => absurd h (by simp))).1
  unfold thread at this
  simpa [alone] using this

theorem count_random (V : ℕ) (own : ℕ → Bool) (W : ℕ → Pass) (acc : ℝ) (max_iters m p c tot : ℕ) (f : Bool) (hc : c ≤ 8) :
    (steep_fix V own W acc max_iters m p c tot f).count .random + c ≤ 8 ∧
    ∀ its k, Event.leaves its k ∈ steep_fix V own W acc max_iters m p c tot f →
      k = (steep_fix V own W acc max_iters m p c tot f).count .random + c := by
  induction m generalizing p c tot f with
  | zero => simp [steep_fix, hc]
  | succ m ih =>
    rw [steep_fix]
    simp only
    have e : ∀ (b : Bool) (l : List Event), (Event.method :: ((if b = true then [Event.test] else []) ++ l)).count
        .random = l.count .random := by
      intro b l; cases b <;> simp
    have e' : ∀ (b : Bool) (l : List Event) (its k : ℕ), Event.leaves its k ∈
        (Event.method :: ((if b = true then [Event.test] else []) ++ l)) ↔ Event.leaves its k ∈ l := by
      intro b l; cases b <;> simp
    simp only [e, e']
    split_ifs with h1 h2
    · exact ih _ _ _ _ hc
    · have := ih (p + 1) (c + 1) (tot + (W p).iters) false (by omega)
      refine ⟨by simp; omega, fun its k hk => ?_⟩
      have hk := this.2 its k (by simpa using hk)
      simp; omega
    · refine ⟨by simp [hc], fun its k hk => ?_⟩
      simp at hk ⊢
      exact hk.2

/-- C126. A thread starts again at most eight times, and the number it reports is the number of times it did. -/
theorem C126_restarts (V : ℕ) (owner : ℕ → Fin n) (W : ℕ → Pass) (acc : ℝ) (max_iters passes : ℕ) (i : Fin n) :
    (thread V owner W acc max_iters passes i).count .random ≤ 8 ∧
    ∀ its k, Event.leaves its k ∈ thread V owner W acc max_iters passes i →
      k = (thread V owner W acc max_iters passes i).count .random := by
  have := count_random V (fun s => owner s = i) W acc max_iters passes 0 0 0 false (by norm_num)
  unfold thread
  exact ⟨by simpa using this.1, by simpa using this.2⟩

/-- A pass whose result has to be given up, in the eyes of a thread with the sites `own`: it converged but a site is
wrong, or the iterations are used up and the accuracy is not even near. -/
def Rejected (V : ℕ) (own : ℕ → Bool) (acc : ℝ) (max_iters : ℕ) (P : Pass) : Prop :=
  (P.iters < max_iters ∧ (∃ x, P.tr = some x ∧ x < acc) ∧ ∃ s < V, own s = true ∧ P.bad s = true) ∨
  (max_iters ≤ P.iters ∧ ∀ x, P.tr = some x → 1e4 * acc ≤ x)

/-- A pass whose result is accepted: it ended in time, and if it converged no site is wrong. -/
def Accepted (V : ℕ) (own : ℕ → Bool) (acc : ℝ) (max_iters : ℕ) (P : Pass) : Prop :=
  P.iters < max_iters ∧ ∀ x, P.tr = some x → x < acc → ∀ s < V, own s = true → P.bad s = false

theorem step_rejected {V : ℕ} {own : ℕ → Bool} {W : ℕ → Pass} {acc : ℝ} {max_iters p : ℕ} (ha : 0 < acc)
    (h : Rejected V own acc max_iters (W p)) (m c tot : ℕ) (hc : c < 8) (e : Event) :
    e ∈ steep_fix V own W acc max_iters m (p + 1) (c + 1) (tot + (W p).iters) false →
      e ∈ steep_fix V own W acc max_iters (m + 1) p c tot false := by
  intro he
  rw [steep_fix]
  simp only
  rcases h with ⟨hi, ⟨x, hx, hxa⟩, s, hs, ho, hb⟩ | ⟨hi, hx⟩
  · have h1 : adequate_solution V own (W p).bad = false := by
      rw [Bool.eq_false_iff]
      intro hcon
      have := (adequate_iff ..).1 hcon s hs ho
      rw [hb] at this; cases this
    have hm : ¬ max_iters ≤ (W p).iters := by omega
    simp [hx, hxa, h1, hm, hc, he]
  · cases ht : (W p).tr with
    | none => simp [hi, hc, he]
    | some x =>
      have h1 := hx x ht
      have h2 : ¬ x < 1e4 * acc := not_lt.2 h1
      have h3 : acc < x := lt_of_lt_of_le (by nlinarith) h1
      have h4 : ¬ x < acc := not_lt.2 h3.le
      simp [hi, h2, h3, h4, hc, he]

theorem step_accepted {V : ℕ} {own : ℕ → Bool} {W : ℕ → Pass} {acc : ℝ} {max_iters p : ℕ}
    (h : Accepted V own acc max_iters (W p)) (m c tot : ℕ) :
    Event.leaves (tot + (W p).iters) c ∈ steep_fix V own W acc max_iters (m + 1) p c tot false := by
  rw [steep_fix]
  have hm : ¬ max_iters ≤ (W p).iters := not_le.2 h.1
  cases ht : (W p).tr with
  | none => simp [hm]
  | some x =>
    by_cases hx : x < acc
    · have h1 : adequate_solution V own (W p).bad = true := (adequate_iff ..).2 (h.2 x ht hx)
      simp [hm, hx, h1]
    · simp [hm, hx]

theorem leaves_after {V : ℕ} {own : ℕ → Bool} {W : ℕ → Pass} {acc : ℝ} {max_iters : ℕ} (ha : 0 < acc) (m k p c tot : ℕ)
    (hk : c + k ≤ 8) (hr : ∀ q < k, Rejected V own acc max_iters (W (p + q)))
    (hacc : Accepted V own acc max_iters (W (p + k))) :
    Event.leaves (tot + ∑ q ∈ Finset.range (k + 1), (W (p + q)).iters) (c + k) ∈
      steep_fix V own W acc max_iters (m + k + 1) p c tot false := by
  induction k generalizing p c tot with
  | zero => simpa using step_accepted hacc m c tot
  | succ k ih =>
    refine step_rejected ha (hr 0 (by omega)) _ c tot (by omega) _ ?_
    have := ih (p + 1) (c + 1) (tot + (W p).iters) (by omega)
      (fun q hq => by have := hr (q + 1) (by omega); rwa [show p + (q + 1) = p + 1 + q by omega] at this)
      (by rwa [show p + (k + 1) = p + 1 + k by omega] at hacc)
    rw [Finset.sum_range_succ', Nat.add_zero]
    rw [show c + (k + 1) = c + 1 + k by omega]
    have e : ∑ q ∈ Finset.range (k + 1), (W (p + (q + 1))).iters = ∑ q ∈ Finset.range (k + 1), (W (p + 1 + q)).iters :=
      Finset.sum_congr rfl fun q _ => by rw [show p + (q + 1) = p + 1 + q by omega]
    rw [e, Nat.add_comm (∑ q ∈ _, _) (W (p + 0)).iters, ← Nat.add_assoc tot]
    exact this

/-- C126. A thread gives up the results that have to be given up, up to eight of them, and leaves with the first that
is accepted, reporting all iterations and the number of restarts. -/
theorem C126_leaves (V : ℕ) (owner : ℕ → Fin n) (W : ℕ → Pass) {acc : ℝ} (ha : 0 < acc) (max_iters k : ℕ) (i : Fin n)
    (hk : k ≤ 8) (hr : ∀ q < k, Rejected V (fun s => owner s = i) acc max_iters (W q))
    (hacc : Accepted V (fun s => owner s = i) acc max_iters (W k)) :
    Event.leaves (∑ q ∈ Finset.range (k + 1), (W q).iters) k ∈ thread V owner W acc max_iters (k + 1) i := by
  have := leaves_after (W := W) ha 0 k 0 0 0 (by omega) (by simpa using hr) (by simpa using hacc)
  simpa [thread] using this

theorem left_general (V : ℕ) (own : ℕ → Bool) (W : ℕ → Pass) {acc : ℝ} (ha : 0 < acc) (max_iters m p c tot : ℕ) (f : Bool)
    (its k : ℕ) (h : Event.leaves its k ∈ steep_fix V own W acc max_iters m p c tot f) :
    let r := (steep_fix V own W acc max_iters m p c tot f).count .method
    0 < r ∧ its = tot + (∑ q ∈ Finset.range r, (W (p + q)).iters) ∧
      (k < 8 → Accepted V own acc max_iters (W (p + (r - 1)))) := by
  induction m generalizing p c tot f with
  | zero => simp [steep_fix] at h
  | succ m ih =>
    rw [steep_fix] at h ⊢
    simp only at h ⊢
    have e : ∀ (b : Bool) (l : List Event), (Event.method :: ((if b = true then [Event.test] else []) ++ l)).count
        .method = l.count .method + 1 := by
      intro b l; cases b <;> simp
    have e' : ∀ (b : Bool) (l : List Event) (its k : ℕ), Event.leaves its k ∈
        (Event.method :: ((if b = true then [Event.test] else []) ++ l)) ↔ Event.leaves its k ∈ l := by
      intro b l; cases b <;> simp
    have next : ∀ r : ℕ, 0 < r → its = tot + (W p).iters + (∑ q ∈ Finset.range r, (W (p + 1 + q)).iters) →
        (k < 8 → Accepted V own acc max_iters (W (p + 1 + (r - 1)))) →
        0 < r + 1 ∧ its = tot + (∑ q ∈ Finset.range (r + 1), (W (p + q)).iters) ∧
        (k < 8 → Accepted V own acc max_iters (W (p + (r + 1 - 1)))) := by
      intro r hr h1 h2
      refine ⟨by omega, ?_, fun hk => ?_⟩
      · rw [Finset.sum_range_succ', h1]
        have e : ∑ q ∈ Finset.range r, (W (p + (q + 1))).iters = ∑ q ∈ Finset.range r, (W (p + 1 + q)).iters :=
          Finset.sum_congr rfl fun q _ => by rw [show p + (q + 1) = p + 1 + q by omega]
        rw [e, show p + 0 = p from rfl]; omega
      · have := h2 hk
        rwa [show p + 1 + (r - 1) = p + (r + 1 - 1) by omega] at this
    simp only [e, e'] at h ⊢
    split_ifs at h ⊢ with h1 h2
    · obtain ⟨a, b, c⟩ := ih _ _ _ _ h
      exact next _ a b c
    · obtain ⟨a, b, c⟩ := ih _ _ _ _ (by simpa using h)
      simp only [List.count_cons, beq_iff_eq, reduceCtorEq, if_false, Nat.add_zero]
      exact next _ a b c
    · simp only [List.mem_singleton, Event.leaves.injEq] at h
      obtain ⟨rfl, rfl⟩ := h
      refine ⟨by simp, by simp, fun hk => ?_⟩
      simp only [List.count_cons, List.count_nil, beq_iff_eq, reduceCtorEq, if_false, Nat.add_zero, Nat.zero_add,
        Nat.sub_self]
      have h2 := fun hc => h2 ⟨hk, hc⟩
      simp only [Bool.or_eq_true, not_or, Bool.and_eq_true, decide_eq_true_eq] at h2
      refine ⟨?_, ?_⟩
      · by_contra hcon
        push Not at hcon
        cases ht : (W p).tr with
        | none => exact h2 (.inr ⟨hcon, by simp [ht]⟩)
        | some x =>
          have hn : ¬ x < 1e4 * acc := fun hx => h1 ⟨hcon, by simp [ht, hx]⟩
          exact h2 (.inr ⟨hcon, by
            have : acc < x := lt_of_lt_of_le (by nlinarith) (not_lt.1 hn)
            simp [ht, this]⟩)
      · intro x hx hxa s hs ho
        have : adequate_solution V own (W p).bad = true := by
          by_contra hcon
          rw [Bool.not_eq_true] at hcon
          exact h2 (.inl (.inr ⟨by simp [hx, hxa], by simp [hcon]⟩))
        exact (adequate_iff ..).1 this s hs ho

/-- C126. A thread that leaves reports the iterations of all its passes, and unless it has started again eight times
the result of the last pass is accepted. -/
theorem C126_left (V : ℕ) (owner : ℕ → Fin n) (W : ℕ → Pass) {acc : ℝ} (ha : 0 < acc) (max_iters passes : ℕ) (i : Fin n)
    (its k : ℕ) (h : Event.leaves its k ∈ thread V owner W acc max_iters passes i) :
    its = ∑ q ∈ Finset.range ((thread V owner W acc max_iters passes i).count .method), (W q).iters ∧
    (k < 8 → Accepted V (fun s => owner s = i) acc max_iters
      (W ((thread V owner W acc max_iters passes i).count .method - 1))) := by
  have := left_general V _ W ha max_iters passes 0 0 0 false its k h
  simp only [Nat.zero_add] at this
  exact this.2

/-- A wrong site among eight, in the share of the first of two threads. -/
noncomputable def oneWrong : ℕ → Pass := fun p => ⟨some 0, 3, fun s => p = 0 ∧ s = 2⟩

/-- Non-vacuity of `C126_fails`, with the sites divided as a static schedule does. -/
example : thread (n := 2) 8 (fun s => if s < 4 then 0 else 1) oneWrong 1 10 5 1 = [.method, .test, .leaves 3 0] ∧
    ∃ l, thread (n := 2) 8 (fun s => if s < 4 then 0 else 1) oneWrong 1 10 5 0 =
      [.method, .test, .random, .method] ++ l := by
  have := C126_fails (n := 2) 8 (fun s => if s < 4 then 0 else 1) oneWrong 1 10 3 0 1 (x := 0) rfl (by norm_num)
    (by simp [oneWrong]) ⟨2, by norm_num, by simp, by simp [oneWrong]⟩ (by intro s hs h; by_contra hc; simp_all [oneWrong])
  exact ⟨this.2, this.1⟩

/-- Non-vacuity of `C126_together_partial`: a wrong site in every share. -/
example (i : Fin 2) : thread (n := 2) 8 (fun s => if s < 4 then 0 else 1)
    (fun _ => ⟨some 0, 3, fun s => s = 2 ∨ s = 6⟩) 1 10 5 i =
    alone 8 (fun _ => ⟨some 0, 3, fun s => s = 2 ∨ s = 6⟩) 1 10 5 :=
  C126_together_partial _ _ _ _ _ _ (fun p => .inr fun i => by
    fin_cases i
    · exact ⟨2, by norm_num, by simp, by simp⟩
    · exact ⟨6, by norm_num, by simp, by simp⟩) i

/-- Non-vacuity of `C126_leaves`: the first thread starts again once. -/
example : Event.leaves 6 1 ∈ thread (n := 2) 8 (fun s => if s < 4 then 0 else 1) oneWrong 1 10 2 0 := by
  have := C126_leaves (n := 2) 8 (fun s => if s < 4 then 0 else 1) oneWrong (acc := 1) (by norm_num) 10 1 0 (by norm_num)
    (by intro q hq
        obtain rfl : q = 0 := by omega
        exact .inl ⟨by simp [oneWrong], ⟨0, rfl, by norm_num⟩, 2, by norm_num, by simp, by simp [oneWrong]⟩)
    ⟨by simp [oneWrong], fun x _ _ s _ _ => by simp [oneWrong]⟩
  simpa [oneWrong] using this

end GLU.Sched.Restart
