import Verif.Rng.Warm

/-!
# The streams of a seeded run (C99)
-/

namespace GLU.Rng

open GLU.IO

variable {W O : Type}

theorem warm_up_at (step : Thread W → Option (O × Thread W)) (sched : List ℕ) (s : ℕ → Option (Thread W)) (t : ℕ) :
    warm_up step sched s t = (s t).bind (stateAfter step (sched.count t)) := by
  induction sched generalizing s with
  | nil => show s t = _; cases s t <;> rfl
  | cons u l ih =>
    show warm_up step l (drawOn step s u) t = _
    rw [ih]
    unfold drawOn
    by_cases h : t = u
    · subst h
      rw [if_pos rfl, List.count_cons_self]
      cases hs : s t with
      | none => rfl
      | some x =>
        rw [Option.bind_some, Option.bind_some]
        cases hx : step x with
        | none => simp [stateAfter, draws, hx]
        | some r =>
          obtain ⟨o, y⟩ := r
          rw [Option.map_some, Option.bind_some, stateAfter_succ hx]
    · rw [if_neg h, List.count_cons_of_ne (Ne.symm h)]

/-- C99: the states after the warm-up depend only on which thread ran which iterations, and not on the order in which
the draws of the threads were made. -/
theorem C99_order (step : Thread W → Option (O × Thread W)) {N : ℕ} {run : ℕ → ℕ} {a b : List ℕ}
    (ha : IsSchedule N run a) (hb : IsSchedule N run b) (s : ℕ → Option (Thread W)) :
    warm_up step a s = warm_up step b s := by
  funext t
  rw [warm_up_at, warm_up_at, ha t, hb t]

theorem filter_one {N t : ℕ} {run : ℕ → ℕ} (ht : t < N) (hr : ∀ i < N, run i < N)
    (hinj : ∀ i < N, ∀ j < N, run i = run j → i = j) : ((List.range N).filter fun i => run i = t).length = 1 := by
  have hsurj : ∃ i < N, run i = t := by
    have h : Function.Surjective (fun i : Fin N => (⟨run i, hr i i.2⟩ : Fin N)) :=
      Finite.surjective_of_injective fun i j e => Fin.ext (hinj i i.2 j j.2 (congrArg Fin.val e))
    obtain ⟨i, hi⟩ := h ⟨t, ht⟩
    exact ⟨i, i.2, congrArg Fin.val hi⟩
  obtain ⟨i, hi, rfl⟩ := hsurj
  have : ((List.range N).filter fun j => run j = run i) = [i] := by
    have hp : ((List.range N).filter fun j => run j = run i).Perm [i] := by
      rw [List.perm_ext_iff_of_nodup (List.nodup_range.filter _) (List.nodup_singleton i)]
      intro j
      simp only [List.mem_filter, List.mem_range, decide_eq_true_eq, List.mem_singleton]
      exact ⟨fun h => hinj j h.1 i hi h.2, by rintro rfl; exact ⟨hi, rfl⟩⟩
    exact List.perm_singleton.1 hp
  rw [this]
  rfl

/-- C99: when every thread runs one iteration of the warm-up loop, then in every execution the generator of each
thread is in the state 10000 draws after the one of its seed. -/
theorem C99_streams_partial (step : Thread W → Option (O × Thread W)) (set : W32 → Thread W) {N : ℕ} (seed : W32)
    {run : ℕ → ℕ} (hr : ∀ i < N, run i < N) (hinj : ∀ i < N, ∀ j < N, run i = run j → i = j) {sched : List ℕ}
    (hs : IsSchedule N run sched) {t : ℕ} (ht : t < N) :
    warm_up step sched (seeded set N seed) t = stateAfter step 10000 (set (seed + BitVec.ofNat 32 t)) := by
  rw [warm_up_at, hs t, filter_one ht hr hinj]
  unfold seeded
  rw [if_pos ht]
  rfl

theorem set_KISS_length (seed : W32) : (set_KISS seed).table.length = 5 := rfl

/-- C99 fails otherwise: with two threads and the KISS generator, when thread 0 runs both iterations, the states are
never those of an execution in which each thread runs one, whatever the seed: the number that follows is not a
function of the seed and the number of threads. -/
theorem C99_shared_iterations_fail (seed : W32) {a b : List ℕ} (ha : IsSchedule 2 (fun i => i) a)
    (hb : IsSchedule 2 (fun _ => 0) b) :
    warm_up JKISS32 a (seeded set_KISS 2 seed) 0 ≠ warm_up JKISS32 b (seeded set_KISS 2 seed) 0 ∧
    warm_up JKISS32 a (seeded set_KISS 2 seed) 1 ≠ warm_up JKISS32 b (seeded set_KISS 2 seed) 1 := by
  have key : ∀ m n : ℕ, m < n → n < 2 ^ 32 → ∀ s : W32,
      stateAfter JKISS32 m (set_KISS s) ≠ stateAfter JKISS32 n (set_KISS s) := by
    intro m n hmn hn s h
    have := C78_kiss_period (set_KISS s) (set_KISS_length s) hmn h
    omega
  have e : ∀ t < 2, seeded set_KISS 2 seed t = some (set_KISS (threadSeed seed t)) := fun t h => if_pos h
  have ha0 := ha 0; have ha1 := ha 1; have hb0 := hb 0; have hb1 := hb 1
  simp [List.range_succ] at ha0 ha1 hb0 hb1
  constructor
  · rw [warm_up_at, warm_up_at, ha0, hb0, e 0 (by norm_num), Option.bind_some, Option.bind_some]
    exact key 10000 20000 (by norm_num) (by norm_num) _
  · rw [warm_up_at, warm_up_at, ha1, hb1, e 1 (by norm_num), Option.bind_some, Option.bind_some]
    exact (key 0 10000 (by norm_num) (by norm_num) _).symm

/-- C99: two runs with neighbouring seeds share all streams but one: the thread `t` of the run with the seed `s + 1` draws
the numbers that the thread `t + 1` draws in the run with the seed `s`. -/
theorem C99_neighbour_seeds (step : Thread W → Option (O × Thread W)) (set : W32 → Thread W) {N : ℕ} (seed : W32)
    {a b : List ℕ} (ha : IsSchedule N (fun i => i) a) (hb : IsSchedule N (fun i => i) b) {t : ℕ} (ht : t + 1 < N) :
    warm_up step a (seeded set N (seed + 1)) t = warm_up step b (seeded set N seed) (t + 1) := by
  rw [C99_streams_partial step set _ (fun i hi => hi) (fun i _ j _ h => h) ha (by omega),
    C99_streams_partial step set _ (fun i hi => hi) (fun i _ j _ h => h) hb ht, BitVec.ofNat_add, add_assoc,
    add_comm (BitVec.ofNat 32 t)]
  rfl

/-- Schedules exist: the loop run in order by one thread each, and all by thread 0. -/
theorem schedule_static (N : ℕ) : IsSchedule N (fun i => i) ((List.range N).flatMap fun i => List.replicate 10000 i) := by
  intro t
  induction N with
  | zero => rfl
  | succ n ih =>
    rw [List.range_succ, List.flatMap_append, List.count_append, ih, List.filter_append, List.length_append, Nat.mul_add]
    congr 1
    rw [List.flatMap_cons, List.flatMap_nil, List.append_nil, List.count_replicate]
    by_cases h : n = t <;> simp [h]

example : IsSchedule 2 (fun _ => 0) (List.replicate 20000 0) := by
  intro t
  rw [List.count_replicate]
  by_cases h : 0 = t
  · subst h; rfl
  · simp [h]

end GLU.Rng
