import Verif.Cuts.ConfigGluon
import Mathlib.Tactic.Linarith

/-!
# The shared loop variable of the configuration-space gluon correlator (C92)
-/

namespace GLU.Cuts

/-- Three steps of a thread alone in the loop. -/
theorem race_three {ND : ℕ} {id : Bool} {s : RaceState} {u : List ℕ} (h : s.thr id = ⟨.test, u⟩) (hlt : s.mu < ND) :
    raceStep ND (raceStep ND (raceStep ND s id) id) id =
      ⟨s.mu + 1, Function.update s.thr id ⟨.test, u ++ [s.mu]⟩⟩ := by
  unfold raceStep
  simp [h, hlt]

/-- A thread alone in the loop uses the directions one after the other. -/
theorem race_advance {ND : ℕ} (id : Bool) (k : ℕ) : ∀ (s : RaceState) (u : List ℕ), s.thr id = ⟨.test, u⟩ →
    s.mu + k ≤ ND → (List.replicate (3 * k) id).foldl (raceStep ND) s =
      ⟨s.mu + k, Function.update s.thr id ⟨.test, u ++ List.range' s.mu k⟩⟩ := by
  induction k with
  | zero =>
    intro s u h _
    have : Function.update s.thr id ⟨.test, u ++ List.range' s.mu 0⟩ = s.thr := by
      rw [List.range'_zero, List.append_nil, ← h]
      exact Function.update_eq_self id s.thr
    rw [this]
    rfl
  | succ k ih =>
    intro s u h hk
    rw [show 3 * (k + 1) = 3 * k + 1 + 1 + 1 by ring, List.replicate_succ, List.replicate_succ, List.replicate_succ,
      List.foldl_cons, List.foldl_cons, List.foldl_cons, race_three h (by omega),
      ih _ (u ++ [s.mu]) (by simp) (by dsimp only; omega)]
    dsimp only
    rw [Function.update_idem, List.range'_succ, List.append_assoc]
    congr 1
    omega

/-- C92: a single thread adds every direction once. -/
theorem C92_one_thread (ND n : ℕ) (hd : ((raceRun ND (List.replicate n false)).thr false).pc = .done) :
    ((raceRun ND (List.replicate n false)).thr false).used = List.range ND := by
  have inv : ∀ n, ∃ t, (raceRun ND (List.replicate n false)).thr false = t ∧
      let m := (raceRun ND (List.replicate n false)).mu
      match t.pc with
      | .start => t.used = []
      | .test => m ≤ ND ∧ t.used = List.range m
      | .body => m < ND ∧ t.used = List.range m
      | .incr => m < ND ∧ t.used = List.range (m + 1)
      | .done => t.used = List.range ND := by
    intro n
    induction n with
    | zero => exact ⟨_, rfl, rfl⟩
    | succ n ih =>
      obtain ⟨t, ht, hm⟩ := ih
      have hstep : raceRun ND (List.replicate (n + 1) false) =
          raceStep ND (raceRun ND (List.replicate n false)) false := by
        unfold raceRun
        rw [List.replicate_succ', List.foldl_append]
        rfl
      rw [hstep]
      refine ⟨_, rfl, ?_⟩
      generalize raceRun ND (List.replicate n false) = s at *
      obtain ⟨pc, used⟩ := t
      unfold raceStep
      rw [ht]
      cases pc
      · simp_all
      · by_cases hlt : s.mu < ND
        · simp_all
        · have : s.mu = ND := by
            have := hm.1
            omega
          simp_all
      · simp_all [List.range_succ]
      · simp_all
      · simp_all
  obtain ⟨t, ht, hm⟩ := inv n
  rw [ht] at hd ⊢
  rw [hd] at hm
  exact hm

/-- The single thread finishes. -/
example : ((raceRun 4 (List.replicate 14 false)).thr false).pc = .done := rfl

/-- C92: with two threads there is an execution in which a thread reads the link in the direction `ND`, past the end
of the array of links of its site. -/
theorem C92_race_out_of_bounds {ND : ℕ} (hN : 0 < ND) : ∃ sched, ND ∈ ((raceRun ND sched).thr false).used := by
  refine ⟨[true, false] ++ List.replicate (3 * (ND - 1)) false ++ [false, true, true, true, false], ?_⟩
  unfold raceRun
  rw [List.foldl_append, List.foldl_append]
  have h0 : [true, false].foldl (raceStep ND) ⟨0, fun _ => ⟨.start, []⟩⟩ = ⟨0, fun _ => ⟨.test, []⟩⟩ := by
    have e : Function.update (Function.update (fun _ : Bool => (⟨.start, []⟩ : RaceThread)) true ⟨.test, []⟩) false
        ⟨.test, []⟩ = fun _ => ⟨.test, []⟩ := by
      funext b
      cases b <;> rfl
    rw [← e]
    rfl
  rw [h0, race_advance false (ND - 1) _ [] rfl (by dsimp only; omega)]
  have h1 : ND - 1 < ND := by omega
  have h2 : ND - 1 + 1 = ND := by omega
  simp [raceStep, h1, h2]

/-- C92: with two threads there is an execution in which both finish and neither has added all directions. -/
theorem C92_race_lost : ∃ sched, ((raceRun 4 sched).thr false).pc = .done ∧ ((raceRun 4 sched).thr true).pc = .done ∧
    ((raceRun 4 sched).thr false).used = [1, 2, 3] ∧ ((raceRun 4 sched).thr true).used = [0] :=
  ⟨[true, false, true, true, true] ++ List.replicate 10 false ++ [true], rfl, rfl, rfl, rfl⟩

end GLU.Cuts
