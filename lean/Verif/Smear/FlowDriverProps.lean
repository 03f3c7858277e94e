import Verif.Smear.FlowDriver
import Mathlib.Tactic.Ring
import Mathlib.Tactic.Linarith
import Mathlib.Tactic.FieldSimp
import Mathlib.Tactic.Positivity
import Mathlib.Tactic.NormNum

/-!
# What the flow drivers measure, and when they stop
-/

namespace GLU.Smear

open GLU.Geom GLU.Field

/-! ## Specification -/

/-- `V` is what flowing `U` by the total time `t` gives, by some sequence of steps. -/
inductive Flowed {F : Type} (step : ℝ → F → F) (U : F) : ℝ → F → Prop
  | start : Flowed step U 0 U
  | next {t : ℝ} {V : F} (dt : ℝ) : Flowed step U t V → Flowed step U (t + dt) (step dt V)

/-- The numbers of `m` are those of the field `V`, at the flow time `m.time`. -/
def Describes {F : Type} (ops : FlowOps F) (V : F) (m : Meas) : Prop :=
  m.Gt = m.time ^ 2 * ops.GT V ∧ m.qtop = ops.Q V ∧ m.avplaq = ops.av_plaquette V

/-- The measurement is one of the field flowed to the time it is labelled with. -/
def Faithful {F : Type} (ops : FlowOps F) (U : F) (m : Meas) : Prop :=
  ∃ V, Flowed ops.step U m.time V ∧ Describes ops V m

/-- A field reached by steps that were controlled: `y` is the running estimate of the plaquette.  A controlled step is
done in two halves, and `(t + dt)^2` times the relative difference of the plaquette to that after one full step is at
most `1e-6`; a fine step is at most a hundredth of the flow time. -/
inductive Controlled {F : Type} (ops : FlowOps F) (U : F) : ℝ → F → ℝ → Prop
  | start : Controlled ops U 0 U (ops.av_plaquette U)
  | pair {t y : ℝ} {V : F} (dt : ℝ) : Controlled ops U t V y →
      |(t + dt) ^ 2 * (ops.get_plaq_th (ops.step (dt / 2) (ops.step (dt / 2) V)) - ops.get_plaq_th (ops.step dt V)) / y|
        ≤ 1e-6 →
      Controlled ops U (t + dt) (ops.step (dt / 2) (ops.step (dt / 2) V))
        (2 * ops.get_plaq_th (ops.step (dt / 2) (ops.step (dt / 2) V)) - y)
  | fine {t y : ℝ} {V : F} (dt : ℝ) : Controlled ops U t V y → |dt| ≤ |t| / 100 →
      Controlled ops U (t + dt) (ops.step dt V) y

theorem Controlled.flowed {F : Type} {ops : FlowOps F} {U : F} {t y : ℝ} {V : F} (h : Controlled ops U t V y) :
    Flowed ops.step U t V := by
  induction h with
  | start => exact .start
  | pair dt _ _ ih =>
    have := (ih.next (dt / 2)).next (dt / 2)
    rwa [show ∀ a : ℝ, a + dt / 2 + dt / 2 = a + dt from fun a => by ring] at this
  | fine dt _ _ ih => exact ih.next dt

/-! ## Fixed steps -/

section Fixed

variable {F : Type} {cfg : FlowCfg} {ops : FlowOps F} {dt : ℝ} {smiters : ℕ} {U : F}

/-- The field after `k` steps. -/
def fixedField (ops : FlowOps F) (dt : ℝ) (U : F) (k : ℕ) : F := (ops.step dt)^[k] U

theorem fixedField_flowed (k : ℕ) : Flowed ops.step U (k * dt) (fixedField ops dt U k) := by
  induction k with
  | zero => simpa [fixedField] using Flowed.start
  | succ k ih =>
    have := ih.next dt
    rw [show (((k + 1 : ℕ)) : ℝ) * dt = k * dt + dt by push_cast; ring]
    unfold fixedField at this ⊢
    rwa [Function.iterate_succ_apply']

/-- The measurement that belongs to the field after `k` steps. -/
def fixedMeas (ops : FlowOps F) (dt : ℝ) (U : F) (k : ℕ) : Meas :=
  ⟨k * dt, (k * dt) ^ 2 * ops.GT (fixedField ops dt U k), ops.Q (fixedField ops dt U k),
    ops.av_plaquette (fixedField ops dt U k), dt⟩

theorem fixedMeas_faithful (k : ℕ) : Faithful ops U (fixedMeas ops dt U k) :=
  ⟨_, fixedField_flowed k, rfl, rfl, rfl⟩

open Classical in
/-- The measurements of the first `k` steps, the latest first: that of the input field, and those from the starting
time on. -/
noncomputable def fixedList (cfg : FlowCfg) (ops : FlowOps F) (dt : ℝ) (U : F) : ℕ → List Meas
  | 0 => [fixedMeas ops dt U 0]
  | k + 1 => if cfg.start ≤ (k + 1 : ℕ) * dt then fixedMeas ops dt U (k + 1) :: fixedList cfg ops dt U k
      else fixedList cfg ops dt U k

theorem fixedList_ne (k : ℕ) : ∃ m l, fixedList cfg ops dt U k = m :: l := by
  induction k with
  | zero => exact ⟨_, _, rfl⟩
  | succ k ih => rw [fixedList]; split; exacts [⟨_, _, rfl⟩, ih]

theorem fixedList_faithful (k : ℕ) : ∀ m ∈ fixedList cfg ops dt U k, Faithful ops U m := by
  induction k with
  | zero => intro m hm; rw [fixedList, List.mem_singleton] at hm; rw [hm]; exact fixedMeas_faithful _
  | succ k ih =>
    intro m hm
    rw [fixedList] at hm
    split at hm
    · rcases List.mem_cons.1 hm with h | h
      · rw [h]; exact fixedMeas_faithful _
      · exact ih m h
    · exact ih m hm

/-- The state after `k` passes. -/
structure FixedInv (cfg : FlowCfg) (ops : FlowOps F) (dt : ℝ) (U : F) (k : ℕ) (s : FixedSt F) : Prop where
  lat : s.lat = fixedField ops dt U k
  t : s.t = k * dt
  count : s.count = k
  head : s.head = fixedList cfg ops dt U k
  len : s.head.length = s.meas_count + 1
  flow : ∀ m ∈ s.head.head?, s.flow = m.Gt ∧ s.new_plaq = m.avplaq

theorem fixedInv_start : FixedInv cfg ops dt U 0 (fixedStart ops dt U) := by
  refine ⟨rfl, by simp [fixedStart], rfl, ?_, rfl, ?_⟩
  · simp [fixedStart, update_meas_list, fixedList, fixedMeas, fixedField]
  · simp [fixedStart, update_meas_list]

theorem fixedInv_pass (hp : ∀ V, ops.get_plaq_th V = ops.av_plaquette V) {k : ℕ} {s : FixedSt F}
    (h : FixedInv cfg ops dt U k s) : FixedInv cfg ops dt U (k + 1) (fixedPass cfg ops dt s) := by
  have hl : ops.step dt s.lat = fixedField ops dt U (k + 1) := by
    rw [h.lat]; unfold fixedField; rw [Function.iterate_succ_apply']
  unfold fixedPass
  dsimp only
  rw [h.count]
  by_cases hs : ((k + 1 : ℕ) : ℝ) * dt ≥ cfg.start
  · rw [if_pos hs]
    refine ⟨hl, rfl, rfl, ?_, ?_, ?_⟩
    · rw [fixedList, if_pos hs, h.head]
      simp only [update_meas_list, fixedMeas, hl, hp, sq]
    · simp [update_meas_list, h.len]
    · simp [update_meas_list]
  · rw [if_neg hs]
    refine ⟨hl, rfl, rfl, ?_, h.len, h.flow⟩
    rw [fixedList, if_neg hs]
    exact h.head

theorem fixedLoop_inv (hp : ∀ V, ops.get_plaq_th V = ops.av_plaquette V) :
    ∀ (n k : ℕ) (s : FixedSt F), FixedInv cfg ops dt U k s → smiters ≤ k + n →
      (k = 0 ∨ fixedGoOn cfg smiters s) →
      ∃ j, FixedInv cfg ops dt U j (fixedLoop cfg ops dt smiters n s) ∧ k < j ∧ j ≤ max 1 smiters ∧
        ¬ fixedGoOn cfg smiters (fixedLoop cfg ops dt smiters n s) := by
  intro n
  induction n with
  | zero =>
    intro k s h hk hg
    have h' := fixedInv_pass hp h
    rw [fixedLoop]
    refine ⟨k + 1, h', by omega, ?_, fun hc => ?_⟩
    · rcases hg with hg | hg
      · omega
      · have := hg.2.1; rw [h.count] at this; omega
    · have := hc.2.1; rw [h'.count] at this; omega
  | succ n ih =>
    intro k s h hk hg
    have h' := fixedInv_pass hp h
    rw [fixedLoop]
    by_cases hc : fixedGoOn cfg smiters (fixedPass cfg ops dt s)
    · rw [if_pos hc]
      obtain ⟨j, h1, h2, h3, h4⟩ := ih (k + 1) _ h' (by omega) (Or.inr hc)
      exact ⟨j, h1, by omega, h3, h4⟩
    · rw [if_neg hc]
      refine ⟨k + 1, h', by omega, ?_, hc⟩
      rcases hg with hg | hg
      · omega
      · have := hg.2.1; rw [h.count] at this; omega

theorem flow_RK3_run (SIGN : ℤ) (alpha : ℝ) :
    flow_RK3 cfg ops true true SIGN alpha smiters U =
      let s := fixedBack cfg ops (SIGN * alpha) (fixedLoop cfg ops (SIGN * alpha) smiters smiters
        (fixedStart ops (SIGN * alpha) U))
      ⟨s.lat, s.head, fixedScale cfg smiters s, 0⟩ := by
  unfold flow_RK3
  rw [if_neg (by simp)]
  dsimp only
  rw [if_neg (by simp)]

/-- **C77**, fixed steps, when the measured plaquette is the average one (in four dimensions, see `C77_lattice`).  The
integration stops after `n` steps, at least one and not more than asked for.  The measurements of the steps are those of
the fields after that many steps.  If the flow has gone past the stopping time it is taken back to exactly that time;
the field returned has been flowed by `min (n dt) stop`.  What is missing is the measurement after the step back, see
`C77_back_fails`. -/
theorem C77_fixed_partial (hp : ∀ V, ops.get_plaq_th V = ops.av_plaquette V) (SIGN : ℤ) (alpha : ℝ) :
    ∃ n, 1 ≤ n ∧ n ≤ max 1 smiters ∧
      let dt := SIGN * alpha
      let out := flow_RK3 cfg ops true true SIGN alpha smiters U
      Flowed ops.step U (min (n * dt) cfg.stop) out.lat ∧
      (n * dt ≤ cfg.stop → out.lat = fixedField ops dt U n ∧ out.meas = fixedList cfg ops dt U n) ∧
      (n * dt > cfg.stop → out.lat = ops.step (cfg.stop - n * dt) (fixedField ops dt U n) ∧
        ∃ m, out.meas = m :: fixedList cfg ops dt U n ∧ m.time = n * dt ∧ m.Gt = (n * dt) ^ 2 * ops.GT out.lat ∧
          m.qtop = ops.Q out.lat ∧ ∀ m' ∈ (fixedList cfg ops dt U n).head?, m.avplaq = m'.avplaq) ∧
      (∀ m ∈ fixedList cfg ops dt U n, Faithful ops U m) := by
  obtain ⟨n, h1, h2, h3, h4⟩ := fixedLoop_inv (cfg := cfg) (dt := SIGN * alpha) (smiters := smiters) (U := U) hp smiters 0
    _ fixedInv_start (by omega) (Or.inl rfl)
  refine ⟨n, h2, h3, ?_⟩
  rw [flow_RK3_run]
  dsimp only
  generalize fixedLoop cfg ops (SIGN * alpha) smiters smiters (fixedStart ops (SIGN * alpha) U) = s at h1 h4
  unfold fixedBack
  rw [h1.t, h1.count]
  by_cases hs : (n : ℝ) * (SIGN * alpha) > cfg.stop
  · rw [if_pos hs]
    dsimp only
    refine ⟨?_, fun h => absurd h (not_le.2 hs), fun _ => ⟨by rw [h1.lat], ?_⟩, fixedList_faithful n⟩
    · rw [min_eq_right hs.le, h1.lat]
      have := (fixedField_flowed (ops := ops) (dt := SIGN * alpha) (U := U) n).next (cfg.stop - n * (SIGN * alpha))
      rwa [add_sub_cancel] at this
    · refine ⟨_, by rw [h1.head]; rfl, rfl, by rw [sq], rfl, ?_⟩
      intro m' hm'
      rw [← h1.head] at hm'
      exact (h1.flow m' hm').2
  · rw [if_neg hs]
    refine ⟨?_, fun _ => ⟨h1.lat, h1.head⟩, fun h => absurd h hs, fixedList_faithful n⟩
    rw [min_eq_left (not_lt.1 hs), h1.lat]
    exact fixedField_flowed n

/-- **C77**, when it stops: with positive steps and measurements from the start, the integration goes on exactly as
long as the time and the number of steps allow it and the discrete derivative `k (G(k) - G(k-1))` of the flowed action
has not reached one and a half times the reference value. -/
theorem C77_fixed_stop_partial (hp : ∀ V, ops.get_plaq_th V = ops.av_plaquette V) {alpha : ℝ} (ha : 0 < alpha)
    (hs : cfg.start ≤ 0) (hw : cfg.timeOnly = false) :
    let G := fun k => (fixedMeas ops alpha U k).Gt
    let stops := fun k : ℕ => smiters ≤ k ∨ cfg.stop ≤ k * alpha ∨ cfg.W0 * 1.5 ≤ k * (G k - G (k - 1))
    ∃ n, 1 ≤ n ∧ stops n ∧ (∀ k, 1 ≤ k → k < n → ¬ stops k) ∧
      (flow_RK3 cfg ops true true 1 alpha smiters U).meas.drop (if n * alpha > cfg.stop then 1 else 0) =
        (List.range (n + 1)).reverse.map (fixedMeas ops alpha U) := by
  intro G stops
  have hlist : ∀ k, fixedList cfg ops alpha U k = (List.range (k + 1)).reverse.map (fixedMeas ops alpha U) := by
    intro k
    induction k with
    | zero => simp [fixedList]
    | succ k ih =>
      rw [fixedList, if_pos (le_trans hs (by positivity)), ih, List.range_succ (n := k + 1)]
      simp
  have hgo : ∀ k (s : FixedSt F), FixedInv cfg ops alpha U k s →
      (fixedGoOn cfg smiters (fixedPass cfg ops alpha s) ↔ ¬ stops (k + 1)) := by
    intro k s h
    have h' := fixedInv_pass hp h
    have hflow : s.flow = G k := by
      have := h.flow (fixedMeas ops alpha U k) (by rw [h.head, hlist, List.range_succ]; simp)
      exact this.1
    have hw' : (fixedPass cfg ops alpha s).wapprox = some ((k + 1 : ℕ) * (G (k + 1) - G k)) := by
      have hl : ops.step alpha s.lat = fixedField ops alpha U (k + 1) := by
        rw [h.lat]; unfold fixedField; rw [Function.iterate_succ_apply']
      unfold fixedPass
      dsimp only
      rw [h.count, if_pos (le_trans hs (by positivity)), hw]
      rw [if_neg (by simp), hflow, hl]
      unfold fdiv
      rw [if_neg ha.ne']
      have : G (k + 1) = ((k + 1 : ℕ) : ℝ) * alpha * (((k + 1 : ℕ) : ℝ) * alpha) *
          ops.GT (fixedField ops alpha U (k + 1)) := by
        change (((k + 1 : ℕ) : ℝ) * alpha) ^ 2 * _ = _
        rw [sq]
      rw [← this]
      dsimp only
      congr 1
      rw [div_eq_iff ha.ne']
      ring
    unfold fixedGoOn LessO
    rw [hw', h'.count, h'.t]
    change _ ↔ ¬ (smiters ≤ k + 1 ∨ cfg.stop ≤ ((k + 1 : ℕ) : ℝ) * alpha ∨ cfg.W0 * 1.5 ≤ _)
    rw [Nat.add_sub_cancel]
    simp only [Option.some.injEq, exists_eq_left', not_or, not_le]
    tauto
  have key : ∀ (n k : ℕ) (s : FixedSt F), FixedInv cfg ops alpha U k s → smiters ≤ k + n →
      (∀ i, 1 ≤ i → i ≤ k → ¬ stops i) →
      ∃ j, FixedInv cfg ops alpha U j (fixedLoop cfg ops alpha smiters n s) ∧ k < j ∧ stops j ∧
        ∀ i, 1 ≤ i → i < j → ¬ stops i := by
    intro n
    induction n with
    | zero =>
      intro k s h hk hi
      exact ⟨k + 1, fixedInv_pass hp h, by omega, Or.inl (by omega), fun i h1 h2 => hi i h1 (by omega)⟩
    | succ n ih =>
      intro k s h hk hi
      rw [fixedLoop]
      by_cases hc : fixedGoOn cfg smiters (fixedPass cfg ops alpha s)
      · rw [if_pos hc]
        obtain ⟨j, h1, h2, h3, h4⟩ := ih (k + 1) _ (fixedInv_pass hp h) (by omega) (fun i h1 h2 => by
          rcases Nat.lt_or_ge i (k + 1) with h | h
          · exact hi i h1 (by omega)
          · rw [show i = k + 1 by omega]; exact (hgo k s ‹_›).1 hc)
        exact ⟨j, h1, by omega, h3, h4⟩
      · rw [if_neg hc]
        exact ⟨k + 1, fixedInv_pass hp h, by omega, not_not.1 fun hn => hc ((hgo k s h).2 hn),
          fun i h1 h2 => hi i h1 (by omega)⟩
  obtain ⟨n, h1, h2, h3, h4⟩ := key smiters 0 _ fixedInv_start (by omega) (fun i h1 h2 => by omega)
  refine ⟨n, h2, h3, h4, ?_⟩
  rw [flow_RK3_run]
  dsimp only
  rw [show (((1 : ℤ) : ℝ)) * alpha = alpha by simp]
  generalize fixedLoop cfg ops alpha smiters smiters (fixedStart ops alpha U) = s at h1
  unfold fixedBack
  rw [h1.t, h1.count]
  by_cases hb : (n : ℝ) * alpha > cfg.stop
  · rw [if_pos hb, if_pos hb]
    dsimp only [update_meas_list]
    rw [List.drop_succ_cons, List.drop_zero, h1.head, hlist]
  · rw [if_neg hb, if_neg hb, List.drop_zero, h1.head, hlist]

end Fixed

end GLU.Smear
