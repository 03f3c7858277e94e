import Verif.Smear.FlowAdaptProps

/-!
# What the flow drivers hand to the scale setting, and where they go wrong
-/

namespace GLU.Smear

open GLU.Geom GLU.Field

section

variable {F : Type} {cfg : FlowCfg} {ops : FlowOps F} {smiters fuel : ℕ} {U : F}

theorem scaleList_all {n : ℕ} {l : List Meas} (h : l.length = n + 1) : scaleList n l = some l.reverse := by
  unfold scaleList
  rw [if_pos (by omega), ← h, List.take_length]

/-- **C77**: when the fixed-step flow computes the scales, the scale setting reads exactly the measurements made, and no
pointer past the end of their list. -/
theorem C77_scale_fixed (hp : ∀ V, ops.get_plaq_th V = ops.av_plaquette V) (SIGN : ℤ) (alpha : ℝ)
    {l : Option (List Meas)} (h : (flow_RK3 cfg ops true true SIGN alpha smiters U).scale = some l) :
    l = some (flow_RK3 cfg ops true true SIGN alpha smiters U).meas.reverse := by
  obtain ⟨n, h1, h2, h3, h4⟩ := fixedLoop_inv (cfg := cfg) (dt := SIGN * alpha) (smiters := smiters) (U := U) hp smiters 0
    _ fixedInv_start (by omega) (Or.inl rfl)
  rw [flow_RK3_run] at h ⊢
  dsimp only at h ⊢
  generalize fixedLoop cfg ops (SIGN * alpha) smiters smiters (fixedStart ops (SIGN * alpha) U) = s at h1 h
  have hl : (fixedBack cfg ops (SIGN * alpha) s).head.length = (fixedBack cfg ops (SIGN * alpha) s).meas_count + 1 := by
    unfold fixedBack
    split
    · simp [update_meas_list, h1.len]
    · exact h1.len
  unfold fixedScale at h
  split at h
  · cases h
  · split at h
    · rw [← Option.some_inj.1 h, scaleList_all hl]
    · cases h

/-- What holds of the times between the passes, with positive steps. -/
structure Timed (s : AdaptSt F) : Prop where
  dt : 0 < s.delta_t
  t : 0 ≤ s.t
  sorted : s.head.Pairwise fun a b => b.time < a.time
  le : ∀ m ∈ s.head, m.time ≤ s.t

theorem Timed.add {s : AdaptSt F} (h : Timed s) {m : Meas} (hm : s.t < m.time) :
    (m :: s.head).Pairwise (fun a b => b.time < a.time) ∧ ∀ m' ∈ m :: s.head, m'.time ≤ m.time := by
  refine ⟨List.pairwise_cons.2 ⟨fun m' hm' => lt_of_le_of_lt (h.le m' hm') hm, h.sorted⟩, fun m' hm' => ?_⟩
  rcases List.mem_cons.1 hm' with rfl | hm'
  · exact le_refl _
  · exact ((h.le m' hm').trans hm.le)

theorem timed_step {s s' : AdaptSt F} {e : ℝ} (h : Timed s) (hr : adaptStep cfg ops smiters s = .done (s', e)) :
    Timed s' ∧ 0 < s'.t := by
  unfold adaptStep at hr
  by_cases hy : s.yscal = 0
  · rw [if_pos hy] at hr; cases hr
  rw [if_neg hy] at hr
  dsimp only at hr
  obtain ⟨_, _, _, _, hd⟩ := twostep_spec (ops := ops) s.lat s.t s.yscal 20 s.delta_t
  generalize twostep_adaptive ops s.lat s.t s.yscal 20 s.delta_t = r at hr hd
  have hd := (hd h.dt).1
  have ht := h.t
  by_cases hs : s.t + r.dt > cfg.start
  · rw [if_pos hs] at hr
    cases hr
    have := h.add (m := ⟨s.t + r.dt, (s.t + r.dt) * (s.t + r.dt) * ops.GT r.lat_two, ops.Q r.lat_two, r.new_plaq, r.dt⟩)
      (by dsimp only; linarith)
    exact ⟨⟨hd, by dsimp only; linarith, this.1, this.2⟩, by dsimp only; linarith⟩
  · rw [if_neg hs] at hr
    cases hr
    exact ⟨⟨hd, by dsimp only; linarith, h.sorted, fun m hm => by have := h.le m hm; dsimp only; linarith⟩,
      by dsimp only; linarith⟩

theorem timed_fine {X : ℝ} {key : AdaptSt F → Option ℝ} {s s' : AdaptSt F} (h : Timed s ∧ 0 < s.t)
    (hr : fine ops X key fuel s = .done s') : Timed s' ∧ 0 < s'.t := by
  refine fine_keeps (P := fun s => Timed s ∧ 0 < s.t) ?_ h ?_ hr
  · intro s hs
    have hd := hs.1.dt
    have ht := hs.2
    have := hs.1.add (m := ⟨s.t + s.delta_t, (s.t + s.delta_t) * (s.t + s.delta_t) * ops.GT (ops.step s.delta_t s.lat),
      ops.Q (ops.step s.delta_t s.lat), ops.get_plaq_th (ops.step s.delta_t s.lat), s.delta_t⟩) (by dsimp only; linarith)
    exact ⟨⟨hd, by change 0 ≤ s.t + s.delta_t; linarith, this.1, this.2⟩, by change 0 < s.t + s.delta_t; linarith⟩
  · have ht := h.2
    exact ⟨⟨by change 0 < s.t / 100; linarith, h.1.t, h.1.sorted, h.1.le⟩, ht⟩

theorem timed_pass {s s' : AdaptSt F} (h : Timed s) (hr : adaptPass cfg ops smiters fuel s = .done s') : Timed s' := by
  obtain ⟨r, s2, h1, rfl, h2⟩ := adaptPass_parts hr
  have h3 := timed_step h (s' := r.1) (e := r.2) h1
  have h4 : Timed s2 ∧ 0 < s2.t := by
    rcases h2 with rfl | ⟨s1, h5, h6⟩
    · exact h3
    · exact timed_fine (timed_fine h3 h5) h6
  exact ⟨grown_pos h4.1.dt, h4.1.t, h4.1.sorted, h4.1.le⟩

/-- **C77**: with positive steps the adaptive flow only goes forward, and when it computes the scales, the scale setting
reads exactly the measurements made, at strictly increasing times. -/
theorem C77_scale_adaptive (hp : ∀ V, ops.get_plaq_th V = ops.av_plaquette V) (ht : 0 ≤ cfg.tol) {alpha : ℝ}
    (ha : 0 < alpha) {out : FlowOut F}
    (h : flow_adaptive_RK3 cfg ops true true fuel 1 alpha smiters U = .done out) {l : Option (List Meas)}
    (hl : out.scale = some l) :
    l = some out.meas.reverse ∧ out.meas.reverse.Pairwise fun a b => a.time < b.time := by
  obtain ⟨s, h1, rfl⟩ := flow_adaptive_run h
  have hi : AdaptInv ops U s := adaptLoop_keeps (fun s s' hs hr => adaptInv_pass hp hs hr) _ _ _
    (adaptInv_start _) h1
  have hT : Timed s := by
    refine adaptLoop_keeps (fun s s' hs hr => timed_pass hs hr) _ _ _ ?_ h1
    refine ⟨by simpa [adaptStart] using ha, le_refl _, ?_, ?_⟩
    · simp [adaptStart, update_meas_list]
    · simp [adaptStart, update_meas_list]
  obtain ⟨b1, b2, b3, b4, b5, b6, b7⟩ := adaptBack_inv (cfg := cfg) hp hi
  have hb : s.t ≤ cfg.stop := by
    by_contra hc
    have hc := not_le.1 hc
    obtain ⟨c1, m, c2, c3, c4⟩ := b6 (lt_of_le_of_lt b2 hc)
    dsimp only at hl
    unfold adaptScale at hl
    rw [c2] at hl
    dsimp only at hl
    rw [if_neg] at hl
    · cases hl
    · rw [c3, sub_self, abs_zero]
      exact fun hh => absurd hh.2.1 (not_lt.2 ht)
  rw [b7 hb] at hl ⊢
  dsimp only at hl ⊢
  refine ⟨?_, List.pairwise_reverse.2 hT.sorted⟩
  unfold adaptScale at hl
  split at hl
  · cases hl
  · split at hl
    · rw [← Option.some_inj.1 hl, scaleList_all hi.len]
    · cases hl

/-! ## The lattice fields meet the hypotheses -/

/-- The measurements on a lattice field, with `Nthreads` threads and the given schedule of the site loops; the step is
any function.  Undefined results do not occur in four dimensions, see `C77_lattice`. -/
noncomputable def latticeOps (NC : ℕ) (L : Latt) (df : FmunuDef) (Nthreads : ℕ) (sched : List (ℕ × ℕ)) (red : ℕ → ℝ)
    (step : ℝ → Gauge → Gauge) : FlowOps Gauge where
  step := step
  av_plaquette U := (GLU.Field.av_plaquette NC L U).getD 0
  get_plaq_th U := (GLU.Field.get_plaq_th NC L Nthreads sched U red).getD 0
  GT U := ((compute_Gmunu_th NC L df Nthreads sched U red).map fun red =>
    forN Nthreads (fun i (GT : ℝ) => GT + red (0 + cline L.ND * i)) (0 : ℝ) / (16 * volume L)).getD 0
  Q U := ((compute_Gmunu_th NC L df Nthreads sched U red).map fun red =>
    forN Nthreads (fun i (Q : ℝ) => Q + red (1 + cline L.ND * i)) (0 : ℝ) * -0.001583143494411527678811).getD 0

/-- The hypothesis of the theorems above holds for lattice fields in four dimensions, and all measurements are then
defined. -/
theorem C77_lattice {NC : ℕ} (hN : 1 ≤ NC) {L : Latt} (hL : Valid L) (h4 : L.ND = 4) (df : FmunuDef) (Nthreads : ℕ)
    {sched : List (ℕ × ℕ)} (hs : IsSchedule (volume L) Nthreads sched) (red : ℕ → ℝ) (step : ℝ → Gauge → Gauge)
    (U : Gauge) :
    (latticeOps NC L df Nthreads sched red step).get_plaq_th U = (latticeOps NC L df Nthreads sched red step).av_plaquette U ∧
    (GLU.Field.av_plaquette NC L U).isSome ∧ (compute_Gmunu_th NC L df Nthreads sched U red).isSome := by
  refine ⟨?_, ?_, ?_⟩
  · unfold latticeOps
    dsimp only
    rw [C29_threads_partial h4 Nthreads hs]
  · unfold GLU.Field.av_plaquette fdiv
    have := volume_pos hL
    rw [if_neg, Option.isSome_some]
    rw [h4]
    push_cast
    positivity
  · unfold compute_Gmunu_th
    rw [if_neg (by simp [h4])]
    cases df <;> rfl

end

/-! ## Where it goes wrong -/

/-- **C77** fails for the last measurement of the fixed-step flow: whatever the field, with three colours, the stopping
time 20 and a step of 21, the field returned has been flowed by 21 and back by 1, but its measurement is labelled with
the time 21, its action is multiplied by `21^2`, and its plaquette is that before the step back.  Since the label is not
the stopping time, the scales are computed after all, from a list that holds two measurements at the time 21. -/
theorem C77_back_fails {F : Type} (ops : FlowOps F) (U : F) :
    let out := flow_RK3 (defaultCfg 3) ops true true 1 21 5 U
    out.lat = ops.step (-1) (ops.step 21 U) ∧
    (∃ m l, out.meas = m :: l ∧ m.time = 21 ∧ m.Gt = 21 ^ 2 * ops.GT out.lat ∧
      m.avplaq = ops.get_plaq_th (ops.step 21 U)) ∧
    ∃ l, out.scale = some (some l) ∧ l.map Meas.time = [0, 21, 21] := by
  have hloop : fixedLoop (defaultCfg 3) ops ((1 : ℤ) * 21) 5 5 (fixedStart ops ((1 : ℤ) * 21) U) =
      fixedPass (defaultCfg 3) ops 21 (fixedStart ops 21 U) := by
    rw [show ((1 : ℤ) : ℝ) * 21 = 21 by norm_num, fixedLoop, if_neg]
    rintro ⟨_, _, h⟩
    unfold fixedPass fixedStart defaultCfg at h
    dsimp only at h
    split at h <;> norm_num at h
  have hpass : fixedPass (defaultCfg 3) ops 21 (fixedStart ops 21 U) =
      ⟨ops.step 21 U, 21, 21 * 21 * ops.GT (ops.step 21 U), some (21 * 21 * ops.GT (ops.step 21 U)),
        ops.get_plaq_th (ops.step 21 U), 1, 1,
        [⟨21, 21 * 21 * ops.GT (ops.step 21 U), ops.Q (ops.step 21 U), ops.get_plaq_th (ops.step 21 U), 21⟩,
          ⟨0, 0, ops.Q U, ops.av_plaquette U, 21⟩]⟩ := by
    unfold fixedPass fixedStart defaultCfg update_meas_list fdiv
    norm_num
  rw [flow_RK3_run, hloop, hpass]
  have hback : fixedBack (defaultCfg 3) ops ((1 : ℤ) * 21) ⟨ops.step 21 U, 21, 21 * 21 * ops.GT (ops.step 21 U),
        some (21 * 21 * ops.GT (ops.step 21 U)), ops.get_plaq_th (ops.step 21 U), 1, 1,
        [⟨21, 21 * 21 * ops.GT (ops.step 21 U), ops.Q (ops.step 21 U), ops.get_plaq_th (ops.step 21 U), 21⟩,
          ⟨0, 0, ops.Q U, ops.av_plaquette U, 21⟩]⟩ =
      ⟨ops.step (-1) (ops.step 21 U), 21, 21 * 21 * ops.GT (ops.step 21 U), some (21 * 21 * ops.GT (ops.step 21 U)),
        ops.get_plaq_th (ops.step 21 U), 2, 2,
        [⟨21, 21 * 21 * ops.GT (ops.step (-1) (ops.step 21 U)), ops.Q (ops.step (-1) (ops.step 21 U)),
            ops.get_plaq_th (ops.step 21 U), 21⟩,
          ⟨21, 21 * 21 * ops.GT (ops.step 21 U), ops.Q (ops.step 21 U), ops.get_plaq_th (ops.step 21 U), 21⟩,
          ⟨0, 0, ops.Q U, ops.av_plaquette U, 21⟩]⟩ := by
    unfold fixedBack defaultCfg update_meas_list
    norm_num
  rw [hback]
  refine ⟨rfl, ⟨_, _, rfl, rfl, by dsimp only; rw [sq], rfl⟩, ?_⟩
  unfold fixedScale
  dsimp only
  rw [if_pos, scaleList_all rfl]
  · exact ⟨_, rfl, rfl⟩
  · unfold defaultCfg
    norm_num

/-- The field is its own flow time. -/
noncomputable def clock (GT : ℝ → ℝ) : FlowOps ℝ where
  step dt x := x + dt
  av_plaquette _ := 1
  get_plaq_th _ := 1
  GT := GT
  Q _ := 0

theorem clock_flowed {GT : ℝ → ℝ} {t x : ℝ} (h : Flowed (clock GT).step 0 t x) : x = t := by
  induction h with
  | start => rfl
  | next dt _ ih => change _ + dt = _; rw [ih]

/-- **C77** fails: the measurement of `C77_back_fails` is not one of a field flowed to the time it is labelled with.
With `GT(x) = x` on fields that are their own flow time it is `21^2 * 20` at the time 21. -/
theorem C77_label_fails : ∃ m ∈ (flow_RK3 (defaultCfg 3) (clock id) true true 1 21 5 0).meas,
    ¬ Faithful (clock id) 0 m := by
  obtain ⟨h1, ⟨m, l, h2, h3, h4, h5⟩, _⟩ := C77_back_fails (clock id) 0
  refine ⟨m, by rw [h2]; exact List.mem_cons_self, ?_⟩
  rintro ⟨V, hV, hG, _⟩
  have := clock_flowed hV
  rw [h3] at this
  rw [hG, h3, h1, this] at h4
  unfold clock at h4
  norm_num at h4

/-- **C77** fails: a later start of the measurements changes when the flow stops.  Here the action is `t^2 / 4`; with
measurements from the beginning the flow goes on to the time 3/2, with measurements from the time 1 it stops there,
since the first difference is taken to zero instead of to the previous value. -/
theorem C77_meas_start_fails :
    (flow_RK3 (defaultCfg 3) (clock fun _ => 1 / 4) true true 1 (1 / 2) 100 0).lat = 3 / 2 ∧
    (flow_RK3 { defaultCfg 3 with start := 1 } (clock fun _ => 1 / 4) true true 1 (1 / 2) 100 0).lat = 1 := by
  constructor
  · rw [flow_RK3_run]
    have e : (((1 : ℤ) : ℝ)) * (1 / 2) = 1 / 2 := by norm_num
    rw [e]
    have h1 : fixedLoop (defaultCfg 3) (clock fun _ => 1 / 4) (1 / 2) 100 100 (fixedStart (clock fun _ => 1 / 4) (1 / 2) 0) =
        fixedPass (defaultCfg 3) (clock fun _ => 1 / 4) (1 / 2) (fixedPass (defaultCfg 3) (clock fun _ => 1 / 4) (1 / 2)
          (fixedPass (defaultCfg 3) (clock fun _ => 1 / 4) (1 / 2) (fixedStart (clock fun _ => 1 / 4) (1 / 2) 0))) := by
      rw [fixedLoop, if_pos, fixedLoop, if_pos, fixedLoop, if_neg]
      · unfold fixedGoOn LessO fixedPass fixedStart defaultCfg clock update_meas_list fdiv
        norm_num
      · unfold fixedGoOn LessO fixedPass fixedStart defaultCfg clock update_meas_list fdiv
        norm_num
      · unfold fixedGoOn LessO fixedPass fixedStart defaultCfg clock update_meas_list fdiv
        norm_num
    rw [h1]
    unfold fixedBack fixedPass fixedStart defaultCfg clock update_meas_list fdiv
    norm_num
  · rw [flow_RK3_run]
    have e : (((1 : ℤ) : ℝ)) * (1 / 2) = 1 / 2 := by norm_num
    rw [e]
    have h1 : fixedLoop { defaultCfg 3 with start := 1 } (clock fun _ => 1 / 4) (1 / 2) 100 100
          (fixedStart (clock fun _ => 1 / 4) (1 / 2) 0) =
        fixedPass { defaultCfg 3 with start := 1 } (clock fun _ => 1 / 4) (1 / 2)
          (fixedPass { defaultCfg 3 with start := 1 } (clock fun _ => 1 / 4) (1 / 2)
            (fixedStart (clock fun _ => 1 / 4) (1 / 2) 0)) := by
      rw [fixedLoop, if_pos, fixedLoop, if_neg]
      · unfold fixedGoOn LessO fixedPass fixedStart defaultCfg clock update_meas_list fdiv
        norm_num
      · unfold fixedGoOn LessO fixedPass fixedStart defaultCfg clock update_meas_list fdiv
        norm_num
    rw [h1]
    unfold fixedBack fixedPass fixedStart defaultCfg clock update_meas_list fdiv
    norm_num

theorem fineLoop_forever {c : ℝ} (hc : |(defaultCfg 3).T0 - c| ≤ (defaultCfg 3).T0 * FINETWIDDLE)
    (hle : c ≤ (defaultCfg 3).T0) : ∀ (n : ℕ) (s : AdaptSt ℝ), s.lat = s.t → 0 < s.t → 0 < s.delta_t →
      fineLoop (clock fun x => c / x ^ 2) (defaultCfg 3).T0 (fun s => some s.flow) n 0 s = .unfinished := by
  intro n
  induction n with
  | zero => intro s _ _ _; rfl
  | succ n ih =>
    intro s h1 h2 h3
    have ht : 0 < s.t + s.delta_t := by linarith
    have hf : (finePass (clock fun x => c / x ^ 2) s).flow = c := by
      change (s.t + s.delta_t) * (s.t + s.delta_t) * (c / (s.lat + s.delta_t) ^ 2) = c
      rw [h1]
      field_simp
    have hno : ¬ ∃ v, some (finePass (clock fun x => c / x ^ 2) s).flow = some v ∧ v > (defaultCfg 3).T0 := by
      rw [hf]
      rintro ⟨v, hv, hgt⟩
      rw [← Option.some_inj.1 hv] at hgt
      linarith
    rw [fineLoop, if_neg hno, if_pos]
    · exact ih _ (by change s.lat + s.delta_t = s.t + s.delta_t; rw [h1]) ht h3
    · refine ⟨?_, by norm_num⟩
      rw [hf]
      exact ⟨c, rfl, hc⟩

/-- **C77** fails: the number of iterations asked for does not bound the fine measurements.  Where the flowed action
stays just below the reference value, the adaptive flow asked for one iteration does not end. -/
theorem C77_fine_fails (fuel : ℕ) :
    flow_adaptive_RK3 (defaultCfg 3) (clock fun x => 0.297 / x ^ 2) true true fuel 1 (1 / 100) 1 0 = .unfinished := by
  have h2 : twostep_adaptive (clock fun x => 0.297 / x ^ 2) (0 : ℝ) 0 1 20 (1 / 100) =
      ⟨1 / 100, 0, 1, 1 / 100, true⟩ := by
    rw [twostep_adaptive]
    unfold clock
    norm_num
  have hT : (defaultCfg 3).T0 = 0.3 := by unfold defaultCfg; norm_num
  have hstep : ∃ s, adaptStep (defaultCfg 3) (clock fun x => 0.297 / x ^ 2) 1 (adaptStart (clock fun x => 0.297 / x ^ 2)
      ((1 : ℤ) * (1 / 100)) 0) = .done (s, 0) ∧ s.lat = 1 / 100 ∧ s.t = 1 / 100 ∧ s.flow = 0.297 := by
    unfold adaptStep adaptStart
    dsimp only
    rw [show ((1 : ℤ) : ℝ) * (1 / 100) = 1 / 100 by norm_num, show (clock fun x => 0.297 / x ^ 2).av_plaquette 0 = 1 from rfl,
      if_neg (by norm_num), h2]
    dsimp only
    rw [if_pos (by unfold defaultCfg; norm_num)]
    refine ⟨_, rfl, rfl, by norm_num, ?_⟩
    unfold clock
    norm_num
  obtain ⟨s, h3, h4, h5, h6⟩ := hstep
  have hpass : adaptPass (defaultCfg 3) (clock fun x => 0.297 / x ^ 2) 1 fuel (adaptStart (clock fun x => 0.297 / x ^ 2)
      ((1 : ℤ) * (1 / 100)) 0) = .unfinished := by
    unfold adaptPass
    rw [h3]
    have hfine : fine (clock fun x => 0.297 / x ^ 2) (defaultCfg 3).T0 (fun s => some s.flow) fuel s = .unfinished := by
      unfold fine
      rw [if_pos]
      · refine fineLoop_forever ?_ ?_ _ _ ?_ ?_ ?_
        · rw [hT]; unfold FINETWIDDLE; norm_num [abs_le]
        · rw [hT]; norm_num
        · rw [h4, h5]
        · rw [h5]; norm_num
        · rw [h5]; norm_num
      · refine ⟨s.flow, rfl, ?_⟩
        rw [h6, hT]; unfold FINETWIDDLE; norm_num [abs_le]
    dsimp only [Ran.bind]
    rw [if_neg (by simp [defaultCfg]), hfine]
  unfold flow_adaptive_RK3
  rw [if_neg (by simp), if_neg (by simp), adaptLoop, hpass]
  rfl

/-- **C77** fails: the status of the flow is lost.  With a step of zero the adaptive flow reports failure, whatever the
field (with a non-zero plaquette), but smearing with it succeeds. -/
theorem C77_status_fails {F : Type} (ops : Bool → FlowOps F) (U : F) (hp : (ops false).av_plaquette U ≠ 0) {smiters : ℕ}
    (hs : 0 < smiters) (fuel : ℕ) (cheap : Bool) :
    (∃ out, flow_adaptive_RK3 (defaultCfg 3) (ops false) true true fuel 1 0 smiters U = .done out ∧ out.ret = -1) ∧
    ∃ V, SM_wrap_flow (defaultCfg 3) ops .adaptive (some cheap) true fuel 0 smiters U = .done (V, 0) := by
  have h2 : ∃ p, twostep_adaptive (ops false) U 0 ((ops false).av_plaquette U) 20 0 =
      ⟨0, 0, p, (ops false).step 0 ((ops false).step 0 U), true⟩ := by
    rw [twostep_adaptive]
    norm_num
  obtain ⟨p, h2⟩ := h2
  have hT : (defaultCfg 3).T0 = 0.3 ∧ (defaultCfg 3).W0 = 0.3 := by unfold defaultCfg; norm_num
  have hnear : ∀ X : ℝ, X = 0.3 → ¬ Near X (some 0) := by
    rintro X rfl ⟨v, hv, h⟩
    rw [← Option.some_inj.1 hv] at h
    unfold FINETWIDDLE at h
    norm_num [abs_le] at h
  have hstep : ∃ s, adaptStep (defaultCfg 3) (ops false) smiters (adaptStart (ops false) ((1 : ℤ) * 0) U) = .done (s, 0) ∧
      s.flow = 0 ∧ s.wapprox = some 0 ∧ s.ok = false := by
    unfold adaptStep adaptStart
    dsimp only
    rw [show ((1 : ℤ) : ℝ) * 0 = 0 by norm_num, if_neg hp, h2]
    dsimp only
    rw [if_neg (by unfold defaultCfg; norm_num)]
    refine ⟨_, rfl, rfl, rfl, ?_⟩
    have : (0 : ℝ) < DBL_MIN := by unfold DBL_MIN; positivity
    simp [this]
  obtain ⟨s, h3, h4, h5, h6⟩ := hstep
  have hpass : ∃ s', adaptPass (defaultCfg 3) (ops false) smiters fuel (adaptStart (ops false) ((1 : ℤ) * 0) U) = .done s' ∧
      s'.ok = false := by
    unfold adaptPass
    rw [h3]
    have f1 : fine (ops false) (defaultCfg 3).T0 (fun s => some s.flow) fuel s = .done s := by
      unfold fine
      rw [if_neg (show ¬ Near _ (some s.flow) by rw [h4]; exact hnear _ hT.1)]
    have f2 : fine (ops false) (defaultCfg 3).W0 (fun s => s.wapprox) fuel s = .done s := by
      unfold fine
      rw [if_neg (show ¬ Near _ s.wapprox by rw [h5]; exact hnear _ hT.2)]
    dsimp only [Ran.bind]
    rw [if_neg (by simp [defaultCfg]), f1]
    dsimp only
    rw [f2]
    exact ⟨_, rfl, h6⟩
  obtain ⟨s', h7, h8⟩ := hpass
  obtain ⟨n, rfl⟩ : ∃ n, smiters = n + 1 := ⟨smiters - 1, by omega⟩
  have hloop : adaptLoop (defaultCfg 3) (ops false) (n + 1) fuel (n + 1) (adaptStart (ops false) ((1 : ℤ) * 0) U) = .done s' := by
    rw [adaptLoop, h7]
    dsimp only [Ran.bind]
    rw [if_neg]
    rintro ⟨_, _, _, h⟩
    rw [h8] at h
    cases h
  have hok : (adaptBack (defaultCfg 3) (ops false) s').ok = false := by
    unfold adaptBack
    split <;> exact h8
  have hrun : ∃ out, flow_adaptive_RK3 (defaultCfg 3) (ops false) true true fuel 1 0 (n + 1) U = .done out ∧ out.ret = -1 := by
    unfold flow_adaptive_RK3
    rw [if_neg (by simp), if_neg (by simp), hloop]
    refine ⟨_, rfl, ?_⟩
    dsimp only
    rw [hok]
    rfl
  refine ⟨hrun, ?_⟩
  obtain ⟨out, h9, _⟩ := hrun
  unfold SM_wrap_flow
  rw [if_neg (by omega)]
  dsimp only
  rw [h9]
  exact ⟨_, rfl⟩

/-- **C77** fails: when the temporary fields cannot be allocated the fixed-step flow leaves the field as it is and
reports success; the adaptive flow returns a variable that was never set; smearing with either succeeds. -/
theorem C77_alloc_fails {F : Type} (cfg : FlowCfg) (ops : Bool → FlowOps F) (U : F) {alpha : ℝ} {smiters : ℕ}
    (hs : 0 < smiters) (fuel : ℕ) (cheap : Bool) :
    (flow_RK3 cfg (ops cheap) false true 1 alpha smiters U).lat = U ∧
    (flow_RK3 cfg (ops cheap) false true 1 alpha smiters U).ret = 0 ∧
    flow_adaptive_RK3 cfg (ops cheap) false true fuel 1 alpha smiters U = .undefined ∧
    ∀ type, SM_wrap_flow cfg ops type (some cheap) false fuel alpha smiters U = .done (U, 0) := by
  refine ⟨rfl, rfl, rfl, fun type => ?_⟩
  unfold SM_wrap_flow
  rw [if_neg (by omega)]
  cases type <;> rfl

/-- Steps whose square adds up, and a plaquette that is very steep down to a tiny value and flat below it. -/
noncomputable def steep : FlowOps ℝ where
  step dt x := x + dt ^ 2
  av_plaquette _ := 1
  get_plaq_th x := if x > 1 / 10 ^ 39 then 10 ^ 76 * x else 1
  GT _ := 0
  Q _ := 0

/-- **C77** fails: the adaptive step reports failure after twenty shortenings even when the last one has brought the
error below the limit. -/
theorem C77_last_fails : (twostep_adaptive steep 0 0 1 20 1).ok = false ∧ (twostep_adaptive steep 0 0 1 20 1).errmax = 0 := by
  have hi : ∀ x : ℝ, x > 1 / 10 ^ 39 → steep.get_plaq_th x = 10 ^ 76 * x := fun x hx => if_pos hx
  have lo : ∀ x : ℝ, ¬ x > 1 / 10 ^ 39 → steep.get_plaq_th x = 1 := fun x hx => if_neg hx
  have hstep : ∀ n dt, dt ^ 2 / 2 > (1 : ℝ) / 10 ^ 39 → 0 < dt → dt ^ 4 ≥ 1 / 10 ^ 76 →
      twostep_adaptive steep 0 0 1 (n + 1) dt = twostep_adaptive steep 0 0 1 n (dt / 10) := by
    intro n dt h1 h2 h3
    have e1 : steep.get_plaq_th (steep.step dt 0) = 10 ^ 76 * dt ^ 2 := by
      have : steep.step dt 0 = dt ^ 2 := zero_add _
      rw [this, hi _ (by linarith [sq_nonneg dt])]
    have e2 : steep.get_plaq_th (steep.step (0.5 * dt) (steep.step (0.5 * dt) 0)) = 10 ^ 76 * (dt ^ 2 / 2) := by
      have : steep.step (0.5 * dt) (steep.step (0.5 * dt) 0) = dt ^ 2 / 2 := by
        change (0 : ℝ) + (0.5 * dt) ^ 2 + (0.5 * dt) ^ 2 = dt ^ 2 / 2
        ring
      rw [this, hi _ h1]
    have herr : |((0 : ℝ) + dt) * (0 + dt) * (10 ^ 76 * (dt ^ 2 / 2) - 10 ^ 76 * dt ^ 2) / 1| / ADAPTIVE_EPS =
        10 ^ 82 / 2 * dt ^ 4 := by
      rw [show ((0 : ℝ) + dt) * (0 + dt) * (10 ^ 76 * (dt ^ 2 / 2) - 10 ^ 76 * dt ^ 2) / 1 = -(10 ^ 76 / 2 * dt ^ 4) by ring,
        abs_neg, abs_of_nonneg (by positivity)]
      unfold ADAPTIVE_EPS
      ring
    rw [twostep_adaptive]
    simp only [e1, e2, herr]
    have hbig : (10 : ℝ) ^ 4 ≤ 10 ^ 82 / 2 * dt ^ 4 := by nlinarith
    rw [if_pos (by linarith)]
    congr 1
    have hpow : (10 ^ 82 / 2 * dt ^ 4 : ℝ) ^ ADAPTIVE_SHRINK ≤ 1 / 10 := by
      calc (10 ^ 82 / 2 * dt ^ 4 : ℝ) ^ ADAPTIVE_SHRINK ≤ ((10 : ℝ) ^ 4) ^ ADAPTIVE_SHRINK :=
            Real.rpow_le_rpow_of_nonpos (by positivity) hbig (by unfold ADAPTIVE_SHRINK; norm_num)
        _ ≤ ((10 : ℝ) ^ 4) ^ (-(1 / 4) : ℝ) :=
            Real.rpow_le_rpow_of_exponent_le (by norm_num) (by unfold ADAPTIVE_SHRINK; norm_num)
        _ = 1 / 10 := by
            rw [Real.rpow_neg (by positivity), ← Real.rpow_natCast, ← Real.rpow_mul (by norm_num)]
            norm_num
    have hpos : 0 < (10 ^ 82 / 2 * dt ^ 4 : ℝ) ^ ADAPTIVE_SHRINK := Real.rpow_pos_of_pos (by positivity) _
    unfold shrunk ADAPTIVE_SAFE
    dsimp only
    generalize (10 ^ 82 / 2 * dt ^ 4 : ℝ) ^ ADAPTIVE_SHRINK = x at hpow hpos
    rw [if_pos (by positivity), if_neg (by nlinarith)]
    ring
  have hall : ∀ k ≤ 20, twostep_adaptive steep 0 0 1 20 1 = twostep_adaptive steep 0 0 1 (20 - k) (1 / 10 ^ k) := by
    intro k
    induction k with
    | zero => intro _; norm_num
    | succ k ih =>
      intro hk
      rw [ih (by omega), show 20 - k = (20 - (k + 1)) + 1 by omega, hstep]
      · congr 1
        rw [pow_succ]
        field_simp
      · have : (1 : ℝ) / 10 ^ 19 ≤ 1 / 10 ^ k :=
          one_div_le_one_div_of_le (by positivity) (pow_le_pow_right₀ (by norm_num) (by omega))
        have h2 : ((1 : ℝ) / 10 ^ 19) ^ 2 ≤ (1 / 10 ^ k) ^ 2 := pow_le_pow_left₀ (by positivity) this 2
        have h3 : (1 : ℝ) / 10 ^ 39 < ((1 : ℝ) / 10 ^ 19) ^ 2 / 2 := by norm_num
        linarith
      · positivity
      · have : (1 : ℝ) / 10 ^ 19 ≤ 1 / 10 ^ k :=
          one_div_le_one_div_of_le (by positivity) (pow_le_pow_right₀ (by norm_num) (by omega))
        have h2 : ((1 : ℝ) / 10 ^ 19) ^ 4 ≤ (1 / 10 ^ k) ^ 4 := pow_le_pow_left₀ (by positivity) this 4
        have h3 : (1 : ℝ) / 10 ^ 76 = ((1 : ℝ) / 10 ^ 19) ^ 4 := by norm_num
        linarith
  rw [hall 20 (le_refl _)]
  rw [twostep_adaptive]
  refine ⟨rfl, ?_⟩
  have e1 : steep.get_plaq_th (steep.step (1 / 10 ^ 20) 0) = 1 := by
    apply lo
    change ¬ ((0 : ℝ) + (1 / 10 ^ 20) ^ 2 > 1 / 10 ^ 39)
    norm_num
  have e2 : steep.get_plaq_th (steep.step (0.5 * (1 / 10 ^ 20)) (steep.step (0.5 * (1 / 10 ^ 20)) 0)) = 1 := by
    apply lo
    change ¬ ((0 : ℝ) + (0.5 * (1 / 10 ^ 20)) ^ 2 + (0.5 * (1 / 10 ^ 20)) ^ 2 > 1 / 10 ^ 39)
    norm_num
  dsimp only
  rw [e1, e2]
  norm_num

/-- A run that ends in success and computes the scales, as in the hypotheses of `C77_adaptive_partial` and
`C77_scale_adaptive`. -/
example (fuel : ℕ) : ∃ out, flow_adaptive_RK3 (defaultCfg 3) (clock fun _ => 0) true true fuel 1 (1 / 10) 1 0 = .done out ∧
    out.ret = 0 ∧ out.lat = 1 / 10 ∧ out.meas.map Meas.time = [1 / 10, 0] ∧ out.scale.isSome := by
  have h2 : twostep_adaptive (clock fun _ => 0) (0 : ℝ) 0 1 20 (1 / 10) = ⟨1 / 10, 0, 1, 1 / 10, true⟩ := by
    rw [twostep_adaptive]
    unfold clock
    norm_num
  have hd : ¬ |(1 / 10 : ℝ)| < DBL_MIN := by
    rw [abs_of_pos (by norm_num)]
    unfold DBL_MIN
    rw [not_lt]
    calc (2 : ℝ) ^ (-1022 : ℤ) ≤ 2 ^ (-4 : ℤ) := zpow_le_zpow_right₀ (by norm_num) (by norm_num)
      _ ≤ 1 / 10 := by norm_num
  have hstep : adaptStep (defaultCfg 3) (clock fun _ => 0) 1 (adaptStart (clock fun _ => 0) ((1 : ℤ) * (1 / 10)) 0) =
      .done (⟨1 / 10, 1 / 10, 1 / 10, 0, some 0, 1, 1, 0, 1, [⟨1 / 10, 0, 0, 1, 1 / 10⟩, ⟨0, 0, 0, 1, 1 / 10⟩], true⟩, 0) := by
    unfold adaptStep adaptStart
    dsimp only
    rw [show ((1 : ℤ) : ℝ) * (1 / 10) = 1 / 10 by norm_num, show (clock fun _ => 0).av_plaquette 0 = 1 from rfl,
      if_neg (by norm_num), h2]
    dsimp only
    rw [if_pos (by unfold defaultCfg; norm_num)]
    simp only [decide_eq_false hd]
    unfold clock update_meas_list defaultCfg
    norm_num
  have hn : ∀ X : ℝ, X = 0.3 → ¬ Near X (some 0) := by
    rintro X rfl ⟨v, hv, h⟩
    rw [← Option.some_inj.1 hv] at h
    unfold FINETWIDDLE at h
    norm_num [abs_le] at h
  have hT : (defaultCfg 3).T0 = 0.3 ∧ (defaultCfg 3).W0 = 0.3 := by unfold defaultCfg; norm_num
  unfold flow_adaptive_RK3
  rw [if_neg (by simp), if_neg (by simp), adaptLoop]
  unfold adaptPass
  rw [hstep]
  dsimp only [Ran.bind]
  rw [if_neg (by simp [defaultCfg])]
  unfold fine
  dsimp only
  rw [if_neg (hn _ hT.1)]
  dsimp only
  rw [if_neg (hn _ hT.2)]
  dsimp only
  rw [if_neg (by unfold adaptGoOn; simp)]
  dsimp only
  refine ⟨_, rfl, ?_⟩
  unfold adaptBack adaptScale defaultCfg
  norm_num [abs_lt, lt_abs]

end GLU.Smear
