import Verif.Field.Model
import Mathlib.Analysis.SpecialFunctions.Pow.Real

/-!
# The drivers of the gradient flow

`flow_RK3` of `src/Smear/wflow.c`, `flow_adaptive_RK3` of `src/Smear/adaptive_flow.c`, and the list of measurements of
`src/Smear/wflowfuncs.c`.  The integration step and the measurements on a field are parameters: they are modelled in
`Smear/Stout.lean`, `Field/Model.lean` and `Field/Clover.lean`.  Every thread runs the same driver on its own copies of
the scalars; the work-shared loops inside the step and the measurements keep the threads together, so one thread is
modelled.  Doubles are real numbers; `fabsl` and `powl` are those of the reals.
-/

namespace GLU.Smear

open GLU.Geom GLU.Field

/-- What the drivers call. -/
structure FlowOps (F : Type) where
  /-- `step_distance` or `step_distance_memcheap`, `wflowfuncs.c:507-571`, by a time `delta_t` -/
  step : ℝ → F → F
  /-- `av_plaquette`, `plaqs_links.c:242-264` -/
  av_plaquette : F → ℝ
  /-- the sum over the threads after `av_plaquette_th`, `adaptive_flow.c:71-82` and `wflow.c:121-127` -/
  get_plaq_th : F → ℝ
  /-- `GT` of `wflowfuncs.c:584-591`, after the division -/
  GT : F → ℝ
  /-- `Q` of `wflowfuncs.c:584-592`, after the normalisation -/
  Q : F → ℝ

/-- The compile-time configuration: `WFLOW_MEAS_START`, `WFLOW_TIME_STOP` (`GLU_definitions.h:579-592`), `T0_STOP`,
`W0_STOP` (`wflowfuncs.c:32-33`), `PREC_TOL` (`GLU_definitions.h:356-362`), and whether `WFLOW_TIME_ONLY` is defined. -/
structure FlowCfg where
  start : ℝ
  stop : ℝ
  T0 : ℝ
  W0 : ℝ
  tol : ℝ
  timeOnly : Bool

/-- The configuration for `NC` colours when nothing is changed: `GLU_definitions.h:362,583,591`, `wflowfuncs.c:32-33`. -/
noncomputable def defaultCfg (NC : ℕ) : FlowCfg where
  start := 0
  stop := 20
  T0 := 0.1125 * (NC * NC - 1 : ℝ) / NC
  W0 := 0.1125 * (NC * NC - 1 : ℝ) / NC
  tol := NC * 1.0e-14
  timeOnly := false

/-- `struct wfmeas`, together with the step size that is printed with it (`wflowfuncs.c:399-415`). -/
structure Meas where
  time : ℝ
  Gt : ℝ
  qtop : ℝ
  avplaq : ℝ
  /-- the `delta_t` of the printed line -/
  dt : ℝ

/-- `update_meas_list`, `wflowfuncs.c:574-605`: the list with the new measurement in front. -/
def update_meas_list {F : Type} (ops : FlowOps F) (head : List Meas) (new_plaq t delta_t : ℝ) (lat : F) : List Meas :=
  ⟨t, t * t * ops.GT lat, ops.Q lat, new_plaq, delta_t⟩ :: head

/-- The test `x < y` of a double that may be the result of a division by zero; such a comparison is taken to fail. In
`wflow.c` the dividend is then zero as well, so that the value is not a number and comparisons do fail. -/
def LessO (x : Option ℝ) (y : ℝ) : Prop := ∃ v, x = some v ∧ v < y

open Classical in
/-- The list `scaleset` reads, first measurement first: `wflowfuncs.c:449-457`, `count + 1` steps down the list; `none`
when the list is shorter, where a null pointer is followed. -/
noncomputable def scaleList (count : ℕ) (head : List Meas) : Option (List Meas) :=
  if count + 1 ≤ head.length then some (head.take (count + 1)).reverse else none

/-! ## Fixed step size -/

/-- The variables of `flow_RK3`, `wflow.c:90-96`. -/
structure FixedSt (F : Type) where
  lat : F
  t : ℝ
  flow : ℝ
  wapprox : Option ℝ
  new_plaq : ℝ
  count : ℕ
  meas_count : ℕ
  head : List Meas

/-- `wflow.c:88-103`: before the loop. -/
def fixedStart {F : Type} (ops : FlowOps F) (delta_t : ℝ) (lat : F) : FixedSt F where
  lat := lat
  t := 0
  flow := 0
  wapprox := some 0
  new_plaq := ops.av_plaquette lat
  count := 0
  meas_count := 0
  head := update_meas_list ops [] (ops.av_plaquette lat) 0 delta_t lat

open Classical in
/-- `wflow.c:107-139`: one pass through the loop. -/
noncomputable def fixedPass {F : Type} (cfg : FlowCfg) (ops : FlowOps F) (delta_t : ℝ) (s : FixedSt F) : FixedSt F :=
  let count := s.count + 1
  let t := count * delta_t
  let lat := ops.step delta_t s.lat
  if t ≥ cfg.start then
    let new_plaq := ops.get_plaq_th lat
    let head := update_meas_list ops s.head new_plaq t delta_t lat
    let flow_next := t * t * ops.GT lat
    let wapprox := if cfg.timeOnly then s.wapprox else fdiv ((flow_next - s.flow) * t) delta_t
    ⟨lat, t, flow_next, wapprox, new_plaq, count, s.meas_count + 1, head⟩
  else
    ⟨lat, t, s.flow, s.wapprox, s.new_plaq, count, s.meas_count, s.head⟩

/-- `wflow.c:141-143`: the condition under which the loop goes on. -/
def fixedGoOn {F : Type} (cfg : FlowCfg) (smiters : ℕ) (s : FixedSt F) : Prop :=
  LessO s.wapprox (cfg.W0 * 1.5) ∧ s.count < smiters ∧ s.t < cfg.stop

open Classical in
/-- `wflow.c:105-143`: the loop.  The first argument bounds the number of passes after the first; `smiters` of them
always suffice. -/
noncomputable def fixedLoop {F : Type} (cfg : FlowCfg) (ops : FlowOps F) (delta_t : ℝ) (smiters : ℕ) :
    ℕ → FixedSt F → FixedSt F
  | 0, s => fixedPass cfg ops delta_t s
  | n + 1, s =>
    let s := fixedPass cfg ops delta_t s
    if fixedGoOn cfg smiters s then fixedLoop cfg ops delta_t smiters n s else s

open Classical in
/-- `wflow.c:145-157`: the step back to the stopping time. -/
noncomputable def fixedBack {F : Type} (cfg : FlowCfg) (ops : FlowOps F) (delta_t : ℝ) (s : FixedSt F) : FixedSt F :=
  if s.t > cfg.stop then
    let delta_tcorr := cfg.stop - s.count * delta_t
    let lat := ops.step delta_tcorr s.lat
    let head := update_meas_list ops s.head s.new_plaq s.t delta_t lat
    { s with lat := lat, head := head, count := s.count + 1, meas_count := s.meas_count + 1 }
  else s

/-- What a driver leaves behind. -/
structure FlowOut (F : Type) where
  lat : F
  /-- the measurements, the last one first -/
  meas : List Meas
  /-- `none`: the scales were not computed; `some l`: `scaleset` was called and read `l` -/
  scale : Option (Option (List Meas))
  ret : ℤ

open Classical in
/-- `wflow.c:159-171`: whether the scales are computed, and from what. -/
noncomputable def fixedScale {F : Type} (cfg : FlowCfg) (smiters : ℕ) (s : FixedSt F) : Option (Option (List Meas)) :=
  match s.head with
  | [] => none
  | m :: _ =>
    if !cfg.timeOnly ∧ |m.time - cfg.stop| > cfg.tol ∧ s.count ≤ smiters ∧ s.meas_count > 0 then
      some (scaleList s.meas_count s.head)
    else none

open Classical in
/-- `flow_RK3`, `wflow.c:38-184`.  `alloc`: whether the temporary fields could be allocated; `known`: whether the
smearing type is one of the two that are handled.  The results of the `malloc`s of list entries are not looked at by
the code and are taken to be good. -/
noncomputable def flow_RK3 {F : Type} (cfg : FlowCfg) (ops : FlowOps F) (alloc known : Bool) (SIGN : ℤ) (alpha : ℝ)
    (smiters : ℕ) (lat : F) : FlowOut F :=
  if !alloc then ⟨lat, [], none, 0⟩ else
  let delta_t := SIGN * alpha
  if !known then ⟨lat, [], none, -1⟩ else
  let s := fixedLoop cfg ops delta_t smiters smiters (fixedStart ops delta_t lat)
  let s := fixedBack cfg ops delta_t s
  ⟨s.lat, s.head, fixedScale cfg smiters s, 0⟩

/-! ## Adaptive step size -/

/-- A run ends with a value, meets a division by zero, or has not ended within the steps looked at. -/
inductive Ran (α : Type) where
  | done (a : α)
  | undefined
  | unfinished

/-- Run one part after the other. -/
def Ran.bind {α β : Type} (x : Ran α) (f : α → Ran β) : Ran β :=
  match x with
  | .done a => f a
  | .undefined => .undefined
  | .unfinished => .unfinished

/-- `ADAPTIVE_EPS`, `adaptive_flow.c:64`. -/
noncomputable def ADAPTIVE_EPS : ℝ := 1e-6
/-- `ADAPTIVE_SHRINK`, `adaptive_flow.c:66`. -/
noncomputable def ADAPTIVE_SHRINK : ℝ := -0.32
/-- `ADAPTIVE_GROWTH`, `adaptive_flow.c:68`. -/
noncomputable def ADAPTIVE_GROWTH : ℝ := -0.24
/-- `ADAPTIVE_SAFE`, `adaptive_flow.c:70`. -/
noncomputable def ADAPTIVE_SAFE : ℝ := 0.9
/-- `ADAPTIVE_ERRCON`, `adaptive_flow.c:180`. -/
noncomputable def ADAPTIVE_ERRCON : ℝ := (5 / ADAPTIVE_SAFE) ^ (1 / ADAPTIVE_GROWTH)
/-- `FINETWIDDLE`, `adaptive_flow.c:182`. -/
noncomputable def FINETWIDDLE : ℝ := 0.06
/-- `DBL_MIN` of `float.h`. -/
noncomputable def DBL_MIN : ℝ := 2 ^ (-1022 : ℤ)

open Classical in
/-- `adaptive_flow.c:147-155`: the shortened step, with `adaptfmax` and `adaptfmin` (`:38-54`) written out. -/
noncomputable def shrunk (dt errmax : ℝ) : ℝ :=
  let del_temp := ADAPTIVE_SAFE * dt * errmax ^ ADAPTIVE_SHRINK
  let tol := 0.1 * dt
  if 0 < del_temp then (if tol < del_temp then del_temp else tol) else (if del_temp < tol then del_temp else tol)

/-- What `twostep_adaptive` leaves: the step, the error, the plaquette, `WF.lat_two`, and the return value (`true` for
`GLU_SUCCESS`). -/
structure Twostep (F : Type) where
  dt : ℝ
  errmax : ℝ
  new_plaq : ℝ
  lat_two : F
  ok : Bool

open Classical in
/-- `twostep_adaptive`, `adaptive_flow.c:85-166`.  The first argument is `20 - counter`.  Only called with a non-zero
`yscal`, see `adaptPass`. -/
noncomputable def twostep_adaptive {F : Type} (ops : FlowOps F) (lat : F) (t yscal : ℝ) : ℕ → ℝ → Twostep F
  | left, dt =>
    let old_plaq := ops.get_plaq_th (ops.step dt lat)
    let lat_two := ops.step (0.5 * dt) (ops.step (0.5 * dt) lat)
    let new_plaq := ops.get_plaq_th lat_two
    let errmax := |(t + dt) * (t + dt) * (new_plaq - old_plaq) / yscal| / ADAPTIVE_EPS
    match left with
    | 0 => ⟨dt, errmax, new_plaq, lat_two, false⟩
    | left + 1 =>
      if errmax > 1 then twostep_adaptive ops lat t yscal left (shrunk dt errmax)
      else ⟨dt, errmax, new_plaq, lat_two, true⟩

/-- The variables of `flow_adaptive_RK3`, `adaptive_flow.c:221-238`; `ok` is `FLAG == GLU_SUCCESS`. -/
structure AdaptSt (F : Type) where
  lat : F
  t : ℝ
  delta_t : ℝ
  flow : ℝ
  wapprox : Option ℝ
  yscal : ℝ
  new_plaq : ℝ
  count : ℕ
  meas_count : ℕ
  head : List Meas
  ok : Bool

/-- `adaptive_flow.c:217-238`: before the loop. -/
def adaptStart {F : Type} (ops : FlowOps F) (delta_t : ℝ) (lat : F) : AdaptSt F where
  lat := lat
  t := 0
  delta_t := delta_t
  flow := 0
  wapprox := some 0
  yscal := ops.av_plaquette lat
  new_plaq := ops.av_plaquette lat
  count := 0
  meas_count := 0
  head := update_meas_list ops [] (ops.av_plaquette lat) 0 delta_t lat
  ok := true

/-- `adaptive_flow.c:307-320` and `334-347`: one fine step. -/
noncomputable def finePass {F : Type} (ops : FlowOps F) (s : AdaptSt F) : AdaptSt F :=
  let lat := ops.step s.delta_t s.lat
  let new_plaq := ops.get_plaq_th lat
  let t := s.t + s.delta_t
  let head := update_meas_list ops s.head new_plaq t s.delta_t lat
  let flow_next := t * t * ops.GT lat
  { s with lat := lat, t := t, new_plaq := new_plaq, head := head, flow := flow_next,
           wapprox := fdiv ((flow_next - s.flow) * t) s.delta_t, count := s.count + 1, meas_count := s.meas_count + 1 }

/-- `fabs( X - x ) <= X * FINETWIDDLE`, `adaptive_flow.c:299,322,326,349`. -/
def Near (X : ℝ) (x : Option ℝ) : Prop := ∃ v, x = some v ∧ |X - v| ≤ X * FINETWIDDLE

open Classical in
/-- The loops `t0_top` (`adaptive_flow.c:302-322`, `key` is `flow`) and `w0_top` (`:329-349`, `key` is `wapprox`).
Nothing in the code bounds the number of passes: the first argument bounds those looked at. -/
noncomputable def fineLoop {F : Type} (ops : FlowOps F) (X : ℝ) (key : AdaptSt F → Option ℝ) :
    ℕ → ℕ → AdaptSt F → Ran (AdaptSt F)
  | 0, _, _ => .unfinished
  | n + 1, past_the_post, s =>
    let s := finePass ops s
    let past_the_post := if ∃ v, key s = some v ∧ v > X then past_the_post + 1 else past_the_post
    if Near X (key s) ∧ past_the_post < 3 then fineLoop ops X key n past_the_post s else .done s

open Classical in
/-- `adaptive_flow.c:299-323` and `326-350`: the fine measurements around one of the two scales. -/
noncomputable def fine {F : Type} (ops : FlowOps F) (X : ℝ) (key : AdaptSt F → Option ℝ) (fuel : ℕ) (s : AdaptSt F) :
    Ran (AdaptSt F) :=
  if Near X (key s) then fineLoop ops X key fuel 0 { s with delta_t := s.t / 100 } else .done s

open Classical in
/-- `adaptive_flow.c:247-281`: the adaptive step and its measurement; also the error of the step.  `fabsl( x / 0 )` is
outside the model. -/
noncomputable def adaptStep {F : Type} (cfg : FlowCfg) (ops : FlowOps F) (smiters : ℕ) (s : AdaptSt F) :
    Ran (AdaptSt F × ℝ) :=
  if s.yscal = 0 then .undefined else
  let r := twostep_adaptive ops s.lat s.t s.yscal 20 s.delta_t
  let t := s.t + r.dt
  let count := if r.ok then s.count else smiters
  let ok := s.ok && r.ok && !decide (|r.dt| < DBL_MIN)
  let yscal := 2 * r.new_plaq - s.yscal
  if t > cfg.start then
    let flow_next := t * t * ops.GT r.lat_two
    let wapprox := if cfg.timeOnly then s.wapprox else
      if s.flow ≠ 0 then fdiv ((flow_next - s.flow) * t) r.dt else some 0
    .done (⟨r.lat_two, t, r.dt, flow_next, wapprox, yscal, r.new_plaq, count, s.meas_count + 1,
      update_meas_list ops s.head r.new_plaq t r.dt r.lat_two, ok⟩, r.errmax)
  else
    .done (⟨r.lat_two, t, r.dt, s.flow, s.wapprox, yscal, r.new_plaq, count, s.meas_count, s.head, ok⟩, r.errmax)

open Classical in
/-- `adaptive_flow.c:353-358`: the size of the next step. -/
noncomputable def grown (delta_t errmax : ℝ) : ℝ :=
  if errmax > ADAPTIVE_ERRCON then ADAPTIVE_SAFE * delta_t * errmax ^ ADAPTIVE_GROWTH else ADAPTIVE_SAFE * 5.0 * delta_t

open Classical in
/-- `adaptive_flow.c:242-360`: one pass through the loop. -/
noncomputable def adaptPass {F : Type} (cfg : FlowCfg) (ops : FlowOps F) (smiters fuel : ℕ) (s : AdaptSt F) :
    Ran (AdaptSt F) :=
  (adaptStep cfg ops smiters s).bind fun r =>
  let fines : Ran (AdaptSt F) :=
    if cfg.timeOnly then .done r.1
    else (fine ops cfg.T0 (fun s => some s.flow) fuel r.1).bind fun s => fine ops cfg.W0 (fun s => s.wapprox) fuel s
  fines.bind fun s => .done { s with delta_t := grown s.delta_t r.2, count := s.count + 1 }

/-- `adaptive_flow.c:363-366`: the condition under which the loop goes on. -/
def adaptGoOn {F : Type} (cfg : FlowCfg) (smiters : ℕ) (s : AdaptSt F) : Prop :=
  LessO s.wapprox (cfg.W0 * 1.5) ∧ s.count < smiters ∧ s.t < cfg.stop ∧ s.ok = true

open Classical in
/-- `adaptive_flow.c:241-366`: the loop.  The first argument bounds the number of passes after the first; `smiters` of
them always suffice. -/
noncomputable def adaptLoop {F : Type} (cfg : FlowCfg) (ops : FlowOps F) (smiters fuel : ℕ) :
    ℕ → AdaptSt F → Ran (AdaptSt F)
  | 0, s => adaptPass cfg ops smiters fuel s
  | n + 1, s => (adaptPass cfg ops smiters fuel s).bind fun s =>
    if adaptGoOn cfg smiters s then adaptLoop cfg ops smiters fuel n s else .done s

open Classical in
/-- `adaptive_flow.c:370-382`: the step back to the stopping time. -/
noncomputable def adaptBack {F : Type} (cfg : FlowCfg) (ops : FlowOps F) (s : AdaptSt F) : AdaptSt F :=
  if s.t > cfg.stop then
    let delta_t := cfg.stop - s.t
    let lat := ops.step delta_t s.lat
    let new_plaq := ops.get_plaq_th lat
    let t := s.t + delta_t
    { s with lat := lat, t := t, delta_t := delta_t, new_plaq := new_plaq,
             head := update_meas_list ops s.head new_plaq t delta_t lat,
             count := s.count + 1, meas_count := s.meas_count + 1 }
  else s

open Classical in
/-- `adaptive_flow.c:385-394`: whether the scales are computed, and from what. -/
noncomputable def adaptScale {F : Type} (cfg : FlowCfg) (s : AdaptSt F) : Option (Option (List Meas)) :=
  match s.head with
  | [] => none
  | m :: _ =>
    if !cfg.timeOnly ∧ |m.time - cfg.stop| > cfg.tol ∧ s.meas_count > 0 then some (scaleList s.meas_count s.head) else none

/-- `flow_adaptive_RK3`, `adaptive_flow.c:169-410`.  When the allocation fails the jump to `memfree` skips the
initialisation of `FLAG`, which is then returned: `undefined`. -/
noncomputable def flow_adaptive_RK3 {F : Type} (cfg : FlowCfg) (ops : FlowOps F) (alloc known : Bool) (fuel : ℕ) (SIGN : ℤ)
    (alpha : ℝ) (smiters : ℕ) (lat : F) : Ran (FlowOut F) :=
  if !known then .done ⟨lat, [], none, -1⟩ else
  if !alloc then .undefined else
  (adaptLoop cfg ops smiters fuel smiters (adaptStart ops (SIGN * alpha) lat)).bind fun s =>
  let s := adaptBack cfg ops s
  .done ⟨s.lat, s.head, adaptScale cfg s, if s.ok then 0 else -1⟩

/-- The smearing types that reach the flow, `SM_wrap.c:48-76`. -/
inductive FlowType where
  | adaptive
  | fixed
  deriving DecidableEq

/-- `SM_wrap_struct` for the flow types, `SM_wrap.c:208-250`, with `hyp_chooser`, `SM_wrap.c:41-76`: the field and the
status.  `memory` is the result of `have_memory_wf`: `none` is `GLU_FAILURE`, `some b` whether the memory-cheap version
is to be used.  `SMINFO.dir` is not looked at.  The two versions differ in the step only (`ops b`). -/
noncomputable def SM_wrap_flow {F : Type} (cfg : FlowCfg) (ops : Bool → FlowOps F) (type : FlowType) (memory : Option Bool)
    (alloc : Bool) (fuel : ℕ) (alpha : ℝ) (smiters : ℕ) (lat : F) : Ran (F × ℤ) :=
  if smiters = 0 then .done (lat, 0) else
  match memory with
  | none => .done (lat, -1)
  | some cheap =>
    match type with
    | .adaptive => match flow_adaptive_RK3 cfg (ops false) alloc true fuel 1 alpha smiters lat with
      | .done out => .done (out.lat, 0)
      | .undefined => if alloc then .undefined else .done (lat, 0)
      | .unfinished => .unfinished
    | .fixed => .done ((flow_RK3 cfg (ops cheap) alloc true 1 alpha smiters lat).lat, 0)

end GLU.Smear
