import Verif.Smear.FlowDriverProps
import Verif.Field.LinksProps
import Verif.Field.Clover

/-!
# What the adaptive flow measures
-/

namespace GLU.Smear

open GLU.Geom GLU.Field

/-! ## The size of the steps -/

theorem shrink_le {e : ℝ} (he : 1 < e) : 0 < e ^ ADAPTIVE_SHRINK ∧ e ^ ADAPTIVE_SHRINK ≤ 1 := by
  refine ⟨Real.rpow_pos_of_pos (by linarith) _, Real.rpow_le_one_of_one_le_of_nonpos he.le ?_⟩
  unfold ADAPTIVE_SHRINK
  norm_num

/-- **C77**: a rejected step is repeated with a step in the same direction, between a tenth and nine tenths of it. -/
theorem C77_shrink {dt e : ℝ} (he : 1 < e) :
    (0 < dt → dt / 10 ≤ shrunk dt e ∧ shrunk dt e ≤ 9 / 10 * dt) ∧
    (dt < 0 → 9 / 10 * dt ≤ shrunk dt e ∧ shrunk dt e ≤ dt / 10) := by
  obtain ⟨h0, h1⟩ := shrink_le he
  unfold shrunk ADAPTIVE_SAFE
  dsimp only
  generalize e ^ ADAPTIVE_SHRINK = x at h0 h1
  constructor
  · intro hd
    have hx : (0.9 : ℝ) * dt * x ≤ 9 / 10 * dt := by nlinarith
    rw [if_pos (by positivity)]
    split
    · exact ⟨by linarith, hx⟩
    · constructor <;> linarith
  · intro hd
    have hx : 9 / 10 * dt ≤ (0.9 : ℝ) * dt * x := by nlinarith
    have hn : (0.9 : ℝ) * dt * x ≤ 0 := by nlinarith
    rw [if_neg (by linarith)]
    split
    · exact ⟨hx, by linarith⟩
    · constructor <;> linarith

theorem errcon_pos : 0 < ADAPTIVE_ERRCON := by
  unfold ADAPTIVE_ERRCON ADAPTIVE_SAFE
  exact Real.rpow_pos_of_pos (by norm_num) _

/-- **C77**: after an accepted step the next one is in the same direction, between nine tenths and five times as long. -/
theorem C77_grow {dt e : ℝ} (he : e ≤ 1) :
    (0 < dt → 9 / 10 * dt ≤ grown dt e ∧ grown dt e ≤ 5 * dt) ∧
    (dt < 0 → 5 * dt ≤ grown dt e ∧ grown dt e ≤ 9 / 10 * dt) := by
  unfold grown
  by_cases hc : e > ADAPTIVE_ERRCON
  · have hp := errcon_pos
    have he0 : 0 < e := lt_trans hp hc
    have h1 : 1 ≤ e ^ ADAPTIVE_GROWTH :=
      Real.one_le_rpow_of_pos_of_le_one_of_nonpos he0 he (by unfold ADAPTIVE_GROWTH; norm_num)
    have h2 : e ^ ADAPTIVE_GROWTH ≤ 5 / ADAPTIVE_SAFE := by
      have : e ^ ADAPTIVE_GROWTH ≤ ADAPTIVE_ERRCON ^ ADAPTIVE_GROWTH :=
        Real.rpow_le_rpow_of_nonpos hp hc.le (by unfold ADAPTIVE_GROWTH; norm_num)
      refine this.trans (le_of_eq ?_)
      unfold ADAPTIVE_ERRCON
      rw [← Real.rpow_mul (by unfold ADAPTIVE_SAFE; norm_num),
        one_div_mul_cancel (by unfold ADAPTIVE_GROWTH; norm_num), Real.rpow_one]
    rw [if_pos hc]
    generalize e ^ ADAPTIVE_GROWTH = x at h1 h2
    unfold ADAPTIVE_SAFE at h2 ⊢
    norm_num at h2
    constructor <;> intro hd <;> constructor <;> nlinarith
  · rw [if_neg hc]
    unfold ADAPTIVE_SAFE
    constructor <;> intro hd <;> constructor <;> nlinarith

/-- A longer error still leaves the direction alone. -/
theorem grown_pos {dt e : ℝ} (hd : 0 < dt) : 0 < grown dt e := by
  unfold grown
  split
  · rename_i hc
    have := Real.rpow_pos_of_pos (lt_trans errcon_pos hc) ADAPTIVE_GROWTH
    unfold ADAPTIVE_SAFE
    positivity
  · unfold ADAPTIVE_SAFE
    positivity

section Adapt

variable {F : Type} {cfg : FlowCfg} {ops : FlowOps F} {smiters fuel : ℕ} {U : F}

/-- What `twostep_adaptive` returns: the field after two half steps, its plaquette, the error; and on success the error
is small. -/
theorem twostep_spec (lat : F) (t y : ℝ) : ∀ (n : ℕ) (dt : ℝ),
    let r := twostep_adaptive ops lat t y n dt
    r.lat_two = ops.step (r.dt / 2) (ops.step (r.dt / 2) lat) ∧ r.new_plaq = ops.get_plaq_th r.lat_two ∧
    r.errmax = |(t + r.dt) ^ 2 * (r.new_plaq - ops.get_plaq_th (ops.step r.dt lat)) / y| / 1e-6 ∧
    (r.ok = true → r.errmax ≤ 1) ∧ (0 < dt → 0 < r.dt ∧ r.dt ≤ dt) := by
  intro n
  induction n with
  | zero =>
    intro dt
    rw [twostep_adaptive]
    refine ⟨by rw [show (0.5 : ℝ) * dt = dt / 2 by ring], rfl, ?_, by simp, fun h => ⟨h, le_refl _⟩⟩
    dsimp only
    unfold ADAPTIVE_EPS
    rw [sq]
  | succ n ih =>
    intro dt
    rw [twostep_adaptive]
    dsimp only
    split
    · rename_i he
      obtain ⟨a, b, c, d, e⟩ := ih (shrunk dt _)
      refine ⟨a, b, c, d, fun h => ?_⟩
      have hs := (C77_shrink (dt := dt) he).1 h
      have := e (by linarith)
      exact ⟨this.1, by linarith⟩
    · rename_i he
      refine ⟨by rw [show (0.5 : ℝ) * dt = dt / 2 by ring], rfl, ?_, fun _ => not_lt.1 he, fun h => ⟨h, le_refl _⟩⟩
      dsimp only
      unfold ADAPTIVE_EPS
      rw [sq]

/-- What holds between the passes of the adaptive flow. -/
structure AdaptInv (ops : FlowOps F) (U : F) (s : AdaptSt F) : Prop where
  flowed : Flowed ops.step U s.t s.lat
  faithful : ∀ m ∈ s.head, Faithful ops U m
  controlled : s.ok = true → Controlled ops U s.t s.lat s.yscal
  each : s.ok = true → ∀ m ∈ s.head, ∃ V y, Controlled ops U m.time V y ∧ Describes ops V m
  len : s.head.length = s.meas_count + 1

theorem adaptInv_start (dt : ℝ) : AdaptInv ops U (adaptStart ops dt U) := by
  have hd : ∀ m ∈ update_meas_list ops [] (ops.av_plaquette U) 0 dt U, m.time = 0 ∧ Describes ops U m := by
    intro m hm
    unfold update_meas_list at hm
    rw [List.mem_singleton] at hm
    rw [hm]
    refine ⟨rfl, ?_, rfl, rfl⟩
    simp
  refine ⟨.start, fun m hm => ?_, fun _ => .start, fun _ m hm => ?_, rfl⟩
  · exact ⟨U, by rw [(hd m hm).1]; exact .start, (hd m hm).2⟩
  · exact ⟨U, _, by rw [(hd m hm).1]; exact .start, (hd m hm).2⟩

theorem adaptInv_step (hp : ∀ V, ops.get_plaq_th V = ops.av_plaquette V) {s s' : AdaptSt F} {e : ℝ}
    (h : AdaptInv ops U s) (hr : adaptStep cfg ops smiters s = .done (s', e)) :
    AdaptInv ops U s' ∧ (s'.ok = true → e ≤ 1) := by
  unfold adaptStep at hr
  by_cases hy : s.yscal = 0
  · rw [if_pos hy] at hr; cases hr
  rw [if_neg hy] at hr
  dsimp only at hr
  obtain ⟨a, b, c, d, _⟩ := twostep_spec (ops := ops) s.lat s.t s.yscal 20 s.delta_t
  generalize twostep_adaptive ops s.lat s.t s.yscal 20 s.delta_t = r at hr a b c d
  have hf : Flowed ops.step U (s.t + r.dt) r.lat_two := by
    have := (h.flowed.next (r.dt / 2)).next (r.dt / 2)
    rw [a]
    rwa [show s.t + r.dt / 2 + r.dt / 2 = s.t + r.dt by ring] at this
  have hc : s.ok = true → r.ok = true → Controlled ops U (s.t + r.dt) r.lat_two (2 * r.new_plaq - s.yscal) := by
    intro h1 h2
    have := d h2
    rw [c, div_le_one (by norm_num)] at this
    have hb := b
    rw [a] at hb ⊢
    rw [hb] at this ⊢
    exact .pair r.dt (h.controlled h1) this
  have hm : Describes ops r.lat_two ⟨s.t + r.dt, (s.t + r.dt) * (s.t + r.dt) * ops.GT r.lat_two, ops.Q r.lat_two,
      r.new_plaq, r.dt⟩ := ⟨by dsimp only; rw [sq], rfl, by rw [b, hp]⟩
  have hok : ∀ b' : Bool, (s.ok && r.ok && b') = true → s.ok = true ∧ r.ok = true := by
    intro b' hb'
    simp only [Bool.and_eq_true] at hb'
    exact hb'.1
  by_cases ht : s.t + r.dt > cfg.start
  · rw [if_pos ht] at hr
    cases hr
    refine ⟨⟨hf, ?_, fun ho => hc (hok _ ho).1 (hok _ ho).2, ?_, ?_⟩, fun ho => d (hok _ ho).2⟩
    · intro m hmem
      rcases List.mem_cons.1 hmem with rfl | hmem
      · exact ⟨_, hf, hm⟩
      · exact h.faithful m hmem
    · intro ho m hmem
      rcases List.mem_cons.1 hmem with rfl | hmem
      · exact ⟨_, _, hc (hok _ ho).1 (hok _ ho).2, hm⟩
      · exact h.each (hok _ ho).1 m hmem
    · simp [update_meas_list, h.len]
  · rw [if_neg ht] at hr
    cases hr
    exact ⟨⟨hf, h.faithful, fun ho => hc (hok _ ho).1 (hok _ ho).2, fun ho => h.each (hok _ ho).1, h.len⟩,
      fun ho => d (hok _ ho).2⟩

theorem adaptInv_finePass (hp : ∀ V, ops.get_plaq_th V = ops.av_plaquette V) {s : AdaptSt F}
    (h : AdaptInv ops U s) (hd : |s.delta_t| ≤ |s.t| / 100) : AdaptInv ops U (finePass ops s) := by
  have hf := h.flowed.next s.delta_t
  have hm : Describes ops (ops.step s.delta_t s.lat) ⟨s.t + s.delta_t, (s.t + s.delta_t) * (s.t + s.delta_t) *
      ops.GT (ops.step s.delta_t s.lat), ops.Q (ops.step s.delta_t s.lat), ops.get_plaq_th (ops.step s.delta_t s.lat),
      s.delta_t⟩ := ⟨by dsimp only; rw [sq], rfl, by rw [hp]⟩
  refine ⟨hf, ?_, fun ho => .fine _ (h.controlled ho) hd, ?_, ?_⟩
  · intro m hmem
    rcases List.mem_cons.1 hmem with rfl | hmem
    · exact ⟨_, hf, hm⟩
    · exact h.faithful m hmem
  · intro ho m hmem
    rcases List.mem_cons.1 hmem with rfl | hmem
    · exact ⟨_, _, .fine _ (h.controlled ho) hd, hm⟩
    · exact h.each ho m hmem
  · simp [finePass, update_meas_list, h.len]

/-- The step of a fine loop is a hundredth of the time at its beginning, so it stays at most a hundredth. -/
def FineStep (s : AdaptSt F) : Prop := ∃ k : ℕ, s.t = (100 + k) * s.delta_t

theorem FineStep.le {s : AdaptSt F} (h : FineStep s) : |s.delta_t| ≤ |s.t| / 100 := by
  obtain ⟨k, hk⟩ := h
  have hk0 : (0 : ℝ) ≤ k := by positivity
  rw [hk, abs_mul, abs_of_nonneg (show (0 : ℝ) ≤ 100 + k by linarith)]
  have := abs_nonneg s.delta_t
  nlinarith

theorem FineStep.pass {s : AdaptSt F} (h : FineStep s) : FineStep (finePass ops s) := by
  obtain ⟨k, hk⟩ := h
  refine ⟨k + 1, ?_⟩
  change s.t + s.delta_t = _ * s.delta_t
  rw [hk]
  push_cast
  ring

/-- What a fine loop leaves of the rest of the state. -/
theorem fineLoop_keeps {P : AdaptSt F → Prop} (hP : ∀ s, P s → P (finePass ops s)) {X : ℝ}
    {key : AdaptSt F → Option ℝ} : ∀ (n past : ℕ) (s s' : AdaptSt F), P s →
      fineLoop ops X key n past s = .done s' → P s' := by
  intro n
  induction n with
  | zero => intro past s s' _ hr; rw [fineLoop] at hr; cases hr
  | succ n ih =>
    intro past s s' h hr
    have hif : ∀ (c : Prop) (_ : Decidable c) (p : ℕ),
        (if c then fineLoop ops X key n p (finePass ops s) else .done (finePass ops s)) = .done s' → P s' := by
      intro c _ p hc
      by_cases h0 : c
      · rw [if_pos h0] at hc; exact ih _ _ _ (hP s h) hc
      · rw [if_neg h0] at hc; cases hc; exact hP s h
    exact hif _ _ _ hr

theorem fine_keeps {P : AdaptSt F → Prop} (hP : ∀ s, P s → P (finePass ops s)) {X : ℝ}
    {key : AdaptSt F → Option ℝ} {s s' : AdaptSt F} (h : P s) (h0 : P { s with delta_t := s.t / 100 })
    (hr : fine ops X key fuel s = .done s') : P s' := by
  unfold fine at hr
  split at hr
  · exact fineLoop_keeps hP _ _ _ _ h0 hr
  · cases hr; exact h

theorem adaptInv_fine (hp : ∀ V, ops.get_plaq_th V = ops.av_plaquette V) {X : ℝ} {key : AdaptSt F → Option ℝ}
    {s s' : AdaptSt F} (h : AdaptInv ops U s) (hr : fine ops X key fuel s = .done s') : AdaptInv ops U s' := by
  unfold fine at hr
  split at hr
  · have := fineLoop_keeps (P := fun s => AdaptInv ops U s ∧ FineStep s)
      (fun s hs => ⟨adaptInv_finePass hp hs.1 hs.2.le, hs.2.pass⟩) _ _ _ s'
      ⟨(⟨h.flowed, h.faithful, h.controlled, h.each, h.len⟩ : AdaptInv ops U { s with delta_t := s.t / 100 }), 0, by
        dsimp only; push_cast; ring⟩ hr
    exact this.1
  · cases hr; exact h

theorem ran_bind {α β : Type} {x : Ran α} {f : α → Ran β} {b : β} (h : x.bind f = .done b) :
    ∃ a, x = .done a ∧ f a = .done b := by
  cases x with
  | done a => exact ⟨a, rfl, h⟩
  | undefined => cases h
  | unfinished => cases h

/-- The parts of one pass. -/
theorem adaptPass_parts {s s' : AdaptSt F} (hr : adaptPass cfg ops smiters fuel s = .done s') :
    ∃ r s2, adaptStep cfg ops smiters s = .done r ∧ s' = { s2 with delta_t := grown s2.delta_t r.2, count := s2.count + 1 } ∧
      (s2 = r.1 ∨ ∃ s1, fine ops cfg.T0 (fun s => some s.flow) fuel r.1 = .done s1 ∧
        fine ops cfg.W0 (fun s => s.wapprox) fuel s1 = .done s2) := by
  unfold adaptPass at hr
  obtain ⟨r, h1, hr⟩ := ran_bind hr
  dsimp only at hr
  obtain ⟨s2, h2, hr⟩ := ran_bind hr
  cases hr
  refine ⟨r, s2, h1, rfl, ?_⟩
  split at h2
  · cases h2; exact Or.inl rfl
  · obtain ⟨s1, h3, h4⟩ := ran_bind h2
    exact Or.inr ⟨s1, h3, h4⟩

theorem adaptInv_pass (hp : ∀ V, ops.get_plaq_th V = ops.av_plaquette V) {s s' : AdaptSt F}
    (h : AdaptInv ops U s) (hr : adaptPass cfg ops smiters fuel s = .done s') : AdaptInv ops U s' := by
  obtain ⟨r, s2, h1, rfl, h2⟩ := adaptPass_parts hr
  have h3 := (adaptInv_step hp h h1).1
  have h4 : AdaptInv ops U s2 := by
    rcases h2 with rfl | ⟨s1, h5, h6⟩
    · exact h3
    · exact adaptInv_fine hp (adaptInv_fine hp h3 h5) h6
  exact ⟨h4.flowed, h4.faithful, h4.controlled, h4.each, h4.len⟩

theorem adaptLoop_keeps {P : AdaptSt F → Prop}
    (hP : ∀ s s', P s → adaptPass cfg ops smiters fuel s = .done s' → P s') :
    ∀ (n : ℕ) (s s' : AdaptSt F), P s → adaptLoop cfg ops smiters fuel n s = .done s' → P s' := by
  intro n
  induction n with
  | zero => intro s s' h hr; exact hP _ _ h hr
  | succ n ih =>
    intro s s' h hr
    rw [adaptLoop] at hr
    obtain ⟨s1, h1, hr⟩ := ran_bind hr
    split at hr
    · exact ih _ _ (hP _ _ h h1) hr
    · cases hr; exact hP _ _ h h1

theorem flow_adaptive_run {SIGN : ℤ} {alpha : ℝ} {out : FlowOut F}
    (h : flow_adaptive_RK3 cfg ops true true fuel SIGN alpha smiters U = .done out) :
    ∃ s, adaptLoop cfg ops smiters fuel smiters (adaptStart ops (SIGN * alpha) U) = .done s ∧
      out = ⟨(adaptBack cfg ops s).lat, (adaptBack cfg ops s).head, adaptScale cfg (adaptBack cfg ops s),
        if (adaptBack cfg ops s).ok then 0 else -1⟩ := by
  unfold flow_adaptive_RK3 at h
  rw [if_neg (by simp), if_neg (by simp)] at h
  obtain ⟨s, h1, h2⟩ := ran_bind h
  refine ⟨s, h1, ?_⟩
  cases h2
  rfl

theorem adaptBack_inv (hp : ∀ V, ops.get_plaq_th V = ops.av_plaquette V) {s : AdaptSt F} (h : AdaptInv ops U s) :
    Flowed ops.step U (adaptBack cfg ops s).t (adaptBack cfg ops s).lat ∧ (adaptBack cfg ops s).t ≤ cfg.stop ∧
    (∀ m ∈ (adaptBack cfg ops s).head, Faithful ops U m) ∧
    (adaptBack cfg ops s).head.length = (adaptBack cfg ops s).meas_count + 1 ∧
    (adaptBack cfg ops s).ok = s.ok ∧
    ((adaptBack cfg ops s).t < s.t → (adaptBack cfg ops s).t = cfg.stop ∧
      ∃ m, (adaptBack cfg ops s).head = m :: s.head ∧ m.time = cfg.stop ∧ Describes ops (adaptBack cfg ops s).lat m) ∧
    (s.t ≤ cfg.stop → adaptBack cfg ops s = s) := by
  unfold adaptBack
  by_cases hs : s.t > cfg.stop
  · rw [if_pos hs]
    dsimp only
    have hf := h.flowed.next (cfg.stop - s.t)
    have hm : Describes ops (ops.step (cfg.stop - s.t) s.lat) ⟨s.t + (cfg.stop - s.t), (s.t + (cfg.stop - s.t)) *
      (s.t + (cfg.stop - s.t)) * ops.GT (ops.step (cfg.stop - s.t) s.lat), ops.Q (ops.step (cfg.stop - s.t) s.lat),
      ops.get_plaq_th (ops.step (cfg.stop - s.t) s.lat), cfg.stop - s.t⟩ := ⟨by dsimp only; rw [sq], rfl, by rw [hp]⟩
    have e : s.t + (cfg.stop - s.t) = cfg.stop := by ring
    refine ⟨hf, by rw [e], ?_, by simp [update_meas_list, h.len], rfl, fun _ => ⟨e, _, rfl, e, hm⟩,
      fun hle => absurd hle (not_le.2 hs)⟩
    intro m hmem
    rcases List.mem_cons.1 hmem with rfl | hmem
    · exact ⟨_, hf, hm⟩
    · exact h.faithful m hmem
  · rw [if_neg hs]
    exact ⟨h.flowed, not_lt.1 hs, h.faithful, h.len, rfl, fun hlt => absurd hlt (lt_irrefl _), fun _ => rfl⟩

/-- **C77**, adaptive steps, when the measured plaquette is the average one (in four dimensions, see `C77_lattice`):
whenever the run ends, every measurement is one of the input flowed to the time it is labelled with, and the field
returned has been flowed by a time that is not past the stopping time.  If the run reports success, every field that was
measured before the final step back was reached by controlled steps.  What is missing: the run need not end, see
`C77_fine_fails`. -/
theorem C77_adaptive_partial (hp : ∀ V, ops.get_plaq_th V = ops.av_plaquette V) {SIGN : ℤ} {alpha : ℝ} {out : FlowOut F}
    (h : flow_adaptive_RK3 cfg ops true true fuel SIGN alpha smiters U = .done out) :
    (∀ m ∈ out.meas, Faithful ops U m) ∧
    (∃ T ≤ cfg.stop, Flowed ops.step U T out.lat) ∧
    (out.ret = 0 ∨ out.ret = -1) ∧
    (out.ret = 0 → ∃ l T V y, Controlled ops U T V y ∧
      (∀ m ∈ l, ∃ V y, Controlled ops U m.time V y ∧ Describes ops V m) ∧
      ((T ≤ cfg.stop ∧ out.lat = V ∧ out.meas = l) ∨
        (cfg.stop < T ∧ out.lat = ops.step (cfg.stop - T) V ∧
          ∃ m, out.meas = m :: l ∧ m.time = cfg.stop ∧ Describes ops out.lat m))) := by
  obtain ⟨s, h1, rfl⟩ := flow_adaptive_run h
  have hi : AdaptInv ops U s := adaptLoop_keeps (fun s s' hs hr => adaptInv_pass hp hs hr) _ _ _
    (adaptInv_start _) h1
  obtain ⟨b1, b2, b3, b4, b5, b6, b7⟩ := adaptBack_inv (cfg := cfg) hp hi
  refine ⟨b3, ⟨_, b2, b1⟩, ?_, ?_⟩
  · dsimp only; split <;> simp
  · intro hret
    have hok : s.ok = true := by
      rw [← b5]
      by_contra hc
      dsimp only at hret
      rw [if_neg hc] at hret
      omega
    refine ⟨s.head, s.t, s.lat, s.yscal, hi.controlled hok, hi.each hok, ?_⟩
    by_cases hs : s.t ≤ cfg.stop
    · left
      rw [b7 hs]
      exact ⟨hs, rfl, rfl⟩
    · right
      have hs := not_le.1 hs
      refine ⟨hs, ?_, (b6 (lt_of_le_of_lt b2 hs)).2⟩
      unfold adaptBack
      rw [if_pos hs]

end Adapt

end GLU.Smear
