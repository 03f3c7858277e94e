import Verif.Run.ThreadModel
import Mathlib.Tactic.Linarith
import Mathlib.Tactic.Ring

/-!
# The trajectory number in the header (C56)
-/

namespace GLU.Run

/-- All threads are in the part of the program between two updates: from the master construct of iteration `k - 1` to
the update of iteration `k`. -/
structure TInv (p : Threads) (s : TState p.count) (k : ℕ) : Prop where
  window : ∀ t, 5 * k ≤ s.place t + 1 ∧ s.place t ≤ 5 * k + 3
  start : k = p.start → ∀ t, 5 * k ≤ s.place t
  geStart : p.start ≤ k
  before : ∀ t : Fin p.count, t.val = 0 → s.place t + 1 = 5 * k → s.flow + 1 = k
  after : ∀ t : Fin p.count, t.val = 0 → 5 * k ≤ s.place t → s.flow = k
  barrier : p.measures k → ∀ t, 5 * k + 1 ≤ s.place t → ∀ t', 5 * k + 1 ≤ s.place t'
  near : ∀ e ∈ s.headers, e.2 = e.1 ∨ e.2 + 1 = e.1
  exact : ∀ e ∈ s.headers, p.count = 1 ∨ p.measures e.1 → e.2 = e.1

theorem TInv.init (p : Threads) : TInv p (TState.init p) p.start where
  window t := by dsimp only [TState.init]; omega
  start _ t := by dsimp only [TState.init]; omega
  geStart := le_rfl
  before t _ h := by dsimp only [TState.init] at h; omega
  after t _ _ := rfl
  barrier _ t h := by dsimp only [TState.init] at h; omega
  near e h := by simp [TState.init] at h
  exact e h := by simp [TState.init] at h

/-- A thread moves on without leaving the part. -/
theorem TInv.move {p : Threads} {s : TState p.count} {k : ℕ} (I : TInv p s k) (t : Fin p.count) (a : ℕ)
    (h1 : s.place t ≤ a) (h2 : a ≤ 5 * k + 3) (h3 : 5 * k ≤ s.place t)
    (hm : p.measures k → 5 * k + 1 ≤ a → 5 * k + 1 ≤ s.place t) :
    TInv p { s with place := Function.update s.place t a } k where
  window t' := by
    dsimp only
    by_cases e : t' = t
    · subst e; rw [Function.update_self]; omega
    · rw [Function.update_of_ne e]; exact I.window t'
  start hk t' := by
    dsimp only
    by_cases e : t' = t
    · subst e; rw [Function.update_self]; omega
    · rw [Function.update_of_ne e]; exact I.start hk t'
  geStart := I.geStart
  before t' h0 h := by
    dsimp only at h ⊢
    by_cases e : t' = t
    · subst e; rw [Function.update_self] at h; omega
    · rw [Function.update_of_ne e] at h; exact I.before t' h0 h
  after t' h0 h := by
    dsimp only at h ⊢
    by_cases e : t' = t
    · subst e; exact I.after t' h0 h3
    · rw [Function.update_of_ne e] at h; exact I.after t' h0 h
  barrier hk t' h u := by
    dsimp only at h ⊢
    have hall : ∀ u, 5 * k + 1 ≤ s.place u := by
      by_cases e : t' = t
      · subst e; rw [Function.update_self] at h; exact I.barrier hk t' (hm hk h)
      · rw [Function.update_of_ne e] at h; exact I.barrier hk t' h
    by_cases e : u = t
    · subst e; rw [Function.update_self]; exact (hall u).trans h1
    · rw [Function.update_of_ne e]; exact hall u
  near := I.near
  exact := I.exact

/-- All threads move on without leaving the part. -/
theorem TInv.moveAll {p : Threads} {s : TState p.count} {k : ℕ} (I : TInv p s k) (a : ℕ)
    (h1 : ∀ t, s.place t ≤ a) (h2 : a ≤ 5 * k + 3) (h3 : ∀ t, 5 * k ≤ s.place t) (h4 : 5 * k ≤ a) :
    TInv p { s with place := fun _ => a } k where
  window t := by dsimp only; omega
  start _ t := by dsimp only; omega
  geStart := I.geStart
  before t h0 h := by dsimp only at h; omega
  after t h0 _ := I.after t h0 (h3 t)
  barrier _ t h _ := h
  near := I.near
  exact := I.exact

theorem TInv.step {p : Threads} (hn : 0 < p.count) {s s' : TState p.count} {k : ℕ} (I : TInv p s k)
    (h : TStep p s s') : ∃ k', TInv p s' k' := by
  cases h with
  | skipMeasure i t hi hm h =>
    have w := I.window t
    obtain rfl : i = k := by omega
    exact ⟨i, I.move t _ (by omega) (by omega) (by omega) fun hk => absurd hk hm⟩
  | measure i hi hm h =>
    have w := I.window ⟨0, hn⟩
    have := h ⟨0, hn⟩
    obtain rfl : i = k := by omega
    exact ⟨i, I.moveAll _ (fun t => by rw [h t]; omega) (by omega) (fun t => by rw [h t]) (by omega)⟩
  | skipSave i t hs h =>
    have w := I.window t
    obtain rfl : i = k := by omega
    exact ⟨i, I.move t _ (by omega) (by omega) (by omega) fun _ _ => by omega⟩
  | write i t hs h hf =>
    have w := I.window t
    obtain rfl : i = k := by omega
    have J := I.move t (5 * i + 2) (by omega) (by omega) (by omega) fun _ _ => by omega
    have hlt : p.start < i := lt_of_le_of_ne I.geStart (Ne.symm hs.2)
    have w0 := I.window ⟨0, hn⟩
    have hnear : s.flow = i ∨ s.flow + 1 = i := by
      by_cases e : s.place ⟨0, hn⟩ + 1 = 5 * i
      · exact Or.inr (I.before _ rfl e)
      · exact Or.inl (I.after ⟨0, hn⟩ rfl (by omega))
    have hex : p.count = 1 ∨ p.measures i → s.flow = i := by
      rintro (h1 | h1)
      · have : t = ⟨0, hn⟩ := Fin.ext (by have := t.isLt; dsimp only; omega)
        exact I.after t (by rw [this]) (by omega)
      · have := I.barrier h1 t (by omega) ⟨0, hn⟩
        exact I.after ⟨0, hn⟩ rfl (by omega)
    refine ⟨i, J.window, J.start, J.geStart, J.before, J.after, J.barrier, ?_, ?_⟩
    · intro e he
      rcases List.mem_cons.1 he with rfl | he
      · exact hnear
      · exact I.near e he
    · intro e he
      rcases List.mem_cons.1 he with rfl | he
      · exact hex
      · exact I.exact e he
  | skipSingle i t w' hs h hf =>
    have w := I.window t
    obtain rfl : i = k := by omega
    exact ⟨i, I.move t _ (by omega) (by omega) (by omega) fun _ _ => by omega⟩
  | endSingle i h =>
    have w := I.window ⟨0, hn⟩
    have := h ⟨0, hn⟩
    obtain rfl : i = k := by omega
    exact ⟨i, I.moveAll _ (fun t => by rw [h t]; omega) (by omega) (fun t => by rw [h t]; omega) (by omega)⟩
  | update i h =>
    have w := I.window ⟨0, hn⟩
    have h0 := h ⟨0, hn⟩
    obtain rfl : i = k := by omega
    have hfl := I.after ⟨0, hn⟩ rfl (by omega)
    have := I.geStart
    refine ⟨i + 1, fun t => by dsimp only; omega, fun hk => by omega, by omega, fun t _ _ => by dsimp only; omega,
      fun t _ ht => by dsimp only at ht; omega, fun _ t ht => by dsimp only at ht; omega, I.near, I.exact⟩
  | master i t ht h =>
    have w := I.window t
    obtain rfl : i + 1 = k := by omega
    refine ⟨i + 1, ?_, ?_, I.geStart, ?_, fun _ _ _ => rfl, ?_, I.near, I.exact⟩
    · intro t'
      dsimp only
      by_cases e : t' = t
      · subst e; rw [Function.update_self]; omega
      · rw [Function.update_of_ne e]; exact I.window t'
    · intro hk t'
      dsimp only
      by_cases e : t' = t
      · subst e; rw [Function.update_self]
      · rw [Function.update_of_ne e]; exact I.start hk t'
    · intro t' h0 h'
      have : t' = t := Fin.ext (by omega)
      subst this
      dsimp only at h'
      rw [Function.update_self] at h'
      omega
    · intro hk t' h' u
      dsimp only at h' ⊢
      by_cases e : t' = t
      · subst e; rw [Function.update_self] at h'; omega
      · rw [Function.update_of_ne e] at h'
        have := I.barrier hk t' h' t
        omega
  | notMaster i t ht h =>
    have w := I.window t
    obtain rfl : i + 1 = k := by omega
    refine ⟨i + 1, ?_, ?_, I.geStart, ?_, ?_, ?_, I.near, I.exact⟩
    · intro t'
      dsimp only
      by_cases e : t' = t
      · subst e; rw [Function.update_self]; omega
      · rw [Function.update_of_ne e]; exact I.window t'
    · intro hk t'
      dsimp only
      by_cases e : t' = t
      · subst e; rw [Function.update_self]
      · rw [Function.update_of_ne e]; exact I.start hk t'
    · intro t' h0 h'
      dsimp only at h' ⊢
      have e : t' ≠ t := fun e => ht (e ▸ h0)
      rw [Function.update_of_ne e] at h'
      exact I.before t' h0 h'
    · intro t' h0 h'
      dsimp only at h' ⊢
      have e : t' ≠ t := fun e => ht (e ▸ h0)
      rw [Function.update_of_ne e] at h'
      exact I.after t' h0 h'
    · intro hk t' h' u
      dsimp only at h' ⊢
      by_cases e : t' = t
      · subst e; rw [Function.update_self] at h'; omega
      · rw [Function.update_of_ne e] at h'
        have := I.barrier hk t' h' t
        omega

theorem TReach.inv {p : Threads} (hn : 0 < p.count) {s : TState p.count} (h : TReach p s) : ∃ k, TInv p s k := by
  induction h with
  | init => exact ⟨_, TInv.init p⟩
  | step _ hs ih =>
    obtain ⟨k, I⟩ := ih
    exact I.step hn hs

/-- **C56.** With one thread, or when the saved trajectory is also a measured one, the header of the configuration saved
in iteration `i`, that is after `i` updates, holds `i`: under every schedule, for all intervals and starting points. -/
theorem C56_partial (p : Threads) (hn : 0 < p.count) (s : TState p.count) (h : TReach p s) (i w : ℕ)
    (hw : (i, w) ∈ s.headers) (hc : p.count = 1 ∨ i % p.Nmeasure = 0) : w = i := by
  obtain ⟨k, I⟩ := h.inv hn
  exact I.exact _ hw hc

/-- **C56.** Under every schedule the number is right or too small by one. -/
theorem C56_near (p : Threads) (hn : 0 < p.count) (s : TState p.count) (h : TReach p s) (i w : ℕ)
    (hw : (i, w) ∈ s.headers) : w = i ∨ w + 1 = i := by
  obtain ⟨k, I⟩ := h.inv hn
  exact I.near _ hw

/-- The threads pass a place without barrier one after the other. -/
theorem TReach.sweep (p : Threads) (a b flow m0 : ℕ) (hdr : List (ℕ × ℕ))
    (hstep : ∀ t : Fin p.count, m0 ≤ t.val → ∀ place : Fin p.count → ℕ, place t = a →
      TStep p ⟨flow, place, hdr⟩ ⟨flow, Function.update place t b, hdr⟩)
    (h : TReach p ⟨flow, fun t => if t.val < m0 then b else a, hdr⟩) :
    TReach p ⟨flow, fun _ => b, hdr⟩ := by
  have key : ∀ d, TReach p ⟨flow, fun t => if t.val < m0 + d then b else a, hdr⟩ := by
    intro d
    induction d with
    | zero => exact h
    | succ d ih =>
      by_cases hlt : m0 + d < p.count
      · have := TReach.step ih (hstep ⟨m0 + d, hlt⟩ (by dsimp only; omega) _ (if_neg (by dsimp only; omega)))
        refine cast ?_ this
        congr 2
        funext t
        by_cases e : t = ⟨m0 + d, hlt⟩
        · subst e; rw [Function.update_self, if_pos (by dsimp only; omega)]
        · rw [Function.update_of_ne e]
          have : t.val ≠ m0 + d := fun h => e (Fin.ext h)
          by_cases h1 : t.val < m0 + d
          · rw [if_pos h1, if_pos (by omega)]
          · rw [if_neg h1, if_neg (by omega)]
      · refine cast ?_ ih
        congr 2
        funext t
        rw [if_pos (by have := t.isLt; omega), if_pos (by have := t.isLt; omega)]
  refine cast ?_ (key p.count)
  congr 2
  funext t
  rw [if_pos (by have := t.isLt; omega)]

theorem update_zero {n : ℕ} (hn : 0 < n) (a b : ℕ) :
    Function.update (fun _ => a) (⟨0, hn⟩ : Fin n) b = fun t => if t.val < 1 then b else a := by
  funext t
  by_cases e : t = ⟨0, hn⟩
  · subst e; rw [Function.update_self, if_pos (by dsimp only; omega)]
  · rw [Function.update_of_ne e, if_neg]
    intro h
    exact e (Fin.ext (by dsimp only; omega))

/-- The threads can always go through iteration `j` together up to the master construct. -/
theorem TReach.toMaster (p : Threads) (hn : 0 < p.count) (j : ℕ) (hj : j < p.iterations)
    (hdr : List (ℕ × ℕ)) (hh : ∀ e ∈ hdr, e.1 < j) (h : TReach p ⟨j, fun _ => 5 * j, hdr⟩) :
    ∃ hdr', (∀ e ∈ hdr', e.1 < j + 1) ∧ (p.saves j → (j, j) ∈ hdr') ∧ hdr ⊆ hdr' ∧
      TReach p ⟨j, fun _ => 5 * j + 4, hdr'⟩ := by
  classical
  have h1 : TReach p ⟨j, fun _ => 5 * j + 1, hdr⟩ := by
    by_cases hm : p.measures j
    · exact h.step (TStep.measure _ j hj hm fun _ => rfl)
    · refine TReach.sweep p (5 * j) _ _ 0 _ (fun t _ place ht => TStep.skipMeasure ⟨j, place, hdr⟩ j t hj hm ht) ?_
      simpa using h
  by_cases hs : p.saves j
  · have hfresh : ∀ w, (j, w) ∉ hdr := fun w hw => absurd (hh _ hw) (by dsimp only; omega)
    have h2 := h1.step (TStep.write _ j ⟨0, hn⟩ hs rfl hfresh)
    dsimp only at h2
    rw [update_zero hn] at h2
    have h3 := TReach.sweep p (5 * j + 1) (5 * j + 2) j 1 ((j, j) :: hdr)
      (fun t _ place ht => TStep.skipSingle ⟨j, place, _⟩ j t j hs ht (List.mem_cons_self ..)) h2
    have h4 := (h3.step (TStep.endSingle _ j fun _ => rfl)).step (TStep.update _ j fun _ => rfl)
    refine ⟨_, ?_, fun _ => List.mem_cons_self .., List.subset_cons_self .., h4⟩
    intro e he
    rcases List.mem_cons.1 he with rfl | he
    · dsimp only; omega
    · have := hh e he; omega
  · have h3 : TReach p ⟨j, fun _ => 5 * j + 3, hdr⟩ := by
      refine TReach.sweep p (5 * j + 1) _ _ 0 _ (fun t _ place ht => TStep.skipSave ⟨j, place, hdr⟩ j t hs ht) ?_
      simpa using h1
    exact ⟨hdr, fun e he => by have := hh e he; omega, fun h => absurd h hs, List.Subset.refl _,
      h3.step (TStep.update _ j fun _ => rfl)⟩

/-- The threads can always do iterations together. -/
theorem TReach.together (p : Threads) (hn : 0 < p.count) (d : ℕ) (hd : p.start + d ≤ p.iterations) :
    ∃ hdr, (∀ e ∈ hdr, e.1 < p.start + d) ∧ (∀ j < p.start + d, p.start ≤ j → p.saves j → (j, j) ∈ hdr) ∧
      TReach p ⟨p.start + d, fun _ => 5 * (p.start + d), hdr⟩ := by
  induction d with
  | zero => exact ⟨[], by simp, fun j h1 h2 => by omega, TReach.init⟩
  | succ d ih =>
    obtain ⟨hdr, hh, hsv, h⟩ := ih (by omega)
    obtain ⟨hdr', hh', hs', hsub, h'⟩ := TReach.toMaster p hn _ (by omega) hdr hh h
    have h1 := h'.step (TStep.master _ (p.start + d) ⟨0, hn⟩ rfl rfl)
    dsimp only at h1
    rw [update_zero hn] at h1
    have h2 := TReach.sweep p (5 * (p.start + d) + 4) (5 * (p.start + d + 1)) (p.start + d + 1) 1 hdr'
      (fun t ht place hp => TStep.notMaster ⟨_, place, hdr'⟩ _ t (by omega) hp) h1
    refine ⟨hdr', hh', ?_, h2⟩
    intro j hj hge hs
    by_cases e : j = p.start + d
    · subst e; exact hs' hs
    · exact hsub (hsv j (by omega) hge hs)

/-- **C56.** With two or more threads, for every saved trajectory that is not a measured one there is a schedule that
writes the number of the trajectory before. -/
theorem C56_race_fails (p : Threads) (hn : 2 ≤ p.count) (i : ℕ) (h1 : p.start < i) (h2 : i < p.iterations)
    (hs : i % p.Nsave = 0) (hm : i % p.Nmeasure ≠ 0) : ∃ s, TReach p s ∧ (i, i - 1) ∈ s.headers := by
  obtain ⟨hdr, hh, -, h⟩ := TReach.together p (by omega) (i - 1 - p.start) (by omega)
  rw [show p.start + (i - 1 - p.start) = i - 1 by omega] at hh h
  obtain ⟨hdr', hh', -, -, h'⟩ := TReach.toMaster p (by omega) _ (by omega) hdr hh h
  have e1 := h'.step (TStep.notMaster _ (i - 1) ⟨1, by omega⟩ (by simp) rfl)
  dsimp only at e1
  rw [show 5 * (i - 1 + 1) = 5 * i by omega] at e1
  have e2 := e1.step (TStep.skipMeasure _ i ⟨1, by omega⟩ h2 hm (by simp))
  have e3 := e2.step (TStep.write _ i ⟨1, by omega⟩ ⟨hs, by omega⟩ (by simp)
    (fun w hw => absurd (hh' _ hw) (by dsimp only; omega)))
  exact ⟨_, e3, List.mem_cons_self ..⟩

/-- **C56.** There is always a schedule with the right number in every header, so the partial statement is not about
runs without headers, and no schedule has to stop. -/
theorem C56_right_schedule (p : Threads) (hn : 0 < p.count) (hst : p.start ≤ p.iterations) :
    ∃ s, TReach p s ∧ (∀ t, s.place t = 5 * p.iterations) ∧
      ∀ i, p.start < i → i < p.iterations → i % p.Nsave = 0 → (i, i) ∈ s.headers := by
  obtain ⟨hdr, -, hsv, h⟩ := TReach.together p hn (p.iterations - p.start) (by omega)
  rw [show p.start + (p.iterations - p.start) = p.iterations by omega] at hsv h
  exact ⟨_, h, fun _ => rfl, fun i h1 h2 h3 => hsv i h2 (by omega) ⟨h3, by omega⟩⟩

/-- Two threads, saved every three updates, measured every two: the hypotheses of `C56_race_fails` hold for
trajectory 3 and those of `C56_partial` for trajectory 6. -/
example : (∃ s, TReach ⟨2, 0, 10, 3, 2⟩ s ∧ (3, 2) ∈ s.headers) ∧ 6 % 3 = 0 ∧ 6 % 2 = 0 :=
  ⟨C56_race_fails ⟨2, 0, 10, 3, 2⟩ (by decide) 3 (by decide) (by decide) (by decide) (by decide), rfl, rfl⟩

end GLU.Run
