import Verif.Smear.ImproveTask
import Verif.Smear.ImproveProps
import Verif.Sched.Props
import Verif.Draught.ImprovedProps

/-! # Parallel update with improved staples: the colouring makes it independent of the schedule (C64) -/

namespace GLU.Smear

open GLU.Geom GLU.Sched GLU.Mat GLU.Field GLU.Draught

variable {NC : ℕ} {L : Latt}

/-- The improved staple depends on no other links than those listed. -/
theorem improve_local {lat lat' : Gauge} {loop : Bool} {i mu dir : ℕ} (h : ∀ l ∈ stapleLinks L loop i mu dir, lat l = lat' l)
    (w : ℝ × ℝ × ℝ) (stap : Arr ℂ) :
    all_staples_improve NC L lat loop w i mu dir stap = all_staples_improve NC L lat' loop w i mu dir stap := by
  have hp : ∀ nu < dir, ∀ l ∈ passLinks L loop i mu dir nu, lat l = lat' l := fun nu hnu l hl =>
    h l (List.mem_flatMap.2 ⟨nu, List.mem_range.2 hnu, hl⟩)
  have sums : improveSums NC L lat loop i mu dir = improveSums NC L lat' loop i mu dir := by
    unfold improveSums
    refine forN_congr (fun nu hnu s => ?_) _
    unfold improveDir
    by_cases hc : nu = mu
    · rw [if_pos hc, if_pos hc]
    · rw [if_neg hc, if_neg hc]
      have hq := hp nu hnu
      unfold passLinks at hq
      rw [if_neg hc] at hq
      dsimp only at hq
      simp only [List.mem_append, or_imp, forall_and] at hq
      obtain ⟨hq, hl⟩ := hq
      simp only [List.forall_mem_cons, List.not_mem_nil, false_imp_iff, implies_true, and_true] at hq
      have one : loop = true → ∀ c, oneLoop NC L lat i mu dir nu c = oneLoop NC L lat' i mu dir nu c := by
        rintro rfl c
        unfold oneLoop
        refine forN_congr (fun rho hr s => ?_) c
        by_cases hc : rho ≠ mu ∧ rho ≠ nu
        · rw [if_pos hc, if_pos hc]
          have hl := fun l hl' => hl l (by
            rw [if_pos rfl]
            refine List.mem_flatMap.2 ⟨rho, List.mem_range.2 hr, ?_⟩
            rw [if_pos hc]
            exact hl')
          simp only [List.forall_mem_cons, List.not_mem_nil, false_imp_iff, implies_true, and_true] at hl
          simp only [hl]
        · rw [if_neg hc, if_neg hc]
      dsimp only
      cases loop
      · simp only [hq]
        simp
      · simp only [hq, one rfl]
  unfold all_staples_improve
  rw [sums]

theorem exec_readLinks (own : Loc) (m : Loc → Arr ℂ) (ls : List Loc) (f : Loc → Arr ℂ) (k : (Loc → Arr ℂ) → Prog (Arr ℂ)) :
    ∃ g, exec own (readLinks ls f k) m = exec own (k g) m ∧ (∀ l ∈ ls, g l = m l) ∧ ∀ l ∉ ls, g l = f l := by
  induction ls generalizing f with
  | nil => exact ⟨f, rfl, by simp, fun _ _ => rfl⟩
  | cons l ls ih =>
    obtain ⟨g, e, h1, h2⟩ := ih (Function.update f l (m l))
    refine ⟨g, e, ?_, ?_⟩
    · intro l' hl'
      by_cases hm : l' ∈ ls
      · exact h1 l' hm
      · obtain rfl : l' = l := by simpa [hm] using hl'
        rw [h2 _ hm, Function.update_self]
    · intro l' hl'
      rw [List.mem_cons, not_or] at hl'
      rw [h2 _ hl'.2, Function.update_of_ne hl'.1]

theorem exec_improveTask (loop : Bool) (w : ℝ × ℝ × ℝ) (upd : Arr ℂ → Arr ℂ → List (Arr ℂ)) (mu i : ℕ) (m : Gauge) :
    exec (i, mu) (improveTask NC L loop w upd mu i) m =
      (upd (all_staples_improve NC L m loop w i mu L.ND (zero_mat NC scratch)) (m (i, mu))).getLastD (m (i, mu)) := by
  unfold improveTask
  obtain ⟨g, e, h1, _⟩ := exec_readLinks (i, mu) m (stapleLinks L loop i mu L.ND) (fun _ => scratch) fun f =>
    .read (i, mu) fun U => writeAll (upd (all_staples_improve NC L f loop w i mu L.ND (zero_mat NC scratch)) U)
  rw [e, exec, exec_writeAll, improve_local h1]

theorem readsIn_readLinks {P : Loc → Prop} (ls : List Loc) (hl : ∀ l ∈ ls, P l) (f : Loc → Arr ℂ) (k : (Loc → Arr ℂ) → Prog (Arr ℂ))
    (hk : ∀ g, Sched.ReadsIn P (k g)) : Sched.ReadsIn P (readLinks ls f k) := by
  induction ls generalizing f with
  | nil => exact hk f
  | cons l ls ih => exact ⟨hl l (by simp), fun v => ih (fun l' h => hl l' (by simp [h])) _⟩

/-- No link of direction `mu` that the improved staple of the link `mu` at `i` reads has the colour of `i`. -/
theorem reads_other_colours (hL : Valid L) (h4 : L.ND = 4) (hd : ∀ mu < 4, L.dims mu % 4 = 0) (loop : Bool) {i mu : ℕ} (hmu : mu < 4)
    {l : Loc} (hl : l ∈ stapleLinks L loop i mu 4) (hm : l.2 = mu) : colour L mu l.1 ≠ colour L mu i := by
  obtain ⟨nu, hnu, hl⟩ := List.mem_flatMap.1 hl
  rw [List.mem_range] at hnu
  unfold passLinks at hl
  split at hl
  · simp at hl
  next hne =>
  have f := fun (i : ℕ) {nu : ℕ} (h : nu < 4) => colour_neighbor hL h4 hd i hmu h
  have b := fun (i : ℕ) {nu : ℕ} (h : nu < 4) => colour_back hL h4 hd i hmu h
  dsimp only at hl
  rw [List.mem_append] at hl
  rcases hl with hl | hl
  · simp only [List.mem_cons, List.not_mem_nil, or_false] at hl
    rcases hl with rfl | rfl | rfl | rfl | rfl | rfl | rfl | rfl | rfl | rfl | rfl | rfl | rfl | rfl | rfl | rfl | rfl | rfl | rfl |
      rfl | rfl | rfl | rfl | rfl | rfl | rfl | rfl | rfl | rfl | rfl | rfl | rfl | rfl | rfl <;> dsimp only at hm ⊢ <;>
      first
      | exact absurd hm hne
      | (simp only [f _ hnu, b _ hnu, f _ hmu, b _ hmu, if_neg hne, if_true]
         generalize colour L mu i = c
         revert c
         decide)
  · split at hl
    · obtain ⟨rho, hrho, hl⟩ := List.mem_flatMap.1 hl
      rw [List.mem_range] at hrho
      split at hl
      · next hr =>
        simp only [List.mem_cons, List.not_mem_nil, or_false] at hl
        rcases hl with rfl | rfl | rfl | rfl | rfl | rfl | rfl | rfl | rfl | rfl <;> dsimp only at hm ⊢ <;>
          first
          | exact absurd hm hne
          | exact absurd hm hr.1
          | (simp only [f _ hnu, b _ hnu, f _ hmu, b _ hmu, f _ hrho, b _ hrho, if_neg hne, if_neg hr.1, if_true]
             generalize colour L mu i = c
             revert c
             decide)
      · simp at hl
    · simp at hl

/-- Update all links of direction `mu` at the sites of `S` at the same time. -/
noncomputable def improvedUpdate (NC : ℕ) (L : Latt) (loop : Bool) (w : ℝ × ℝ × ℝ) (upd : Arr ℂ → Arr ℂ → List (Arr ℂ)) (mu : ℕ)
    (S : List ℕ) (lat : Gauge) : Gauge := fun l =>
  if l.2 = mu ∧ l.1 ∈ S then (upd (all_staples_improve NC L lat loop w l.1 mu L.ND (zero_mat NC scratch)) (lat l)).getLastD (lat l)
  else lat l

/-- **C64**, schedules: with the lists of the colouring on a lattice whose extents are multiples of four, whatever the
interleaving of the accesses of the iterations of one loop, once all have finished the links are the simultaneous update
of the initial ones, with or without the one-loop term.  Missing: `init_improved_cb` itself refuses these lattices. -/
theorem C64_schedule_partial (hL : Valid L) (h4 : L.ND = 4) (hd : ∀ mu < 4, L.dims mu % 4 = 0) {sort : List ℕ → List ℕ}
    (hs : ∀ l, (sort l).Perm l) {Ns : ℕ → ℕ} {sq : ℕ → List ℕ} (hb : improved_body sort L = .ok Ns sq)
    (loop : Bool) (w : ℝ × ℝ × ℝ) (upd : Arr ℂ → Arr ℂ → List (Arr ℂ)) {cmu : ℕ} (hc : cmu < 16)
    (lat : Gauge) (sched : List ℕ) (hsc : ∀ x ∈ sched, x ∈ sq cmu)
    (hdone : ∀ x ∈ sq cmu, (run (cmu / 4) ⟨improveTask NC L loop w upd (cmu / 4), lat⟩ sched).task x = .done) :
    (run (cmu / 4) ⟨improveTask NC L loop w upd (cmu / 4), lat⟩ sched).mem =
      improvedUpdate NC L loop w upd (cmu / 4) (sq cmu) lat := by
  obtain ⟨Ns', sq', hb', hq⟩ := C64_colouring_partial hL h4 hd hs
  rw [hb] at hb'
  injection hb' with e1 e2
  subst e1 e2
  obtain ⟨mu, hmu⟩ : ∃ mu, mu = cmu / 4 := ⟨_, rfl⟩
  rw [← hmu] at hdone ⊢
  have hm : mu < 4 := by omega
  have hmem := ((hq mu hm).2 (cmu % 4) (Nat.mod_lt _ (by norm_num))).2
  rw [show cmu % 4 + 4 * mu = cmu by omega] at hmem
  have h0 : Sched.Inv (sq cmu) mu (improveTask NC L loop w upd mu) lat ⟨improveTask NC L loop w upd mu, lat⟩ := by
    refine ⟨fun _ _ => rfl, ?_, ?_⟩
    · intro x hx
      refine readsIn_readLinks _ (fun l hl => ?_) _ _ fun g => ⟨Or.inl rfl, fun _ => readsIn_writeAll _ _⟩
      rw [h4] at hl
      by_cases e : l.2 = mu
      · right; right
        intro hS
        refine reads_other_colours hL h4 hd loop hm hl e ?_
        rw [← ((hmem _).1 hS).2, ← ((hmem _).1 hx).2]
      · exact Or.inr (Or.inl e)
    · intro x _
      simp only [Function.update_eq_self]
  have h := h0.run sched hsc
  funext l
  obtain ⟨y, nu⟩ := l
  unfold improvedUpdate
  by_cases hl : nu = mu ∧ y ∈ sq cmu
  · rw [if_pos hl]
    obtain ⟨rfl, hy⟩ := hl
    have hv := h.value y hy
    rw [hdone y hy, exec, Function.update_self, exec_improveTask] at hv
    exact hv
  · rw [if_neg hl]
    refine h.frame (y, nu) ?_
    by_cases e : nu = mu
    · exact Or.inr fun hy => hl ⟨e, hy⟩
    · exact Or.inl e

/-- The parallelograms that the one-loop term leaves out (`C90_one_loop_fails`) would not fit the colouring: they read the
link at `i + nu - rho`, which has the colour of `i`. -/
theorem C64_full_one_loop_fails (hL : Valid L) (h4 : L.ND = 4) (hd : ∀ mu < 4, L.dims mu % 4 = 0) {mu nu rho : ℕ} (hmu : mu < 4)
    (hnu : nu < 4) (hrho : rho < 4) (h1 : nu ≠ mu) (h2 : rho ≠ mu) (i : ℕ) :
    colour L mu (back L (neighbor L i nu) rho) = colour L mu i := by
  rw [colour_back hL h4 hd _ hmu hrho, colour_neighbor hL h4 hd _ hmu hnu, if_neg h1, if_neg h2]
  ring

/-- The hypotheses can be met: every list has schedules that finish all iterations. -/
example : ∃ Ns sq, improved_body id L4484 = .ok Ns sq ∧ ∃ sched : List ℕ, (∀ x ∈ sched, x ∈ sq 5) ∧
    ∀ x ∈ sq 5, (run 1 ⟨improveTask 3 L4484 false (5 / 3, -1 / 12, 0) (fun s _ => [s]) 1, fun _ => scratch⟩ sched).task x = .done := by
  obtain ⟨Ns, sq, h, _⟩ := C64_colouring_partial valid_L4484 rfl (by decide) (sort := id) fun l => List.Perm.refl l
  exact ⟨Ns, sq, h, C09_sequential_schedules_finish 1 (sq 5) _⟩

end GLU.Smear
