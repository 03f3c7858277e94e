import Verif.Sched.Lemmas
import Verif.Draught.Props

/-!
# Property C09: schedule independence of single-colour updates
-/

namespace GLU.Sched

open GLU.Geom GLU.Draught

/-- The links after updating all links of direction `mu` on the sites of `S` at
the same time, each from its staple and itself. -/
def simultaneous {M : Type} (L : Latt) (ops : MatOps M) (zero : M) (upd : M → M → List M)
    (mu : ℕ) (S : List ℕ) (f : Loc → M) : Loc → M := fun l =>
  if l.2 = mu ∧ l.1 ∈ S then (upd (all_staples L ops f l.1 mu L.ND zero) (f l)).getLastD (f l)
  else f l

/-- C09: whatever the interleaving of the accesses of the iterations of one
colour loop, once all iterations have finished the links are the simultaneous
update of the initial ones.  Finishing is what the barrier at the end of the
parallel loop guarantees. -/
theorem C09_schedule_independent {M : Type} {L : Latt} (hL : Valid L) (ops : MatOps M) (zero : M)
    (upd : M → M → List M) {nc : ℕ} {Ns : ℕ → ℕ} {sq : ℕ → List ℕ}
    (hd : ∀ mu < L.ND, L.dims mu % 2 = 1 → L.dims mu % 3 ≠ 1)
    (hcb : init_cb L (volume L) L.ND = .ok nc Ns sq) {c mu : ℕ} (hc : c < nc) (hmu : mu < L.ND)
    (f : Loc → M) (sched : List ℕ) (hs : ∀ x ∈ sched, x ∈ sq c)
    (hdone : ∀ x ∈ sq c, (run mu ⟨linkTask L ops zero upd mu, f⟩ sched).task x = .done) :
    (run mu ⟨linkTask L ops zero upd mu, f⟩ sched).mem =
      simultaneous L ops zero upd mu (sq c) f := by
  have hdiff := C08_neighbours_differ_partial hL hd hcb c hc
  have h0 : Inv (sq c) mu (linkTask L ops zero upd mu) f ⟨linkTask L ops zero upd mu, f⟩ := by
    refine ⟨fun _ _ => rfl, ?_, ?_⟩
    · intro x hx
      refine readsIn_stapleProg L ops _ x mu _ ?_ _ _ ?_
      · intro j hj
        have hj' := List.mem_range.1 hj
        have hne : stapleDir mu j ≠ mu := by unfold stapleDir; split <;> omega
        have hlt : stapleDir mu j < L.ND := by unfold stapleDir; split <;> omega
        have hn := hdiff x hx _ hlt
        exact ⟨Or.inr (Or.inl hne), Or.inr (Or.inr hn.1), Or.inr (Or.inl hne),
          Or.inr (Or.inl hne), Or.inr (Or.inr hn.2), Or.inr (Or.inl hne)⟩
      · intro v
        exact ⟨Or.inl rfl, fun _ => readsIn_writeAll _ _⟩
    · intro x _
      simp only [Function.update_eq_self]
  have h := h0.run sched hs
  funext l
  obtain ⟨y, nu⟩ := l
  unfold simultaneous
  by_cases hl : nu = mu ∧ y ∈ sq c
  · rw [if_pos hl]
    obtain ⟨rfl, hy⟩ := hl
    have hv := h.value y hy
    rw [hdone y hy, exec, Function.update_self, exec_linkTask] at hv
    exact hv
  · rw [if_neg hl]
    refine h.frame (y, nu) ?_
    by_cases e : nu = mu
    · exact Or.inr fun hy => hl ⟨e, hy⟩
    · exact Or.inl e

theorem run_alone {M : Type} (mu x : ℕ) : ∀ (p : Prog M) (s : Config M), s.task x = p →
    ∃ n, ((run mu s (List.replicate n x)).task x = .done) ∧
      ∀ y ≠ x, (run mu s (List.replicate n x)).task y = s.task y := by
  intro p
  induction p with
  | done => exact fun s h => ⟨0, h, fun _ _ => rfl⟩
  | read l k ih =>
    intro s h
    obtain ⟨n, h1, h2⟩ := ih (s.mem l) (stepAt mu s x) (by
      simp only [stepAt, h, Function.update_self])
    refine ⟨n + 1, ?_, ?_⟩
    · rw [List.replicate_succ, run, List.foldl_cons]; exact h1
    · intro y hy
      rw [List.replicate_succ, run, List.foldl_cons]
      refine (h2 y hy).trans ?_
      simp only [stepAt, h, Function.update_of_ne hy]
  | write v k ih =>
    intro s h
    obtain ⟨n, h1, h2⟩ := ih (stepAt mu s x) (by
      simp only [stepAt, h, Function.update_self])
    refine ⟨n + 1, ?_, ?_⟩
    · rw [List.replicate_succ, run, List.foldl_cons]; exact h1
    · intro y hy
      rw [List.replicate_succ, run, List.foldl_cons]
      refine (h2 y hy).trans ?_
      simp only [stepAt, h, Function.update_of_ne hy]

/-- Finishing schedules exist, in particular every sequential one: for each order
of the sites there is a schedule that completes them one after the other. -/
theorem C09_sequential_schedules_finish {M : Type} (mu : ℕ) (order : List ℕ) :
    ∀ s : Config M, ∃ sched : List ℕ, (∀ x ∈ sched, x ∈ order) ∧
      ∀ x ∈ order, (run mu s sched).task x = .done := by
  induction order with
  | nil => exact fun s => ⟨[], by simp, by simp⟩
  | cons x xs ih =>
    intro s
    obtain ⟨n, h1, _⟩ := run_alone mu x (s.task x) s rfl
    obtain ⟨sched, h3, h4⟩ := ih (run mu s (List.replicate n x))
    refine ⟨List.replicate n x ++ sched, ?_, ?_⟩
    · intro y hy
      rcases List.mem_append.1 hy with h | h
      · rw [List.eq_of_mem_replicate h]; simp
      · exact List.mem_cons_of_mem _ (h3 y h)
    · intro y hy
      have hrun : run mu s (List.replicate n x ++ sched) = run mu (run mu s (List.replicate n x)) sched :=
        List.foldl_append
      rw [hrun]
      rcases List.mem_cons.1 hy with rfl | h
      · -- a finished iteration stays finished
        have stay : ∀ (t : Config M), t.task y = .done → ∀ l : List ℕ, (run mu t l).task y = .done := by
          intro t ht l
          induction l generalizing t with
          | nil => exact ht
          | cons z zs ih2 =>
            rw [run, List.foldl_cons]
            refine ih2 _ ?_
            unfold stepAt
            split
            · exact ht
            · next h =>
              by_cases e : y = z
              · subst e; rw [ht] at h; cases h
              · simp only [Function.update_of_ne e]; exact ht
            · next h =>
              by_cases e : y = z
              · subst e; rw [ht] at h; cases h
              · simp only [Function.update_of_ne e]; exact ht
        exact stay _ h1 sched
      · exact h4 y h

/-! The colour condition is needed: on the shape 7 x 2 there are two finishing
schedules of one colour with different results. -/

/-- The two-dimensional shape 7 x 2. -/
def L72 : Latt := ⟨2, fun mu => if mu = 0 then 7 else 2⟩

theorem valid_L72 : Valid L72 := by
  refine ⟨by decide, ?_, by decide⟩
  intro mu _; show 0 < (if mu = 0 then 7 else 2); split <;> omega

/-- 1 x 1 matrices with real entries. -/
def intOps : MatOps ℤ := ⟨(· * ·), (· * ·), (· * ·), (· + ·)⟩

/-- Colour 0 of the shape 7 x 2. -/
def colour0 : List ℕ := (List.range 14).filter fun i => get_midx L72 i 2 3 = 0

def tasks72 : Config ℤ := ⟨linkTask L72 intOps 0 (fun stap _ => [stap]) 1, fun _ => 1⟩

theorem C09_extent_seven_race :
    (∃ Ns sq, init_cb L72 (volume L72) L72.ND = .ok 3 Ns sq ∧ sq 0 = colour0) ∧
    ∃ s1 s2 : List ℕ, (∀ x ∈ s1, x ∈ colour0) ∧ (∀ x ∈ s2, x ∈ colour0) ∧
      (∀ x ∈ colour0, (run 1 tasks72 s1).task x matches .done) ∧
      (∀ x ∈ colour0, (run 1 tasks72 s2).task x matches .done) ∧
      (run 1 tasks72 s1).mem ≠ (run 1 tasks72 s2).mem := by
  constructor
  · obtain ⟨nc, Ns, sq, h⟩ := (C07_success_iff valid_L72 (le_refl L72.ND)).2.2 ⟨0, by decide, by decide⟩
    obtain ⟨hnc, h2, _, hsq, _⟩ := init_cb_ok valid_L72 (le_refl L72.ND) h
    have : nc = 3 := by
      rcases hnc with rfl | rfl
      · exact absurd (h2 rfl 2) (by decide)
      · rfl
    subst this
    refine ⟨Ns, sq, by rw [volume_eq _ valid_L72.nd]; exact h, ?_⟩
    rw [hsq]
    have : Finset.prod (Finset.range L72.ND) L72.dims = 14 := by decide
    show List.filter _ (List.range (radix L72.dims L72.ND)) = _
    rw [show radix L72.dims L72.ND = 14 from this]
    rfl
  · refine ⟨colour0.flatMap (List.replicate 8), colour0.reverse.flatMap (List.replicate 8),
      by decide, by decide, by decide, by decide, ?_⟩
    intro h
    exact absurd (congrFun h (0, 1)) (by decide)

example : ∃ nc Ns sq, init_cb L2345 (volume L2345) 4 = .ok nc Ns sq ∧
    ∀ mu < L2345.ND, L2345.dims mu % 2 = 1 → L2345.dims mu % 3 ≠ 1 := by
  obtain ⟨nc, Ns, sq, h⟩ := (C07_success_iff valid_L2345 (le_refl L2345.ND)).2.2 ⟨0, by decide, by decide⟩
  exact ⟨nc, Ns, sq, by rw [volume_eq _ valid_L2345.nd]; exact h, by decide⟩

end GLU.Sched
