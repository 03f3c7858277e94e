import Verif.Sched.TeamModel
import Mathlib.Tactic.Common

/-!
# Accesses of a team between two barriers

If the accesses of different threads between two barriers are compatible, every interleaving has the same result.
-/

namespace GLU.Sched.Team

variable {V : Type} [Add V] {n : ℕ}

/-- An access that changes the array. -/
def Act.writes : Act V → Prop
  | .read _ => False
  | _ => True

/-- What a thread would do to the array if it were alone. -/
def alone (m : ℕ → V) : List (Act V) → ℕ → V
  | [] => m
  | a :: r => alone (a.exec m) r

/-- What a thread would read if it were alone. -/
def aloneLog (m : ℕ → V) (log : List V) : List (Act V) → List V
  | [] => log
  | a :: r => aloneLog (a.exec m) (a.note m log) r

theorem alone_append (m : ℕ → V) (p q : List (Act V)) : alone m (p ++ q) = alone (alone m p) q := by
  induction p generalizing m with
  | nil => rfl
  | cons a r ih => exact ih _

theorem aloneLog_append (m : ℕ → V) (log : List V) (p q : List (Act V)) :
    aloneLog m log (p ++ q) = aloneLog (alone m p) (aloneLog m log p) q := by
  induction p generalizing m log with
  | nil => rfl
  | cons a r ih => exact ih _ _

/-- Some access in the list changes entry `l`. -/
def WritesTo (p : List (Act V)) (l : ℕ) : Prop := ∃ a ∈ p, a.writes ∧ a.loc = l

/-- Some access in the list is to entry `l`. -/
def Touches (p : List (Act V)) (l : ℕ) : Prop := ∃ a ∈ p, a.loc = l

omit [Add V] in
theorem WritesTo.touches {p : List (Act V)} {l : ℕ} (h : WritesTo p l) : Touches p l := by
  obtain ⟨a, ha, -, hl⟩ := h
  exact ⟨a, ha, hl⟩

/-- Entry `l` is set to `v`, possibly many times, and read only afterwards. -/
def Constant (v : V) (l : ℕ) (p : List (Act V)) : Prop :=
  (∀ a ∈ p, a.loc = l → a = .set l v ∨ a = .read l) ∧
    ∀ q r, p = q ++ .read l :: r → Act.set l v ∈ q

/-- What one thread changes no other thread touches, unless both only set the same number before they read it. -/
def Compatible (prog : Fin n → List (Act V)) : Prop :=
  ∀ i j, i ≠ j → ∀ l, WritesTo (prog j) l → Touches (prog i) l →
    ∃ v, Constant v l (prog i) ∧ Constant v l (prog j)

/-- No data race in the sense of the C standard. -/
def NoRace (prog : Fin n → List (Act V)) : Prop :=
  ∀ i j, i ≠ j → ∀ l, WritesTo (prog j) l → ¬ Touches (prog i) l

omit [Add V] in
theorem NoRace.compatible {prog : Fin n → List (Act V)} (h : NoRace prog) : Compatible prog :=
  fun i j hij l hw ht => absurd ht (h i j hij l hw)

theorem alone_other (m : ℕ → V) (p : List (Act V)) (l : ℕ) (h : ¬ WritesTo p l) : alone m p l = m l := by
  induction p generalizing m with
  | nil => rfl
  | cons a r ih =>
    have h1 : ¬ WritesTo r l := fun ⟨b, hb, hw⟩ => h ⟨b, List.mem_cons_of_mem _ hb, hw⟩
    refine (ih _ h1).trans ?_
    have h2 : ¬ (a.writes ∧ a.loc = l) := fun hw => h ⟨a, List.mem_cons_self, hw⟩
    cases a with
    | set k v =>
      have : l ≠ k := fun e => h2 ⟨trivial, e.symm⟩
      simp [Act.exec, Function.update_of_ne this]
    | add k v =>
      have : l ≠ k := fun e => h2 ⟨trivial, e.symm⟩
      simp [Act.exec, Function.update_of_ne this]
    | read k => rfl

/-- A thread that only sets entry `l` to `v`, and does so at least once, leaves `v` there. -/
theorem alone_constant (m : ℕ → V) (p : List (Act V)) (l : ℕ) (v : V)
    (hc : ∀ a ∈ p, a.loc = l → a = .set l v ∨ a = .read l) (hw : WritesTo p l) : alone m p l = v := by
  induction p generalizing m with
  | nil => obtain ⟨a, ha, -⟩ := hw; exact absurd ha (by simp)
  | cons a r ih =>
    by_cases h1 : WritesTo r l
    · exact ih _ (fun b hb => hc b (List.mem_cons_of_mem _ hb)) h1
    · refine (alone_other _ _ _ h1).trans ?_
      obtain ⟨b, hb, hbw, hbl⟩ := hw
      rcases List.mem_cons.1 hb with rfl | hb
      · rcases hc b List.mem_cons_self hbl with e | e
        · subst e; simp [Act.exec]
        · subst e; exact absurd hbw (by simp [Act.writes])
      · exact absurd ⟨b, hb, hbw, hbl⟩ h1

/-- What holds between two barriers, whatever the order of the accesses. -/
structure Inv (m0 : ℕ → V) (prog : Fin n → List (Act V)) (c : Conf n V) (pre : Fin n → List (Act V)) : Prop where
  split : ∀ i, prog i = pre i ++ c.rest i
  log : ∀ i, c.log i = aloneLog m0 [] (pre i)
  quiet : ∀ l, (∀ i, ¬ WritesTo (pre i) l) → c.mem l = m0 l
  loud : ∀ l i, WritesTo (pre i) l → c.mem l = alone m0 (pre i) l

omit [Add V] in
theorem WritesTo.mono {p q r : List (Act V)} {l : ℕ} (h : WritesTo p l) (e : r = p ++ q) : WritesTo r l := by
  obtain ⟨a, ha, hw⟩ := h
  exact ⟨a, by rw [e]; exact List.mem_append_left _ ha, hw⟩

omit [Add V] in
theorem writesTo_append {p : List (Act V)} {a : Act V} {l : ℕ} :
    WritesTo (p ++ [a]) l ↔ WritesTo p l ∨ (a.writes ∧ a.loc = l) := by
  constructor
  · rintro ⟨b, hb, hw⟩
    rcases List.mem_append.1 hb with hb | hb
    · exact .inl ⟨b, hb, hw⟩
    · rw [List.mem_singleton.1 hb] at hw; exact .inr hw
  · rintro (⟨b, hb, hw⟩ | hw)
    · exact ⟨b, List.mem_append_left _ hb, hw⟩
    · exact ⟨a, by simp, hw⟩

theorem inv_step {m0 : ℕ → V} {prog : Fin n → List (Act V)} (hp : Compatible prog) {c c' : Conf n V}
    {pre : Fin n → List (Act V)} (hi : Inv m0 prog c pre) (hs : Step c c') : ∃ pre', Inv m0 prog c' pre' := by
  classical
  obtain ⟨i, a, r, hr⟩ := hs
  have hprog : prog i = pre i ++ a :: r := by rw [hi.split i, hr]
  have hta : Touches (prog i) a.loc := ⟨a, by rw [hprog]; simp, rfl⟩
  -- another thread that has changed the entry
  have other : ∀ j, j ≠ i → WritesTo (pre j) a.loc →
      ∃ v, Constant v a.loc (prog i) ∧ Constant v a.loc (prog j) := fun j hj hw =>
    hp i j hj.symm _ (hw.mono (hi.split j)) hta
  -- the entry as the thread sees it
  have here : (∀ v l, a ≠ .set l v) → c.mem a.loc = alone m0 (pre i) a.loc := by
    intro hna
    by_cases h1 : WritesTo (pre i) a.loc
    · exact hi.loud _ _ h1
    · rw [alone_other _ _ _ h1]
      refine hi.quiet _ fun j => ?_
      by_cases hj : j = i
      · rw [hj]; exact h1
      · intro hw
        obtain ⟨v, hc, -⟩ := other j hj hw
        rcases hc.1 a (by rw [hprog]; simp) rfl with e | e
        · exact hna v _ e
        · have h2 := hc.2 (pre i) r (by rw [hprog, ← e])
          exact h1 ⟨_, h2, trivial, rfl⟩
  have hpre : ∀ j, Function.update pre i (pre i ++ [a]) j = if j = i then pre i ++ [a] else pre j := by
    intro j
    by_cases hj : j = i
    · subst hj; simp
    · simp [hj]
  refine ⟨Function.update pre i (pre i ++ [a]), ⟨?_, ?_, ?_, ?_⟩⟩
  · intro j
    by_cases hj : j = i
    · subst hj; simp [hprog]
    · simp [hj, hi.split j]
  · intro j
    by_cases hj : j = i
    · subst hj
      simp only [Function.update_self, aloneLog_append, aloneLog]
      rw [← hi.log j]
      cases a with
      | set l v => rfl
      | add l v => rfl
      | read l =>
        have := here (by intro v k; simp)
        simp only [Act.loc] at this
        simp [Act.note, this]
    · simp [hj, hi.log j]
  · intro l hl
    have h1 : ¬ WritesTo (pre i ++ [a]) l := by have := hl i; rwa [hpre, if_pos rfl] at this
    rw [writesTo_append, not_or] at h1
    have h2 : c.mem l = m0 l := by
      refine hi.quiet l fun j => ?_
      by_cases hj : j = i
      · subst hj; exact h1.1
      · have := hl j; rwa [hpre, if_neg hj] at this
    rw [← h2]
    exact alone_other c.mem [a] l (by
      rintro ⟨b, hb, hw⟩
      rw [List.mem_singleton.1 hb] at hw
      exact h1.2 hw)
  · intro l j hw
    show a.exec c.mem l = _
    rw [hpre] at hw ⊢
    -- what the access does at `l`
    by_cases hal : a.writes ∧ a.loc = l
    · obtain ⟨haw, hal⟩ := hal
      subst hal
      by_cases hj : j = i
      · subst hj
        rw [if_pos rfl, alone_append]
        cases a with
        | set l v => simp [alone, Act.exec, Act.loc]
        | add l v =>
          have := here (by intro v k; simp)
          simp only [Act.loc] at this
          simp [alone, Act.exec, Act.loc, this]
        | read l => exact absurd haw (by simp [Act.writes])
      · rw [if_neg hj] at hw ⊢
        obtain ⟨v, hc, hd⟩ := other j hj hw
        rw [alone_constant m0 (pre j) a.loc v
          (fun b hb => hd.1 b (by rw [hi.split j]; exact List.mem_append_left _ hb)) hw]
        rcases hc.1 a (by rw [hprog]; simp) rfl with e | e
        · rw [e]; simp [Act.exec, Act.loc]
        · rw [e] at haw; exact absurd haw (by simp [Act.writes])
    · have hsame : a.exec c.mem l = c.mem l := alone_other c.mem [a] l (by
        rintro ⟨b, hb, hw⟩
        rw [List.mem_singleton.1 hb] at hw
        exact hal hw)
      rw [hsame]
      by_cases hj : j = i
      · subst hj
        rw [if_pos rfl] at hw ⊢
        rw [writesTo_append] at hw
        have hw := hw.resolve_right hal
        rw [alone_append, alone_other (alone m0 (pre j)) [a] l (by
          rintro ⟨b, hb, hw⟩
          rw [List.mem_singleton.1 hb] at hw
          exact hal hw)]
        exact hi.loud l j hw
      · rw [if_neg hj] at hw ⊢
        exact hi.loud l j hw

/-- Any order of the accesses keeps to what the threads would do alone. -/
theorem inv_run {m0 : ℕ → V} {prog : Fin n → List (Act V)} (hp : Compatible prog) {c : Conf n V}
    (hs : Relation.ReflTransGen Step ⟨m0, fun _ => [], prog⟩ c) : ∃ pre, Inv m0 prog c pre := by
  induction hs with
  | refl =>
    exact ⟨fun _ => [], fun i => by simp, fun i => rfl, fun l _ => rfl, fun l i h => by
      obtain ⟨a, ha, -⟩ := h; exact absurd ha (by simp)⟩
  | tail _ h ih =>
    obtain ⟨pre, hi⟩ := ih
    exact inv_step hp hi h

/-- At the barrier: every thread has read what it would have read alone, and an entry holds what the thread that
changed it would have left. -/
theorem phase_end {m0 : ℕ → V} {prog : Fin n → List (Act V)} (hp : Compatible prog) {c : Conf n V}
    (hs : Relation.ReflTransGen Step ⟨m0, fun _ => [], prog⟩ c) (he : ∀ i, c.rest i = []) :
    (∀ i, c.log i = aloneLog m0 [] (prog i)) ∧ (∀ l, (∀ i, ¬ WritesTo (prog i) l) → c.mem l = m0 l) ∧
      ∀ l i, WritesTo (prog i) l → c.mem l = alone m0 (prog i) l := by
  obtain ⟨pre, hi⟩ := inv_run hp hs
  have e : ∀ i, pre i = prog i := fun i => by rw [hi.split i, he i, List.append_nil]
  refine ⟨fun i => by rw [hi.log i, e i], fun l h => hi.quiet l fun i => by rw [e i]; exact h i, fun l i h => ?_⟩
  have := hi.loud l i (by rw [e i]; exact h)
  rwa [e i] at this

/-- The states a program can come to, if a property of the states at the barriers is kept: each is in the middle of
the accesses after a barrier with the property, and the threads do not part. -/
theorem reach {S : Type} {C : Code n S V} {m : ℕ → V} (hpos : 0 < n) (P : (ℕ → V) → (Fin n → S × List (Act V)) → Prop)
    (h0 : P m C.start) (hc : ∀ m f, P m f → Compatible fun i => (f i).2)
    (hn : ∀ m f, P m f → ∀ c : Conf n V, (∀ i, c.log i = aloneLog m [] (f i).2) →
      (∀ l, (∀ i, ¬ WritesTo (f i).2 l) → c.mem l = m l) →
      (∀ l i, WritesTo (f i).2 l → c.mem l = alone m (f i).2 l) →
      (∀ i, C.next i (f i).1 (c.log i) = none) ∨
        ∃ g, (∀ i, C.next i (f i).1 (c.log i) = some (g i)) ∧ P c.mem g)
    {s : State n S V} (hs : Relation.ReflTransGen (TStep C) (C.init m) s) :
    ∃ m' f, P m' f ∧ s.st = (fun i => (f i).1) ∧
      Relation.ReflTransGen Step ⟨m', fun _ => [], fun i => (f i).2⟩ s.conf := by
  induction hs with
  | refl => exact ⟨m, C.start, h0, rfl, .refl⟩
  | tail _ hstep ih =>
    obtain ⟨m', f, hP, hst, hrun⟩ := ih
    cases hstep with
    | act c h => exact ⟨m', f, hP, hst, hrun.tail h⟩
    | barrier g he hg =>
      obtain ⟨h1, h2, h3⟩ := phase_end (hc m' f hP) hrun he
      rcases hn m' f hP _ h1 h2 h3 with h | ⟨g', h, hP'⟩
      · have := hg ⟨0, hpos⟩
        rw [hst] at this
        rw [h ⟨0, hpos⟩] at this
        exact absurd this (by simp)
      · have e : g = g' := by
          funext i
          have := hg i
          rw [hst] at this
          rw [h i] at this
          exact (Option.some.inj this).symm
        subst e
        exact ⟨_, g, hP', rfl, .refl⟩

end GLU.Sched.Team
