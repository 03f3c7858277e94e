import Verif.Sched.Model

namespace GLU.Sched

open GLU.Geom

variable {M : Type}

/-- Value of the own link after running the program alone. -/
def exec (own : Loc) : Prog M → (Loc → M) → M
  | .done, m => m own
  | .read l k, m => exec own (k (m l)) m
  | .write v k, m => exec own k (Function.update m own v)

/-- Every link read by the program satisfies `P`. -/
def ReadsIn (P : Loc → Prop) : Prog M → Prop
  | .done => True
  | .read l k => P l ∧ ∀ v, ReadsIn P (k v)
  | .write _ k => ReadsIn P k

theorem readsIn_writeAll (P : Loc → Prop) (vs : List M) : ReadsIn P (writeAll vs) := by
  induction vs with
  | nil => trivial
  | cons v vs ih => exact ih

theorem exec_writeAll (own : Loc) (vs : List M) (m : Loc → M) :
    exec own (writeAll vs) m = vs.getLastD (m own) := by
  induction vs generalizing m with
  | nil => rfl
  | cons v vs ih =>
    rw [writeAll, exec, ih, Function.update_self]
    cases vs <;> rfl

theorem exec_stapleProg (L : Latt) (ops : MatOps M) (own : Loc) (i mu : ℕ) (m : Loc → M)
    (js : List ℕ) (stap : M) (k : M → Prog M) :
    exec own (stapleProg L ops i mu js stap k) m =
      exec own (k (js.foldl (fun stap j =>
        let nu := stapleDir mu j
        let t1 := neighbor L i nu
        let t2 := neighbor L i mu
        let b1 := back L i nu
        let b2 := neighbor L b1 mu
        let top := ops.multab_dag (ops.multab (m (i, nu)) (m (t1, mu))) (m (t2, nu))
        let bot := ops.multab (ops.multabdag (m (b1, nu)) (m (b1, mu))) (m (b2, nu))
        ops.a_plus_b (ops.a_plus_b stap top) bot) stap)) m := by
  induction js generalizing stap with
  | nil => rfl
  | cons j js ih =>
    simp only [stapleProg, exec, List.foldl_cons]
    rw [ih]

theorem exec_linkTask (L : Latt) (ops : MatOps M) (zero : M) (upd : M → M → List M) (mu i : ℕ)
    (m : Loc → M) :
    exec (i, mu) (linkTask L ops zero upd mu i) m =
      (upd (all_staples L ops m i mu L.ND zero) (m (i, mu))).getLastD (m (i, mu)) := by
  rw [linkTask, exec_stapleProg]
  simp only [exec]
  rw [exec_writeAll]
  rfl

theorem readsIn_stapleProg (L : Latt) (ops : MatOps M) (P : Loc → Prop) (i mu : ℕ) (js : List ℕ)
    (hP : ∀ j ∈ js, P (i, stapleDir mu j) ∧ P (neighbor L i (stapleDir mu j), mu) ∧
      P (neighbor L i mu, stapleDir mu j) ∧ P (back L i (stapleDir mu j), stapleDir mu j) ∧
      P (back L i (stapleDir mu j), mu) ∧
      P (neighbor L (back L i (stapleDir mu j)) mu, stapleDir mu j))
    (stap : M) (k : M → Prog M) (hk : ∀ v, ReadsIn P (k v)) :
    ReadsIn P (stapleProg L ops i mu js stap k) := by
  induction js generalizing stap with
  | nil => exact hk stap
  | cons j js ih =>
    obtain ⟨h1, h2, h3, h4, h5, h6⟩ := hP j (by simp)
    exact ⟨h1, fun _ => ⟨h2, fun _ => ⟨h3, fun _ => ⟨h4, fun _ => ⟨h5, fun _ => ⟨h6, fun _ =>
      ih (fun j hj => hP j (by simp [hj])) _⟩⟩⟩⟩⟩⟩

/-- The invariant of an interleaved run: outside the updated links memory is
untouched, and what each iteration would still produce alone is unchanged. -/
structure Inv (S : List ℕ) (mu : ℕ) (init : ℕ → Prog M) (f : Loc → M) (s : Config M) : Prop where
  frame : ∀ l : Loc, (l.2 ≠ mu ∨ l.1 ∉ S) → s.mem l = f l
  reads : ∀ x ∈ S, ReadsIn (fun l => l = (x, mu) ∨ l.2 ≠ mu ∨ l.1 ∉ S) (s.task x)
  value : ∀ x ∈ S, exec (x, mu) (s.task x) (Function.update f (x, mu) (s.mem (x, mu)))
    = exec (x, mu) (init x) f

theorem Inv.step {S : List ℕ} {mu : ℕ} {init : ℕ → Prog M} {f : Loc → M} {s : Config M}
    (h : Inv S mu init f s) {x : ℕ} (hx : x ∈ S) : Inv S mu init f (stepAt mu s x) := by
  unfold stepAt
  have hr := h.reads x hx
  have hv := h.value x hx
  split
  · exact h
  · next l k e =>
    rw [e] at hr hv
    have hmem : Function.update f (x, mu) (s.mem (x, mu)) l = s.mem l := by
      by_cases hl : l = (x, mu)
      · subst hl; rw [Function.update_self]
      · rw [Function.update_of_ne hl]
        exact (h.frame l (hr.1.resolve_left hl)).symm
    refine ⟨h.frame, ?_, ?_⟩
    · intro y hy
      by_cases hyx : y = x
      · subst hyx; simp only [Function.update_self]; exact hr.2 _
      · simp only [Function.update_of_ne hyx]; exact h.reads y hy
    · intro y hy
      by_cases hyx : y = x
      · subst hyx
        simp only [Function.update_self]
        rw [← hv, exec, hmem]
      · simp only [Function.update_of_ne hyx]; exact h.value y hy
  · next v k e =>
    rw [e] at hr hv
    refine ⟨?_, ?_, ?_⟩
    · intro l hl
      have : l ≠ (x, mu) := by
        rintro rfl
        rcases hl with h1 | h1
        · exact h1 rfl
        · exact h1 hx
      simp only [Function.update_of_ne this]
      exact h.frame l hl
    · intro y hy
      by_cases hyx : y = x
      · subst hyx; simp only [Function.update_self]; exact hr
      · simp only [Function.update_of_ne hyx]; exact h.reads y hy
    · intro y hy
      by_cases hyx : y = x
      · subst hyx
        simp only [Function.update_self]
        rw [← hv, exec, Function.update_idem]
      · have : (y, mu) ≠ (x, mu) := fun e => hyx (by simpa using e)
        simp only [Function.update_of_ne hyx, Function.update_of_ne this]
        exact h.value y hy

theorem Inv.run {S : List ℕ} {mu : ℕ} {init : ℕ → Prog M} {f : Loc → M} {s : Config M}
    (h : Inv S mu init f s) (sched : List ℕ) (hs : ∀ x ∈ sched, x ∈ S) :
    Inv S mu init f (run mu s sched) := by
  induction sched generalizing s with
  | nil => exact h
  | cons x xs ih =>
    rw [GLU.Sched.run, List.foldl_cons]
    exact ih (h.step (hs x (by simp))) fun y hy => hs y (by simp [hy])

end GLU.Sched
