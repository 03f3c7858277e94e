import Verif.Sched.TeamLoop
import Verif.Sched.TeamCode
import Mathlib.Tactic.Common
import Mathlib.Tactic.NormNum
import Mathlib.Tactic.Ring
import Mathlib.Tactic.FinCases
import Mathlib.Tactic.IntervalCases
import Mathlib.Algebra.BigOperators.Fin
import Mathlib.Algebra.Order.BigOperators.Group.List

/-!
# C125: the threads of a team agree

For every number of threads, every schedule, every division of the work, and in the arithmetic of any type with
addition (so also rounded).
-/

namespace GLU.Sched.Team

variable {n : ℕ}

section general
variable {V : Type} [Add V] [Zero V]

/-- The states a team running loop `A` can come to, whatever was in the array before. -/
def Reaches (A : Loop n V) (s : State n (Vars V) V) : Prop :=
  ∃ m, Relation.ReflTransGen (TStep A.code) (A.code.init m) s

/-- C125. A thread that has come to a barrier has read, since the pass began, exactly the sums of what the threads
contributed in this pass. -/
theorem C125_reads {A : Loop n V} (hA : A.Sound) {s : State n (Vars V) V} (hs : Reaches A s) (i : Fin n)
    (hi : s.conf.rest i = []) : (s.st i).seen ++ s.conf.log i = (pass A (s.st i).iter (s.st i).part).1 := by
  obtain ⟨m, hs⟩ := hs
  have hpos : 0 < n := i.pos
  obtain ⟨m', f, k, p, h, h1, h2⟩ := reach_loop hA hpos hs
  have hc : Compatible fun i => (f i).2 := by
    cases p with
    | zero =>
      have := h.acts
      simp only at this
      have e : (fun i => (f i).2) = fun i => clear A i := by funext i; exact this i
      rw [e]; exact compatible_clear A
    | succ q =>
      obtain ⟨rd, ad, hp, hacts, -⟩ := h.acts
      have e : (fun i => (f i).2) = fun i => collect A rd ++ contribute A k q i ad := by funext i; exact hacts i
      rw [e]; exact (noRace_part hA hp).compatible
  obtain ⟨pre, hinv⟩ := inv_run hc h2
  have e : pre i = (f i).2 := by have := hinv.split i; rw [hi, List.append_nil] at this; exact this.symm
  rw [hinv.log i, e, h1]
  have := at_log hA h i
  rw [this]
  show _ = (pass A (f i).1.iter (f i).1.part).1
  rw [h.vars i]

/-- C125. All threads are in the same part of the same pass, and have the same variables. -/
theorem C125_same {A : Loop n V} (hA : A.Sound) {s : State n (Vars V) V} (hs : Reaches A s) (i j : Fin n) :
    s.st i = s.st j := by
  obtain ⟨m, hs⟩ := hs
  obtain ⟨m', f, k, p, h, h1, -⟩ := reach_loop hA i.pos hs
  rw [h1]
  show (f i).1 = (f j).1
  rw [h.vars i, h.vars j]

/-- C125. No thread leaves the loop while another goes on. -/
theorem C125_together {A : Loop n V} (hA : A.Sound) {s : State n (Vars V) V} (hs : Reaches A s) :
    ¬ Diverged A.code s := by
  rintro ⟨he, ⟨i, hi⟩, ⟨j, hj⟩⟩
  have hst := C125_same hA hs i j
  have h1 := C125_reads hA hs i (he i)
  have h2 := C125_reads hA hs j (he j)
  rw [hst] at h1 hi
  have : (A.code.next j (s.st j) (s.conf.log j)).isNone := by
    simp only [Loop.code, h1] at hi
    simp only [Loop.code, h2]
    split at hi <;> rename_i hp
    · exact absurd hi (by simp)
    · split_ifs at hi ⊢ with ha <;> simp_all
  rw [Option.isNone_iff_eq_none] at this
  rw [this] at hj
  exact absurd hj (by simp)

/-- C125. The team is never stuck: as long as it has not left the loop some step is possible. -/
theorem C125_progress {A : Loop n V} (hA : A.Sound) {s : State n (Vars V) V} (hs : Reaches A s)
    (hl : ∃ i, s.conf.rest i ≠ [] ∨ A.code.next i (s.st i) (s.conf.log i) ≠ none) : ∃ s', TStep A.code s s' := by
  by_cases he : ∀ i, s.conf.rest i = []
  · obtain ⟨i, hi⟩ := hl
    have hi := hi.resolve_left (by simp [he i])
    have h1 : ∀ j, ∃ g, A.code.next j (s.st j) (s.conf.log j) = some g := by
      intro j
      by_contra hc
      have hj : A.code.next j (s.st j) (s.conf.log j) = none := by
        cases hx : A.code.next j (s.st j) (s.conf.log j) with
        | none => rfl
        | some g => exact absurd ⟨g, hx⟩ hc
      exact C125_together hA hs ⟨he, ⟨j, hj⟩, i, Option.isSome_iff_ne_none.2 hi⟩
    choose g hg using h1
    exact ⟨_, .barrier s g he hg⟩
  · push Not at he
    obtain ⟨i, hi⟩ := he
    cases hr : s.conf.rest i with
    | nil => exact absurd hr hi
    | cons a r => exact ⟨_, .act s _ (.act s.conf i a r hr)⟩

/-- C125. A team in pass `k` has decided in every earlier pass, from the sums of that pass, that there is another. -/
theorem C125_passes {A : Loop n V} (hA : A.Sound) {s : State n (Vars V) V} (hs : Reaches A s) (i : Fin n) (k : ℕ)
    (hk : k < (s.st i).iter) : ∃ p, A.part k p (pass A k p).1 = none ∧ A.again k (pass A k p).1 = true := by
  obtain ⟨m, hs⟩ := hs
  obtain ⟨m', f, k', p, h, h1, -⟩ := reach_loop hA i.pos hs
  rw [h1] at hk
  have : k < k' := by have := h.vars i; simp only [this] at hk; exact hk
  exact h.past k this

/-- C125. No two threads access an entry at the same time with one of them changing it, if no entry is cleared by two
threads. -/
theorem C125_no_race {A : Loop n V} (hA : A.Sound) (hd : ∀ i j, i ≠ j → ∀ l ∈ A.share i, l ∉ A.share j)
    {s : State n (Vars V) V} (hs : Reaches A s) : ¬ Racing s := by
  rintro ⟨i, j, a, b, r, r', hij, hi, hj, hl, hw⟩
  obtain ⟨m, hs⟩ := hs
  obtain ⟨m', f, k, p, h, -, h2⟩ := reach_loop hA i.pos hs
  have hn : NoRace fun i => (f i).2 := by
    cases p with
    | zero =>
      have := h.acts
      simp only at this
      have e : (fun i => (f i).2) = fun i => clear A i := by funext i; exact this i
      rw [e]
      rintro i j hij l ⟨a, ha, -, hal⟩ ⟨b, hb, hbl⟩
      obtain ⟨l1, h1, rfl⟩ := mem_clear ha
      obtain ⟨l2, h2, rfl⟩ := mem_clear hb
      exact hd i j hij l (by rw [← hbl]; exact h2) (by rw [← hal]; exact h1)
    | succ q =>
      obtain ⟨rd, ad, hp, hacts, -⟩ := h.acts
      have e : (fun i => (f i).2) = fun i => collect A rd ++ contribute A k q i ad := by funext i; exact hacts i
      rw [e]; exact noRace_part hA hp
  obtain ⟨pre, hinv⟩ := inv_run hn.compatible h2
  have hia : a ∈ (f i).2 := by
    rw [hinv.split i, hi]; simp
  have hjb : b ∈ (f j).2 := by
    rw [hinv.split j, hj]; simp
  by_cases hb : b.writes
  · exact hn i j hij b.loc ⟨b, hjb, hb, rfl⟩ ⟨a, hia, hl⟩
  · by_cases ha : a.writes
    · exact hn j i hij.symm a.loc ⟨a, hia, ha, rfl⟩ ⟨b, hjb, hl.symm⟩
    · cases a with
      | read l =>
        cases b with
        | read l' =>
          simp only [Act.loc] at hl
          subst hl
          rcases hw l with h | h <;> exact h rfl
        | _ => exact hb trivial
      | _ => exact ha trivial

end general

/-- `omp for` gives every entry to some thread. -/
def Divides (P : Setting n) : Prop := ∀ l < CLINE P.ND * n, ∃ i, l ∈ P.split i

theorem eight_le (ND : ℕ) : 8 ≤ CLINE ND := by unfold CLINE; split_ifs <;> omega

theorem entry_lt {C c : ℕ} (hc : c < C) (t : Fin n) : c + C * t < C * n := by
  have : C * (t + 1) ≤ C * n := Nat.mul_le_mul_left _ t.isLt
  rw [Nat.mul_add] at this
  omega

theorem sound_landauSD (P : Setting n) (hP : Divides P) : (landauSD P).Sound := by
  have h8 := eight_le P.ND
  refine ⟨?_, ?_, ?_, fun c hc t => hP _ (entry_lt hc t)⟩ <;> intro k p seen rd ad h <;>
    match p, h with
    | 0, h => simp [landauSD] at h; obtain ⟨rfl, rfl⟩ := h; simp [landauSD]; try omega
    | 1, h => simp [landauSD] at h; obtain ⟨rfl, rfl⟩ := h; simp [landauSD]; try omega
    | 2, h => simp [landauSD] at h; obtain ⟨rfl, rfl⟩ := h; simp [landauSD]; try omega
    | 3, h => simp [landauSD] at h; obtain ⟨rfl, rfl⟩ := h; simp [landauSD]; try omega
    | p + 4, h => simp [landauSD] at h

theorem sound_landauCG (P : Setting n) (hP : Divides P) : (landauCG P).Sound := by
  have h8 := eight_le P.ND
  refine ⟨?_, ?_, ?_, fun c hc t => hP _ (entry_lt hc t)⟩ <;> intro k p seen rd ad h <;>
    by_cases hx : total (seen.take n) * P.norm > P.tol <;>
    match p, h with
    | 0, h => simp [landauCG, hx] at h; obtain ⟨rfl, rfl⟩ := h; (try simp [landauCG]) <;> (try omega)
    | 1, h => simp [landauCG, hx] at h; obtain ⟨rfl, rfl⟩ := h; (try simp [landauCG]) <;> (try omega)
    | 2, h => simp [landauCG, hx] at h; obtain ⟨rfl, rfl⟩ := h; (try simp [landauCG]) <;> (try omega)
    | 3, h => simp [landauCG, hx] at h; obtain ⟨rfl, rfl⟩ := h; (try simp [landauCG]) <;> (try omega)
    | p + 4, h => simp [landauCG, hx] at h

theorem sound_coulombSD (P : Setting n) (hP : Divides P) : (coulombSD P).Sound := by
  have h8 := eight_le P.ND
  refine ⟨?_, ?_, ?_, fun c hc t => hP _ (entry_lt hc t)⟩ <;> intro k p seen rd ad h <;>
    match p, h with
    | 0, h => simp [coulombSD] at h; obtain ⟨rfl, rfl⟩ := h; simp [coulombSD]; try omega
    | 1, h => simp [coulombSD] at h; obtain ⟨rfl, rfl⟩ := h; simp [coulombSD]; try omega
    | 2, h => simp [coulombSD] at h; obtain ⟨rfl, rfl⟩ := h; simp [coulombSD]; try omega
    | p + 3, h => simp [coulombSD] at h

theorem sound_coulombCG (P : Setting n) (hn : 0 < n) : (coulombCG P).Sound := by
  have h8 := eight_le P.ND
  refine ⟨?_, ?_, ?_, fun c hc t => ⟨⟨0, hn⟩, List.mem_range.2 (lt_of_lt_of_le (entry_lt hc t)
    (by show CLINE P.ND * n ≤ _; omega))⟩⟩ <;>
    intro k p seen rd ad h <;>
    by_cases hx : total (seen.take n) * P.norm > P.tol <;>
    match p, h with
    | 0, h => simp [coulombCG, hx] at h; obtain ⟨rfl, rfl⟩ := h; (try simp [coulombCG]) <;> (try omega)
    | 1, h => simp [coulombCG, hx] at h; obtain ⟨rfl, rfl⟩ := h; (try simp [coulombCG]) <;> (try omega)
    | 2, h => simp [coulombCG, hx] at h; obtain ⟨rfl, rfl⟩ := h; (try simp [coulombCG]) <;> (try omega)
    | 3, h => simp [coulombCG, hx] at h; obtain ⟨rfl, rfl⟩ := h; (try simp [coulombCG]) <;> (try omega)
    | p + 4, h => simp [coulombCG, hx] at h

theorem total_eq (l : List ℝ) : total l = l.sum := by
  unfold total
  exact (List.sum_eq_foldl).symm

theorem total_ofFn (f : Fin n → ℝ) : total (List.ofFn f) = ∑ t, f t := by
  rw [total_eq, List.sum_ofFn]

/-- C125, steepest descent in Landau gauge. At the end of a pass every thread has the sum of what all sites
contributed to the test of convergence in this pass. -/
theorem C125_landau_sd (P : Setting n) (hP : Divides P) {s : State n (Vars ℝ) ℝ} (hs : Reaches (landauSD P) s)
    (i : Fin n) (hi : s.conf.rest i = []) (h4 : (s.st i).part = 4) :
    total (((s.st i).seen ++ s.conf.log i).drop (3 * n)) = ∑ t, (P.contrib (s.st i).iter 0 t 5).sum := by
  rw [C125_reads (sound_landauSD P hP) hs i hi, h4]
  have : (pass (landauSD P) (s.st i).iter 4).1 =
      (List.ofFn (fun t => total (P.contrib (s.st i).iter 1 t 0)) ++
        (List.ofFn (fun t => total (P.contrib (s.st i).iter 1 t 1)) ++
          List.ofFn fun t => total (P.contrib (s.st i).iter 1 t 2))) ++
        List.ofFn fun t => total (P.contrib (s.st i).iter 0 t 5) := by
    simp [pass, landauSD, total]
  rw [this, List.drop_append_of_le_length (by simp; omega), List.drop_of_length_le (by simp; omega), List.nil_append,
    total_ofFn]
  simp only [total_eq]

/-- C125, conjugate gradient in Landau gauge: the same from the third part on, before the line search is decided on. -/
theorem C125_landau_cg (P : Setting n) (hP : Divides P) {s : State n (Vars ℝ) ℝ} (hs : Reaches (landauCG P) s)
    (i : Fin n) (hi : s.conf.rest i = []) (h2 : 2 ≤ (s.st i).part) :
    total (((s.st i).seen ++ s.conf.log i).take n) = ∑ t, (P.contrib (s.st i).iter 0 t 5).sum := by
  rw [C125_reads (sound_landauCG P hP) hs i hi]
  obtain ⟨q, hq⟩ := Nat.exists_eq_add_of_le h2
  rw [hq]
  clear hq
  have : ∃ l, (pass (landauCG P) (s.st i).iter (2 + q)).1 =
      (List.ofFn fun t => total (P.contrib (s.st i).iter 0 t 5)) ++ l := by
    generalize (s.st i).iter = k
    induction q with
    | zero => exact ⟨[], by simp [pass, landauCG, total]⟩
    | succ q ih =>
      obtain ⟨l, hl⟩ := ih
      rw [show 2 + (q + 1) = (2 + q) + 1 by omega, pass]
      cases hp : (landauCG P).part k (2 + q) (pass (landauCG P) k (2 + q)).1 with
      | none => exact ⟨l, by simp only [hp]; exact hl⟩
      | some r => exact ⟨_, by simp only [hp]; rw [hl, List.append_assoc]⟩
  obtain ⟨l, hl⟩ := this
  rw [hl, List.take_append_of_le_length (by simp), List.take_of_length_le (by simp), total_ofFn]
  simp only [total_eq]

/-- C125, steepest descent in Coulomb gauge. -/
theorem C125_coulomb_sd (P : Setting n) (hP : Divides P) {s : State n (Vars ℝ) ℝ} (hs : Reaches (coulombSD P) s)
    (i : Fin n) (hi : s.conf.rest i = []) (h3 : (s.st i).part = 3) :
    total (((s.st i).seen ++ s.conf.log i).drop (3 * n)) = ∑ t, (P.contrib (s.st i).iter 1 t 3).sum := by
  rw [C125_reads (sound_coulombSD P hP) hs i hi, h3]
  have : (pass (coulombSD P) (s.st i).iter 3).1 =
      (List.ofFn (fun t => total (P.contrib (s.st i).iter 0 t 0)) ++
        (List.ofFn (fun t => total (P.contrib (s.st i).iter 0 t 1)) ++
          List.ofFn fun t => total (P.contrib (s.st i).iter 0 t 2))) ++
        List.ofFn fun t => total (P.contrib (s.st i).iter 1 t 3) := by
    simp [pass, coulombSD, total]
  rw [this, List.drop_append_of_le_length (by simp; omega), List.drop_of_length_le (by simp; omega), List.nil_append,
    total_ofFn]
  simp only [total_eq]

/-- C125, conjugate gradient in Coulomb gauge. -/
theorem C125_coulomb_cg (P : Setting n) {s : State n (Vars ℝ) ℝ} (hs : Reaches (coulombCG P) s)
    (i : Fin n) (hi : s.conf.rest i = []) (h2 : 2 ≤ (s.st i).part) :
    total (((s.st i).seen ++ s.conf.log i).take n) = ∑ t, (P.contrib (s.st i).iter 0 t 3).sum := by
  rw [C125_reads (sound_coulombCG P i.pos) hs i hi]
  obtain ⟨q, hq⟩ := Nat.exists_eq_add_of_le h2
  rw [hq]
  clear hq
  have : ∃ l, (pass (coulombCG P) (s.st i).iter (2 + q)).1 =
      (List.ofFn fun t => total (P.contrib (s.st i).iter 0 t 3)) ++ l := by
    generalize (s.st i).iter = k
    induction q with
    | zero => exact ⟨_, by simp [pass, coulombCG, total]; rfl⟩
    | succ q ih =>
      obtain ⟨l, hl⟩ := ih
      rw [show 2 + (q + 1) = (2 + q) + 1 by omega, pass]
      cases hp : (coulombCG P).part k (2 + q) (pass (coulombCG P) k (2 + q)).1 with
      | none => exact ⟨l, by simp only [hp]; exact hl⟩
      | some r => exact ⟨_, by simp only [hp]; rw [hl, List.append_assoc]⟩
  obtain ⟨l, hl⟩ := this
  rw [hl, List.take_append_of_le_length (by simp), List.take_of_length_le (by simp), total_ofFn]
  simp only [total_eq]

theorem more_false {P : Setting n} {k : ℕ} {x : ℝ} : more P k x = false ↔ x ≤ P.acc ∨ P.max_iters ≤ k + 1 := by
  unfold more
  simp only [Bool.and_eq_false_iff, decide_eq_false_iff_not, not_lt]

theorem last_landau_sd (P : Setting n) {s : State n (Vars ℝ) ℝ} (hs : Reaches (landauSD P) s)
    (i : Fin n) : (s.st i).part ≤ 4 := by
  obtain ⟨m, hs⟩ := hs
  induction hs with
  | refl => exact Nat.zero_le _
  | tail _ h ih =>
    cases h with
    | act c h => exact ih
    | barrier g he hg =>
      have := hg i
      simp only [Loop.code] at this
      split at this
      · rename_i r rd ad hp
        have e := congrArg (fun o => o.map (·.1.part)) this
        simp only [Option.map_some, Option.some.injEq] at e
        show (g i).1.part ≤ 4
        rw [← e]
        simp only [landauSD] at hp
        split at hp <;> first | omega | (exact absurd hp (by simp))
      · split_ifs at this
        have e := congrArg (fun o => o.map (·.1.part)) this
        simp only [Option.map_some, Option.some.injEq] at e
        show (g i).1.part ≤ 4
        rw [← e]; exact Nat.zero_le _

/-- C125. The threads leave this loop at the end of a pass, when the accuracy is reached or the passes are used up, and
not before. -/
theorem C125_landau_sd_left (P : Setting n) (hP : Divides P) {s : State n (Vars ℝ) ℝ} (hs : Reaches (landauSD P) s)
    (i : Fin n) (hi : s.conf.rest i = []) : (landauSD P).code.next i (s.st i) (s.conf.log i) = none ↔
    (s.st i).part = 4 ∧
      ((∑ t, (P.contrib (s.st i).iter 0 t 5).sum) * P.norm ≤ P.acc ∨ P.max_iters ≤ (s.st i).iter + 1) := by
  have hlast := last_landau_sd P hs i
  have hval : (s.st i).part = 4 → _ := fun h4 => C125_landau_sd P hP hs i hi h4
  simp only [Loop.code]
  split
  · rename_i r rd ad hp
    refine iff_of_false (by simp) fun h => ?_
    rw [h.1] at hp
    simp [landauSD] at hp
  · rename_i hp
    have h4 : (s.st i).part = 4 := by
      refine le_antisymm hlast ?_
      by_contra hc
      have : (s.st i).part < 4 := by omega
      interval_cases h : (s.st i).part <;> simp [landauSD] at hp
    rw [← more_false, ← hval h4]
    simp only [h4, true_and]
    split_ifs with ha
    · exact iff_of_false (by simp) (by
        intro h
        have : (landauSD P).again (s.st i).iter ((s.st i).seen ++ s.conf.log i) = false := h
        rw [this] at ha; cases ha)
    · exact iff_of_true rfl (by rw [Bool.not_eq_true] at ha; exact ha)

theorem last_landau_cg (P : Setting n) {s : State n (Vars ℝ) ℝ} (hs : Reaches (landauCG P) s)
    (i : Fin n) : (s.st i).part ≤ 4 := by
  obtain ⟨m, hs⟩ := hs
  induction hs with
  | refl => exact Nat.zero_le _
  | tail _ h ih =>
    cases h with
    | act c h => exact ih
    | barrier g he hg =>
      have := hg i
      simp only [Loop.code] at this
      split at this
      · rename_i r rd ad hp
        have e := congrArg (fun o => o.map (·.1.part)) this
        simp only [Option.map_some, Option.some.injEq] at e
        show (g i).1.part ≤ 4
        rw [← e]
        simp only [landauCG] at hp
        split at hp <;> first | omega | (exact absurd hp (by simp))
      · split_ifs at this
        have e := congrArg (fun o => o.map (·.1.part)) this
        simp only [Option.map_some, Option.some.injEq] at e
        show (g i).1.part ≤ 4
        rw [← e]; exact Nat.zero_le _

/-- C125. The threads leave this loop at the end of a pass, when the accuracy is reached or the passes are used up, and
not before. -/
theorem C125_landau_cg_left (P : Setting n) (hP : Divides P) {s : State n (Vars ℝ) ℝ} (hs : Reaches (landauCG P) s)
    (i : Fin n) (hi : s.conf.rest i = []) : (landauCG P).code.next i (s.st i) (s.conf.log i) = none ↔
    (s.st i).part = 4 ∧
      ((∑ t, (P.contrib (s.st i).iter 0 t 5).sum) * P.norm ≤ P.acc ∨ P.max_iters ≤ (s.st i).iter + 1) := by
  have hlast := last_landau_cg P hs i
  have hval : (s.st i).part = 4 → _ := fun h4 => C125_landau_cg P hP hs i hi (by omega)
  simp only [Loop.code]
  split
  · rename_i r rd ad hp
    refine iff_of_false (by simp) fun h => ?_
    rw [h.1] at hp
    simp [landauCG] at hp
  · rename_i hp
    have h4 : (s.st i).part = 4 := by
      refine le_antisymm hlast ?_
      by_contra hc
      have : (s.st i).part < 4 := by omega
      interval_cases h : (s.st i).part <;> simp [landauCG] at hp
    rw [← more_false, ← hval h4]
    simp only [h4, true_and]
    split_ifs with ha
    · exact iff_of_false (by simp) (by
        intro h
        have : (landauCG P).again (s.st i).iter ((s.st i).seen ++ s.conf.log i) = false := h
        rw [this] at ha; cases ha)
    · exact iff_of_true rfl (by rw [Bool.not_eq_true] at ha; exact ha)

theorem last_coulomb_sd (P : Setting n) {s : State n (Vars ℝ) ℝ} (hs : Reaches (coulombSD P) s)
    (i : Fin n) : (s.st i).part ≤ 3 := by
  obtain ⟨m, hs⟩ := hs
  induction hs with
  | refl => exact Nat.zero_le _
  | tail _ h ih =>
    cases h with
    | act c h => exact ih
    | barrier g he hg =>
      have := hg i
      simp only [Loop.code] at this
      split at this
      · rename_i r rd ad hp
        have e := congrArg (fun o => o.map (·.1.part)) this
        simp only [Option.map_some, Option.some.injEq] at e
        show (g i).1.part ≤ 3
        rw [← e]
        simp only [coulombSD] at hp
        split at hp <;> first | omega | (exact absurd hp (by simp))
      · split_ifs at this
        have e := congrArg (fun o => o.map (·.1.part)) this
        simp only [Option.map_some, Option.some.injEq] at e
        show (g i).1.part ≤ 3
        rw [← e]; exact Nat.zero_le _

/-- C125. The threads leave this loop at the end of a pass, when the accuracy is reached or the passes are used up, and
not before. -/
theorem C125_coulomb_sd_left (P : Setting n) (hP : Divides P) {s : State n (Vars ℝ) ℝ} (hs : Reaches (coulombSD P) s)
    (i : Fin n) (hi : s.conf.rest i = []) : (coulombSD P).code.next i (s.st i) (s.conf.log i) = none ↔
    (s.st i).part = 3 ∧
      ((∑ t, (P.contrib (s.st i).iter 1 t 3).sum) * P.norm ≤ P.acc ∨ P.max_iters ≤ (s.st i).iter + 1) := by
  have hlast := last_coulomb_sd P hs i
  have hval : (s.st i).part = 3 → _ := fun h4 => C125_coulomb_sd P hP hs i hi h4
  simp only [Loop.code]
  split
  · rename_i r rd ad hp
    refine iff_of_false (by simp) fun h => ?_
    rw [h.1] at hp
    simp [coulombSD] at hp
  · rename_i hp
    have h4 : (s.st i).part = 3 := by
      refine le_antisymm hlast ?_
      by_contra hc
      have : (s.st i).part < 3 := by omega
      interval_cases h : (s.st i).part <;> simp [coulombSD] at hp
    rw [← more_false, ← hval h4]
    simp only [h4, true_and]
    split_ifs with ha
    · exact iff_of_false (by simp) (by
        intro h
        have : (coulombSD P).again (s.st i).iter ((s.st i).seen ++ s.conf.log i) = false := h
        rw [this] at ha; cases ha)
    · exact iff_of_true rfl (by rw [Bool.not_eq_true] at ha; exact ha)

theorem last_coulomb_cg (P : Setting n) {s : State n (Vars ℝ) ℝ} (hs : Reaches (coulombCG P) s)
    (i : Fin n) : (s.st i).part ≤ 4 := by
  obtain ⟨m, hs⟩ := hs
  induction hs with
  | refl => exact Nat.zero_le _
  | tail _ h ih =>
    cases h with
    | act c h => exact ih
    | barrier g he hg =>
      have := hg i
      simp only [Loop.code] at this
      split at this
      · rename_i r rd ad hp
        have e := congrArg (fun o => o.map (·.1.part)) this
        simp only [Option.map_some, Option.some.injEq] at e
        show (g i).1.part ≤ 4
        rw [← e]
        simp only [coulombCG] at hp
        split at hp <;> first | omega | (exact absurd hp (by simp))
      · split_ifs at this
        have e := congrArg (fun o => o.map (·.1.part)) this
        simp only [Option.map_some, Option.some.injEq] at e
        show (g i).1.part ≤ 4
        rw [← e]; exact Nat.zero_le _

/-- C125. The threads leave this loop at the end of a pass, when the accuracy is reached or the passes are used up, and
not before. -/
theorem C125_coulomb_cg_left (P : Setting n) {s : State n (Vars ℝ) ℝ} (hs : Reaches (coulombCG P) s)
    (i : Fin n) (hi : s.conf.rest i = []) : (coulombCG P).code.next i (s.st i) (s.conf.log i) = none ↔
    (s.st i).part = 4 ∧
      ((∑ t, (P.contrib (s.st i).iter 0 t 3).sum) * P.norm ≤ P.acc ∨ P.max_iters ≤ (s.st i).iter + 1) := by
  have hlast := last_coulomb_cg P hs i
  have hval : (s.st i).part = 4 → _ := fun h4 => C125_coulomb_cg P hs i hi (by omega)
  simp only [Loop.code]
  split
  · rename_i r rd ad hp
    refine iff_of_false (by simp) fun h => ?_
    rw [h.1] at hp
    simp [coulombCG] at hp
  · rename_i hp
    have h4 : (s.st i).part = 4 := by
      refine le_antisymm hlast ?_
      by_contra hc
      have : (s.st i).part < 4 := by omega
      interval_cases h : (s.st i).part <;> simp [coulombCG] at hp
    rw [← more_false, ← hval h4]
    simp only [h4, true_and]
    split_ifs with ha
    · exact iff_of_false (by simp) (by
        intro h
        have : (coulombCG P).again (s.st i).iter ((s.st i).seen ++ s.conf.log i) = false := h
        rw [this] at ha; cases ha)
    · exact iff_of_true rfl (by rw [Bool.not_eq_true] at ha; exact ha)

/-- C125. The line search is done, by all threads, exactly when the accuracy is not yet below the tolerance: then the
three sums of every thread are read besides. -/
theorem C125_landau_cg_search (P : Setting n) (hP : Divides P) {s : State n (Vars ℝ) ℝ} (hs : Reaches (landauCG P) s)
    (i : Fin n) (hi : s.conf.rest i = []) (h4 : (s.st i).part = 4) :
    ((s.st i).seen ++ s.conf.log i).length = 3 * n +
      if P.tol < (∑ t, (P.contrib (s.st i).iter 0 t 5).sum) * P.norm then 3 * n else 0 := by
  rw [C125_reads (sound_landauCG P hP) hs i hi, h4]
  generalize (s.st i).iter = k
  have hval : ∑ t, (P.contrib k 0 t 5).sum = total (List.ofFn fun t => (P.contrib k 0 t 5).foldl (· + ·) 0) := by
    rw [total_ofFn]; exact Finset.sum_congr rfl fun t _ => (total_eq _).symm
  rw [hval]
  have e : (pass (landauCG P) k 4).1.length = 3 * n +
      (if total (List.ofFn fun t => (P.contrib k 0 t 5).foldl (· + ·) 0) * P.norm > P.tol then [0, 1, 2]
        else ([] : List ℕ)).length * n := by
    simp [pass, landauCG]
    try ring
  rw [e]
  split_ifs <;> simp_all

/-- C125. The line search is done, by all threads, exactly when the accuracy is not yet below the tolerance: then the
three sums of every thread are read besides. -/
theorem C125_coulomb_cg_search (P : Setting n) {s : State n (Vars ℝ) ℝ} (hs : Reaches (coulombCG P) s)
    (i : Fin n) (hi : s.conf.rest i = []) (h4 : (s.st i).part = 4) :
    ((s.st i).seen ++ s.conf.log i).length = 2 * n +
      if P.tol < (∑ t, (P.contrib (s.st i).iter 0 t 3).sum) * P.norm then 3 * n else 0 := by
  rw [C125_reads (sound_coulombCG P i.pos) hs i hi, h4]
  generalize (s.st i).iter = k
  have hval : ∑ t, (P.contrib k 0 t 3).sum = total (List.ofFn fun t => (P.contrib k 0 t 3).foldl (· + ·) 0) := by
    rw [total_ofFn]; exact Finset.sum_congr rfl fun t _ => (total_eq _).symm
  rw [hval]
  have e : (pass (coulombCG P) k 4).1.length = 2 * n +
      (if total (List.ofFn fun t => (P.contrib k 0 t 3).foldl (· + ·) 0) * P.norm > P.tol then [0, 1, 2]
        else ([] : List ℕ)).length * n := by
    simp [pass, coulombCG]
    try ring
  rw [e]
  split_ifs <;> simp_all

/-- C125. The four loops leave together. -/
theorem C125_loops (P : Setting n) (hn : 0 < n) (hP : Divides P) :
    (∀ s, Reaches (landauSD P) s → ¬ Diverged (landauSD P).code s) ∧
    (∀ s, Reaches (landauCG P) s → ¬ Diverged (landauCG P).code s) ∧
    (∀ s, Reaches (coulombSD P) s → ¬ Diverged (coulombSD P).code s) ∧
    (∀ s, Reaches (coulombCG P) s → ¬ Diverged (coulombCG P).code s) :=
  ⟨fun _ h => C125_together (sound_landauSD P hP) h, fun _ h => C125_together (sound_landauCG P hP) h,
    fun _ h => C125_together (sound_coulombSD P hP) h, fun _ h => C125_together (sound_coulombCG P hn) h⟩

/-- C125. Three of the loops have no data race. -/
theorem C125_no_race_partial (P : Setting n) (hP : Divides P) (hd : ∀ i j, i ≠ j → ∀ l ∈ P.split i, l ∉ P.split j) :
    (∀ s, Reaches (landauSD P) s → ¬ Racing s) ∧ (∀ s, Reaches (landauCG P) s → ¬ Racing s) ∧
    ∀ s, Reaches (coulombSD P) s → ¬ Racing s :=
  ⟨fun _ h => C125_no_race (sound_landauSD P hP) hd h, fun _ h => C125_no_race (sound_landauCG P hP) hd h,
    fun _ h => C125_no_race (sound_coulombSD P hP) hd h⟩

/-- C125 fails for the fourth: with more than one thread, all threads clear all entries at the same time. By
`C125_coulomb_cg` the sums are right all the same if writing the same number twice at once does no harm, but the C
standard calls this undefined. -/
theorem C125_clear_race_fails (P : Setting n) (hn : 2 ≤ n) (m : ℕ → ℝ) : Racing ((coulombCG P).code.init m) := by
  have e : ∀ i : Fin n, ∃ r, ((coulombCG P).code.init m).conf.rest i = Act.set 0 0 :: r := by
    intro i
    refine ⟨((List.range (2 + CLINE P.ND * n)).map Nat.succ).map fun l => Act.set l 0, ?_⟩
    show clear (coulombCG P) i = _
    unfold clear coulombCG
    simp only
    rw [show 3 + CLINE P.ND * n = (2 + CLINE P.ND * n) + 1 by omega, List.range_succ_eq_map]
    rfl
  obtain ⟨r, hr⟩ := e ⟨0, by omega⟩
  obtain ⟨r', hr'⟩ := e ⟨1, by omega⟩
  exact ⟨⟨0, by omega⟩, ⟨1, by omega⟩, _, _, r, r', by simp, hr, hr', rfl, fun l => .inl (by simp)⟩

/-- Non-vacuity: four threads in four dimensions, each clearing the entries of its own columns. -/
noncomputable def fourThreads : Setting 4 :=
  ⟨4, 1, 1 / 10, 1 / 100, 50, fun _ _ t _ => [1, (t : ℝ)], fun i => (List.range 8).map fun c => c + 8 * i⟩

theorem divides_four : Divides fourThreads := by
  intro l hl
  have hl : l < 32 := by simpa [fourThreads, CLINE] using hl
  refine ⟨⟨l / 8, by omega⟩, ?_⟩
  simp only [fourThreads, List.mem_map, List.mem_range]
  exact ⟨l % 8, Nat.mod_lt _ (by norm_num), by omega⟩

theorem disjoint_four : ∀ i j, i ≠ j → ∀ l ∈ fourThreads.split i, l ∉ fourThreads.split j := by
  intro i j hij l h1 h2
  simp only [fourThreads, List.mem_map, List.mem_range] at h1 h2
  obtain ⟨a, ha, e1⟩ := h1
  obtain ⟨b, hb, e2⟩ := h2
  exact hij (Fin.ext (by omega))

example (s : State 4 (Vars ℝ) ℝ) (hs : Reaches (landauSD fourThreads) s) :
    ¬ Diverged (landauSD fourThreads).code s ∧ ¬ Racing s :=
  ⟨(C125_loops fourThreads (by norm_num) divides_four).1 s hs,
    (C125_no_race_partial fourThreads divides_four disjoint_four).1 s hs⟩

/-- Non-vacuity: the team enters the loop, and can take a step. -/
example (m : ℕ → ℝ) : Reaches (landauSD fourThreads) ((landauSD fourThreads).code.init m) ∧
    ∃ s', TStep (landauSD fourThreads).code ((landauSD fourThreads).code.init m) s' := by
  have h0 : Reaches (landauSD fourThreads) ((landauSD fourThreads).code.init m) := ⟨m, .refl⟩
  refine ⟨h0, C125_progress (sound_landauSD _ divides_four) h0 ⟨0, .inl ?_⟩⟩
  simp [Code.init, Loop.code, clear, landauSD, fourThreads]

/-- A loop without a barrier between adding to a column and reading it: the two threads of the team can part. -/
def hasty : Loop 2 ℕ where
  CLINE := 1
  share i := [i]
  contrib _ _ _ _ := [1]
  part _ p _ := match p with
    | 0 => some ([0], [0])
    | _ => none
  again _ seen := seen.sum == 0

/-- That the condition `apart` of `Loop.Sound` is needed. -/
theorem hasty_parts : ∃ s, Reaches hasty s ∧ Diverged hasty.code s := by
  let m0 : ℕ → ℕ := fun _ => 0
  -- both clear, pass the barrier, then thread 0 reads and adds before thread 1 reads
  have st : ∀ (c : Conf 2 ℕ) (v : Fin 2 → Vars ℕ) (i : Fin 2) (a : Act ℕ) (r : List (Act ℕ)), c.rest i = a :: r →
      TStep hasty.code ⟨c, v⟩ ⟨⟨a.exec c.mem, Function.update c.log i (a.note c.mem (c.log i)),
        Function.update c.rest i r⟩, v⟩ := fun c v i a r h => .act ⟨c, v⟩ _ (.act c i a r h)
  refine ⟨_, ⟨m0, .tail (.tail (.tail (.tail (.tail (.tail (.tail (.tail (.tail .refl
    (st _ _ 0 (.set 0 0) [] rfl)) (st _ _ 1 (.set 1 0) [] rfl))
    (.barrier _ (fun i => (⟨0, 1, []⟩, [.read 0, .read 1, .add i 1])) ?_ ?_))
    (st _ _ 0 (.read 0) [.read 1, .add 0 1] rfl)) (st _ _ 0 (.read 1) [.add 0 1] rfl))
    (st _ _ 0 (.add 0 1) [] rfl)) (st _ _ 1 (.read 0) [.read 1, .add 1 1] rfl)) (st _ _ 1 (.read 1) [.add 1 1] rfl))
    (st _ _ 1 (.add 1 1) [] rfl)⟩, ?_, ⟨1, ?_⟩, 0, ?_⟩
  · intro i; fin_cases i <;> rfl
  · intro i; fin_cases i <;> rfl
  · intro i; fin_cases i <;> rfl
  · rfl
  · rfl

end GLU.Sched.Team
