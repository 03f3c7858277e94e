import Verif.Field.StepModel
import Mathlib.Data.List.Range
import Mathlib.Logic.Function.Iterate
import Mathlib.Tactic.Common

/-!
# The topological charge along a smearing history (C121)
-/

namespace GLU.Field.Step

variable {F V : Type}

/-- The field after so many smearings. -/
def after (T : Tools F V) (lat : F) (k : ℕ) : F := (fun f => (T.smear f).1)^[k] lat

theorem after_succ (T : Tools F V) (lat : F) (k : ℕ) : after T lat (k + 1) = (T.smear (after T lat k)).1 := by
  unfold after
  rw [Function.iterate_succ_apply']

/-- The number of measurements from `a` on, at most `n`, before the first that fails. -/
def good (T : Tools F V) (mode : Mode) (lat : F) : (n a : ℕ) → ℕ
  | 0, _ => 0
  | n + 1, a => if (T.measure mode (after T lat a)).isSome then good T mode lat n (a + 1) + 1 else 0

theorem good_le (T : Tools F V) (mode : Mode) (lat : F) (n a : ℕ) : good T mode lat n a ≤ n := by
  induction n generalizing a with
  | zero => exact le_rfl
  | succ n ih =>
    rw [good]
    split
    · have := ih (a + 1)
      omega
    · omega

theorem good_measured (T : Tools F V) (mode : Mode) (lat : F) (n a : ℕ) :
    (∀ i, i < good T mode lat n a → (T.measure mode (after T lat (a + i))).isSome) ∧
    (good T mode lat n a < n → T.measure mode (after T lat (a + good T mode lat n a)) = none) := by
  induction n generalizing a with
  | zero => exact ⟨fun i h => by simp [good] at h, fun h => by omega⟩
  | succ n ih =>
    rw [good]
    by_cases h : (T.measure mode (after T lat a)).isSome
    · rw [if_pos h]
      obtain ⟨h1, h2⟩ := ih (a + 1)
      refine ⟨fun i hi => ?_, fun hi => ?_⟩
      · rcases i with _ | i
        · exact h
        · rw [show a + (i + 1) = a + 1 + i by omega]
          exact h1 i (by omega)
      · rw [show a + (good T mode lat n (a + 1) + 1) = a + 1 + good T mode lat n (a + 1) by omega]
        exact h2 (by omega)
    · rw [if_neg h]
      refine ⟨fun i hi => by omega, fun _ => ?_⟩
      rw [Nat.add_zero]
      exact Option.not_isSome_iff_eq_none.1 h

/-- The records of a run: number and value. -/
def history (T : Tools F V) (mode : Mode) (lat : F) (a n : ℕ) : List (ℕ × V) :=
  (List.range' a n).filterMap fun k => (T.measure mode (after T lat k)).map fun v => (k, v)

theorem loop_files (T : Tools F V) (mode : Mode) (hm : mode ≠ .moments) (lat : F) (n a : ℕ) (r : Run F V)
    (hl : r.lat = after T lat a) :
    ∃ l, loop T mode n (a + 1) r = ⟨l, r.records ++ history T mode lat (a + 1) (good T mode lat n (a + 1)), r.Qmom,
        r.flag && (good T mode lat n (a + 1) == n), r.written⟩ ∧
      l = after T lat (a + min n (good T mode lat n (a + 1) + 1)) := by
  induction n generalizing a r with
  | zero => exact ⟨r.lat, by simp [loop, good, history], by simpa using hl⟩
  | succ n ih =>
    rw [loop]
    dsimp only
    rw [hl, ← after_succ, good]
    rcases hq : T.measure mode (after T lat (a + 1)) with _ | v
    · refine ⟨after T lat (a + 1), by simp [history], ?_⟩
      rw [Option.isSome_none, if_neg (by simp), show min (n + 1) (0 + 1) = 1 by omega]
    · rw [Option.isSome_some, if_pos rfl]
      obtain ⟨l, h1, h2⟩ := ih (a + 1) { r with lat := after T lat (a + 1), records := r.records ++ [(a + 1, v)] } rfl
      refine ⟨l, ?_, ?_⟩
      · refine Eq.trans (b := loop T mode n (a + 1 + 1)
          { r with lat := after T lat (a + 1), records := r.records ++ [(a + 1, v)] }) ?_ ?_
        · clear ih h1 h2 hq
          cases mode with
          | moments => exact absurd rfl hm
          | susceptibility => rfl
          | correlator => rfl
        rw [h1]
        simp only [Run.mk.injEq, true_and]
        refine ⟨?_, by simp⟩
        unfold history
        rw [List.range'_succ, List.filterMap_cons, hq]
        simp
      · rw [h2, show a + 1 + min n (good T mode lat n (a + 1 + 1) + 1) =
          a + min (n + 1) (good T mode lat n (a + 1 + 1) + 1 + 1) by omega]

/-- C121: the correlators written are those of the field after 1, 2, ... smearings, `max_t - 1` of them, each under its
own number and in order, up to the first that fails; success is reported exactly when none fails. -/
theorem C121_correlator (T : Tools F V) (max_t : BitVec 64) (lat : F) :
    ∃ r n, compute_Qsusc_step T .correlator max_t lat = some r ∧
      n ≤ max_t.toNat - 1 ∧
      (∀ i, 1 ≤ i → i ≤ n → (T.measure .correlator (after T lat i)).isSome) ∧
      (n < max_t.toNat - 1 → T.measure .correlator (after T lat (n + 1)) = none) ∧
      r.records = history T .correlator lat 1 n ∧ (r.flag = true ↔ n = max_t.toNat - 1) := by
  obtain ⟨l, h1, -⟩ := loop_files T .correlator (by decide) lat (max_t.toNat - 1) 0 ⟨lat, [], [], true, none⟩ rfl
  obtain ⟨g1, g2⟩ := good_measured T .correlator lat (max_t.toNat - 1) 1
  refine ⟨_, good T .correlator lat (max_t.toNat - 1) 1, congrArg some h1, good_le _ _ _ _ _, ?_, ?_, ?_, ?_⟩
  · intro i h2 h3
    have := g1 (i - 1) (by omega)
    rwa [show 1 + (i - 1) = i by omega] at this
  · intro h
    rw [Nat.add_comm]
    exact g2 h
  · simp
  · simp

/-- C121: the susceptibilities written are those of the field after 0, 1, 2, ... smearings, `max_t` of them (and at least
one), each under its own number and in order, up to the first that fails; success is reported exactly when none fails. -/
theorem C121_susceptibility (T : Tools F V) (max_t : BitVec 64) (lat : F) :
    ∃ r n, compute_Qsusc_step T .susceptibility max_t lat = some r ∧
      n ≤ max 1 max_t.toNat ∧
      (∀ i, i < n → (T.measure .susceptibility (after T lat i)).isSome) ∧
      (n < max 1 max_t.toNat → T.measure .susceptibility (after T lat n) = none) ∧
      r.records = history T .susceptibility lat 0 n ∧ (r.flag = true ↔ n = max 1 max_t.toNat) := by
  unfold compute_Qsusc_step
  rcases hq : T.measure .susceptibility lat with _ | v
  · refine ⟨_, 0, rfl, by omega, fun i hi => by omega, fun _ => hq, rfl, ?_⟩
    constructor
    · intro h; cases h
    · intro h; omega
  · obtain ⟨l, h1, -⟩ := loop_files T .susceptibility (by decide) lat (max_t.toNat - 1) 0 ⟨lat, [(0, v)], [], true, none⟩ rfl
    obtain ⟨g1, g2⟩ := good_measured T .susceptibility lat (max_t.toNat - 1) 1
    have hle := good_le T .susceptibility lat (max_t.toNat - 1) 1
    refine ⟨_, good T .susceptibility lat (max_t.toNat - 1) 1 + 1, congrArg some h1, by omega, ?_, ?_, ?_, ?_⟩
    · intro i hi
      rcases i with _ | i
      · show (T.measure .susceptibility lat).isSome
        rw [hq]
        rfl
      · have := g1 i (by omega)
        rwa [Nat.add_comm] at this
    · intro h
      rw [Nat.add_comm]
      exact g2 (by omega)
    · show [(0, v)] ++ history T .susceptibility lat 1 _ = _
      unfold history
      rw [List.range'_succ, List.filterMap_cons]
      have h0 : T.measure .susceptibility (after T lat 0) = some v := hq
      rw [h0]
      rfl
    · simp only [Bool.true_and, beq_iff_eq, Nat.zero_add]
      omega

theorem loop_moments (T : Tools F V) (lat : F) (n a : ℕ) (r : Run F V) (hl : r.lat = after T lat a)
    (hq : r.Qmom = (List.range' 1 a).map (fun k => T.measure .moments (after T lat k)) ++ List.replicate n none) :
    ∃ l, loop T .moments n (a + 1) r = ⟨l, r.records,
        (List.range' 1 (a + good T .moments lat n (a + 1))).map (fun k => T.measure .moments (after T lat k)) ++
          List.replicate (n - good T .moments lat n (a + 1)) none,
        r.flag && (good T .moments lat n (a + 1) == n), r.written⟩ := by
  induction n generalizing a r with
  | zero =>
    refine ⟨r.lat, ?_⟩
    rw [loop, good]
    cases r
    simp only at hq
    simp [hq]
  | succ n ih =>
    rw [loop]
    dsimp only
    rw [hl, ← after_succ, good]
    rcases hm : T.measure .moments (after T lat (a + 1)) with _ | v
    · refine ⟨after T lat (a + 1), ?_⟩
      rw [Option.isSome_none, if_neg (by simp)]
      simp [hq]
    · rw [Option.isSome_some, if_pos rfl]
      obtain ⟨l, h1⟩ := ih (a + 1) { r with lat := after T lat (a + 1), Qmom := r.Qmom.set a (some v) } rfl (by
        show r.Qmom.set a (some v) = _
        rw [hq, List.range'_concat, List.map_append, List.replicate_succ, List.append_assoc,
          List.set_append_right _ _ (by simp)]
        congr 1
        simp only [List.length_map, List.length_range', Nat.sub_self, List.set_cons_zero, List.map_cons, List.map_nil,
          List.cons_append, List.nil_append, Nat.one_mul]
        rw [Nat.add_comm 1 a, hm])
      refine ⟨l, ?_⟩
      show loop T .moments n (a + 1 + 1) { r with lat := after T lat (a + 1), Qmom := r.Qmom.set a (some v) } = _
      rw [h1]
      simp only [Run.mk.injEq, true_and, and_true]
      refine ⟨?_, by simp⟩
      congr 2
      · congr 1
        omega
      · omega

/-- C121: for `1 ≤ max_t` measurements that all succeed, the moments written are those of the field after 1, 2, ...,
`max_t - 1` smearings, and success is reported. Missing: a measurement that fails, and `max_t = 0`. -/
theorem C121_moments_partial (T : Tools F V) (max_t : BitVec 64) (lat : F) (h1 : 1 ≤ max_t.toNat)
    (h2 : max_t.toNat ≤ 2 ^ 59)
    (hm : ∀ i, 1 ≤ i → i < max_t.toNat → (T.measure .moments (after T lat i)).isSome) :
    ∃ r, compute_Qsusc_step T .moments max_t lat = some r ∧ r.flag = true ∧
      r.written = some ((List.range' 1 (max_t.toNat - 1)).map fun k => T.measure .moments (after T lat k)) := by
  have hn : (max_t - 1).toNat = max_t.toNat - 1 := by
    have : (1 : BitVec 64).toNat = 1 := rfl
    rw [BitVec.toNat_sub_of_le (by rw [BitVec.le_def]; exact h1)]
    rfl
  have hb : ((max_t - 1) * 16).toNat = (max_t.toNat - 1) * 16 := by
    rw [BitVec.toNat_mul, hn]
    show (max_t.toNat - 1) * 16 % 2 ^ 64 = _
    exact Nat.mod_eq_of_lt (by omega)
  have hroom : room max_t = some (max_t.toNat - 1) := by
    unfold room
    dsimp only
    rw [hb, if_pos (by omega), Nat.mul_div_cancel _ (by decide)]
  have hg : good T .moments lat (max_t.toNat - 1) 1 = max_t.toNat - 1 := by
    by_contra hne
    have hlt := lt_of_le_of_ne (good_le T .moments lat (max_t.toNat - 1) 1) hne
    have h3 := (good_measured T .moments lat (max_t.toNat - 1) 1).2 hlt
    have h4 := hm (1 + good T .moments lat (max_t.toNat - 1) 1) (by omega) (by omega)
    rw [h3] at h4
    cases h4
  obtain ⟨l, h3⟩ := loop_moments T lat (max_t.toNat - 1) 0
    ⟨lat, [], List.replicate (max_t.toNat - 1) none, true, none⟩ rfl (by simp)
  rw [Nat.zero_add, hg] at h3
  unfold compute_Qsusc_step
  dsimp only
  rw [hroom, hn]
  dsimp only
  rw [if_pos le_rfl, h3]
  refine ⟨_, rfl, by simp, ?_⟩
  simp

/-- C121: if the measurement number `k` fails, failure is reported, but the file of all `max_t - 1` moments is written;
the entries from `k` on are memory that was never set. -/
theorem C121_moments_fails (T : Tools F V) (max_t : BitVec 64) (lat : F) (h2 : max_t.toNat ≤ 2 ^ 59) {k : ℕ}
    (hk : 1 ≤ k) (hk2 : k < max_t.toNat) (hm : ∀ i, 1 ≤ i → i < k → (T.measure .moments (after T lat i)).isSome)
    (hf : T.measure .moments (after T lat k) = none) :
    ∃ r w, compute_Qsusc_step T .moments max_t lat = some r ∧ r.flag = false ∧ r.written = some w ∧
      w.length = max_t.toNat - 1 ∧ ∀ i, k ≤ i → i < max_t.toNat → w[i - 1]? = some none := by
  have hn : (max_t - 1).toNat = max_t.toNat - 1 := by
    rw [BitVec.toNat_sub_of_le (by rw [BitVec.le_def]; exact (by omega : 1 ≤ max_t.toNat))]
    rfl
  have hb : ((max_t - 1) * 16).toNat = (max_t.toNat - 1) * 16 := by
    rw [BitVec.toNat_mul, hn]
    show (max_t.toNat - 1) * 16 % 2 ^ 64 = _
    exact Nat.mod_eq_of_lt (by omega)
  have hroom : room max_t = some (max_t.toNat - 1) := by
    unfold room
    dsimp only
    rw [hb, if_pos (by omega), Nat.mul_div_cancel _ (by decide)]
  obtain ⟨g1, g2⟩ := good_measured T .moments lat (max_t.toNat - 1) 1
  have hg : good T .moments lat (max_t.toNat - 1) 1 = k - 1 := by
    have hle := good_le T .moments lat (max_t.toNat - 1) 1
    rcases lt_trichotomy (good T .moments lat (max_t.toNat - 1) 1) (k - 1) with h | h | h
    · have h3 := g2 (by omega)
      have h4 := hm (1 + good T .moments lat (max_t.toNat - 1) 1) (by omega) (by omega)
      rw [h3] at h4
      cases h4
    · exact h
    · have h4 := g1 (k - 1) h
      rw [show 1 + (k - 1) = k by omega, hf] at h4
      cases h4
  obtain ⟨l, h3⟩ := loop_moments T lat (max_t.toNat - 1) 0
    ⟨lat, [], List.replicate (max_t.toNat - 1) none, true, none⟩ rfl (by simp)
  rw [Nat.zero_add, hg, Nat.zero_add] at h3
  unfold compute_Qsusc_step
  dsimp only
  rw [hroom, hn]
  dsimp only
  rw [if_pos le_rfl, h3]
  refine ⟨_, _, rfl, ?_, rfl, ?_, ?_⟩
  · show (true && (k - 1 == max_t.toNat - 1)) = false
    rw [Bool.true_and, beq_eq_false_iff_ne]
    omega
  · simp only [List.length_append, List.length_map, List.length_range', List.length_replicate]
    omega
  · intro i h4 h5
    rw [List.getElem?_append_right (by simp; omega), List.getElem?_replicate]
    simp only [List.length_map, List.length_range']
    rw [if_pos (by omega)]

/-- C121: for `max_t = 0` the table of moments is refused, and then used. -/
theorem C121_zero_fails (T : Tools F V) (lat : F) : compute_Qsusc_step T .moments 0 lat = none := by
  unfold compute_Qsusc_step
  rfl

/-- C121: a smearing that fails and leaves the field alone goes unnoticed: the same numbers are written under every
measurement and success is reported. -/
theorem C121_smear_fails (T : Tools F V) (lat : F) (hs : T.smear lat = (lat, false)) {v : V}
    (hv : T.measure .correlator lat = some v) (max_t : BitVec 64) :
    ∃ r, compute_Qsusc_step T .correlator max_t lat = some r ∧ r.flag = true ∧
      r.records = (List.range' 1 (max_t.toNat - 1)).map fun k => (k, v) := by
  have hl : ∀ k, after T lat k = lat := by
    intro k
    induction k with
    | zero => rfl
    | succ k ih => rw [after_succ, ih, hs]
  obtain ⟨r, n, h1, h2, h3, h4, h5, h6⟩ := C121_correlator T max_t lat
  have hn : n = max_t.toNat - 1 := by
    by_contra hne
    have := h4 (by omega)
    rw [hl, hv] at this
    cases this
  refine ⟨r, h1, h6.2 hn, ?_⟩
  rw [h5, hn]
  unfold history
  simp only [hl, hv, Option.map_some]
  rw [← List.filterMap_eq_map]
  rfl

/-- A field that counts its smearings, measured by that number; the fourth measurement of the moments fails. -/
def counter : Tools ℕ ℕ := ⟨fun n => (n + 1, true), fun m n => if m = .moments ∧ n = 4 then none else some n⟩

example : (compute_Qsusc_step counter .correlator 4 0).map (·.records) = some [(1, 1), (2, 2), (3, 3)] := rfl
example : (compute_Qsusc_step counter .susceptibility 3 0).map (·.records) = some [(0, 0), (1, 1), (2, 2)] := rfl
example : (compute_Qsusc_step counter .moments 3 0).map (·.written) = some (some [some 1, some 2]) := rfl
example : (compute_Qsusc_step counter .moments 7 0).map (fun r => (r.flag, r.written)) =
    some (false, some [some 1, some 2, some 3, none, none, none]) := rfl

end GLU.Field.Step
