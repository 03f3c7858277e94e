import Verif.Update.LatticeModel
import Verif.Update.SweepProps

/-!
# C128: updates leave group elements in the lattice
-/

namespace GLU.Update

open GLU.Mat GLU.Geom GLU.Sched GLU.Field GLU.Draught

section
variable {M : Type}

/-- Whatever the other links hold when they are read, the program leaves a value with the property in its own link, which
holds `cur` now. -/
def Ends (own : Loc) (P : M → Prop) : Prog M → M → Prop
  | .done, cur => P cur
  | .read l k, cur => if l = own then Ends own P (k cur) cur else ∀ v, Ends own P (k v) cur
  | .write v k, _ => Ends own P k v

theorem ends_writeAll (own : Loc) (P : M → Prop) (vs : List M) (cur : M) :
    Ends own P (writeAll vs) cur ↔ P (vs.getLastD cur) := by
  induction vs generalizing cur with
  | nil => rfl
  | cons v vs ih => rw [writeAll, Ends, ih, List.getLastD_cons]

theorem ends_read {own l : Loc} {P : M → Prop} {k : M → Prog M} {cur : M} (h : ∀ v, Ends own P (k v) cur) :
    Ends own P (.read l k) cur := by
  rw [Ends]
  split
  · exact h _
  · exact h

theorem ends_staple (L : Latt) (o : MatOps M) (own : Loc) (P : M → Prop) (i mu : ℕ) (js : List ℕ) (st : M)
    (k : M → Prog M) (cur : M) (h : ∀ v, Ends own P (k v) cur) : Ends own P (stapleProg L o i mu js st k) cur := by
  induction js generalizing st with
  | nil => exact h st
  | cons j js ih =>
    exact ends_read fun _ => ends_read fun _ => ends_read fun _ => ends_read fun _ => ends_read fun _ =>
      ends_read fun _ => ih _

/-- A property of the link that every update keeps, whatever the staple, is there when the iteration has ended. -/
theorem run_ends {mu : ℕ} {P : ℕ → M → Prop} (s : Config M) (sched : List ℕ)
    (h : ∀ x, Ends (x, mu) (P x) (s.task x) (s.mem (x, mu))) (x : ℕ) :
    Ends (x, mu) (P x) ((run mu s sched).task x) ((run mu s sched).mem (x, mu)) := by
  induction sched generalizing s with
  | nil => exact h x
  | cons y sched ih =>
    refine ih (stepAt mu s y) fun z => ?_
    have hz := h z
    unfold stepAt
    cases hy : s.task y with
    | done => exact hz
    | read l k =>
      simp only
      by_cases e : z = y
      · subst e
        rw [Function.update_self]
        rw [hy, Ends] at hz
        split at hz
        · next e => rw [e]; exact hz
        · exact hz _
      · rw [Function.update_of_ne e]; exact hz
    | write v k =>
      simp only
      by_cases e : z = y
      · subst e
        rw [Function.update_self, Function.update_self]
        rwa [hy, Ends] at hz
      · rw [Function.update_of_ne e, Function.update_of_ne (by intro h; cases h; exact e rfl)]; exact hz

theorem run_other {mu : ℕ} (s : Config M) (sched : List ℕ) (l : Loc) (h : l.2 ≠ mu ∨ l.1 ∉ sched) :
    (run mu s sched).mem l = s.mem l := by
  induction sched generalizing s with
  | nil => rfl
  | cons y sched ih =>
    refine (ih (stepAt mu s y) ?_).trans ?_
    · rcases h with h | h
      · exact .inl h
      · exact .inr fun h' => h (List.mem_cons_of_mem _ h')
    · unfold stepAt
      cases hy : s.task y with
      | done => rfl
      | read l k => rfl
      | write v k =>
        refine Function.update_of_ne ?_ _ _
        rintro rfl
        rcases h with h | h
        · exact h rfl
        · exact h (by simp)

end

/-- A link that is in the group, unless it was spoilt by a division by zero. -/
def Good (NC : ℕ) (U : Spoilt) : Prop := ∀ u, U = some u → IsSU NC u

/-- The same for the links of a lattice. -/
def GoodField (NC : ℕ) (L : Latt) (f : Loc → Spoilt) : Prop := ∀ i < volume L, ∀ mu < L.ND, Good NC (f (i, mu))

theorem colour_good {NC : ℕ} {L : Latt} {upd : ℕ → Spoilt → Spoilt → List Spoilt}
    (hupd : ∀ x st U, Good NC U → Good NC ((upd x st U).getLastD U)) {S : List ℕ} {mu : ℕ} {f f' : Loc → Spoilt}
    (hf : GoodField NC L f) (h : Colour NC L upd S mu f f') : GoodField NC L f' := by
  obtain ⟨sched, hs, hdone, rfl⟩ := h
  intro i hi nu hnu
  by_cases e : nu = mu ∧ i ∈ S
  · obtain ⟨rfl, hS⟩ := e
    have := run_ends (mu := nu) (P := fun x v => Good NC (f (x, nu)) → Good NC v)
      ⟨fun x => linkTask L (opsS NC) (some (zero_mat NC scratch)) (upd x) nu x, f⟩ sched (fun x => by
        refine ends_staple _ _ _ _ _ _ _ _ _ _ fun st => ?_
        rw [Ends, if_pos rfl, ends_writeAll]
        exact hupd x st _) i
    rw [hdone i hS] at this
    exact this (hf i hi nu hnu)
  · rw [run_other _ _ _ (by
      by_cases e1 : nu = mu
      · exact .inr fun h => e ⟨e1, hs _ h⟩
      · exact .inl e1)]
    exact hf i hi nu hnu

theorem hbUpd_good {NC : ℕ} (hN : 2 ≤ NC) (invbeta : ℝ) {r : ℕ → ℝ} (hr : IsStream r) (array : Arr ℂ) (st U : Spoilt)
    (hU : Good NC U) : Good NC ((hbUpdS NC invbeta r array st U).getLastD U) := by
  intro V hV
  unfold hbUpdS at hV
  rw [List.getLastD_concat] at hV
  obtain ⟨u, rfl, hV1⟩ := Option.bind_eq_some_iff.1 hV
  obtain ⟨s, rfl, hV2⟩ := Option.bind_eq_some_iff.1 hV1
  obtain ⟨⟨W, n⟩, hW, rfl⟩ := Option.map_eq_some_iff.1 hV2
  cases hb' : hb NC u s invbeta r 0 with
  | none => unfold hbLink at hW; rw [hb'] at hW; cases hW
  | some t =>
    obtain ⟨V, h1, h2⟩ := C28_link hN (hU u rfl) invbeta hr 0 array hb'
    rw [hW] at h1
    cases h1
    exact h2

theorem orUpd_good {NC : ℕ} (hN : 2 ≤ NC) (st U : Spoilt) (hU : Good NC U) :
    Good NC ((orUpdS NC st U).getLastD U) := by
  intro V hV
  unfold orUpdS at hV
  have h1 : 0 < NSU2SUBGROUPS NC := by
    unfold NSU2SUBGROUPS
    obtain ⟨k, rfl⟩ : ∃ k, NC = k + 2 := ⟨NC - 2, by omega⟩
    have : 2 ≤ (k + 2) * (k + 2 - 1) := by
      have : (k + 2) * (k + 2 - 1) = (k + 2) * (k + 1) := rfl
      nlinarith
    omega
  obtain ⟨m, hm⟩ : ∃ m, NSU2SUBGROUPS NC = m + 1 := ⟨NSU2SUBGROUPS NC - 1, by omega⟩
  rw [hm, List.range_succ, List.map_append, List.map_cons, List.map_nil, List.getLastD_concat] at hV
  obtain ⟨u, rfl, hV1⟩ := Option.bind_eq_some_iff.1 hV
  obtain ⟨s, rfl, hV2⟩ := Option.bind_eq_some_iff.1 hV1
  rw [← hm] at hV2
  exact (C27_overrelax hN (hU u rfl) hV2).2

/-- C128. Updates of the lattice, by any number of threads in any schedule, with any random numbers and at any coupling,
leave a group element in every link in which no division by zero and no infinity has gone. The extents of the lattice and
the colours are arbitrary, so links that are read while they are being changed do no harm. -/
theorem C128_group {NC : ℕ} (hN : 2 ≤ NC) {L : Latt} {invbeta : ℝ} {nc : ℕ} {sq : ℕ → List ℕ} {Nor n : ℕ}
    {f f' : Loc → Spoilt} (hf : GoodField NC L f) (h : Updates NC L invbeta nc sq Nor f n f') : GoodField NC L f' := by
  have hhb : ∀ m g g', GoodField NC L g → HbPasses NC L invbeta nc sq g m g' → GoodField NC L g' := by
    intro m g g' hg h
    induction h with
    | start => exact hg
    | pass r array _ hr hc ih => exact colour_good (fun x st U => hbUpd_good hN invbeta (hr x) (array x) st U) ih hc
  have hor : ∀ m g g', GoodField NC L g → OrPasses NC L nc sq g m g' → GoodField NC L g' := by
    intro m g g' hg h
    induction h with
    | start => exact hg
    | pass _ hc ih => exact colour_good (fun _ st U => orUpd_good hN st U) ih hc
  have hup : ∀ m g g', GoodField NC L g → Update NC L invbeta nc sq g m g' → GoodField NC L g' := by
    intro m g g' hg h
    induction h with
    | heat h => exact hhb _ _ _ hg h
    | relax _ h ih => exact hor _ _ _ ih h
  induction h with
  | start => exact hf
  | more _ h ih => exact hup _ _ _ ih h

/-- C128. Every loop can be finished, so that there are such updates from all links. -/
theorem C128_runs {NC : ℕ} {L : Latt} (invbeta : ℝ) (nc : ℕ) (sq : ℕ → List ℕ) (Nor n : ℕ) (f : Loc → Spoilt) :
    ∃ f', Updates NC L invbeta nc sq Nor f n f' := by
  have hcol : ∀ upd S mu g, ∃ h, Colour NC L upd S mu g h := by
    intro upd S mu g
    obtain ⟨sched, h1, h2⟩ := C09_sequential_schedules_finish mu S
      ⟨fun x => linkTask L (opsS NC) (some (zero_mat NC scratch)) (upd x) mu x, g⟩
    exact ⟨_, sched, h1, h2, rfl⟩
  have hhb : ∀ m g, ∃ h, HbPasses NC L invbeta nc sq g m h := by
    intro m g
    induction m with
    | zero => exact ⟨g, .start⟩
    | succ m ih =>
      obtain ⟨h, hh⟩ := ih
      obtain ⟨h', hc⟩ := hcol (fun _ => hbUpdS NC invbeta (fun _ => 1 / 2) scratch) (sq (m % nc)) (m / nc) h
      exact ⟨h', .pass (fun _ _ => 1 / 2) (fun _ => scratch) hh (fun _ _ => by norm_num) hc⟩
  have hor : ∀ m g, ∃ h, OrPasses NC L nc sq g m h := by
    intro m g
    induction m with
    | zero => exact ⟨g, .start⟩
    | succ m ih =>
      obtain ⟨h, hh⟩ := ih
      obtain ⟨h', hc⟩ := hcol (fun _ => orUpdS NC) (sq (m % nc)) (m / nc) h
      exact ⟨h', .pass hh hc⟩
  have hup : ∀ m g, ∃ h, Update NC L invbeta nc sq g m h := by
    intro m g
    induction m with
    | zero =>
      obtain ⟨h, hh⟩ := hhb (L.ND * nc) g
      exact ⟨h, .heat hh⟩
    | succ m ih =>
      obtain ⟨h, hh⟩ := ih
      obtain ⟨h', hc⟩ := hor (L.ND * nc) h
      exact ⟨h', .relax hh hc⟩
  induction n with
  | zero => exact ⟨f, .start⟩
  | succ n ih =>
    obtain ⟨h, hh⟩ := ih
    obtain ⟨h', hc⟩ := hup Nor h
    exact ⟨h', .more hh hc⟩

theorem kpWhile_some (NORM : ℝ) {r : ℕ → ℝ} (hr : ∀ n, r n ≠ 0) (fuel n : ℕ) :
    ∃ d, (kpWhile NORM r fuel n).1 = some d := by
  have hKP : ∀ n, ∃ d, (KP NORM r n).1 = some d := by
    intro n
    unfold KP
    rw [if_neg (by simp [hr])]
    exact ⟨_, rfl⟩
  induction fuel generalizing n with
  | zero => exact hKP n
  | succ fuel ih =>
    unfold kpWhile
    split
    · exact ih _
    · exact hKP n

theorem generate_some (s0 s1 : ℂ) (NORM : ℝ) {r : ℕ → ℝ} (hr : ∀ n, r n ≠ 0) (n : ℕ) :
    ∃ g, generate_SU2 s0 s1 NORM r n = some g := by
  have : ∃ d, (drawD NORM r n).1 = some d := by
    unfold drawD
    split
    · exact kpWhile_some NORM hr _ _
    · unfold KP
      rw [if_neg (by simp [hr])]
      exact ⟨_, rfl⟩
  obtain ⟨d, hd⟩ := this
  unfold generate_SU2
  simp only [hd, Option.map_some]
  exact ⟨_, rfl⟩

/-- C128. What spoils a link of two colours: with random numbers that are not zero, only a staple without a projection on
the group. -/
theorem C128_two {U st : Arr ℂ} {invbeta : ℝ} {r : ℕ → ℝ} (hr : ∀ n, r n ≠ 0) (n : ℕ) :
    hb 2 U st invbeta r n = none ↔ only_subgroup 2 U st 0 = none := by
  show ((some (U, n)).bind fun st' : Arr ℂ × ℕ => (only_subgroup 2 st'.1 st 0).bind fun s =>
      (generate_SU2 s.1 s.2.1 (invbeta * s.2.2) r st'.2).map fun g =>
        (su2_rotate 2 st'.1 g.1.1 g.1.2 0, g.2)) = none ↔ _
  rw [Option.bind_some]
  simp only
  cases h : only_subgroup 2 U st 0 with
  | none => simp
  | some s =>
    obtain ⟨g, hg⟩ := generate_some s.1 s.2.1 (invbeta * s.2.2) hr n
    simp [hg]

/-- C128. A heat bath pass over links that are the unit matrix spoils none of them, at any coupling. -/
theorem C128_cold {L : Latt} (hL : Valid L) {nc : ℕ} {Ns : ℕ → ℕ} {sq : ℕ → List ℕ}
    (hcb : init_cb L (volume L) L.ND = .ok nc Ns sq) {f : Gauge}
    (hf : ∀ i < volume L, ∀ mu < L.ND, toM 2 (f (i, mu)) = 1) (invbeta : ℝ) {r : ℕ → ℝ} (hr : IsStream r)
    (hr0 : ∀ n, r n ≠ 0) (array : Arr ℂ) {c mu : ℕ} (hc : c < nc) (hmu : mu < L.ND) {x : ℕ} (hx : x ∈ sq c) :
    ∃ V, (hbUpdS 2 invbeta r array (some (staple 2 L f x mu L.ND)) (some (f (x, mu)))).getLastD none = some V ∧
      IsSU 2 V := by
  have hxv := sites_lt hL hcb hc hx
  have hdef : only_subgroup 2 (f (x, mu)) (staple 2 L f x mu L.ND) 0 ≠ none := by
    have hp : (0 : ℝ) < 2 * (L.ND - 1 : ℕ) := by
      have : 0 < L.ND - 1 := by have := hL.nd; omega
      positivity
    obtain ⟨V, hV, -⟩ := overrelax_cold hp (hf x hxv mu hmu) (cold_staple hL hf hxv hmu)
    intro h
    have : overrelax 2 (f (x, mu)) (staple 2 L f x mu L.ND) = (some (f (x, mu))).bind fun U =>
        (only_subgroup 2 U (staple 2 L f x mu L.ND) 0).map fun s =>
          let t := microcanonical s.1 s.2.1
          su2_rotate 2 U t.1 t.2 0 := rfl
    rw [this, Option.bind_some, h] at hV
    cases hV
  cases hh : hb 2 (f (x, mu)) (staple 2 L f x mu L.ND) invbeta r 0 with
  | none => exact absurd ((C128_two hr0 0).1 hh) hdef
  | some t =>
    obtain ⟨V, h1, h2⟩ := C28_link le_rfl (cold_SU hf x hxv mu hmu) invbeta hr 0 array hh
    refine ⟨V, ?_, h2⟩
    unfold hbUpdS
    rw [List.getLastD_concat, Option.bind_some, Option.bind_some, h1]
    rfl

end GLU.Update
