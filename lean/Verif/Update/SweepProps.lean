import Verif.Update.SweepModel
import Verif.Update.Props
import Mathlib.Tactic.FinCases
import Verif.Field.Props
import Verif.Sched.Props

/-!
# C127: overrelaxation of the lattice leaves the average plaquette unchanged
-/

namespace GLU.Update

open GLU.Mat GLU.Geom GLU.Sched GLU.Field GLU.Draught Finset Matrix Complex

/-- The sum of the real traces of the squares: up to a factor and a constant, the action. -/
noncomputable def squares (NC : ℕ) (L : Latt) (lat : Gauge) : ℝ :=
  ∑ i ∈ range (volume L), ∑ mu ∈ range L.ND, ∑ nu ∈ range mu, (Matrix.trace (square NC L lat i mu nu)).re

theorem squares_two (NC : ℕ) (L : Latt) (lat : Gauge) :
    2 * squares NC L lat = ∑ a ∈ range L.ND, ∑ b ∈ (range L.ND).erase a,
      ∑ i ∈ range (volume L), (Matrix.trace (square NC L lat i a b)).re := by
  rw [sum_erase_symm L.ND (fun a b => ∑ i ∈ range (volume L), (Matrix.trace (square NC L lat i a b)).re)
    (fun a b => by simp only [square_swap])]
  have e : squares NC L lat = ∑ a ∈ range L.ND, ∑ b ∈ range a,
      ∑ i ∈ range (volume L), (Matrix.trace (square NC L lat i a b)).re := by
    unfold squares
    rw [sum_comm]
    exact sum_congr rfl fun a _ => sum_comm
  rw [e]

/-- Two fields that differ only in direction `mu`, and not in two neighbours at once. -/
structure Sparse (NC : ℕ) (L : Latt) (mu : ℕ) (f g : Gauge) : Prop where
  other : ∀ i < volume L, ∀ nu < L.ND, nu ≠ mu → link NC g i nu = link NC f i nu
  apart : ∀ i < volume L, ∀ nu < L.ND, nu ≠ mu → link NC g i mu = link NC f i mu ∨
    link NC g (neighbor L i nu) mu = link NC f (neighbor L i nu) mu

theorem plane_change {NC : ℕ} {L : Latt} (hL : Valid L) {mu nu : ℕ} (hmu : mu < L.ND) (hnu : nu < L.ND) (hne : nu ≠ mu)
    {f g : Gauge} (h : Sparse NC L mu f g) :
    ∑ i ∈ range (volume L), (Matrix.trace (square NC L g i mu nu)).re =
      ∑ i ∈ range (volume L), (Matrix.trace (square NC L f i mu nu)).re +
      ∑ i ∈ range (volume L),
        (Matrix.trace ((link NC g i mu - link NC f i mu) * (stapleTerm NC L f i mu nu)ᴴ)).re := by
  set d : ℕ → Matrix (Fin NC) (Fin NC) ℂ := fun i => link NC g i mu - link NC f i mu with hd
  have e : ∀ i ∈ range (volume L), (Matrix.trace (square NC L g i mu nu)).re =
      (Matrix.trace (square NC L f i mu nu)).re +
      (Matrix.trace (d i * (link NC f i nu * link NC f (neighbor L i nu) mu * (link NC f (neighbor L i mu) nu)ᴴ)ᴴ)).re +
      (Matrix.trace (d (neighbor L i nu) * ((link NC f i nu)ᴴ * link NC f i mu * link NC f (neighbor L i mu) nu)ᴴ)).re := by
    intro i hi
    rw [mem_range] at hi
    have e1 : link NC g i mu = link NC f i mu + d i := by simp [hd]
    have e3 : link NC g (neighbor L i nu) mu = link NC f (neighbor L i nu) mu + d (neighbor L i nu) := by simp [hd]
    have e2 := h.other _ (neighbor_lt hL i hmu) nu hnu hne
    have e4 := h.other i hi nu hnu hne
    have hz : d i = 0 ∨ d (neighbor L i nu) = 0 := by
      rcases h.apart i hi nu hnu hne with h | h
      · left; simp [hd, h]
      · right; simp [hd, h]
    have r : (Matrix.trace (d (neighbor L i nu) * ((link NC f i nu)ᴴ * link NC f i mu *
        link NC f (neighbor L i mu) nu)ᴴ)).re =
        (Matrix.trace (link NC f i mu * link NC f (neighbor L i mu) nu * (d (neighbor L i nu))ᴴ * (link NC f i nu)ᴴ)).re := by
      rw [← re_trace_star]
      rw [show (d (neighbor L i nu) * ((link NC f i nu)ᴴ * link NC f i mu * link NC f (neighbor L i mu) nu)ᴴ)ᴴ =
        (link NC f i nu)ᴴ * (link NC f i mu * link NC f (neighbor L i mu) nu * (d (neighbor L i nu))ᴴ) by
          simp only [conjTranspose_mul, conjTranspose_conjTranspose, Matrix.mul_assoc], Matrix.trace_mul_comm]
    unfold square
    rw [e1, e2, e3, e4, r]
    rcases hz with hz | hz
    · simp only [hz, add_zero, zero_mul, Matrix.trace_zero, zero_re, conjTranspose_add, Matrix.mul_add, Matrix.add_mul,
        Matrix.trace_add, add_re]
    · simp only [hz, add_zero, conjTranspose_zero, Matrix.mul_zero, zero_mul, Matrix.trace_zero, zero_re,
        Matrix.add_mul, Matrix.trace_add, add_re, conjTranspose_mul, conjTranspose_conjTranspose, Matrix.mul_assoc]
  rw [sum_congr rfl e, sum_add_distrib, sum_add_distrib, add_assoc]
  congr 1
  have s := sum_back hL hnu fun i => (Matrix.trace (d (neighbor L i nu) *
    ((link NC f i nu)ᴴ * link NC f i mu * link NC f (neighbor L i mu) nu)ᴴ)).re
  rw [← s, ← sum_add_distrib]
  refine sum_congr rfl fun i hi => ?_
  rw [mem_range] at hi
  rw [(C02_inverse hL hi hnu).2, ← add_re, ← Matrix.trace_add, ← Matrix.mul_add, ← conjTranspose_add]
  rfl

/-- How the sum of the squares changes with links of one direction, no two of them neighbours: by the trace with the
staple. -/
theorem squares_change {NC : ℕ} {L : Latt} (hL : Valid L) {mu : ℕ} (hmu : mu < L.ND) {f g : Gauge}
    (h : Sparse NC L mu f g) :
    squares NC L g = squares NC L f + ∑ i ∈ range (volume L), (Matrix.trace ((link NC g i mu - link NC f i mu) *
      (∑ nu ∈ (range L.ND).erase mu, stapleTerm NC L f i mu nu)ᴴ)).re := by
  have split : ∀ lat : Gauge, 2 * squares NC L lat =
      2 * (∑ b ∈ (range L.ND).erase mu, ∑ i ∈ range (volume L), (Matrix.trace (square NC L lat i mu b)).re) +
      ∑ a ∈ (range L.ND).erase mu, ∑ b ∈ ((range L.ND).erase a).erase mu,
        ∑ i ∈ range (volume L), (Matrix.trace (square NC L lat i a b)).re := by
    intro lat
    rw [squares_two, ← Finset.add_sum_erase _ _ (mem_range.2 hmu)]
    have : ∀ a ∈ (range L.ND).erase mu, ∑ b ∈ (range L.ND).erase a,
        ∑ i ∈ range (volume L), (Matrix.trace (square NC L lat i a b)).re =
        ∑ i ∈ range (volume L), (Matrix.trace (square NC L lat i mu a)).re +
        ∑ b ∈ ((range L.ND).erase a).erase mu,
        ∑ i ∈ range (volume L), (Matrix.trace (square NC L lat i a b)).re := by
      intro a ha
      have hm : mu ∈ (range L.ND).erase a := mem_erase.2 ⟨(mem_erase.1 ha).1.symm, mem_range.2 hmu⟩
      rw [← Finset.add_sum_erase _ _ hm]
      congr 1
      exact sum_congr rfl fun i _ => square_swap ..
    rw [sum_congr rfl this, sum_add_distrib]
    ring
  have rest : ∑ a ∈ (range L.ND).erase mu, ∑ b ∈ ((range L.ND).erase a).erase mu,
        ∑ i ∈ range (volume L), (Matrix.trace (square NC L g i a b)).re =
      ∑ a ∈ (range L.ND).erase mu, ∑ b ∈ ((range L.ND).erase a).erase mu,
        ∑ i ∈ range (volume L), (Matrix.trace (square NC L f i a b)).re := by
    refine sum_congr rfl fun a ha => sum_congr rfl fun b hb => sum_congr rfl fun i hi => ?_
    rw [mem_erase, mem_range] at ha
    rw [mem_erase, mem_erase, mem_range] at hb
    rw [mem_range] at hi
    unfold square
    rw [h.other i hi a ha.2 ha.1, h.other _ (neighbor_lt hL i ha.2) b hb.2.2 hb.1,
      h.other _ (neighbor_lt hL i hb.2.2) a ha.2 ha.1, h.other i hi b hb.2.2 hb.1]
  have main : ∑ b ∈ (range L.ND).erase mu, ∑ i ∈ range (volume L), (Matrix.trace (square NC L g i mu b)).re =
      ∑ b ∈ (range L.ND).erase mu, ∑ i ∈ range (volume L), (Matrix.trace (square NC L f i mu b)).re +
      ∑ i ∈ range (volume L), (Matrix.trace ((link NC g i mu - link NC f i mu) *
        (∑ nu ∈ (range L.ND).erase mu, stapleTerm NC L f i mu nu)ᴴ)).re := by
    rw [sum_congr rfl fun b hb => plane_change hL hmu (mem_range.1 (mem_erase.1 hb).2) (mem_erase.1 hb).1 h,
      sum_add_distrib]
    congr 1
    rw [sum_comm]
    refine sum_congr rfl fun i _ => ?_
    rw [conjTranspose_sum, Matrix.mul_sum, Matrix.trace_sum, re_sum]
  have h1 := split f
  have h2 := split g
  rw [rest, main] at h2
  linarith

theorem forN_foldl {σ : Type*} (n : ℕ) (body : ℕ → σ → σ) (s : σ) :
    forN n body s = (List.range n).foldl (fun s i => body i s) s := by
  induction n with
  | zero => rfl
  | succ n ih => rw [forN, ih, List.range_succ, List.foldl_append]; rfl

theorem orValues_last {NC : ℕ} (st : Arr ℂ) (l : List ℕ) (U V : Arr ℂ)
    (h : l.foldl (fun (o : Option (Arr ℂ)) i => o.bind fun U => (only_subgroup NC U st i).map fun s =>
      let t := microcanonical s.1 s.2.1
      su2_rotate NC U t.1 t.2 i) (some U) = some V) : (orValues NC st l U).getLastD U = V := by
  induction l generalizing U with
  | nil => simpa [orValues] using h
  | cons i l ih =>
    rw [List.foldl_cons] at h
    cases hs : only_subgroup NC U st i with
    | none =>
      rw [Option.bind_some, hs, Option.map_none] at h
      have : ∀ l : List ℕ, l.foldl (fun (o : Option (Arr ℂ)) i => o.bind fun U => (only_subgroup NC U st i).map fun s =>
          let t := microcanonical s.1 s.2.1
          su2_rotate NC U t.1 t.2 i) none = none := by
        intro l
        induction l with
        | nil => rfl
        | cons a l ih => rw [List.foldl_cons, Option.bind_none, ih]
      rw [this] at h; cases h
    | some s =>
      rw [Option.bind_some, hs, Option.map_some] at h
      have := ih _ h
      simp only [orValues, hs]
      rw [List.getLastD_cons]
      exact this

/-- What the iterations leave in the link is what `overrelax` returns. -/
theorem orUpd_last {NC : ℕ} {st U V : Arr ℂ} (h : overrelax NC U st = some V) : (orUpd NC st U).getLastD U = V := by
  unfold overrelax at h
  rw [forN_foldl] at h
  exact orValues_last st _ U V h

/-- The links after the loop over the sites of a colour, whatever the schedule. -/
theorem orColour_link {NC : ℕ} {L : Latt} (hL : Valid L) {nc : ℕ} {Ns : ℕ → ℕ} {sq : ℕ → List ℕ}
    (hd : ∀ mu < L.ND, L.dims mu % 2 = 1 → L.dims mu % 3 ≠ 1)
    (hcb : init_cb L (volume L) L.ND = .ok nc Ns sq) {c mu : ℕ} (hc : c < nc) (hmu : mu < L.ND) {f f' : Gauge}
    (h : OrColour NC L (sq c) mu f f') :
    (∀ x ∈ sq c, overrelax NC (f (x, mu)) (staple NC L f x mu L.ND) = some (f' (x, mu))) ∧
    ∀ l : Loc, (l.2 ≠ mu ∨ l.1 ∉ sq c) → f' l = f l := by
  obtain ⟨hdef, sched, hs, hdone, rfl⟩ := h
  rw [C09_schedule_independent hL _ _ _ hd hcb hc hmu f sched hs hdone]
  constructor
  · intro x hx
    cases ho : overrelax NC (f (x, mu)) (staple NC L f x mu L.ND) with
    | none => exact absurd ho (hdef x hx)
    | some V =>
      congr 1
      unfold simultaneous
      rw [if_pos ⟨rfl, hx⟩]
      exact (orUpd_last ho).symm
  · intro l hl
    unfold simultaneous
    rw [if_neg]
    rintro ⟨h1, h2⟩
    rcases hl with hl | hl
    · exact hl h1
    · exact hl h2

theorem sites_lt {L : Latt} (hL : Valid L) {nc : ℕ} {Ns : ℕ → ℕ} {sq : ℕ → List ℕ}
    (hcb : init_cb L (volume L) L.ND = .ok nc Ns sq) {c : ℕ} (hc : c < nc) {x : ℕ} (hx : x ∈ sq c) : x < volume L := by
  have h := hcb
  rw [volume_eq L hL.nd] at h ⊢
  exact ((C07_partition hL le_rfl h).2 c hc).2.2.2 x hx

/-- C127, one colour: the links stay in the group and the sum of the squares stays the same, whatever the schedule. -/
theorem C127_colour {NC : ℕ} (hN : 2 ≤ NC) {L : Latt} (hL : Valid L) {nc : ℕ} {Ns : ℕ → ℕ} {sq : ℕ → List ℕ}
    (hd : ∀ mu < L.ND, L.dims mu % 2 = 1 → L.dims mu % 3 ≠ 1)
    (hcb : init_cb L (volume L) L.ND = .ok nc Ns sq) {c mu : ℕ} (hc : c < nc) (hmu : mu < L.ND) {f f' : Gauge}
    (hU : SUField NC L f) (h : OrColour NC L (sq c) mu f f') : SUField NC L f' ∧ squares NC L f' = squares NC L f := by
  obtain ⟨h1, h2⟩ := orColour_link hL hd hcb hc hmu h
  have hdiff := C08_neighbours_differ_partial hL hd hcb c hc
  refine ⟨?_, ?_⟩
  · intro i hi nu hnu
    by_cases hin : nu = mu ∧ i ∈ sq c
    · obtain ⟨rfl, hx⟩ := hin
      exact (C27_overrelax hN (hU i hi nu hnu) (h1 i hx)).2
    · rw [h2 (i, nu) (by tauto)]
      exact hU i hi nu hnu
  · have hs : Sparse NC L mu f f' := by
      constructor
      · intro i _ nu _ hne
        unfold link
        rw [h2 (i, nu) (.inl hne)]
      · intro i _ nu hnu _
        unfold link
        by_cases hx : i ∈ sq c
        · right; rw [h2 _ (.inr (hdiff i hx nu hnu).1)]
        · left; rw [h2 _ (.inr hx)]
    rw [squares_change hL hmu hs]
    rw [sum_eq_zero, add_zero]
    intro i hi
    rw [mem_range] at hi
    by_cases hx : i ∈ sq c
    · have := (C27_overrelax hN (hU i hi mu hmu) (h1 i hx)).1
      rw [staple_eq hL hU hi hmu le_rfl] at this
      rw [Matrix.sub_mul, Matrix.trace_sub, sub_re]
      unfold link
      rw [this, sub_self]
    · have : link NC f' i mu = link NC f i mu := by unfold link; rw [h2 _ (.inr hx)]
      rw [this, sub_self, Matrix.zero_mul, Matrix.trace_zero, zero_re]

/-- C127. After the overrelaxation of the whole lattice, by any number of threads in any schedule, every link is in the
group and the sum of the squares is what it was. -/
theorem C127_sweep {NC : ℕ} (hN : 2 ≤ NC) {L : Latt} (hL : Valid L) {nc : ℕ} {Ns : ℕ → ℕ} {sq : ℕ → List ℕ}
    (hd : ∀ mu < L.ND, L.dims mu % 2 = 1 → L.dims mu % 3 ≠ 1)
    (hcb : init_cb L (volume L) L.ND = .ok nc Ns sq) {f f' : Gauge} (hU : SUField NC L f)
    (h : OrLattice NC L nc sq f (L.ND * nc) f') : SUField NC L f' ∧ squares NC L f' = squares NC L f := by
  have key : ∀ n g, n ≤ L.ND * nc → OrLattice NC L nc sq f n g →
      SUField NC L g ∧ squares NC L g = squares NC L f := by
    intro n g hn hg
    induction hg with
    | start => exact ⟨hU, rfl⟩
    | @pass n g h hg hp ih =>
      have ih := ih (by omega)
      have hnc : 0 < nc := by
        rcases Nat.eq_zero_or_pos nc with e | e
        · subst e; simp at hn
        · exact e
      have := C127_colour hN hL hd hcb (Nat.mod_lt n hnc) ((Nat.div_lt_iff_lt_mul hnc).2 (by omega)) ih.1 hp
      exact ⟨this.1, this.2.trans ih.2⟩
  exact key _ _ le_rfl h

theorem squares_div (NC : ℕ) (L : Latt) (lat : Gauge) : ∑ i ∈ range (volume L), ∑ mu ∈ range L.ND, ∑ nu ∈ range mu,
    (Matrix.trace (square NC L lat i mu nu)).re / NC = squares NC L lat / NC := by
  unfold squares
  simp only [sum_div]

/-- C127. Any number of overrelaxations leave the average plaquette that is reported unchanged, and the links in the
group. -/
theorem C127_plaquette {NC : ℕ} (hN : 2 ≤ NC) {L : Latt} (hL : Valid L) {nc : ℕ} {Ns : ℕ → ℕ} {sq : ℕ → List ℕ}
    (hd : ∀ mu < L.ND, L.dims mu % 2 = 1 → L.dims mu % 3 ≠ 1)
    (hcb : init_cb L (volume L) L.ND = .ok nc Ns sq) {f f' : Gauge} (hU : SUField NC L f) {k : ℕ}
    (h : OrMany NC L nc sq f k f') : SUField NC L f' ∧ av_plaquette NC L f' = av_plaquette NC L f := by
  have key : SUField NC L f' ∧ squares NC L f' = squares NC L f := by
    induction h with
    | start => exact ⟨hU, rfl⟩
    | sweep _ hs ih =>
      have := C127_sweep hN hL hd hcb ih.1 hs
      exact ⟨this.1, this.2.trans ih.2⟩
  refine ⟨key.1, ?_⟩
  rw [C29_average (by omega) hL key.1, C29_average (by omega) hL hU]
  rw [squares_div, squares_div, key.2]

/-- C127. The change of the sum of the squares when links of one colour and direction are replaced by whatever else:
the traces of the changes with the staples the program computes. This is what the heat bath draws from. -/
theorem C127_change {NC : ℕ} {L : Latt} (hL : Valid L) {nc : ℕ} {Ns : ℕ → ℕ} {sq : ℕ → List ℕ}
    (hd : ∀ mu < L.ND, L.dims mu % 2 = 1 → L.dims mu % 3 ≠ 1)
    (hcb : init_cb L (volume L) L.ND = .ok nc Ns sq) {c mu : ℕ} (hc : c < nc) (hmu : mu < L.ND) {f : Gauge}
    (hU : SUField NC L f) (new : ℕ → Arr ℂ) :
    squares NC L (fun l => if l.2 = mu ∧ l.1 ∈ sq c then new l.1 else f l) = squares NC L f +
      ∑ x ∈ (sq c).toFinset, ((Matrix.trace (toM NC (new x) * (toM NC (staple NC L f x mu L.ND))ᴴ)).re -
        (Matrix.trace (toM NC (f (x, mu)) * (toM NC (staple NC L f x mu L.ND))ᴴ)).re) := by
  have hdiff := C08_neighbours_differ_partial hL hd hcb c hc
  set g : Gauge := fun l => if l.2 = mu ∧ l.1 ∈ sq c then new l.1 else f l with hg
  have h1 : ∀ l : Loc, (l.2 ≠ mu ∨ l.1 ∉ sq c) → g l = f l := by
    intro l hl
    rw [hg]
    exact if_neg (by tauto)
  have h2 : ∀ x ∈ sq c, g (x, mu) = new x := by
    intro x hx
    rw [hg]
    exact if_pos ⟨rfl, hx⟩
  have hs : Sparse NC L mu f g := by
    constructor
    · intro i _ nu _ hne
      unfold link
      rw [h1 (i, nu) (.inl hne)]
    · intro i _ nu hnu _
      unfold link
      by_cases hx : i ∈ sq c
      · right; rw [h1 _ (.inr (hdiff i hx nu hnu).1)]
      · left; rw [h1 _ (.inr hx)]
  rw [squares_change hL hmu hs]
  congr 1
  have sub : (sq c).toFinset ⊆ range (volume L) := by
    intro x hx
    exact mem_range.2 (sites_lt hL hcb hc (List.mem_toFinset.1 hx))
  rw [← sum_subset sub]
  · refine sum_congr rfl fun x hx => ?_
    have hx' := List.mem_toFinset.1 hx
    rw [staple_eq hL hU (mem_range.1 (sub hx)) hmu le_rfl, Matrix.sub_mul, Matrix.trace_sub, sub_re]
    unfold link
    rw [h2 x hx']
  · intro x _ hx
    have hx' : x ∉ sq c := fun h => hx (List.mem_toFinset.2 h)
    unfold link
    rw [h1 (x, mu) (.inr hx'), sub_self, Matrix.zero_mul, Matrix.trace_zero, zero_re]

/-- C127. Where every update is defined the loop over a colour can be finished. -/
theorem C127_runs {NC : ℕ} {L : Latt} (S : List ℕ) (mu : ℕ) (f : Gauge)
    (h : ∀ x ∈ S, overrelax NC (f (x, mu)) (staple NC L f x mu L.ND) ≠ none) : ∃ f', OrColour NC L S mu f f' := by
  obtain ⟨sched, h1, h2⟩ := C09_sequential_schedules_finish mu S
    ⟨linkTask L (ops NC) (zero_mat NC scratch) (orUpd NC) mu, f⟩
  exact ⟨_, h, sched, h1, h2, rfl⟩

theorem overrelax_cold {U st : Arr ℂ} {c : ℝ} (hc : 0 < c) (hU : toM 2 U = 1) (hst : toM 2 st = (c : ℂ) • 1) :
    ∃ V, overrelax 2 U st = some V ∧ toM 2 V = 1 := by
  have e := fun i j : Fin 2 => congrFun (congrFun hU i) j
  have e' := fun i j : Fin 2 => congrFun (congrFun hst i) j
  have u0 : U 0 = 1 := by simpa [toM] using e 0 0
  have u1 : U 1 = 0 := by simpa [toM] using e 0 1
  have u2 : U 2 = 0 := by simpa [toM] using e 1 0
  have u3 : U 3 = 1 := by simpa [toM] using e 1 1
  have s0 : st 0 = c := by simpa [toM] using e' 0 0
  have s1 : st 1 = 0 := by simpa [toM] using e' 0 1
  have s2 : st 2 = 0 := by simpa [toM] using e' 1 0
  have s3 : st 3 = c := by simpa [toM] using e' 1 1
  have hn : normalise (c : ℂ) 0 0 (c : ℂ) = some (1, 0, 1 / (c + c)) := by
    unfold normalise
    have hq : √((c + c) * (c + c)) = c + c := Real.sqrt_mul_self (by linarith)
    have hne : c + c ≠ 0 := by linarith
    simp only [Complex.star_def, conj_ofReal, map_zero, sub_zero, add_re, ofReal_re, add_im, ofReal_im, add_zero, mul_zero,
      zero_re, zero_im, hq, hne, if_false, zero_mul]
    congr 2
    push_cast
    rw [mul_one_div, div_self]
    exact_mod_cast hne
  refine ⟨su2_rotate 2 U 1 0 0, ?_, ?_⟩
  · simp only [overrelax, NSU2SUBGROUPS, forN, Nat.reduceMul, Nat.reduceSub, Nat.reduceDiv, Option.bind_some,
      only_subgroup, u0, u1, u2, u3, s0, s1, s2, s3, if_true]
    norm_num [hn, microcanonical]
  · ext i j
    fin_cases i <;> fin_cases j <;> simp [toM, su2_rotate, arr, u0, u1, u2, u3]

theorem cold_SU {L : Latt} {f : Gauge} (hf : ∀ i < volume L, ∀ mu < L.ND, toM 2 (f (i, mu)) = 1) : SUField 2 L f := by
  intro i hi mu hmu
  unfold IsSU
  rw [hf i hi mu hmu]
  simp

theorem cold_staple {L : Latt} (hL : Valid L) {f : Gauge}
    (hf : ∀ i < volume L, ∀ mu < L.ND, toM 2 (f (i, mu)) = 1) {i mu : ℕ} (hi : i < volume L) (hmu : mu < L.ND) :
    toM 2 (staple 2 L f i mu L.ND) = ((2 * (L.ND - 1 : ℕ) : ℝ) : ℂ) • 1 := by
  rw [staple_eq hL (cold_SU hf) hi hmu le_rfl]
  have : ∀ nu ∈ (range L.ND).erase mu, stapleTerm 2 L f i mu nu = (2 : ℂ) • 1 := by
    intro nu hnu
    have hnu : nu < L.ND := mem_range.1 (mem_of_mem_erase hnu)
    unfold stapleTerm link
    rw [hf _ hi _ hnu, hf _ (neighbor_lt hL _ hnu) _ hmu, hf _ (neighbor_lt hL _ hmu) _ hnu,
      hf _ (back_lt hL _ hnu) _ hnu, hf _ (back_lt hL _ hnu) _ hmu,
      hf _ (neighbor_lt hL _ hmu) _ hnu, two_smul]
    simp
  rw [sum_congr rfl this, sum_const, card_erase_of_mem (mem_range.2 hmu), card_range, ← Nat.cast_smul_eq_nsmul ℂ,
    smul_smul]
  congr 1
  push_cast
  ring

/-- From links that are all the unit matrix, on a lattice of any shape, the sweeps can be carried out. -/
theorem C127_cold {L : Latt} (hL : Valid L) (hND : 2 ≤ L.ND) {nc : ℕ} {Ns : ℕ → ℕ} {sq : ℕ → List ℕ}
    (hd : ∀ mu < L.ND, L.dims mu % 2 = 1 → L.dims mu % 3 ≠ 1)
    (hcb : init_cb L (volume L) L.ND = .ok nc Ns sq) {f : Gauge}
    (hf : ∀ i < volume L, ∀ mu < L.ND, toM 2 (f (i, mu)) = 1) (k : ℕ) :
    ∃ f', OrMany 2 L nc sq f k f' ∧ ∀ i < volume L, ∀ mu < L.ND, toM 2 (f' (i, mu)) = 1 := by
  have step : ∀ c < nc, ∀ mu < L.ND, ∀ g : Gauge, (∀ i < volume L, ∀ mu < L.ND, toM 2 (g (i, mu)) = 1) →
      ∃ h, OrColour 2 L (sq c) mu g h ∧ ∀ i < volume L, ∀ mu < L.ND, toM 2 (h (i, mu)) = 1 := by
    intro c hc mu hmu g hg
    have def1 : ∀ x ∈ sq c, ∃ V, overrelax 2 (g (x, mu)) (staple 2 L g x mu L.ND) = some V ∧ toM 2 V = 1 := by
      intro x hx
      have hx := sites_lt hL hcb hc hx
      refine overrelax_cold ?_ (hg x hx mu hmu) (cold_staple hL hg hx hmu)
      have : 0 < L.ND - 1 := by omega
      positivity
    obtain ⟨h, hh⟩ := C127_runs (NC := 2) (L := L) (sq c) mu g (by
      intro x hx hn
      obtain ⟨V, e, -⟩ := def1 x hx
      rw [e] at hn; cases hn)
    refine ⟨h, hh, ?_⟩
    obtain ⟨h1, h2⟩ := orColour_link hL hd hcb hc hmu hh
    intro i hi nu hnu
    by_cases hin : nu = mu ∧ i ∈ sq c
    · obtain ⟨rfl, hx⟩ := hin
      obtain ⟨V, e, hV⟩ := def1 i hx
      rw [h1 i hx] at e
      cases e
      exact hV
    · rw [h2 (i, nu) (by tauto)]
      exact hg i hi nu hnu
  have sweep : ∀ n ≤ L.ND * nc, ∀ g : Gauge, (∀ i < volume L, ∀ mu < L.ND, toM 2 (g (i, mu)) = 1) →
      ∃ h, OrLattice 2 L nc sq g n h ∧ ∀ i < volume L, ∀ mu < L.ND, toM 2 (h (i, mu)) = 1 := by
    intro n hn g hg
    induction n with
    | zero => exact ⟨g, .start, hg⟩
    | succ n ih =>
      obtain ⟨h, h1, h2⟩ := ih (by omega)
      have hnc : 0 < nc := by
        rcases Nat.eq_zero_or_pos nc with e | e
        · subst e; simp at hn
        · exact e
      obtain ⟨h', h3, h4⟩ := step (n % nc) (Nat.mod_lt n hnc) (n / nc) ((Nat.div_lt_iff_lt_mul hnc).2 (by omega)) h h2
      exact ⟨h', .pass h1 h3, h4⟩
  induction k with
  | zero => exact ⟨f, .start, hf⟩
  | succ k ih =>
    obtain ⟨g, h1, h2⟩ := ih
    obtain ⟨h, h3, h4⟩ := sweep _ le_rfl g h2
    exact ⟨h, .sweep h1 h3, h4⟩

/-- A lattice with the extents 2, 3, 4 and 5 can be overrelaxed any number of times. -/
example (k : ℕ) : ∃ nc Ns sq, init_cb L2345 (volume L2345) 4 = .ok nc Ns sq ∧
    ∃ f', OrMany 2 L2345 nc sq (fun _ => arr [1, 0, 0, 1]) k f' := by
  obtain ⟨nc, Ns, sq, h⟩ := (C07_success_iff valid_L2345 (le_refl L2345.ND)).2.2 ⟨0, by decide, by decide⟩
  have h' : init_cb L2345 (volume L2345) L2345.ND = .ok nc Ns sq := by rw [volume_eq _ valid_L2345.nd]; exact h
  obtain ⟨f', h1, -⟩ := C127_cold valid_L2345 (by decide) (by decide) h'
    (f := fun _ => arr [1, 0, 0, 1]) (fun i _ mu _ => by
      ext i j
      fin_cases i <;> fin_cases j <;> simp [toM, arr]) k
  exact ⟨nc, Ns, sq, h', f', h1⟩

theorem orSite_squares {NC : ℕ} (hN : 2 ≤ NC) {L : Latt} (hL : Valid L) (h2 : ∀ mu < L.ND, 2 ≤ L.dims mu)
    {mu x : ℕ} (hmu : mu < L.ND) (hx : x < volume L) {f f' : Gauge} (hU : SUField NC L f)
    (h : orSite NC L mu x f = some f') : SUField NC L f' ∧ squares NC L f' = squares NC L f := by
  unfold orSite at h
  obtain ⟨V, hV, rfl⟩ := Option.map_eq_some_iff.1 h
  have hor := C27_overrelax hN (hU x hx mu hmu) hV
  have h1 : ∀ l : Loc, l ≠ (x, mu) → Function.update f (x, mu) V l = f l := fun l hl => Function.update_of_ne hl _ _
  refine ⟨?_, ?_⟩
  · intro i hi nu hnu
    by_cases e : (i, nu) = (x, mu)
    · rw [e, Function.update_self]
      cases e
      exact hor.2
    · rw [h1 _ e]
      exact hU i hi nu hnu
  · have hs : Sparse NC L mu f (Function.update f (x, mu) V) := by
      constructor
      · intro i _ nu _ hne
        unfold link
        rw [h1 _ (by intro e; cases e; exact hne rfl)]
      · intro i hi nu hnu _
        unfold link
        by_cases e : i = x
        · right
          rw [h1]
          intro e'
          have e1 : neighbor L i nu = i := by
            rw [e]
            have := congrArg Prod.fst e'
            simpa [e] using this
          have := coord_neighbor hL i hnu hnu
          rw [e1, if_pos rfl] at this
          have hlt : 0 ≤ (coord L L.ND i nu : ℤ) ∧ (coord L L.ND i nu : ℤ) < L.dims nu := coord_inRange hL L.ND i nu hnu
          have h2' := h2 nu hnu
          rcases lt_or_ge ((coord L L.ND i nu : ℤ) + 1) (L.dims nu) with hc | hc
          · rw [Int.emod_eq_of_lt (by omega) hc] at this; omega
          · have e2 : (coord L L.ND i nu : ℤ) + 1 = L.dims nu := by omega
            rw [e2, Int.emod_self] at this; omega
        · left
          rw [h1 _ (by intro e'; cases e'; exact e rfl)]
    rw [squares_change hL hmu hs, sum_eq_zero, add_zero]
    intro i hi
    rw [mem_range] at hi
    by_cases e : i = x
    · subst e
      have := hor.1
      rw [staple_eq hL hU hi hmu le_rfl] at this
      rw [Matrix.sub_mul, Matrix.trace_sub, sub_re]
      unfold link
      rw [Function.update_self, this, sub_self]
    · have : link NC (Function.update f (x, mu) V) i mu = link NC f i mu := by
        unfold link; rw [h1 _ (by intro e'; cases e'; exact e rfl)]
      rw [this, sub_self, Matrix.zero_mul, Matrix.trace_zero, zero_re]

/-- C127. A single thread keeps the average plaquette and the group on every lattice whose extents are at least two,
whatever the colouring. -/
theorem C127_one_thread {NC : ℕ} (hN : 2 ≤ NC) {L : Latt} (hL : Valid L) (h2 : ∀ mu < L.ND, 2 ≤ L.dims mu)
    {nc : ℕ} {Ns : ℕ → ℕ} {sq : ℕ → List ℕ} (hcb : init_cb L (volume L) L.ND = .ok nc Ns sq)
    {f f' : Gauge} (hU : SUField NC L f) (h : orAlone NC L nc sq (L.ND * nc) f = some f') :
    SUField NC L f' ∧ av_plaquette NC L f' = av_plaquette NC L f := by
  have sites : ∀ (mu : ℕ), mu < L.ND → ∀ (S : List ℕ), (∀ x ∈ S, x < volume L) → ∀ g g' : Gauge, SUField NC L g →
      orSites NC L mu S g = some g' → SUField NC L g' ∧ squares NC L g' = squares NC L g := by
    intro mu hmu S
    induction S with
    | nil => rintro - g g' hg ⟨⟩; exact ⟨hg, rfl⟩
    | cons x S ih =>
      intro hS g g' hg h
      obtain ⟨k, h3, h4⟩ := Option.bind_eq_some_iff.1 h
      have h5 := orSite_squares hN hL h2 hmu (hS x (by simp)) hg h3
      have h6 := ih (fun y hy => hS y (by simp [hy])) k g' h5.1 h4
      exact ⟨h6.1, h6.2.trans h5.2⟩
  have key : ∀ n ≤ L.ND * nc, ∀ g, orAlone NC L nc sq n f = some g →
      SUField NC L g ∧ squares NC L g = squares NC L f := by
    intro n
    induction n with
    | zero => rintro - g ⟨⟩; exact ⟨hU, rfl⟩
    | succ n ih =>
      intro hn g hg
      obtain ⟨k, h3, h4⟩ := Option.bind_eq_some_iff.1 hg
      have hnc : 0 < nc := by
        rcases Nat.eq_zero_or_pos nc with e | e
        · subst e; simp at hn
        · exact e
      have h5 := ih (by omega) k h3
      have h6 := sites (n / nc) ((Nat.div_lt_iff_lt_mul hnc).2 (by omega)) (sq (n % nc))
        (fun x hx => sites_lt hL hcb (Nat.mod_lt n hnc) hx) k g h5.1 h4
      exact ⟨h6.1, h6.2.trans h5.2⟩
  have k := key _ le_rfl f' h
  refine ⟨k.1, ?_⟩
  rw [C29_average (by omega) hL k.1, C29_average (by omega) hL hU, squares_div, squares_div, k.2]

end GLU.Update
