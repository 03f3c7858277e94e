import Verif.Update.HaarHeat
import Verif.Update.SweepProps
import Verif.Field.ChargeProps
import Mathlib.MeasureTheory.Integral.Marginal

/-!
# The distribution of the whole lattice
-/

namespace GLU.Update.Haar

open MeasureTheory Set ENNReal Matrix GLU.Mat GLU.Geom GLU.Field GLU.Draught GLU.Update.Draw

/-! ## Matrices that depend measurably on a parameter -/

/-- Every entry is measurable. -/
def EMeas {X : Type*} [MeasurableSpace X] {n : ℕ} (M : X → Matrix (Fin n) (Fin n) ℂ) : Prop :=
  ∀ i j, Measurable fun x => M x i j

section
variable {X : Type*} [MeasurableSpace X] {n : ℕ} {M M' : X → Matrix (Fin n) (Fin n) ℂ}

theorem EMeas.mul (h : EMeas M) (h' : EMeas M') : EMeas fun x => M x * M' x := by
  intro i j
  simp only [Matrix.mul_apply]
  exact Finset.measurable_fun_sum _ fun k _ => (h i k).mul (h' k j)

theorem EMeas.add (h : EMeas M) (h' : EMeas M') : EMeas fun x => M x + M' x :=
  fun i j => (h i j).add (h' i j)

theorem EMeas.star (h : EMeas M) : EMeas fun x => (M x)ᴴ :=
  fun i j => Complex.continuous_conj.measurable.comp (h j i)

theorem EMeas.sum {ι : Type*} {s : Finset ι} {N : ι → X → Matrix (Fin n) (Fin n) ℂ} (h : ∀ k ∈ s, EMeas (N k)) :
    EMeas fun x => ∑ k ∈ s, N k x := by
  intro i j
  simp only [Matrix.sum_apply]
  exact Finset.measurable_fun_sum _ fun k hk => h k hk i j

theorem EMeas.val {V : X → SU n} (h : Measurable V) : EMeas fun x => (V x).1 :=
  fun i j => (measurable_entry i j).comp h

theorem EMeas.quat (p q : Fin n) (h : EMeas M) : Measurable fun x => quat p q (M x) :=
  ((h p p).add (Complex.continuous_conj.measurable.comp (h q q))).prodMk
    ((h p q).sub (Complex.continuous_conj.measurable.comp (h q p)))

theorem EMeas.re_trace (h : EMeas M) : Measurable fun x => (Matrix.trace (M x)).re := by
  unfold Matrix.trace
  exact Complex.measurable_re.comp (Finset.measurable_fun_sum _ fun k _ => h k k)

theorem orMap_joint {p q : Fin n} (h : p ≠ q) (hM : EMeas M) {V : X → SU n} (hV : Measurable V) :
    Measurable fun x => orMap h (M x) (V x) := by
  have hq := ((EMeas.val hV).mul hM).quat p q
  have hp := proj_measurable.comp hq
  exact Measurable.ite (hq (measurableSet_singleton (0 : ℂ × ℂ)).compl)
    (((embSU_measurable h).comp (hp.inv.mul hp.inv)).mul hV) hV

theorem hbMap_joint {p q : Fin n} (h : p ≠ q) (hM : EMeas M) {V : X → SU n} (hV : Measurable V) {g : X → SU 2}
    (hg : Measurable g) : Measurable fun x => hbMap h (M x) (V x) (g x) := by
  have hq := ((EMeas.val hV).mul hM).quat p q
  have hp := proj_measurable.comp hq
  exact Measurable.ite (hq (measurableSet_singleton (0 : ℂ × ℂ)).compl)
    (((embSU_measurable h).comp (hg.mul hp.inv)).mul hV) hV

theorem normG_joint (p q : Fin n) (beta : ℝ) (hM : EMeas M) {V : X → SU n} (hV : Measurable V) :
    Measurable fun x => normG p q beta (M x) (V x) := by
  have hq := ((EMeas.val hV).mul hM).quat p q
  have h1 : Measurable fun x => Complex.normSq (Haar.quat p q ((V x).1 * M x)).1 :=
    Complex.continuous_normSq.measurable.comp (measurable_fst.comp hq)
  have h2 : Measurable fun x => Complex.normSq (Haar.quat p q ((V x).1 * M x)).2 :=
    Complex.continuous_normSq.measurable.comp (measurable_snd.comp hq)
  unfold normG
  fun_prop
end

/-! ## Overrelaxation of a link over all subgroups -/

theorem rows_ne {NC : ℕ} (hN : 2 ≤ NC) {i : ℕ} (hi : i < NSU2SUBGROUPS NC) :
    (⟨_, (rowsOf_spec hN hi).1⟩ : Fin NC) ≠ ⟨_, (rowsOf_spec hN hi).2.1⟩ :=
  fun e => (rowsOf_spec hN hi).2.2 (congrArg Fin.val e)

open Classical in
/-- Overrelaxation in subgroup `i`. -/
noncomputable def orSub {NC : ℕ} (hN : 2 ≤ NC) (i : ℕ) (S : Matrix (Fin NC) (Fin NC) ℂ) (V : SU NC) : SU NC :=
  if hi : i < NSU2SUBGROUPS NC then orMap (rows_ne hN hi) S V else V

/-- Overrelaxation in the first `n` subgroups. -/
noncomputable def orUpto {NC : ℕ} (hN : 2 ≤ NC) (S : Matrix (Fin NC) (Fin NC) ℂ) (V : SU NC) : ℕ → SU NC
  | 0 => V
  | n + 1 => orSub hN n S (orUpto hN S V n)

/-- Overrelaxation of a link. -/
noncomputable def orLink {NC : ℕ} (hN : 2 ≤ NC) (S : Matrix (Fin NC) (Fin NC) ℂ) (V : SU NC) : SU NC :=
  orUpto hN S V (NSU2SUBGROUPS NC)

theorem orLink_model {NC : ℕ} (hN : 2 ≤ NC) {U st U' : Arr ℂ} {V : SU NC} (hU : toM NC U = V.1)
    (h : overrelax NC U st = some U') : toM NC U' = (orLink hN (toM NC st)ᴴ V).1 := by
  have main : ∀ n ≤ NSU2SUBGROUPS NC, ∀ U', forN n (fun i U => U.bind fun U =>
        (only_subgroup NC U st i).map fun s =>
          let t := microcanonical s.1 s.2.1
          su2_rotate NC U t.1 t.2 i) (some U) = some U' → toM NC U' = (orUpto hN (toM NC st)ᴴ V n).1 := by
    intro n
    induction n with
    | zero => rintro _ _ ⟨⟩; exact hU
    | succ n ih =>
      intro hn U' hU'
      have hi : n < NSU2SUBGROUPS NC := hn
      rw [show ∀ (f : ℕ → Option (Arr ℂ) → Option (Arr ℂ)) s, forN (n + 1) f s = f n (forN n f s) from
        fun _ _ => rfl] at hU'
      obtain ⟨W, hW, hs⟩ := Option.bind_eq_some_iff.1 hU'
      obtain ⟨s, hs', rfl⟩ := Option.map_eq_some_iff.1 hs
      rw [orUpto, orSub, dif_pos hi]
      exact or_model hN hi (rows_ne hN hi) rfl rfl (ih (by omega) W hW) hs'
  exact main _ le_rfl U' h

theorem orLink_trace {NC : ℕ} (hN : 2 ≤ NC) (S : Matrix (Fin NC) (Fin NC) ℂ) (V : SU NC) :
    (Matrix.trace ((orLink hN S V).1 * S)).re = (Matrix.trace (V.1 * S)).re := by
  have : ∀ n, (Matrix.trace ((orUpto hN S V n).1 * S)).re = (Matrix.trace (V.1 * S)).re := by
    intro n
    induction n with
    | zero => rfl
    | succ n ih =>
      rw [orUpto, orSub]
      split
      · next hi => rw [orMap_trace (rows_ne hN hi), ih]
      · exact ih
  exact this _

theorem orLink_joint {X : Type*} [MeasurableSpace X] {NC : ℕ} (hN : 2 ≤ NC) {M : X → Matrix (Fin NC) (Fin NC) ℂ}
    (hM : EMeas M) {V : X → SU NC} (hV : Measurable V) : Measurable fun x => orLink hN (M x) (V x) := by
  have : ∀ n, Measurable fun x => orUpto hN (M x) (V x) n := by
    intro n
    induction n with
    | zero => exact hV
    | succ n ih =>
      simp only [orUpto, orSub]
      split
      · next hi => exact orMap_joint (rows_ne hN hi) hM ih
      · exact ih
  exact this _

theorem orLink_haar {NC : ℕ} (hN : 2 ≤ NC) (S : Matrix (Fin NC) (Fin NC) ℂ) :
    MeasurePreserving (orLink hN S) (haar NC) (haar NC) := by
  have hS : EMeas fun _ : SU NC => S := fun _ _ => measurable_const
  have : ∀ n, MeasurePreserving (fun V => orUpto hN S V n) (haar NC) (haar NC) := by
    intro n
    induction n with
    | zero => exact MeasurePreserving.id _
    | succ n ih =>
      have hor : MeasurePreserving (orSub hN n S) (haar NC) (haar NC) := by
        by_cases hi : n < NSU2SUBGROUPS NC
        · have e : orSub hN n S = orMap (rows_ne hN hi) S := by funext V; exact dif_pos hi
          rw [e]
          refine ⟨orMap_measurable _ _, ?_⟩
          refine Measure.ext_of_lintegral _ fun f hf => ?_
          rw [lintegral_map hf (orMap_measurable _ _), orMap_haar _ _ hf]
        · have e : orSub hN n S = id := by funext V; exact dif_neg hi
          rw [e]
          exact MeasurePreserving.id _
      exact hor.comp ih
  exact this _

/-! ## Configurations -/

/-- The links of a lattice. -/
abbrev Links (L : Latt) := Fin (volume L) × Fin L.ND

/-- A configuration: an element of the group on every link. -/
abbrev Conf (NC : ℕ) (L : Latt) := Links L → SU NC

/-- Independent links, each with the invariant measure. -/
noncomputable def prior (NC : ℕ) (L : Latt) : Measure (Conf NC L) := Measure.pi fun _ => haar NC

/-- The field in memory holds the configuration. -/
def Holds {NC : ℕ} {L : Latt} (f : Gauge) (c : Conf NC L) : Prop := ∀ l : Links L, toM NC (f (l.1, l.2)) = (c l).1

open Classical in
/-- A field that holds a configuration. -/
noncomputable def toField {NC : ℕ} {L : Latt} (c : Conf NC L) : Gauge := fun l =>
  if h : l.1 < volume L ∧ l.2 < L.ND then arrOf (c (⟨l.1, h.1⟩, ⟨l.2, h.2⟩)).1 else fun _ => 0

theorem toField_link {NC : ℕ} {L : Latt} (c : Conf NC L) (l : Links L) : link NC (toField c) l.1 l.2 = (c l).1 := by
  unfold link toField
  rw [dif_pos ⟨l.1.2, l.2.2⟩, toM_arrOf]

theorem toField_holds {NC : ℕ} {L : Latt} (c : Conf NC L) : Holds (toField c) c := toField_link c

theorem holds_link {NC : ℕ} {L : Latt} {f : Gauge} {c : Conf NC L} (h : Holds f c) {i mu : ℕ} (hi : i < volume L)
    (hmu : mu < L.ND) : link NC f i mu = link NC (toField c) i mu :=
  (h (⟨i, hi⟩, ⟨mu, hmu⟩)).trans (toField_link c (⟨i, hi⟩, ⟨mu, hmu⟩)).symm

theorem holds_su {NC : ℕ} {L : Latt} {f : Gauge} {c : Conf NC L} (h : Holds f c) : SUField NC L f := by
  intro i hi mu hmu
  have := h (⟨i, hi⟩, ⟨mu, hmu⟩)
  unfold IsSU
  rw [this]
  exact (c _).2

theorem link_meas {NC : ℕ} {L : Latt} (i mu : ℕ) : EMeas fun c : Conf NC L => link NC (toField c) i mu := by
  by_cases h : i < volume L ∧ mu < L.ND
  · have e : (fun c : Conf NC L => link NC (toField c) i mu) = fun c => (c (⟨i, h.1⟩, ⟨mu, h.2⟩)).1 := by
      funext c
      exact toField_link c (⟨i, h.1⟩, ⟨mu, h.2⟩)
    rw [e]
    exact EMeas.val (measurable_pi_apply _)
  · have e : (fun c : Conf NC L => link NC (toField c) i mu) = fun _ => toM NC fun _ => 0 := by
      funext c
      unfold link toField
      rw [dif_neg h]
    rw [e]
    exact fun _ _ => measurable_const

/-- The staple of a link of a configuration. -/
noncomputable def stap {NC : ℕ} {L : Latt} (c : Conf NC L) (i mu : ℕ) : Matrix (Fin NC) (Fin NC) ℂ :=
  ∑ nu ∈ (Finset.range L.ND).erase mu, stapleTerm NC L (toField c) i mu nu

theorem stap_meas {NC : ℕ} {L : Latt} (i mu : ℕ) : EMeas fun c : Conf NC L => stap c i mu := by
  refine EMeas.sum fun nu _ => ?_
  unfold stapleTerm
  exact (((link_meas _ _).mul (link_meas _ _)).mul (link_meas _ _).star).add
    (((link_meas _ _).star.mul (link_meas _ _)).mul (link_meas _ _))

theorem stap_eq {NC : ℕ} {L : Latt} (hL : Valid L) {f : Gauge} {c : Conf NC L} (h : Holds f c) {i mu : ℕ}
    (hi : i < volume L) (hmu : mu < L.ND) : toM NC (staple NC L f i mu L.ND) = stap c i mu := by
  rw [staple_eq hL (holds_su h) hi hmu le_rfl]
  refine Finset.sum_congr rfl fun nu hnu => ?_
  have hn := Finset.mem_range.1 (Finset.mem_erase.1 hnu).2
  unfold stapleTerm
  rw [holds_link h hi hn, holds_link h (neighbor_lt hL _ hn) hmu, holds_link h (neighbor_lt hL _ hmu) hn,
    holds_link h (back_lt hL _ hn) hn, holds_link h (back_lt hL _ hn) hmu, holds_link h (neighbor_lt hL _ hmu) hn]

/-- The sum of the squares of a configuration. -/
noncomputable def total {NC : ℕ} {L : Latt} (c : Conf NC L) : ℝ := squares NC L (toField c)

theorem total_meas {NC : ℕ} {L : Latt} : Measurable (total : Conf NC L → ℝ) := by
  unfold total squares
  refine Finset.measurable_fun_sum _ fun i _ => Finset.measurable_fun_sum _ fun mu _ =>
    Finset.measurable_fun_sum _ fun nu _ => ?_
  unfold square
  exact EMeas.re_trace ((((link_meas _ _).mul (link_meas _ _)).mul (link_meas _ _).star).mul (link_meas _ _).star)

/-! ## Sites that are not neighbours -/

/-- No two of the sites are neighbours. -/
def Apart (L : Latt) (S : Set ℕ) : Prop := ∀ i ∈ S, ∀ nu < L.ND, neighbor L i nu ∉ S ∧ back L i nu ∉ S

theorem apart_one {L : Latt} (hL : Valid L) (h2 : ∀ mu < L.ND, 2 ≤ L.dims mu) {x : ℕ} (hx : x < volume L) :
    Apart L {x} := by
  have key : ∀ nu < L.ND, neighbor L x nu ≠ x := by
    intro nu hnu e1
    have := coord_neighbor hL x hnu hnu
    rw [e1, if_pos rfl] at this
    have hlt : 0 ≤ (coord L L.ND x nu : ℤ) ∧ (coord L L.ND x nu : ℤ) < L.dims nu := coord_inRange hL L.ND x nu hnu
    have h2' := h2 nu hnu
    rcases lt_or_ge ((coord L L.ND x nu : ℤ) + 1) (L.dims nu) with hc | hc
    · rw [Int.emod_eq_of_lt (by omega) hc] at this; omega
    · have e2 : (coord L L.ND x nu : ℤ) + 1 = L.dims nu := by omega
      rw [e2, Int.emod_self] at this; omega
  intro i hi nu hnu
  obtain rfl := mem_singleton_iff.1 hi
  refine ⟨fun h => key nu hnu (mem_singleton_iff.1 h), fun h => ?_⟩
  have e := (C02_inverse hL hx hnu).2
  rw [mem_singleton_iff.1 h] at e
  exact key nu hnu e

/-- Two configurations that differ at most on the links of one direction at some sites. -/
def Differ {NC : ℕ} {L : Latt} (mu : ℕ) (S : Set ℕ) (c c' : Conf NC L) : Prop :=
  ∀ l : Links L, ¬ ((l.2 : ℕ) = mu ∧ (l.1 : ℕ) ∈ S) → c' l = c l

theorem differ_link {NC : ℕ} {L : Latt} {mu : ℕ} {S : Set ℕ} {c c' : Conf NC L} (h : Differ mu S c c') {i nu : ℕ}
    (hn : ¬ (nu = mu ∧ i ∈ S)) : link NC (toField c') i nu = link NC (toField c) i nu := by
  by_cases hr : i < volume L ∧ nu < L.ND
  · have e := h (⟨i, hr.1⟩, ⟨nu, hr.2⟩) hn
    have e1 := toField_link c (⟨i, hr.1⟩, ⟨nu, hr.2⟩)
    have e2 := toField_link c' (⟨i, hr.1⟩, ⟨nu, hr.2⟩)
    rw [e] at e2
    exact e2.trans e1.symm
  · unfold link toField
    rw [dif_neg hr, dif_neg hr]

theorem differ_stap {NC : ℕ} {L : Latt} {mu : ℕ} {S : Set ℕ} (hS : Apart L S) {c c' : Conf NC L}
    (h : Differ mu S c c') {i : ℕ} (hi : i ∈ S) : stap c' i mu = stap c i mu := by
  refine Finset.sum_congr rfl fun nu hnu => ?_
  obtain ⟨hne, hn⟩ := Finset.mem_erase.1 hnu
  have hn := Finset.mem_range.1 hn
  have ho : ∀ j, link NC (toField c') j nu = link NC (toField c) j nu := fun j => differ_link h fun e => hne e.1
  unfold stapleTerm
  rw [ho, ho, ho, ho, differ_link h (fun e => (hS i hi nu hn).1 e.2), differ_link h (fun e => (hS i hi nu hn).2 e.2)]

theorem differ_total {NC : ℕ} {L : Latt} (hL : Valid L) {mu : ℕ} (hmu : mu < L.ND) {S : Set ℕ} (hS : Apart L S)
    {c c' : Conf NC L} (h : Differ mu S c c') :
    total c' = total c + ∑ i : Fin (volume L), ((Matrix.trace ((c' (i, ⟨mu, hmu⟩)).1 * (stap c i mu)ᴴ)).re -
      (Matrix.trace ((c (i, ⟨mu, hmu⟩)).1 * (stap c i mu)ᴴ)).re) := by
  have hs : Sparse NC L mu (toField c) (toField c') := by
    constructor
    · intro i _ nu _ hne
      exact differ_link h fun e => hne e.1
    · intro i _ nu hnu _
      by_cases hi : i ∈ S
      · exact .inr (differ_link h fun e => (hS i hi nu hnu).1 e.2)
      · exact .inl (differ_link h fun e => hi e.2)
  unfold total
  rw [squares_change hL hmu hs, Finset.sum_range]
  congr 1
  refine Finset.sum_congr rfl fun i _ => ?_
  rw [← toField_link c (i, ⟨mu, hmu⟩), ← toField_link c' (i, ⟨mu, hmu⟩), Matrix.sub_mul, Matrix.trace_sub, Complex.sub_re]
  rfl

end GLU.Update.Haar
