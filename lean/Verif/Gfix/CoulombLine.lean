import Verif.Gfix.CoulombDefined
import Verif.Draught.Props

/-!
# Coulomb gauge fixing: the line search

C103: what the line search measures and which step it takes.
-/

namespace GLU.Gfix

open Complex Matrix Finset GLU.Mat GLU.Geom GLU.Field GLU.Draught

/-- What Coulomb gauge fixing maximises on slice `t`: the real trace of the spatial links. -/
noncomputable def sliceFunctional (NC : ℕ) (L : Latt) (lat : Gauge) (t : ℕ) : ℝ :=
  ∑ i ∈ range (lcu L), ∑ mu ∈ range (L.ND - 1), (link NC lat (lcu L * t + i) mu).trace.re

/-! ## Loops -/

theorem loop_sum3 (n : ℕ) (body : ℕ → ℝ × ℝ × ℝ → Option (ℝ × ℝ × ℝ)) (a b c : ℕ → ℝ)
    (h : ∀ mu < n, ∀ v, body mu v = some (v.1 + a mu, v.2.1 + b mu, v.2.2 + c mu)) :
    forN n (fun mu o => o.bind (body mu)) (some (0, 0, 0)) =
      some (∑ mu ∈ range n, a mu, ∑ mu ∈ range n, b mu, ∑ mu ∈ range n, c mu) := by
  induction n with
  | zero => simp [forN]
  | succ n ih =>
    rw [forN, ih fun mu hmu => h mu (by omega), Option.bind_some, h n (by omega)]
    simp only [sum_range_succ]

theorem lineTotal_eq {site : ℕ → Option (ℝ × ℝ × ℝ)} {a b c : ℕ → ℝ} (l : List ℕ)
    (h : ∀ i ∈ l, site i = some (a i, b i, c i)) :
    lineTotal site l = some ((l.map a).sum, (l.map b).sum, (l.map c).sum) := by
  unfold lineTotal
  have key : ∀ (l : List ℕ), (∀ i ∈ l, site i = some (a i, b i, c i)) → ∀ v : ℝ × ℝ × ℝ,
      l.foldl (fun o i => o.bind fun v => (site i).map fun w => (v.1 + w.1, v.2.1 + w.2.1, v.2.2 + w.2.2)) (some v) =
        some (v.1 + (l.map a).sum, v.2.1 + (l.map b).sum, v.2.2 + (l.map c).sum) := by
    intro l
    induction l with
    | nil => intro _ v; simp
    | cons x l ih =>
      intro h v
      rw [List.foldl_cons, Option.bind_some, h x (by simp), Option.map_some, ih fun i hi => h i (by simp [hi])]
      simp only [List.map_cons, List.sum_cons, add_assoc]
  rw [key l h]
  simp

/-! ## One site -/

/-- The trace of one link of slice `t` after the slice is rotated by `g`. -/
noncomputable def linkTrace (NC : ℕ) (L : Latt) (lat : Gauge) (t : ℕ) (g : SGauge) (i mu : ℕ) : ℝ :=
  (link NC (rotated NC L g lat) (lcu L * t + i) mu).trace.re

theorem step_trace {NC : ℕ} {L : Latt} (hL : Valid L) {gauge x g' : SGauge} (hg : SUSlice NC L gauge)
    (hx : SUSlice NC L x) (hs : ∀ i < lcu L, g' i = multab_suNC NC (x i) (gauge i) (gauge i)) {lat : Gauge}
    (hU : SUField NC L lat) {t i mu : ℕ} (ht : t < L.dims (L.ND - 1)) (hi : i < lcu L) (hmu : mu < L.ND - 1) :
    Re_trace_abc_dag_suNC NC (x i) (gtransform_local NC (gauge i) (lat (i + lcu L * t, mu)) (gauge (neighbor L i mu)))
      (x (neighbor L i mu)) = linkTrace NC L lat t g' i mu := by
  have hn := ((slice_neighbor hL ht hi).1 mu hmu).1
  have hl : IsSU NC (lat (i + lcu L * t, mu)) := by
    rw [Nat.add_comm]; exact hU _ (slice_lt ht hi) _ (by omega)
  obtain ⟨e1, s1⟩ := gtransform_local_eq (hg i hi) hl (hg _ hn)
  have m1 := C11_multab_suNC (hx i hi) (hg i hi) (gauge i)
  have m2 := C11_multab_suNC (hx _ hn) (hg _ hn) (gauge (neighbor L i mu))
  rw [← hs i hi] at m1
  rw [← hs _ hn] at m2
  obtain ⟨e2, -⟩ := gtransform_local_eq m1.2 hl m2.2
  rw [C12_Re_trace_abc_dag_suNC (hx i hi) s1, e1]
  unfold linkTrace link
  rw [Nat.add_comm (lcu L * t), rotated_apply hL g' lat ht hi hmu, e2, m1.1, m2.1, conjTranspose_mul]
  simp only [Matrix.mul_assoc]

theorem here_trace {NC : ℕ} {L : Latt} (hL : Valid L) (gauge : SGauge) (lat : Gauge)
    {t i mu : ℕ} (ht : t < L.dims (L.ND - 1)) (hi : i < lcu L) (hmu : mu < L.ND - 1) :
    (trace NC (gtransform_local NC (gauge i) (lat (i + lcu L * t, mu)) (gauge (neighbor L i mu)))).re =
      linkTrace NC L lat t gauge i mu := by
  unfold linkTrace link
  rw [Nat.add_comm (lcu L * t), rotated_apply hL gauge lat ht hi hmu, C12_trace]

section

variable {NC : ℕ} (hN : 2 ≤ NC) {L : Latt} (hL : Valid L) {scratch : Arr ℂ} {inp : Planes} {gauge g1 g2 : SGauge}
  (hg : SUSlice NC L gauge) {lat : Gauge} (hU : SUField NC L lat) {t : ℕ} (ht : t < L.dims (L.ND - 1))
  (h1 : exponentiate_gauge_CG NC L scratch gauge inp (Calcg 1) = some g1)
  (h2 : exponentiate_gauge_CG NC L scratch gauge inp (Calcg 2) = some g2)

include hN hL hg hU ht h1 h2

theorem lineOdd_eq {i : ℕ} (hi : i < lcu L) :
    lineOdd NC L (set_gauge_matrix NC scratch inp (Calcg 1)) (set_gauge_matrix NC scratch inp (Calcg 2)) gauge lat t i =
      some (∑ mu ∈ range (L.ND - 1), linkTrace NC L lat t gauge i mu,
        ∑ mu ∈ range (L.ND - 1), linkTrace NC L lat t g1 i mu,
        ∑ mu ∈ range (L.ND - 1), linkTrace NC L lat t g2 i mu) := by
  obtain ⟨x1, a1, b1⟩ := exponentiate_some h1
  obtain ⟨x2, a2, b2⟩ := exponentiate_some h2
  have s1 : SUSlice NC L x1 := fun i hi => set_gauge_su hN (a1 i hi)
  have s2 : SUSlice NC L x2 := fun i hi => set_gauge_su hN (a2 i hi)
  unfold lineOdd
  rw [a1 i hi, a2 i hi, Option.bind_some, Option.bind_some]
  refine loop_sum3 _ _ _ _ _ fun mu hmu v => ?_
  have hn := ((slice_neighbor hL ht hi).1 mu hmu).1
  dsimp only
  rw [a1 _ hn, a2 _ hn, Option.bind_some, Option.map_some, here_trace hL gauge lat ht hi hmu,
    step_trace hL hg s1 b1 hU ht hi hmu, step_trace hL hg s2 b2 hU ht hi hmu]

theorem lineEven_eq {i : ℕ} (hi : i < lcu L) :
    lineEven NC L (set_gauge_matrix NC scratch inp (Calcg 1)) (set_gauge_matrix NC scratch inp (Calcg 2)) gauge lat t i =
      some (∑ mu ∈ range (L.ND - 1), (linkTrace NC L lat t gauge i mu + linkTrace NC L lat t gauge (back L i mu) mu),
        ∑ mu ∈ range (L.ND - 1), (linkTrace NC L lat t g1 i mu + linkTrace NC L lat t g1 (back L i mu) mu),
        ∑ mu ∈ range (L.ND - 1), (linkTrace NC L lat t g2 i mu + linkTrace NC L lat t g2 (back L i mu) mu)) := by
  obtain ⟨x1, a1, b1⟩ := exponentiate_some h1
  obtain ⟨x2, a2, b2⟩ := exponentiate_some h2
  have s1 : SUSlice NC L x1 := fun i hi => set_gauge_su hN (a1 i hi)
  have s2 : SUSlice NC L x2 := fun i hi => set_gauge_su hN (a2 i hi)
  have hnd := hL.nd
  have hiv : i < volume L := by have := slice_lt (L := L) (t := 0) (by omega) hi; simpa using this
  unfold lineEven
  rw [a1 i hi, a2 i hi, Option.bind_some, Option.bind_some]
  refine loop_sum3 _ _ _ _ _ fun mu hmu v => ?_
  have hn := ((slice_neighbor hL ht hi).1 mu hmu).1
  have hb := (slice_back hL ht hi hmu).1
  have hnb := (C02_inverse hL hiv (show mu < L.ND by omega)).2
  have k0 := here_trace (NC := NC) hL gauge lat ht hb hmu
  have k1 := step_trace hL hg s1 b1 hU ht hb hmu
  have k2 := step_trace hL hg s2 b2 hU ht hb hmu
  rw [hnb] at k0 k1 k2
  dsimp only
  rw [a1 _ hn, a2 _ hn, a1 _ hb, a2 _ hb, Option.bind_some, Option.bind_some, Option.bind_some, Option.map_some,
    here_trace hL gauge lat ht hi hmu,
    step_trace hL hg s1 b1 hU ht hi hmu, step_trace hL hg s2 b2 hU ht hi hmu, k0, k1, k2]
  simp only [add_assoc]

end

/-! ## The draughtboard -/

/-- With two colours every odd extent is 1. -/
theorem two_colours_even {L : Latt} (hL : Valid L) {DIR : ℕ} (hD : DIR ≤ L.ND)
    (h2 : ∀ i, colSum L DIR (coord L DIR i) < 2) {mu : ℕ} (hmu : mu < DIR) (hodd : L.dims mu % 2 = 1) :
    L.dims mu = 1 := by
  by_contra hne
  have hd : 3 ≤ L.dims mu := by have := hL.pos mu (by omega); omega
  obtain ⟨j, hj, hc⟩ := exists_site (L := L) (DIR := DIR) (Function.update (fun _ => 0) mu 2)
    (fun nu hnu => by
      by_cases e : nu = mu
      · subst e; rw [Function.update_self]; omega
      · rw [Function.update_of_ne e]; exact hL.pos nu (by omega))
  have hj2 := h2 j
  rw [colSum_congr L hc, colSum] at hj2
  have f2 := oddSum_update L.dims (fun _ => 0) 2 hmu
  have z2 : oddSum L.dims (fun _ => 0) DIR = 0 := by rw [oddSum_eq]; simp
  rw [z2, if_neg (by omega), if_neg (by omega)] at f2
  omega

/-- The site before one along a direction with a single site. -/
theorem back_one {L : Latt} (hL : Valid L) {i mu : ℕ} (hi : i < volume L) (hmu : mu < L.ND) (h1 : L.dims mu = 1) :
    back L i mu = i := by
  have hc : ∀ nu < L.ND, coord L L.ND (back L i mu) nu = coord L L.ND i nu := by
    intro nu hnu
    by_cases e : nu = mu
    · subst e
      have a := coord_lt L hL.pos L.ND i hnu
      have b := coord_lt L hL.pos L.ND (back L i nu) hnu
      omega
    · have := coord_back hL i hmu hnu
      rw [if_neg e] at this
      exact_mod_cast this
  have a := gen_site_coord hL (back_lt hL i hmu)
  have b := gen_site_coord hL hi
  rw [← a]
  conv_rhs => rw [← b]
  exact gen_site_congr (by have := hL.nd; omega) fun nu hnu => by exact_mod_cast hc nu hnu

/-- The links that start or end on the first square of a two-coloured draughtboard are all the links, once each, except
along the directions with a single site. -/
theorem sum_first {L : Latt} (hL : Valid L) {Ns : ℕ → ℕ} {sq : ℕ → List ℕ}
    (h : init_cb L (lcu L) (L.ND - 1) = .ok 2 Ns sq) (w : ℕ → ℕ → ℝ) :
    ((sq 0).map fun i => ∑ mu ∈ range (L.ND - 1), (w i mu + w (back L i mu) mu)).sum =
      ∑ i ∈ range (lcu L), ∑ mu ∈ range (L.ND - 1), w i mu +
      ∑ mu ∈ range (L.ND - 1), if L.dims mu = 1 then (∑ i ∈ range (lcu L) with get_midx L i (L.ND - 1) 2 = 0,
        (w i mu + w i mu)) - ∑ i ∈ range (lcu L), w i mu else 0 := by
  have hnd := hL.nd
  have hD : L.ND - 1 ≤ L.ND := by omega
  rw [lcu_eq L hL.nd] at h
  obtain ⟨-, h2, -, hsq, -⟩ := init_cb_ok hL hD h
  have hr : radix L.dims (L.ND - 1) = lcu L := (lcu_eq L hL.nd).symm
  have hpos := hL.pos (L.ND - 1) (by omega)
  have h2 := h2 rfl
  rw [hsq, hr, ← List.sum_toFinset _ ((List.nodup_range).filter _), List.toFinset_filter, List.toFinset_range]
  simp only [decide_eq_true_eq]
  rw [sum_comm, sum_comm (s := range (lcu L)), ← sum_add_distrib]
  refine sum_congr rfl fun mu hmu => ?_
  rw [mem_range] at hmu
  have hm : mu < L.ND := by omega
  have hv : ∀ i < lcu L, i < volume L := fun i hi => by
    have := slice_lt (L := L) (t := 0) (by omega) hi; simpa using this
  by_cases h1 : L.dims mu = 1
  · rw [if_pos h1, add_sub_cancel]
    refine sum_congr rfl fun i hi => ?_
    rw [mem_filter, mem_range] at hi
    rw [back_one hL (hv i hi.1) hm h1]
  rw [if_neg h1, add_zero]
  rw [← sum_filter_add_sum_filter_not (range (lcu L)) (fun i => get_midx L i (L.ND - 1) 2 = 0), sum_add_distrib]
  congr 1
  have hlt : ∀ i, get_midx L i (L.ND - 1) 2 < 2 := fun i => by rw [get_midx_eq]; exact Nat.mod_lt _ (by omega)
  have hflip : ∀ i, get_midx L (neighbor L i mu) (L.ND - 1) 2 ≠ get_midx L i (L.ND - 1) 2 := by
    intro i hc
    have := (midx_neighbor hL hD (Or.inl rfl) (fun _ => h2) hmu i).1 hc
    exact h1 (two_colours_even hL hD h2 hmu this.1)
  refine sum_bij' (fun i _ => back L i mu) (fun i _ => neighbor L i mu) ?_ ?_ ?_ ?_ ?_
  · intro i hi
    rw [mem_filter, mem_range] at hi ⊢
    refine ⟨(slice_back hL (t := 0) (by omega) hi.1 hmu).1, fun hc => ?_⟩
    have := hflip (back L i mu)
    rw [(C02_inverse hL (hv i hi.1) hm).2, hi.2, hc] at this
    exact this rfl
  · intro i hi
    rw [mem_filter, mem_range] at hi ⊢
    refine ⟨((slice_neighbor hL (t := 0) (by omega) hi.1).1 mu hmu).1, ?_⟩
    have a := hflip i
    have b := hlt i
    have c := hlt (neighbor L i mu)
    have d := hi.2
    omega
  · intro i hi
    rw [mem_filter, mem_range] at hi
    exact (C02_inverse hL (hv i hi.1) hm).2
  · intro i hi
    rw [mem_filter, mem_range] at hi
    exact (C02_inverse hL (hv i hi.1) hm).1
  · intro i _
    rfl

/-- A rotation leaves the trace of a link that ends where it starts. -/
theorem linkTrace_one {NC : ℕ} {L : Latt} (hL : Valid L) {g : SGauge} (hg : SUSlice NC L g) {lat : Gauge}
    (hU : SUField NC L lat) {t i mu : ℕ} (ht : t < L.dims (L.ND - 1)) (hi : i < lcu L) (hmu : mu < L.ND - 1)
    (h1 : L.dims mu = 1) : linkTrace NC L lat t g i mu = (link NC lat (lcu L * t + i) mu).trace.re := by
  have hiv : i < volume L := by
    have := slice_lt (L := L) (t := 0) (by omega) hi; simpa using this
  have hn : neighbor L i mu = i := by
    have := (C02_inverse hL hiv (show mu < L.ND by omega)).2
    rwa [back_one hL hiv (by omega) h1] at this
  have hl : IsSU NC (lat (i + lcu L * t, mu)) := by
    rw [Nat.add_comm]; exact hU _ (slice_lt ht hi) _ (by omega)
  unfold linkTrace link
  rw [Nat.add_comm (lcu L * t), rotated_apply hL g lat ht hi hmu, hn, (gtransform_local_eq (hg i hi) hl (hg i hi)).1,
    Matrix.mul_assoc, Matrix.trace_mul_comm, Matrix.mul_assoc]
  have hu := Matrix.mem_unitaryGroup_iff'.1 (Matrix.mem_specialUnitaryGroup_iff.1 (hg i hi)).1
  rw [Matrix.star_eq_conjTranspose] at hu
  rw [hu, Matrix.mul_one]

/-- The step does not change when a constant is added to the three values. -/
theorem approx_shift (f : ℕ → ℝ) (d : ℝ) : approx_minimum Calcg (fun k => f k + d) = approx_minimum Calcg f := by
  have c0 : Calcg 0 = 0 := by norm_num [Calcg]
  have c1 : Calcg 1 = 0.17 := by norm_num [Calcg]
  have c2 : Calcg 2 = 0.34 := by norm_num [Calcg]
  have h01 : Calcg 0 < Calcg 1 := by rw [c0, c1]; norm_num
  have h12 : Calcg 1 < Calcg 2 := by rw [c1, c2]; norm_num
  have hf : ∀ k ≤ 2, f k = ((f 2 - 2 * f 1 + f 0) / (2 * 0.17 ^ 2)) * Calcg k ^ 2 +
      ((4 * f 1 - f 2 - 3 * f 0) / (2 * 0.17)) * Calcg k + f 0 := by
    intro k hk
    rcases (show k = 0 ∨ k = 1 ∨ k = 2 by omega) with rfl | rfl | rfl
    · rw [c0]; ring
    · rw [c1]; ring
    · rw [c2]; ring
  rw [approx_quadratic h01 h12 hf, approx_quadratic h01 h12 (f := fun k => f k + d) (c := f 0 + d)]
  intro k hk
  rw [hf k hk]
  ring

/-! ## The property -/

/-- **C103**: on every lattice the line search measures the functional of the slice as it is and after steps of lengths
0.17 and 0.34, and steps from where it is by what the parabola through the three values gives. -/
theorem C103_line {NC : ℕ} (hN : 2 ≤ NC) {L : Latt} (hL : Valid L) (scratch : Arr ℂ) {inp : Planes}
    {gauge g1 g2 : SGauge} (hg : SUSlice NC L gauge) {lat : Gauge} (hU : SUField NC L lat) {t : ℕ}
    (ht : t < L.dims (L.ND - 1)) {nc : ℕ} {Ns : ℕ → ℕ} {sq : ℕ → List ℕ}
    (hdb : init_cb L (lcu L) (L.ND - 1) = .ok nc Ns sq)
    (h1 : exponentiate_gauge_CG NC L scratch gauge inp 0.17 = some g1)
    (h2 : exponentiate_gauge_CG NC L scratch gauge inp 0.34 = some g2) :
    line_search_Coulomb NC L scratch (nc, sq 0) gauge lat inp t =
      exponentiate_gauge_CG NC L scratch gauge inp
        (approx_minimum (fun k => if k = 0 then 0 else if k = 1 then 0.17 else 0.34) fun k =>
          -sliceFunctional NC L (rotated NC L (if k = 0 then gauge else if k = 1 then g1 else g2) lat) t) := by
  have h1' : exponentiate_gauge_CG NC L scratch gauge inp (Calcg 1) = some g1 := by
    rw [← h1]; norm_num [Calcg]
  have h2' : exponentiate_gauge_CG NC L scratch gauge inp (Calcg 2) = some g2 := by
    rw [← h2]; norm_num [Calcg]
  have key : ∃ d : ℝ, (if nc ≠ 2 then
      lineTotal (lineOdd NC L (set_gauge_matrix NC scratch inp (Calcg 1)) (set_gauge_matrix NC scratch inp (Calcg 2)) gauge
        lat t) (List.range (lcu L))
    else lineTotal (lineEven NC L (set_gauge_matrix NC scratch inp (Calcg 1)) (set_gauge_matrix NC scratch inp (Calcg 2))
        gauge lat t) (sq 0)) = some (sliceFunctional NC L (rotated NC L gauge lat) t + d,
          sliceFunctional NC L (rotated NC L g1 lat) t + d, sliceFunctional NC L (rotated NC L g2 lat) t + d) := by
    by_cases h : nc ≠ 2
    · refine ⟨0, ?_⟩
      rw [if_pos h, lineTotal_eq _ fun i hi => lineOdd_eq hN hL hg hU ht h1' h2' (List.mem_range.1 hi)]
      rw [← List.sum_toFinset _ List.nodup_range, ← List.sum_toFinset _ List.nodup_range,
        ← List.sum_toFinset _ List.nodup_range, List.toFinset_range, add_zero, add_zero, add_zero]
      rfl
    · push Not at h
      subst h
      have hlt : ∀ i ∈ sq 0, i < lcu L := by
        intro i hi
        obtain ⟨-, -, -, hsq, -⟩ := init_cb_ok hL (show L.ND - 1 ≤ L.ND by omega) (by rw [← lcu_eq L hL.nd]; exact hdb)
        rw [hsq, List.mem_filter, List.mem_range] at hi
        rw [lcu_eq L hL.nd]
        exact hi.1
      obtain ⟨d, hs⟩ : ∃ d : ℝ, ∀ g : SGauge, SUSlice NC L g → ((sq 0).map fun i => ∑ mu ∈ range (L.ND - 1),
          (linkTrace NC L lat t g i mu + linkTrace NC L lat t g (back L i mu) mu)).sum =
          sliceFunctional NC L (rotated NC L g lat) t + d := by
        refine ⟨∑ mu ∈ range (L.ND - 1), if L.dims mu = 1 then
          (∑ i ∈ range (lcu L) with get_midx L i (L.ND - 1) 2 = 0,
            ((link NC lat (lcu L * t + i) mu).trace.re + (link NC lat (lcu L * t + i) mu).trace.re)) -
              ∑ i ∈ range (lcu L), (link NC lat (lcu L * t + i) mu).trace.re else 0, ?_⟩
        intro g hg
        rw [sum_first hL hdb]
        congr 1
        refine sum_congr rfl fun mu hmu => ?_
        split
        · next hd =>
          congr 1
          · refine sum_congr rfl fun i hi => ?_
            rw [linkTrace_one hL hg hU ht (mem_range.1 (mem_filter.1 hi).1) (mem_range.1 hmu) hd]
          · refine sum_congr rfl fun i hi => ?_
            rw [linkTrace_one hL hg hU ht (mem_range.1 hi) (mem_range.1 hmu) hd]
        · rfl
      refine ⟨d, ?_⟩
      rw [if_neg (by simp), lineTotal_eq _ fun i hi => lineEven_eq hN hL hg hU ht h1' h2' (hlt i hi),
        hs _ hg, hs _ (exponentiate_su hN hg h1'), hs _ (exponentiate_su hN hg h2')]
  obtain ⟨d, key⟩ := key
  unfold line_search_Coulomb
  dsimp only
  rw [key, Option.bind_some, ← approx_shift _ d]
  congr 2
  funext k
  split
  · ring
  · split <;> ring

/-- **C103**: the step taken, as a rule.  Through the three values goes one parabola, `a y² + b y + c`; the step is its
vertex, or 0.34 when the vertex is beyond 0.34, or 0.08 when it is before the start. -/
theorem C103_step {NC : ℕ} (hN : 2 ≤ NC) {L : Latt} (hL : Valid L) (scratch : Arr ℂ) {inp : Planes}
    {gauge g1 g2 : SGauge} (hg : SUSlice NC L gauge) {lat : Gauge} (hU : SUField NC L lat) {t : ℕ}
    (ht : t < L.dims (L.ND - 1)) {nc : ℕ} {Ns : ℕ → ℕ} {sq : ℕ → List ℕ}
    (hdb : init_cb L (lcu L) (L.ND - 1) = .ok nc Ns sq)
    (h1 : exponentiate_gauge_CG NC L scratch gauge inp 0.17 = some g1)
    (h2 : exponentiate_gauge_CG NC L scratch gauge inp 0.34 = some g2) :
    ∃ a b c : ℝ, sliceFunctional NC L (rotated NC L gauge lat) t = c ∧
      sliceFunctional NC L (rotated NC L g1 lat) t = a * 0.17 ^ 2 + b * 0.17 + c ∧
      sliceFunctional NC L (rotated NC L g2 lat) t = a * 0.34 ^ 2 + b * 0.34 + c ∧
      line_search_Coulomb NC L scratch (nc, sq 0) gauge lat inp t = exponentiate_gauge_CG NC L scratch gauge inp
        (if a = 0 then (if 0 < b then 0.34 else 0.08)
          else if 0.34 < -b / (2 * a) then 0.34 else if -b / (2 * a) < 0 then 0.08 else -b / (2 * a)) := by
  rw [C103_line hN hL scratch hg hU ht hdb h1 h2]
  set F : ℕ → ℝ := fun k => sliceFunctional NC L (rotated NC L (if k = 0 then gauge else if k = 1 then g1 else g2) lat) t
    with hF
  refine ⟨(F 2 - 2 * F 1 + F 0) / (2 * 0.17 ^ 2), (4 * F 1 - F 2 - 3 * F 0) / (2 * 0.17), F 0, ?_, ?_, ?_, ?_⟩
  · rfl
  · show F 1 = _
    ring
  · show F 2 = _
    ring
  · congr 1
    rw [approx_quadratic (a := -((F 2 - 2 * F 1 + F 0) / (2 * 0.17 ^ 2))) (b := -((4 * F 1 - F 2 - 3 * F 0) / (2 * 0.17)))
      (c := -F 0) (by norm_num) (by norm_num)]
    · simp only [if_true, OfNat.ofNat_ne_zero, OfNat.ofNat_ne_one, if_false, neg_eq_zero, neg_lt_zero, mul_neg, neg_div_neg_eq]
    · intro k hk
      show -F k = _
      rcases (show k = 0 ∨ k = 1 ∨ k = 2 by omega) with rfl | rfl | rfl
      · simp
      · simp only [if_true, one_ne_zero, if_false]; ring
      · simp only [OfNat.ofNat_ne_zero, OfNat.ofNat_ne_one, if_false]; ring

/-- **C103** (the part that holds): the step taken is the best one.  When the three values lie on a parabola with its lowest point at or
after the start, the field reached is the one at the lowest point of the parabola between 0 and 0.34. -/
theorem C103_best_partial {NC : ℕ} (hN : 2 ≤ NC) {L : Latt} (hL : Valid L) (scratch : Arr ℂ) {inp : Planes}
    {gauge g1 g2 g' : SGauge} (hg : SUSlice NC L gauge) {lat : Gauge} (hU : SUField NC L lat) {t : ℕ}
    (ht : t < L.dims (L.ND - 1)) {nc : ℕ} {Ns : ℕ → ℕ} {sq : ℕ → List ℕ}
    (hdb : init_cb L (lcu L) (L.ND - 1) = .ok nc Ns sq)
    (h1 : exponentiate_gauge_CG NC L scratch gauge inp 0.17 = some g1)
    (h2 : exponentiate_gauge_CG NC L scratch gauge inp 0.34 = some g2)
    (h : line_search_Coulomb NC L scratch (nc, sq 0) gauge lat inp t = some g') {a b c : ℝ}
    (f0 : sliceFunctional NC L (rotated NC L gauge lat) t = c)
    (f1 : sliceFunctional NC L (rotated NC L g1 lat) t = a * 0.17 ^ 2 + b * 0.17 + c)
    (f2 : sliceFunctional NC L (rotated NC L g2 lat) t = a * 0.34 ^ 2 + b * 0.34 + c)
    (hab : a < 0 ∧ 0 ≤ b ∨ a = 0 ∧ 0 < b) :
    ∃ s : ℝ, 0 ≤ s ∧ s ≤ 0.34 ∧ (∀ y, 0 ≤ y → y ≤ 0.34 → a * y ^ 2 + b * y + c ≤ a * s ^ 2 + b * s + c) ∧
      exponentiate_gauge_CG NC L scratch gauge inp s = some g' := by
  rw [C103_line hN hL scratch hg hU ht hdb h1 h2] at h
  obtain ⟨k1, k2, k3⟩ := C82_minimum_partial
    (x := fun k => if k = 0 then (0 : ℝ) else if k = 1 then 0.17 else 0.34)
    (f := fun k => -sliceFunctional NC L (rotated NC L (if k = 0 then gauge else if k = 1 then g1 else g2) lat) t)
    (a := -a) (b := -b) (c := -c) (by norm_num) (by norm_num)
    (by
      intro k hk
      rcases (show k = 0 ∨ k = 1 ∨ k = 2 by omega) with rfl | rfl | rfl
      · simp [f0]
      · simp only [if_true, one_ne_zero, if_false, f1]; ring
      · simp only [OfNat.ofNat_ne_zero, OfNat.ofNat_ne_one, if_false, f2]; ring)
    (by
      rcases hab with ⟨ha, hb⟩ | ⟨rfl, hb⟩
      · left
        refine ⟨by linarith, ?_⟩
        simp only [if_true]
        exact div_nonneg (by linarith) (by linarith)
      · right
        exact ⟨by simp, by linarith⟩)
  refine ⟨_, by simpa using k1, by simpa using k2, fun y y0 y1 => ?_, h⟩
  have := k3 y (by simpa using y0) (by simpa using y1)
  linarith

/-- Cases: two colours and three colours on the sites, a lattice with a direction of one site, and a direction along which
both probes are defined. -/
example (scratch : Arr ℂ) (gauge : SGauge) (inp : Planes) :
    (∃ nc Ns sq, init_cb L4468 (lcu L4468) (L4468.ND - 1) = .ok nc Ns sq) ∧
    (∃ Ns sq, init_cb ⟨3, fun mu => if mu = 0 then 1 else 2⟩ 2 2 = .ok 2 Ns sq) ∧
    (∃ Ns sq, init_cb ⟨3, fun mu => if mu = 0 then 3 else 2⟩ 6 2 = .ok 3 Ns sq) ∧
    (∃ g1, exponentiate_gauge_CG 3 L4468 scratch gauge inp 0.17 = some g1) ∧
    ∃ g2, exponentiate_gauge_CG 3 L4468 scratch gauge inp 0.34 = some g2 := by
  refine ⟨?_, ⟨_, _, rfl⟩, ⟨_, _, rfl⟩, exponentiate_defined (Or.inr rfl) _ _ _ _ _,
    exponentiate_defined (Or.inr rfl) _ _ _ _ _⟩
  rw [lcu_eq L4468 valid_L4468.nd]
  exact (C07_success_iff valid_L4468 (show L4468.ND - 1 ≤ L4468.ND by decide)).2.2 ⟨0, by decide, by decide⟩

end GLU.Gfix
