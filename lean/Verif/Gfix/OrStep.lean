import Verif.Gfix.OrLemmas

/-!
# One over-relaxation step
-/

namespace GLU.Gfix

open Complex Matrix GLU.Mat GLU.Geom GLU.Field GLU.Update GLU.Sched Finset

theorem update_pairs {M : Type*} (m i : ℕ) (b : ℕ → ℕ) (F G : M → M) (lat : Loc → M) (l : Loc) :
    forN m (fun mu lat =>
      let lat := Function.update lat (i, mu) (F (lat (i, mu)))
      Function.update lat (b mu, mu) (G (lat (b mu, mu)))) lat l =
      if l.2 < m then
        (if l.1 = b l.2 then G (if l.1 = i then F (lat l) else lat l) else if l.1 = i then F (lat l) else lat l)
      else lat l := by
  induction m generalizing l with
  | zero => simp [forN]
  | succ m ih =>
    rw [forN]
    generalize forN m (fun mu lat =>
      let lat := Function.update lat (i, mu) (F (lat (i, mu)))
      Function.update lat (b mu, mu) (G (lat (b mu, mu)))) lat = st at ih ⊢
    obtain ⟨x, y⟩ := l
    have ih1 := ih (x, y)
    have ih2 := ih (i, m)
    have ih3 := ih (b m, m)
    simp only [lt_irrefl, if_false] at ih1 ih2 ih3
    simp only [Function.update_apply, Prod.mk.injEq]
    by_cases hy : y = m
    · subst hy
      simp only [lt_irrefl, if_false] at ih1
      simp only [lt_add_one, if_true, and_true]
      by_cases h1 : x = b y
      · subst h1
        simp only [if_true]
        by_cases h2 : b y = i
        · simp only [h2, if_true, ih2]
        · simp only [h2, if_false, ih3]
      · simp only [h1, if_false]
        by_cases h2 : x = i
        · subst h2; simp only [if_true, ih2]
        · simp only [h2, if_false, ih1]
    · have e : y < m + 1 ↔ y < m := by omega
      simp only [hy, and_false, if_false, e, ih1]

theorem orApply_apply (NC : ℕ) (L : Latt) (su2_index i : ℕ) (s : ℂ × ℂ) (lat : Gauge) (l : Loc) :
    orApply NC L su2_index i s lat l =
      if l.2 < L.ND then
        (if l.1 = back L i l.2 then shortened_su2_multiply_dag NC
            (if l.1 = i then shortened_su2_multiply NC (lat l) s.1 s.2 su2_index else lat l) s.1 s.2 su2_index
          else if l.1 = i then shortened_su2_multiply NC (lat l) s.1 s.2 su2_index else lat l)
      else lat l :=
  update_pairs L.ND i (back L i) (fun u => shortened_su2_multiply NC u s.1 s.2 su2_index)
    (fun u => shortened_su2_multiply_dag NC u s.1 s.2 su2_index) lat l

theorem eq_back_iff {L : Latt} (hL : Valid L) {i j mu : ℕ} (hi : i < volume L) (hj : j < volume L) (hmu : mu < L.ND) :
    j = back L i mu ↔ neighbor L j mu = i := by
  constructor
  · rintro rfl; exact (C02_inverse hL hi hmu).2
  · rintro rfl; exact (C02_inverse hL hj hmu).1.symm

/-- The gauge transformation that is one everywhere but at `i`. -/
noncomputable def oneSite {NC : ℕ} (i : ℕ) (G : Matrix (Fin NC) (Fin NC) ℂ) (j : ℕ) : Matrix (Fin NC) (Fin NC) ℂ :=
  if j = i then G else 1

theorem orApply_link {NC s : ℕ} (hs : s < NSU2SUBGROUPS NC) {p q : Fin NC}
    (hp : (p : ℕ) = (rowPair NC s).1) (hq : (q : ℕ) = (rowPair NC s).2) (hpq : p ≠ q) {L : Latt} (hL : Valid L)
    {i : ℕ} (hi : i < volume L) (r : ℂ × ℂ) (lat : Gauge) {j mu : ℕ} (hj : j < volume L) (hmu : mu < L.ND) :
    link NC (orApply NC L s i r lat) j mu =
      oneSite i (subgroupMatrix p q r.1 r.2) j * link NC lat j mu *
        (oneSite i (subgroupMatrix p q r.1 r.2) (neighbor L j mu))ᴴ := by
  unfold link
  rw [orApply_apply, if_pos hmu]
  simp only
  have e := eq_back_iff hL hi hj hmu
  unfold oneSite
  by_cases h1 : j = back L i mu
  · rw [if_pos h1, multiply_dag_eq hs p q hp hq hpq, if_pos (e.1 h1)]
    by_cases h2 : j = i
    · rw [if_pos h2, if_pos h2, multiply_eq hs p q hp hq hpq]
    · rw [if_neg h2, if_neg h2, Matrix.one_mul]
  · rw [if_neg h1, if_neg (mt e.2 h1)]
    by_cases h2 : j = i
    · rw [if_pos h2, if_pos h2, multiply_eq hs p q hp hq hpq]; simp
    · rw [if_neg h2, if_neg h2]; simp

theorem oneSite_su {NC : ℕ} {i : ℕ} {G : Matrix (Fin NC) (Fin NC) ℂ} (hG : G ∈ specialUnitaryGroup (Fin NC) ℂ) (j : ℕ) :
    oneSite i G j ∈ specialUnitaryGroup (Fin NC) ℂ := by
  unfold oneSite
  split
  · exact hG
  · exact one_mem _

theorem OR_single_split {NC : ℕ} {L : Latt} {s : ℕ} {OrParam coin : ℝ} {D i : ℕ} {lat lat' : Gauge}
    (h : OR_single NC L s OrParam D coin i lat = some lat') :
    ∃ r, orChoice OrParam coin (orSum NC L lat s i D) = some r ∧ lat' = orApply NC L s i r lat := by
  unfold OR_single at h
  rw [Option.map_eq_some_iff] at h
  obtain ⟨r, h1, h2⟩ := h
  exact ⟨r, h1, h2.symm⟩

/-- A step is a gauge transformation at one site. -/
theorem OR_single_site {NC s : ℕ} (hs : s < NSU2SUBGROUPS NC) {L : Latt} (hL : Valid L) {OrParam coin : ℝ} {D i : ℕ}
    (hi : i < volume L) {lat lat' : Gauge} (h : OR_single NC L s OrParam D coin i lat = some lat') :
    ∃ G ∈ specialUnitaryGroup (Fin NC) ℂ, ∀ j < volume L, ∀ mu < L.ND,
      link NC lat' j mu = oneSite i G j * link NC lat j mu * (oneSite i G (neighbor L j mu))ᴴ := by
  obtain ⟨r, h1, rfl⟩ := OR_single_split h
  obtain ⟨a, b⟩ := (C26_enumeration NC).1 s hs
  have hpq : (⟨_, a.trans b⟩ : Fin NC) ≠ ⟨_, b⟩ := ne_of_lt (show (⟨_, a.trans b⟩ : Fin NC) < ⟨_, b⟩ from a)
  exact ⟨_, subgroup_su hpq (orChoice_good h1).norm, fun j hj mu hmu => orApply_link hs rfl rfl hpq hL hi r lat hj hmu⟩

theorem OR_single_orbit {NC s : ℕ} (hs : s < NSU2SUBGROUPS NC) {L : Latt} (hL : Valid L) {OrParam coin : ℝ} {D i : ℕ}
    (hi : i < volume L) {lat lat' : Gauge} (h : OR_single NC L s OrParam D coin i lat = some lat') :
    Orbit NC L lat lat' := by
  obtain ⟨G, hG, h⟩ := OR_single_site hs hL hi h
  exact orbit_of (oneSite i G) (fun j _ => oneSite_su hG j) h

/-! ## The trace -/

theorem back_ne {L : Latt} (hL : Valid L) {i mu : ℕ} (hmu : mu < L.ND) (h2 : 2 ≤ L.dims mu) : back L i mu ≠ i := by
  intro h
  have e := ((C02_step hL (i := i) hmu).2 mu hmu).2
  rw [if_pos rfl, h] at e
  have hr : (0 : ℤ) ≤ coord L L.ND i mu ∧ (coord L L.ND i mu : ℤ) < L.dims mu := coord_inRange hL L.ND i mu hmu
  rcases Nat.eq_zero_or_pos (coord L L.ND i mu) with h0 | h0
  · rw [h0] at e
    have : ((0 : ℕ) - 1 : ℤ) % (L.dims mu : ℤ) = L.dims mu - 1 := by
      rw [show ((0 : ℕ) - 1 : ℤ) = (L.dims mu - 1) + -1 * L.dims mu by push_cast; ring, Int.add_mul_emod_self_right]
      exact Int.emod_eq_of_lt (by omega) (by omega)
    omega
  · rw [Int.emod_eq_of_lt (by omega) (by omega)] at e
    omega

theorem rotated_gain {NC : ℕ} {p q : Fin NC} (hpq : p ≠ q) (r : ℂ × ℂ) (V : Matrix (Fin NC) (Fin NC) ℂ) :
    (subgroupMatrix p q r.1 r.2 * V).trace.re - V.trace.re =
      (star r.1 * (star (V p p) + V q q) + star r.2 * (star (V q p) - V p q)).re - (star (V p p) + V q q).re := by
  rw [trace_rotated hpq]
  simp [Complex.mul_re, Complex.mul_im]
  ring

theorem linkSum_step {NC : ℕ} {L : Latt} (hL : Valid L) {i D : ℕ} (hi : i < volume L) (hD : D ≤ L.ND)
    (h2 : ∀ mu < D, 2 ≤ L.dims mu) {lat lat' : Gauge} {G : Matrix (Fin NC) (Fin NC) ℂ}
    (h : ∀ j < volume L, ∀ mu < L.ND,
      link NC lat' j mu = oneSite i G j * link NC lat j mu * (oneSite i G (neighbor L j mu))ᴴ)
    {S : Finset ℕ} (hS : ∀ j ∈ S, j < volume L) (hiS : i ∈ S) (hbS : ∀ mu < D, back L i mu ∈ S) :
    linkSum NC lat' S D - linkSum NC lat S D =
      (G * siteSum NC L lat i D).trace.re - (siteSum NC L lat i D).trace.re := by
  unfold linkSum siteSum
  rw [sum_comm, sum_comm (s := S), Matrix.mul_sum, Matrix.trace_sum, Matrix.trace_sum, Complex.re_sum, Complex.re_sum,
    ← sum_sub_distrib, ← sum_sub_distrib]
  refine sum_congr rfl fun mu hmu => ?_
  rw [mem_range] at hmu
  have hmu' : mu < L.ND := by omega
  have hne := back_ne hL (i := i) hmu' (h2 mu hmu)
  have hb := back_lt hL i hmu'
  have hnb : neighbor L (back L i mu) mu = i := (C02_inverse hL hi hmu').2
  have hni : neighbor L i mu ≠ i := by
    intro he
    have := (C02_inverse hL hi hmu').1
    rw [he] at this
    exact hne this
  rw [← sum_sub_distrib]
  have hz : ∀ j ∈ S, j ≠ i ∧ j ≠ back L i mu → (link NC lat' j mu).trace.re - (link NC lat j mu).trace.re = 0 := by
    intro j hj hne
    rw [h j (hS j hj) mu hmu']
    unfold oneSite
    rw [if_neg hne.1, if_neg (mt (eq_back_iff hL hi (hS j hj) hmu').2 hne.2)]
    simp
  rw [sum_eq_add i (back L i mu) hne.symm hz (fun h => absurd hiS h) (fun h => absurd (hbS mu hmu) h)]
  rw [h i hi mu hmu', h _ hb mu hmu', hnb]
  unfold oneSite
  rw [if_pos rfl, if_neg hni, if_neg hne]
  simp only [conjTranspose_one, Matrix.mul_one, Matrix.one_mul, Matrix.mul_add, Matrix.trace_add, Complex.add_re]
  have e1 : (link NC lat (back L i mu) mu * Gᴴ).trace.re = (G * (link NC lat (back L i mu) mu)ᴴ).trace.re := by
    rw [← re_trace_star, conjTranspose_mul, conjTranspose_conjTranspose]
  rw [e1, re_trace_star]
  ring

/-- A step does not lower the trace of the links around the site; it raises it strictly unless the site is already
stationary for the subgroup. -/
theorem OR_single_gain {NC s : ℕ} (hs : s < NSU2SUBGROUPS NC) {L : Latt} (hL : Valid L) {OrParam coin : ℝ} {D i : ℕ}
    (hi : i < volume L) (hD : D ≤ L.ND) (h2 : ∀ mu < D, 2 ≤ L.dims mu) {lat lat' : Gauge}
    (h : OR_single NC L s OrParam D coin i lat = some lat') {S : Finset ℕ} (hS : ∀ j ∈ S, j < volume L) (hiS : i ∈ S)
    (hbS : ∀ mu < D, back L i mu ∈ S) :
    linkSum NC lat S D ≤ linkSum NC lat' S D ∧
    (linkSum NC lat' S D = linkSum NC lat S D → (orSum NC L lat s i D).1.im = 0 ∧ (orSum NC L lat s i D).2 = 0 ∧
      0 < (orSum NC L lat s i D).1.re) := by
  obtain ⟨r, h1, rfl⟩ := OR_single_split h
  obtain ⟨a, b⟩ := (C26_enumeration NC).1 s hs
  have hpq : (⟨_, a.trans b⟩ : Fin NC) ≠ ⟨_, b⟩ := ne_of_lt (show (⟨_, a.trans b⟩ : Fin NC) < ⟨_, b⟩ from a)
  have hgood := orChoice_good h1
  have hstep := linkSum_step hL hi hD h2 (fun j hj mu hmu => orApply_link hs rfl rfl hpq hL hi r lat hj hmu) hS hiS hbS
  rw [rotated_gain hpq] at hstep
  have he := orSum_eq hs ⟨_, a.trans b⟩ ⟨_, b⟩ rfl rfl L lat i D
  rw [he] at hgood ⊢
  have hg := hgood.gain
  have hst := hgood.strict
  simp only at hg hst ⊢
  exact ⟨by linarith, fun h => hst (by linarith)⟩

end GLU.Gfix
