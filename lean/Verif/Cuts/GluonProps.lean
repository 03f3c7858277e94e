import Verif.Cuts.GluonLemmas
import Verif.Mat.ProjProps

/-!
# Gluon propagators (C91)
-/

namespace GLU.Cuts

open Complex Finset Matrix GLU.Mat GLU.Geom GLU.Field

/-- The two propagators of the field `F_mu` at the momentum `n`: the transverse one per colour and per transverse
polarisation (all polarisations at zero momentum), the longitudinal one per colour, and both per site. -/
noncomputable def propagators {N : ℕ} (sinMom : Bool) (L : Latt) (sign : ℝ)
    (A : ℕ → ℕ → Matrix (Fin N) (Fin N) ℂ) (n : ℕ → ℤ) : ℝ × ℝ :=
  open Classical in
  let pol : ℝ := if ∀ mu < L.ND, n mu = 0 then L.ND else L.ND - 1
  let F := fieldFT L sign A n
  let p := latMom sinMom L n
  (2 / (((N : ℝ) ^ 2 - 1) * pol * volume L) * transverse L.ND p F,
   2 / (((N : ℝ) ^ 2 - 1) * volume L) * longitudinal L.ND p F)

theorem veclist_get {L : Latt} (hL : Valid L) {keep : (ℕ → ℤ) → Bool} (hk : Local L.ND keep) {v : Vec}
    (hv : v ∈ get_mom_veclist L keep L.ND) :
    InZone L L.ND v.MOM ∧ keep v.MOM = true ∧ v.idx < volume L ∧
      ∀ mu < L.ND, (L.dims mu : ℤ) ∣ (coord L L.ND v.idx mu : ℤ) - v.MOM mu := by
  obtain ⟨h1, h2, h3, h4⟩ := (C59_list hL (Or.inl rfl) keep hk).2.1 v hv
  refine ⟨h1, h2, ?_, h4⟩
  rw [volume_eq L hL.nd]
  exact h3

/-- If the zero momentum survives the cut it is the middle entry of the list, and the only one. -/
theorem zero_middle_gen {L : Latt} (hL : Valid L) {D : ℕ} (hD : SliceDims L D) {keep : (ℕ → ℤ) → Bool}
    (hk : Local D keep)
    (heven : ∀ n, keep (fun mu => -n mu) = keep n)
    (hb : ∀ n, keep n = true → InZone L D n → ∀ mu < D, 2 * n mu ≠ -(L.dims mu : ℤ))
    (h0 : keep (fun _ => 0) = true) :
    (get_mom_veclist L keep D).length % 2 = 1 ∧
    ∀ k (h : k < (get_mom_veclist L keep D).length),
      (∀ mu < D, ((get_mom_veclist L keep D)[k]).MOM mu = 0) ↔
        k = (get_mom_veclist L keep D).length / 2 := by
  have hlist := C59_list hL hD keep hk
  have hrefl := C59_reflect hL hD keep hk heven hb
  have hz0 : InZone L D (fun _ => 0) := by
    intro mu hmu
    have := hL.pos mu (by rcases hD with h | h <;> omega)
    dsimp only
    omega
  obtain ⟨v, hv, hv0⟩ := (hlist.1 _ hz0).2 h0
  obtain ⟨k0, hk0, rfl⟩ := List.getElem_of_mem hv
  have huniq : ∀ k (h : k < (get_mom_veclist L keep D).length),
      (∀ mu < D, ((get_mom_veclist L keep D)[k]).MOM mu = 0) → k = k0 := by
    intro k h hk
    have hpw := List.pairwise_iff_getElem.1 hlist.2.2
    rcases lt_trichotomy k k0 with hlt | heq | hgt
    · obtain ⟨-, mu, hmu, hne⟩ := hpw k k0 h hk0 hlt
      exact absurd ((hk mu hmu).trans (hv0 mu hmu).symm) hne
    · exact heq
    · obtain ⟨-, mu, hmu, hne⟩ := hpw k0 k hk0 h hgt
      exact absurd ((hv0 mu hmu).trans (hk mu hmu).symm) hne
  have hmid := huniq ((get_mom_veclist L keep D).length - 1 - k0) (by omega) fun mu hmu => by rw [hrefl k0 hk0 mu hmu, hv0 mu hmu, neg_zero]
  refine ⟨by omega, fun k h => ⟨fun hk => ?_, fun hk => ?_⟩⟩
  · have := huniq k h hk; omega
  · have : k = k0 := by omega
    subst this
    exact hv0

/-- If the zero momentum survives the cut it is the middle entry of the list, and the only one. -/
theorem zero_middle {L : Latt} (hL : Valid L) {keep : (ℕ → ℤ) → Bool} (hk : Local L.ND keep)
    (heven : ∀ n, keep (fun mu => -n mu) = keep n)
    (hb : ∀ n, keep n = true → InZone L L.ND n → ∀ mu < L.ND, 2 * n mu ≠ -(L.dims mu : ℤ))
    (h0 : keep (fun _ => 0) = true) :
    (get_mom_veclist L keep L.ND).length % 2 = 1 ∧
    ∀ k (h : k < (get_mom_veclist L keep L.ND).length),
      (∀ mu < L.ND, ((get_mom_veclist L keep L.ND)[k]).MOM mu = 0) ↔
        k = (get_mom_veclist L keep L.ND).length / 2 :=
  zero_middle_gen hL (Or.inl rfl) hk heven hb h0

theorem compute_core {NC : ℕ} {L : Latt} (hL : Valid L) (he : EvenDims L L.ND)
    {sign : ℝ} (hs : sign = 1 ∨ sign = -1) (sinMom : Bool) (tol : ℝ) (log : Arr ℂ → Arr ℂ) (U : Gauge)
    (hlog : ∀ x < volume L, ∀ mu < L.ND, (toM NC (log (U (x, mu))))ᴴ = toM NC (log (U (x, mu))))
    (list : List Vec)
    (hodd : list.length % 2 = 1)
    (hzero : ∀ k (h : k < list.length), (∀ mu < L.ND, (list[k]).MOM mu = 0) ↔ k = list.length / 2)
    (hrefl : ∀ k (h : k < list.length), ∀ mu < L.ND,
      (list[list.length - 1 - k]'(by omega)).MOM mu = -(list[k]).MOM mu)
    (hpw : list.Pairwise fun v w => v.idx ≠ w.idx)
    (hget : ∀ {v}, v ∈ list → InZone L L.ND v.MOM ∧ v.idx < volume L ∧
      ∀ mu < L.ND, (L.dims mu : ℤ) ∣ (coord L L.ND v.idx mu : ℤ) - v.MOM mu)
    (htol : ∀ v ∈ list, (∃ mu < L.ND, v.MOM mu ≠ 0) → tol ≤ normSq L.ND (latMom sinMom L v.MOM))
    (junk : ℕ → ℝ × ℝ) :
    ∃ D, compute_gluon_prop NC tol sinMom L
      (correct_pspace_landau NC L sign list L.ND (mom_gauge NC L sign log U)) list junk = some D ∧
      ∀ k (h : k < list.length), D k =
        propagators sinMom L sign (fun x mu => toM NC (log (U (x, mu)))) (list[k]).MOM := by
  unfold compute_gluon_prop
  have hlt : list.length / 2 < list.length := by omega
  dsimp only
  rw [List.getElem?_eq_getElem hlt]
  dsimp only
  refine ⟨_, rfl, ?_⟩
  set B := correct_pspace_landau NC L sign list L.ND (mom_gauge NC L sign log U) with hB
  set A : ℕ → ℕ → Matrix (Fin NC) (Fin NC) ℂ := fun x mu => toM NC (log (U (x, mu))) with hA
  -- the projection of a listed site
  have hproj : ∀ v ∈ list, project_trans_long NC tol sinMom L B v.idx =
      (transverse L.ND (latMom sinMom L v.MOM) (fieldFT L sign A v.MOM),
       longitudinal L.ND (latMom sinMom L v.MOM) (fieldFT L sign A v.MOM)) := by
    intro v hv
    obtain ⟨hz, hi, hd⟩ := hget hv
    have hfield : ∀ mu < L.ND, toM NC (B (v.idx, mu)) = fieldFT L sign A v.MOM mu := fun mu hmu =>
      field_eq hL hs log U hpw hv hi hd hmu
    have hpsq : ∀ mu < L.ND, ∀ nu < L.ND, psq_mom sinMom L v.idx mu * psq_mom sinMom L v.idx nu /
        psq_calc tol sinMom L v.idx = latMom sinMom L v.MOM mu * latMom sinMom L v.MOM nu /
          normSq L.ND (latMom sinMom L v.MOM) := by
      intro mu hmu nu hnu
      rw [psq_mom_eq hL he sinMom hz hd hmu, psq_mom_eq hL he sinMom hz hd hnu]
      by_cases hn : ∀ rho < L.ND, v.MOM rho = 0
      · have : latMom sinMom L v.MOM mu = 0 := by
          unfold latMom momentum; rw [hn mu hmu]; simp
        rw [this]; simp
      · have hsum : acc (fun mu => psq_mom sinMom L v.idx mu * psq_mom sinMom L v.idx mu) L.ND =
            normSq L.ND (latMom sinMom L v.MOM) := by
          rw [acc_eq]
          exact sum_congr rfl fun rho hrho => by rw [psq_mom_eq hL he sinMom hz hd (mem_range.1 hrho), sq]
        unfold psq_calc
        simp only [hsum]
        rw [if_neg]
        push Not at hn ⊢
        exact htol v hv hn
    rw [project_eq]
    unfold transverse longitudinal
    refine Prod.ext ?_ ?_ <;> dsimp only <;>
      refine sum_congr rfl fun mu hmu => sum_congr rfl fun nu hnu => ?_ <;>
      rw [hpsq mu (mem_range.1 hmu) nu (mem_range.1 hnu)] <;> unfold corr <;> dsimp only <;>
      rw [hfield mu (mem_range.1 hmu), hfield nu (mem_range.1 hnu)]
  -- the propagators of the reflected momentum
  have hsym : ∀ k (h : k < list.length), propagators sinMom L sign A (list[list.length - 1 - k]'(by omega)).MOM =
      propagators sinMom L sign A (list[k]).MOM := by
    intro k h
    have hr := hrefl k h
    have hm : ∀ mu < L.ND, ∀ nu < L.ND, latMom sinMom L (list[list.length - 1 - k]'(by omega)).MOM mu *
        latMom sinMom L (list[list.length - 1 - k]'(by omega)).MOM nu =
          latMom sinMom L (list[k]).MOM mu * latMom sinMom L (list[k]).MOM nu := by
      intro mu hmu nu hnu
      rw [latMom_congr sinMom L (n' := fun mu => -(list[k]).MOM mu) (hr mu hmu),
        latMom_congr sinMom L (n' := fun mu => -(list[k]).MOM mu) (hr nu hnu), latMom_neg, latMom_neg, neg_mul_neg]
    have hF : ∀ mu < L.ND, fieldFT L sign A (list[list.length - 1 - k]'(by omega)).MOM mu =
        (fieldFT L sign A (list[k]).MOM mu)ᴴ := by
      intro mu hmu
      rw [fieldFT_congr L sign A (n' := fun mu => -(list[k]).MOM mu) hr,
        fieldFT_neg L sign _ mu fun x hx => hlog x hx mu hmu]
    have hc : ∀ mu < L.ND, ∀ nu < L.ND, corr (fieldFT L sign A (list[list.length - 1 - k]'(by omega)).MOM) mu nu =
        corr (fieldFT L sign A (list[k]).MOM) mu nu := by
      intro mu hmu nu hnu
      rw [← corr_star (fieldFT L sign A (list[k]).MOM)]
      unfold corr
      dsimp only
      rw [hF mu hmu, hF nu hnu]
    obtain ⟨t1, t2⟩ := trans_congr hm hc
    have hcond : (∀ mu < L.ND, (list[list.length - 1 - k]'(by omega)).MOM mu = 0) ↔ ∀ mu < L.ND, (list[k]).MOM mu = 0 := by
      constructor <;> intro hh mu hmu
      · have := hr mu hmu; rw [hh mu hmu] at this; omega
      · rw [hr mu hmu, hh mu hmu, neg_zero]
    unfold propagators
    dsimp only
    rw [t1, t2]
    simp only [hcond]
  -- the first half
  have hfirst : ∀ k (h : k < list.length), k < list.length / 2 →
      ((project_trans_long NC tol sinMom L B (list[k]).idx).1 * (2 / ((NC * NC - 1) * (L.ND - 1) * volume L)),
        (project_trans_long NC tol sinMom L B (list[k]).idx).2 * (2 / ((NC * NC - 1) * volume L))) =
      propagators sinMom L sign A (list[k]).MOM := by
    intro k h hk2
    rw [hproj _ (List.getElem_mem h)]
    unfold propagators
    dsimp only
    rw [if_neg]
    · rw [mul_comm, sq, mul_comm (longitudinal _ _ _)]
    · intro hh
      have := (hzero k h).1 hh
      omega
  have hmidval : ((project_trans_long NC tol sinMom L B (list[list.length / 2]).idx).1 *
        (2 / ((NC * NC - 1) * L.ND * volume L)),
        (project_trans_long NC tol sinMom L B (list[list.length / 2]).idx).2 * (2 / ((NC * NC - 1) * volume L))) =
      propagators sinMom L sign A (list[list.length / 2]).MOM := by
    rw [hproj _ (List.getElem_mem hlt)]
    unfold propagators
    dsimp only
    rw [if_pos ((hzero _ hlt).2 rfl), mul_comm, sq, mul_comm (longitudinal _ _ _)]
  intro k h
  rcases lt_trichotomy k (list.length / 2) with h1 | h1 | h1
  · rw [if_neg (by omega), Function.update_of_ne (by omega), List.getElem?_eq_getElem h]
    dsimp only
    rw [if_pos h1]
    exact hfirst k h h1
  · subst h1
    rw [if_neg (by omega), Function.update_self]
    exact hmidval
  · have h2 : list.length - k - 1 = list.length - 1 - k := by omega
    rw [if_pos ⟨by omega, h⟩, Function.update_of_ne (by omega), h2, List.getElem?_eq_getElem (by omega)]
    dsimp only
    rw [if_pos (by omega), hfirst _ (by omega) (by omega)]
    exact hsym k h

/-- C91: on a lattice with even extents, for a cut that is even, keeps the zero momentum and no momentum at the edge of
the zone, and a tolerance below every non-zero squared momentum that is kept, the entry `k` of the arrays written by
the gluon propagator measurement is the pair of propagators at the momentum of the entry `k` of the list. -/
theorem C91_propagators_partial {NC : ℕ} {L : Latt} (hL : Valid L) (he : EvenDims L L.ND)
    {sign : ℝ} (hs : sign = 1 ∨ sign = -1) (sinMom : Bool) (tol : ℝ) (log : Arr ℂ → Arr ℂ) (U : Gauge)
    (hlog : ∀ x < volume L, ∀ mu < L.ND, (toM NC (log (U (x, mu))))ᴴ = toM NC (log (U (x, mu))))
    {keep : (ℕ → ℤ) → Bool} (hk : Local L.ND keep) (heven : ∀ n, keep (fun mu => -n mu) = keep n)
    (hb : ∀ n, keep n = true → InZone L L.ND n → ∀ mu < L.ND, 2 * n mu ≠ -(L.dims mu : ℤ))
    (h0 : keep (fun _ => 0) = true)
    (htol : ∀ n, keep n = true → InZone L L.ND n → (∃ mu < L.ND, n mu ≠ 0) →
      tol ≤ normSq L.ND (latMom sinMom L n))
    (junk : ℕ → ℝ × ℝ) :
    ∃ D, gluon_props NC tol sinMom L sign log keep junk U = some D ∧
      ∀ k (h : k < (get_mom_veclist L keep L.ND).length), D k =
        propagators sinMom L sign (fun x mu => toM NC (log (U (x, mu)))) ((get_mom_veclist L keep L.ND)[k]).MOM := by
  obtain ⟨hodd, hzero⟩ := zero_middle hL hk heven hb h0
  unfold gluon_props compute_veclist
  simp only [Bool.false_eq_true, if_false]
  rw [if_neg (by omega)]
  exact compute_core hL he hs sinMom tol log U hlog _ hodd hzero (C59_reflect hL (Or.inl rfl) keep hk heven hb)
    ((C59_list hL (Or.inl rfl) keep hk).2.2.imp fun h => h.1)
    (fun hv => ⟨(veclist_get hL hk hv).1, (veclist_get hL hk hv).2.2⟩)
    (fun v hv hn => htol _ (veclist_get hL hk hv).2.1 (veclist_get hL hk hv).1 hn) junk

end GLU.Cuts
