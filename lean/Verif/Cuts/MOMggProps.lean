import Verif.Cuts.MOMggLemmas
import Verif.Cuts.GluonFails

/-!
# The exceptional three-gluon vertex (C93)
-/

namespace GLU.Cuts

open Complex Matrix Finset GLU.Mat GLU.Geom GLU.Field

/-- The two- and three-point function at the momentum `n` of a field: the trace of the product of the transforms at
`n` and `-n`, per colour and polarisation, and the projection of the three-point function `T` of the transforms at
`n`, `-n` and 0. -/
noncomputable def exceptionalSpec {N : ℕ} (T : (F G Z : ℕ → Matrix (Fin N) (Fin N) ℂ) → ℕ → ℕ → ℕ → ℂ) (sinMom : Bool)
    (L : Latt) (sign : ℝ) (A : ℕ → ℕ → Matrix (Fin N) (Fin N) ℂ) (n : ℕ → ℤ) : ℝ × ℝ :=
  open Classical in
  let pol : ℝ := if ∀ mu < L.ND, n mu = 0 then L.ND else L.ND - 1
  let F := fieldFT L sign A n
  let G := fieldFT L sign A fun mu => -n mu
  let Z := fieldFT L sign A fun _ => 0
  (2 / (((N : ℝ) ^ 2 - 1) * pol * volume L) * ∑ mu ∈ range L.ND, (trace (F mu * G mu)).re,
   4 / (2 * N * ((N : ℝ) ^ 2 - 1) * (L.ND - 1) * volume L) * (projected L.ND (latMom sinMom L n) (T F G Z)).re)

theorem mapM_range {α : Type*} {f : ℕ → Option α} {g : ℕ → α} {n : ℕ} (h : ∀ i < n, f i = some (g i)) :
    (List.range n).mapM f = some ((List.range n).map g) := by
  have : ∀ l : List ℕ, (∀ i ∈ l, f i = some (g i)) → l.mapM f = some (l.map g) := by
    intro l
    induction l with
    | nil => intro _; rfl
    | cons a t ih =>
      intro hl
      rw [List.mapM_cons, hl a (by simp), ih fun i hi => hl i (by simp [hi])]
      rfl
  exact this _ fun i hi => h i (List.mem_range.1 hi)

theorem map_range_get {α β : Type*} (l : List α) (F : α → β) (g : ℕ → β) (h : ∀ i (hi : i < l.length), g i = F l[i]) :
    (List.range l.length).map g = l.map F := by
  refine List.ext_getElem (by simp) fun i h1 h2 => ?_
  simp only [List.getElem_map, List.getElem_range]
  exact h i (by simpa using h2)

/-- The loop over the list, for any contraction. -/
theorem exceptional_core (c : Contraction) {NC : ℕ} {L : Latt} (hL : Valid L) (he : EvenDims L L.ND)
    {sign : ℝ} (hs : sign = 1 ∨ sign = -1) (sinMom : Bool) {tol : ℝ} (htol0 : 0 < tol) (log : Arr ℂ → Arr ℂ) (U : Gauge)
    (T : (F G Z : ℕ → Matrix (Fin NC) (Fin NC) ℂ) → ℕ → ℕ → ℕ → ℂ)
    (hT : ∀ (F G Z F' G' Z' : ℕ → Matrix (Fin NC) (Fin NC) ℂ), (∀ mu < L.ND, F mu = F' mu ∧ G mu = G' mu ∧ Z mu = Z' mu) →
      ∀ mu < L.ND, ∀ nu < L.ND, ∀ rho < L.ND, T F G Z mu nu rho = T F' G' Z' mu nu rho)
    (list : List Vec)
    (hodd : list.length % 2 = 1)
    (hzero : ∀ k (h : k < list.length), (∀ mu < L.ND, (list[k]).MOM mu = 0) ↔ k = list.length / 2)
    (hrefl : ∀ k (h : k < list.length), ∀ mu < L.ND,
      (list[list.length - 1 - k]'(by omega)).MOM mu = -(list[k]).MOM mu)
    (hpw : list.Pairwise fun v w => v.idx ≠ w.idx)
    (hget : ∀ {v}, v ∈ list → InZone L L.ND v.MOM ∧ v.idx < volume L ∧
      ∀ mu < L.ND, (L.dims mu : ℤ) ∣ (coord L L.ND v.idx mu : ℤ) - v.MOM mu)
    (htol : ∀ v ∈ list, (∃ mu < L.ND, v.MOM mu ≠ 0) → tol ≤ normSq L.ND (latMom sinMom L v.MOM))
    (hc : ∀ (p : ℕ → ℝ) (q : ℝ), q ≠ 0 → ∀ x ∈ list, ∀ y ∈ list, ∀ z ∈ list,
      let B := correct_pspace_landau NC L sign list L.ND (mom_gauge NC L sign log U)
      contraction c NC L B x.idx y.idx z.idx p q = some (projectedQ L.ND p q
        (T (fun mu => toM NC (B (x.idx, mu))) (fun mu => toM NC (B (y.idx, mu))) (fun mu => toM NC (B (z.idx, mu)))))) :
    write_exceptional_g2g3_MOMgg c NC tol sinMom L
      (correct_pspace_landau NC L sign list L.ND (mom_gauge NC L sign log U)) list =
      some (list.map fun v => exceptionalSpec T sinMom L sign (fun x mu => toM NC (log (U (x, mu)))) v.MOM) := by
  unfold write_exceptional_g2g3_MOMgg
  have hmid : (list.length - 1) / 2 = list.length / 2 := by omega
  have hlt : list.length / 2 < list.length := by omega
  rw [if_neg (by omega), hmid]
  dsimp only
  set B := correct_pspace_landau NC L sign list L.ND (mom_gauge NC L sign log U) with hB
  set A : ℕ → ℕ → Matrix (Fin NC) (Fin NC) ℂ := fun x mu => toM NC (log (U (x, mu))) with hA
  have hfield : ∀ v ∈ list, ∀ mu < L.ND, toM NC (B (v.idx, mu)) = fieldFT L sign A v.MOM mu := by
    intro v hv mu hmu
    obtain ⟨hz, hi, hd⟩ := hget hv
    exact field_eq hL hs log U hpw hv hi hd hmu
  have hlat : ∀ i (hi : i < list.length),
      exceptionalEntry c NC tol sinMom L B (i == list.length / 2) (list[i]).idx
        (list[list.length - i - 1]'(by omega)).idx (list[list.length / 2]).idx =
      some (exceptionalSpec T sinMom L sign A (list[i]).MOM) := by
    intro i hi
    obtain ⟨hz, hidx, hd⟩ := hget (List.getElem_mem hi)
    have hF : ∀ mu < L.ND, toM NC (B ((list[i]).idx, mu)) = fieldFT L sign A (list[i]).MOM mu := fun mu hmu =>
      hfield _ (List.getElem_mem hi) mu hmu
    have hG : ∀ mu < L.ND, toM NC (B ((list[list.length - i - 1]'(by omega)).idx, mu)) =
        fieldFT L sign A (fun nu => -(list[i]).MOM nu) mu := by
      intro mu hmu
      rw [hfield _ (List.getElem_mem _) mu hmu]
      refine fieldFT_congr L sign A (fun nu hnu => ?_) mu
      have := hrefl i hi nu hnu
      simp only [Nat.sub_right_comm _ i 1]
      exact this
    have hZ : ∀ mu < L.ND, toM NC (B ((list[list.length / 2]).idx, mu)) = fieldFT L sign A (fun _ => 0) mu := by
      intro mu hmu
      rw [hfield _ (List.getElem_mem _) mu hmu]
      exact fieldFT_congr L sign A ((hzero _ hlt).2 rfl) mu
    have hp : ∀ mu < L.ND, psq_mom sinMom L (list[i]).idx mu = latMom sinMom L (list[i]).MOM mu := fun mu hmu =>
      psq_mom_eq hL he sinMom hz hd hmu
    have hsum : acc (fun mu => psq_mom sinMom L (list[i]).idx mu * psq_mom sinMom L (list[i]).idx mu) L.ND =
        normSq L.ND (latMom sinMom L (list[i]).MOM) := by
      rw [acc_eq]
      exact sum_congr rfl fun rho hrho => by rw [hp rho (mem_range.1 hrho), sq]
    have hq : psq_calc tol sinMom L (list[i]).idx ≠ 0 := by
      unfold psq_calc
      dsimp only
      split
      · exact one_ne_zero
      · next h => intro h0; rw [h0] at h; exact h htol0
    have hpq : projectedQ L.ND (psq_mom sinMom L (list[i]).idx) (psq_calc tol sinMom L (list[i]).idx)
        (T (fun mu => toM NC (B ((list[i]).idx, mu))) (fun mu => toM NC (B ((list[list.length - i - 1]'(by omega)).idx, mu)))
          (fun mu => toM NC (B ((list[list.length / 2]).idx, mu)))) =
        projected L.ND (latMom sinMom L (list[i]).MOM) (T (fieldFT L sign A (list[i]).MOM)
          (fieldFT L sign A fun mu => -(list[i]).MOM mu) (fieldFT L sign A fun _ => 0)) := by
      rw [← projectedQ_eq (q := psq_calc tol sinMom L (list[i]).idx)]
      · unfold projectedQ
        refine sum_congr rfl fun mu hmu => sum_congr rfl fun nu hnu => sum_congr rfl fun rho hrho => ?_
        rw [hp mu (mem_range.1 hmu), hp nu (mem_range.1 hnu), hp rho (mem_range.1 hrho),
          hT _ _ _ _ _ _ (fun a ha => ⟨hF a ha, hG a ha, hZ a ha⟩) mu (mem_range.1 hmu) nu (mem_range.1 hnu) rho
            (mem_range.1 hrho)]
      · by_cases hn : ∀ rho < L.ND, (list[i]).MOM rho = 0
        · right
          intro mu hmu
          unfold latMom momentum
          rw [hn mu hmu]
          simp
        · left
          unfold psq_calc
          simp only [hsum]
          rw [if_neg]
          push Not at hn ⊢
          exact htol _ (List.getElem_mem hi) hn
    unfold exceptionalEntry
    rw [hc _ _ hq _ (List.getElem_mem hi) _ (List.getElem_mem _) _ (List.getElem_mem hlt)]
    simp only [Option.bind_eq_bind, Option.bind_some, Option.pure_def, Option.some.injEq]
    unfold exceptionalSpec
    refine Prod.ext ?_ ?_
    · dsimp only
      have hg2 : acc (fun mu => (trace_ab NC (B ((list[i]).idx, mu))
          (B ((list[list.length - i - 1]'(by omega)).idx, mu))).re) L.ND = ∑ mu ∈ range L.ND,
          (trace (fieldFT L sign A (list[i]).MOM mu * fieldFT L sign A (fun nu => -(list[i]).MOM nu) mu)).re := by
        rw [acc_eq]
        refine sum_congr rfl fun mu hmu => ?_
        rw [C12_trace_ab, hF mu (mem_range.1 hmu), hG mu (mem_range.1 hmu)]
      rw [hg2]
      by_cases h : i = list.length / 2
      · rw [if_pos (by simpa using h), if_pos ((hzero i hi).2 h)]
        ring
      · rw [if_neg (by simpa using h), if_neg fun hh => h ((hzero i hi).1 hh)]
        ring
    · dsimp only
      rw [hpq]
      ring
  rw [mapM_range (g := fun i => if hi : i < list.length then
      exceptionalSpec T sinMom L sign A (list[i]).MOM else (0, 0))]
  · rw [map_range_get list fun v => exceptionalSpec T sinMom L sign A v.MOM]
    intro i hi
    rw [dif_pos hi]
  · intro i hi
    rw [List.getElem?_eq_getElem hlt, List.getElem?_eq_getElem hi, List.getElem?_eq_getElem (by omega), dif_pos hi]
    exact hlat i hi

/-- C93: on a lattice with even extents, for a cut that is even, keeps the zero momentum and no momentum at the edge of
the zone, and a positive tolerance below every non-zero squared momentum that is kept, both builds with traces write
the two- and three-point functions of the momenta of the list. -/
theorem C93_exceptional_partial {c : Contraction} (hc : c ≠ .lies) {NC : ℕ} {L : Latt} (hL : Valid L)
    (he : EvenDims L L.ND) {sign : ℝ} (hs : sign = 1 ∨ sign = -1) (sinMom : Bool) {tol : ℝ} (htol0 : 0 < tol)
    (log : Arr ℂ → Arr ℂ) (U : Gauge)
    {keep : (ℕ → ℤ) → Bool} (hk : Local L.ND keep) (heven : ∀ n, keep (fun mu => -n mu) = keep n)
    (hb : ∀ n, keep n = true → InZone L L.ND n → ∀ mu < L.ND, 2 * n mu ≠ -(L.dims mu : ℤ))
    (h0 : keep (fun _ => 0) = true)
    (htol : ∀ n, keep n = true → InZone L L.ND n → (∃ mu < L.ND, n mu ≠ 0) →
      tol ≤ normSq L.ND (latMom sinMom L n)) :
    exceptional c NC tol sinMom L sign log keep U = some ((get_mom_veclist L keep L.ND).map fun v =>
      exceptionalSpec triple sinMom L sign (fun x mu => toM NC (log (U (x, mu)))) v.MOM) := by
  obtain ⟨hodd, hzero⟩ := zero_middle hL hk heven hb h0
  unfold exceptional compute_veclist
  simp only [Bool.false_eq_true, if_false]
  rw [if_neg (by omega)]
  refine exceptional_core c hL he hs sinMom htol0 log U triple ?_ _ hodd hzero
    (C59_reflect hL (Or.inl rfl) keep hk heven hb) ((C59_list hL (Or.inl rfl) keep hk).2.2.imp fun h => h.1)
    (fun hv => ⟨(veclist_get hL hk hv).1, (veclist_get hL hk hv).2.2⟩)
    (fun v hv => htol v.MOM (veclist_get hL hk hv).2.1 (veclist_get hL hk hv).1) ?_
  · intro F G Z F' G' Z' h mu hmu nu hnu rho hrho
    unfold triple
    rw [(h mu hmu).1, (h nu hnu).2.1, (h rho hrho).2.2]
  · intro p q hq x _ y _ z _
    cases c with
    | lies => exact absurd rfl hc
    | traces => exact congrArg some (contraction_traces_eq NC L _ _ _ _ p hq)
    | matrices => exact congrArg some (contraction_matrices_eq NC L _ _ _ _ p q)

theorem fieldFT_trace {N : ℕ} (L : Latt) (sign : ℝ) {A : ℕ → ℕ → Matrix (Fin N) (Fin N) ℂ} (n : ℕ → ℤ) (mu : ℕ)
    (hA : ∀ x < volume L, trace (A x mu) = 0) : trace (fieldFT L sign A n mu) = 0 := by
  unfold fieldFT
  rw [trace_sum]
  refine sum_eq_zero fun x hx => ?_
  rw [trace_smul, hA x (mem_range.1 hx), smul_zero]

/-- C93: the build with the structure constants, for three colours and a traceless field, writes the part of the
three-point function that is antisymmetric in the colours. -/
theorem C93_lies_partial {L : Latt} (hL : Valid L)
    (he : EvenDims L L.ND) {sign : ℝ} (hs : sign = 1 ∨ sign = -1) (sinMom : Bool) {tol : ℝ} (htol0 : 0 < tol)
    (log : Arr ℂ → Arr ℂ) (U : Gauge) (htr : ∀ x < volume L, ∀ mu < L.ND, trace (toM 3 (log (U (x, mu)))) = 0)
    {keep : (ℕ → ℤ) → Bool} (hk : Local L.ND keep) (heven : ∀ n, keep (fun mu => -n mu) = keep n)
    (hb : ∀ n, keep n = true → InZone L L.ND n → ∀ mu < L.ND, 2 * n mu ≠ -(L.dims mu : ℤ))
    (h0 : keep (fun _ => 0) = true)
    (htol : ∀ n, keep n = true → InZone L L.ND n → (∃ mu < L.ND, n mu ≠ 0) →
      tol ≤ normSq L.ND (latMom sinMom L n)) :
    exceptional .lies 3 tol sinMom L sign log keep U = some ((get_mom_veclist L keep L.ND).map fun v =>
      exceptionalSpec tripleF sinMom L sign (fun x mu => toM 3 (log (U (x, mu)))) v.MOM) := by
  obtain ⟨hodd, hzero⟩ := zero_middle hL hk heven hb h0
  unfold exceptional compute_veclist
  simp only [Bool.false_eq_true, if_false]
  rw [if_neg (by omega)]
  have hpw := (C59_list hL (Or.inl rfl) keep hk).2.2.imp (S := fun v w : Vec => v.idx ≠ w.idx) fun h => h.1
  refine exceptional_core .lies hL he hs sinMom htol0 log U tripleF ?_ _ hodd hzero
    (C59_reflect hL (Or.inl rfl) keep hk heven hb) hpw
    (fun hv => ⟨(veclist_get hL hk hv).1, (veclist_get hL hk hv).2.2⟩)
    (fun v hv => htol v.MOM (veclist_get hL hk hv).2.1 (veclist_get hL hk hv).1) ?_
  · intro F G Z F' G' Z' h mu hmu nu hnu rho hrho
    unfold tripleF
    rw [(h mu hmu).1, (h nu hnu).2.1, (h rho hrho).2.2]
  · intro p q _ x hx y hy z hz
    have ht : ∀ v ∈ get_mom_veclist L keep L.ND, ∀ mu < L.ND, trace (toM 3 (correct_pspace_landau 3 L sign
        (get_mom_veclist L keep L.ND) L.ND (mom_gauge 3 L sign log U) (v.idx, mu))) = 0 := by
      intro v hv mu hmu
      obtain ⟨-, -, hi, hd⟩ := veclist_get hL hk hv
      rw [field_eq hL hs log U hpw hv hi hd hmu]
      exact fieldFT_trace L sign _ mu fun x hx => htr x hx mu hmu
    exact contraction_lies_eq L _ _ _ _ p q (ht x hx) (ht y hy) (ht z hz)

/-- C93: the antisymmetric part is the average of the full function over the momentum and its
reflection, the two-point function does not depend on the sign of the momentum, and neither does the antisymmetric
part. -/
theorem C93_average {N : ℕ} (sinMom : Bool) (L : Latt) (sign : ℝ) (A : ℕ → ℕ → Matrix (Fin N) (Fin N) ℂ)
    (n : ℕ → ℤ) :
    (exceptionalSpec tripleF sinMom L sign A n).2 = ((exceptionalSpec triple sinMom L sign A n).2 +
      (exceptionalSpec triple sinMom L sign A fun mu => -n mu).2) / 2 ∧
    (exceptionalSpec triple sinMom L sign A fun mu => -n mu).1 = (exceptionalSpec triple sinMom L sign A n).1 ∧
    exceptionalSpec tripleF sinMom L sign A (fun mu => -n mu) = exceptionalSpec tripleF sinMom L sign A n := by
  have h1 : ∀ n, ((exceptionalSpec tripleF sinMom L sign A n).2 = ((exceptionalSpec triple sinMom L sign A n).2 +
      (exceptionalSpec triple sinMom L sign A fun mu => -n mu).2) / 2) := by
    intro n
    unfold exceptionalSpec
    dsimp only
    rw [← mul_add, mul_div_assoc, ← add_re]
    congr 1
    have : projected L.ND (latMom sinMom L n) (tripleF (fieldFT L sign A n) (fieldFT L sign A fun mu => -n mu)
          (fieldFT L sign A fun _ => 0)) * 2 =
        projected L.ND (latMom sinMom L n) (triple (fieldFT L sign A n) (fieldFT L sign A fun mu => -n mu)
          (fieldFT L sign A fun _ => 0)) +
        projected L.ND (latMom sinMom L fun mu => -n mu) (triple (fieldFT L sign A fun mu => -n mu)
          (fieldFT L sign A fun mu => - -n mu) (fieldFT L sign A fun _ => 0)) := by
      have e2 : projected L.ND (latMom sinMom L fun mu => -n mu) (triple (fieldFT L sign A fun mu => -n mu)
          (fieldFT L sign A fun mu => - -n mu) (fieldFT L sign A fun _ => 0)) =
          -projected L.ND (latMom sinMom L n) fun mu nu rho => trace (fieldFT L sign A (fun mu => -n mu) nu *
            fieldFT L sign A n mu * fieldFT L sign A (fun _ => 0) rho) := by
        unfold projected
        rw [sum_comm, ← sum_neg_distrib]
        refine sum_congr rfl fun mu _ => ?_
        rw [← sum_neg_distrib]
        refine sum_congr rfl fun nu _ => ?_
        rw [← sum_neg_distrib]
        refine sum_congr rfl fun rho _ => ?_
        have hn : normSq L.ND (latMom sinMom L fun mu => -n mu) = normSq L.ND (latMom sinMom L n) := by
          unfold normSq
          exact sum_congr rfl fun mu _ => by rw [latMom_neg, neg_sq]
        unfold triple
        simp only [neg_neg, latMom_neg, hn, eq_comm (a := nu) (b := mu)]
        push_cast
        ring
      rw [e2]
      unfold projected triple tripleF
      rw [← sub_eq_add_neg]
      simp only [← sum_sub_distrib, sum_mul]
      refine sum_congr rfl fun mu _ => sum_congr rfl fun nu _ => sum_congr rfl fun rho _ => ?_
      rw [sub_mul (fieldFT L sign A n mu * _), trace_sub]
      ring
    rw [← this]
    simp
  have h2 : ∀ T, (exceptionalSpec (N := N) T sinMom L sign A fun mu => -n mu).1 =
      (exceptionalSpec T sinMom L sign A n).1 := by
    intro T
    unfold exceptionalSpec
    dsimp only
    simp only [neg_neg, neg_eq_zero]
    congr 1
    exact sum_congr rfl fun mu _ => by rw [Matrix.trace_mul_comm]
  refine ⟨h1 n, h2 _, Prod.ext (h2 _) ?_⟩
  rw [h1, h1 n]
  simp only [neg_neg]
  rw [add_comm]

/-- C93: for a hermitian field in Landau gauge the two-point function is the transverse propagator that the gluon
propagator measurement writes. -/
theorem C93_landau {N : ℕ} {L : Latt} (hL : Valid L) {sign : ℝ} (hs : sign = 1 ∨ sign = -1)
    {A : ℕ → ℕ → Matrix (Fin N) (Fin N) ℂ} (hA : ∀ x < volume L, ∀ mu < L.ND, (A x mu)ᴴ = A x mu) (hl : Landau L A)
    (T : (F G Z : ℕ → Matrix (Fin N) (Fin N) ℂ) → ℕ → ℕ → ℕ → ℂ) (n : ℕ → ℤ) :
    (exceptionalSpec T true L sign A n).1 = (propagators true L sign A n).1 := by
  unfold exceptionalSpec propagators
  dsimp only
  rw [(C91_landau hL hs hl n).2]
  congr 1
  refine sum_congr rfl fun mu hmu => ?_
  rw [fieldFT_neg L sign n mu fun x hx => hA x hx mu (mem_range.1 hmu)]

/-! ### The builds disagree -/

/-- Constant in the direction 0, and in the direction 1 present on the sites with `x_0 = 0` only. -/
noncomputable def vertexField (x mu : ℕ) : Matrix (Fin 3) (Fin 3) ℂ :=
  if mu = 0 then Matrix.diagonal ![1, 1, -2]
  else if mu = 1 ∧ coord L4468 4 x 0 = 0 then Matrix.diagonal ![1, 1, -2] else 0

theorem vertexField_form (x mu : ℕ) : ∃ a : ℝ, vertexField x mu = (a : ℂ) • Matrix.diagonal ![1, 1, -2] := by
  unfold vertexField
  split
  · exact ⟨1, by simp⟩
  · split
    · exact ⟨1, by simp⟩
    · exact ⟨0, by simp⟩

theorem vertexField_herm (x mu : ℕ) : (vertexField x mu)ᴴ = vertexField x mu := by
  obtain ⟨a, h⟩ := vertexField_form x mu
  rw [h, conjTranspose_smul, diagonal_conjTranspose]
  congr 1
  · simp
  · congr 1
    funext i
    fin_cases i <;> simp

theorem vertexField_trace (x mu : ℕ) : trace (vertexField x mu) = 0 := by
  obtain ⟨a, h⟩ := vertexField_form x mu
  rw [h, trace_smul, trace_diagonal, Fin.sum_univ_three]
  show (a : ℂ) • ((1 : ℂ) + 1 + -2) = 0
  norm_num

theorem vertexField_landau : Landau L4468 vertexField := by
  intro x _
  refine sum_eq_zero fun mu hmu => ?_
  unfold vertexField
  by_cases h0 : mu = 0
  · simp [h0]
  by_cases h1 : mu = 1
  · subst h1
    have := coord_back valid_L4468 x (mu := 1) (nu := 0) (by decide) (by decide)
    rw [if_neg (by decide)] at this
    have h : coord L4468 4 (back L4468 x 1) 0 = coord L4468 4 x 0 := by exact_mod_cast this
    rw [h]
    simp
  · simp [h0, h1]

theorem fieldFT_form (sign : ℝ) (n : ℕ → ℤ) (mu : ℕ) :
    ∃ a : ℂ, fieldFT L4468 sign vertexField n mu = a • Matrix.diagonal ![1, 1, -2] := by
  choose a ha using vertexField_form
  unfold fieldFT
  simp only [ha, smul_smul, ← sum_smul]
  exact ⟨_, rfl⟩

theorem lies_zero (sign : ℝ) (n : ℕ → ℤ) : (exceptionalSpec tripleF true L4468 sign vertexField n).2 = 0 := by
  unfold exceptionalSpec projected tripleF
  dsimp only
  rw [sum_eq_zero]
  · simp
  refine fun mu _ => sum_eq_zero fun nu _ => sum_eq_zero fun rho _ => ?_
  obtain ⟨a, ha⟩ := fieldFT_form sign n mu
  obtain ⟨b, hb⟩ := fieldFT_form sign (fun mu => -n mu) nu
  rw [ha, hb, smul_mul_smul_comm, smul_mul_smul_comm, mul_comm a b, sub_self]
  simp

theorem matrices_ne (sign : ℝ) {n : ℕ → ℤ} (h0 : n 0 = 1) (h1 : ∀ mu, 0 < mu → mu < 4 → n mu = 0) :
    (exceptionalSpec triple true L4468 sign vertexField n).2 ≠ 0 := by
  have hp0 : latMom true L4468 n 0 ≠ 0 := by
    unfold latMom momentum
    have : (2 * Real.pi * ((n 0 : ℤ) : ℝ) / (L4468.dims 0 : ℕ)) / 2 = Real.pi / 4 := by
      rw [h0, show L4468.dims 0 = 4 from rfl]
      push_cast
      ring
    rw [if_pos rfl, this, Real.sin_pi_div_four]
    positivity
  have hp : ∀ mu, 0 < mu → mu < 4 → latMom true L4468 n mu = 0 := by
    intro mu hmu hlt
    unfold latMom momentum
    rw [h1 mu hmu hlt]
    simp
  have hnorm : normSq 4 (latMom true L4468 n) = latMom true L4468 n 0 ^ 2 := by
    unfold normSq
    rw [sum_range_succ', sum_eq_zero, zero_add]
    intro k hk
    rw [hp (k + 1) (by omega) (by have := mem_range.1 hk; omega)]
    simp
  -- the transforms
  have hcount : ∀ m : ℕ → ℤ, (∀ mu, 0 < mu → mu < 4 → m mu = 0) → fieldFT L4468 sign vertexField m 1 =
      (((range (volume L4468)).filter fun x => coord L4468 4 x 0 = 0).card : ℂ) • Matrix.diagonal ![1, 1, -2] := by
    intro m hm
    unfold fieldFT
    have : ∀ x ∈ range (volume L4468), exp (((sign * ∑ nu ∈ range L4468.ND,
        momentum L4468 m nu * ((coord L4468 L4468.ND x nu : ℝ) + if nu = 1 then 1 / 2 else 0) : ℝ) : ℂ) * I) •
          vertexField x 1 = (if coord L4468 4 x 0 = 0 then (1 : ℂ) else 0) • Matrix.diagonal ![1, 1, -2] := by
      intro x _
      unfold vertexField
      by_cases hx : coord L4468 4 x 0 = 0
      · have : ∑ nu ∈ range L4468.ND, momentum L4468 m nu *
            ((coord L4468 L4468.ND x nu : ℝ) + if nu = 1 then 1 / 2 else 0) = 0 := by
          refine sum_eq_zero fun nu hnu => ?_
          rcases Nat.eq_zero_or_pos nu with rfl | hpos
          · rw [show L4468.ND = 4 from rfl, hx]
            simp
          · unfold momentum
            rw [hm nu hpos (mem_range.1 hnu)]
            simp
        rw [this]
        simp [hx]
      · simp [hx]
    rw [sum_congr rfl this, ← sum_smul, sum_boole]
  have hz : fieldFT L4468 sign vertexField (fun _ => 0) 0 = (volume L4468 : ℂ) • Matrix.diagonal ![1, 1, -2] := by
    unfold fieldFT vertexField momentum
    simp [← Nat.cast_smul_eq_nsmul ℂ]
  have hzero : ∀ m : ℕ → ℤ, ∀ mu, 1 < mu → fieldFT L4468 sign vertexField m mu = 0 := by
    intro m mu hmu
    unfold fieldFT vertexField
    refine sum_eq_zero fun x _ => ?_
    rw [if_neg (by omega), if_neg (by omega), smul_zero]
  have hcard : 0 < ((range (volume L4468)).filter fun x => coord L4468 4 x 0 = 0).card := by
    refine card_pos.2 ⟨0, ?_⟩
    rw [mem_filter, mem_range]
    decide
  set c := ((range (volume L4468)).filter fun x => coord L4468 4 x 0 = 0).card with hc
  have hval : projected 4 (latMom true L4468 n) (triple (fieldFT L4468 sign vertexField n)
      (fieldFT L4468 sign vertexField fun mu => -n mu) (fieldFT L4468 sign vertexField fun _ => 0)) =
      ((latMom true L4468 n 0 / latMom true L4468 n 0 ^ 2 * (c * c * volume L4468 * (-6)) : ℝ) : ℂ) := by
    unfold projected triple
    rw [hnorm]
    have hpp : ∀ nu < 4, 0 < nu → ∀ mu, latMom true L4468 n mu * latMom true L4468 n nu = 0 := fun nu h4 hpos mu => by
      rw [hp nu hpos h4, mul_zero]
    rw [sum_eq_single_of_mem 1 (by decide), sum_eq_single_of_mem 1 (by decide), sum_eq_single_of_mem 0 (by decide),
      hpp 1 (by decide) (by decide), hcount n h1, hcount _ fun mu hmu hlt => by rw [h1 mu hmu hlt, neg_zero], hz,
      smul_mul_smul_comm, smul_mul_smul_comm, trace_smul, diagonal_mul_diagonal, diagonal_mul_diagonal, trace_diagonal,
      Fin.sum_univ_three]
    · generalize volume L4468 = V
      show _ * (((c : ℂ) * c * V) • ((1 : ℂ) * 1 * 1 + 1 * 1 * 1 + -2 * -2 * -2)) = _
      rw [smul_eq_mul, if_pos rfl]
      push_cast
      ring
    · intro rho hr hne
      rw [hp rho (by omega) (mem_range.1 hr)]
      simp
    · intro nu hn hne
      refine sum_eq_zero fun rho _ => ?_
      rw [if_neg (by omega), mul_comm (latMom true L4468 n 1), hpp 1 (by decide) (by decide)]
      simp
    · intro mu hm hne
      refine sum_eq_zero fun nu hn => sum_eq_zero fun rho _ => ?_
      rcases Nat.eq_zero_or_pos mu with rfl | hpos
      · rcases Nat.eq_zero_or_pos nu with rfl | hnpos
        · rw [if_pos rfl, ← sq, div_self (pow_ne_zero 2 hp0)]
          simp
        · rw [if_neg (by omega), hpp nu (mem_range.1 hn) hnpos]
          simp
      · rw [hzero n mu (by omega)]
        simp
  unfold exceptionalSpec
  dsimp only
  rw [show L4468.ND = 4 from rfl, hval, ofReal_re]
  have hv : (volume L4468 : ℝ) ≠ 0 := by
    have := volume_pos valid_L4468
    exact Nat.cast_ne_zero.2 (by omega)
  have hcr : (c : ℝ) ≠ 0 := Nat.cast_ne_zero.2 hcard.ne'
  clear_value c
  generalize (volume L4468 : ℝ) = V at *
  have : (4 : ℝ) / (2 * ((3 : ℕ) : ℝ) * (((3 : ℕ) : ℝ) ^ 2 - 1) * (((4 : ℕ) : ℝ) - 1) * V) ≠ 0 := by
    norm_num
    exact hv
  exact mul_ne_zero this (mul_ne_zero (div_ne_zero hp0 (pow_ne_zero 2 hp0)) (by
    simp only [ne_eq, mul_eq_zero, hcr, hv, or_self, false_or]
    norm_num))

/-- C93: for a hermitian, traceless field in Landau gauge on `4 x 4 x 6 x 8` the build with the structure constants and
the default build write different numbers. -/
theorem C93_builds_fail {sign : ℝ} (hs : sign = 1 ∨ sign = -1) :
    ∃ U : Gauge, (∀ x mu, (toM 3 (U (x, mu)))ᴴ = toM 3 (U (x, mu)) ∧ trace (toM 3 (U (x, mu))) = 0) ∧
      Landau L4468 (fun x mu => toM 3 (U (x, mu))) ∧
      ∃ a b, exceptional .matrices 3 3e-14 true L4468 sign id keepUnit U = some a ∧
        exceptional .lies 3 3e-14 true L4468 sign id keepUnit U = some b ∧ a ≠ b := by
  obtain ⟨hL, he, hk, heven, hb, h0, htol, -⟩ := keepUnit_ok
  refine ⟨fun l => arrOf (vertexField l.1 l.2), ?_, ?_, _, _,
    C93_exceptional_partial (by decide) hL he hs true (by norm_num) id _ hk heven hb h0 htol,
    C93_lies_partial hL he hs true (by norm_num) id _ ?_ hk heven hb h0 htol, ?_⟩
  · intro x mu
    simp only [toM_arrOf]
    exact ⟨vertexField_herm x mu, vertexField_trace x mu⟩
  · simp only [toM_arrOf]
    exact vertexField_landau
  · intro x _ mu _
    simp only [toM_arrOf, id]
    exact vertexField_trace x mu
  · simp only [toM_arrOf, id]
    intro heq
    have hmap := List.map_inj_left.1 heq
    obtain ⟨v, hv, hv2⟩ := ((C59_list hL (Or.inl rfl) keepUnit hk).1 (fun mu => if mu = 0 then 1 else 0) (by
      intro mu hmu
      have : mu < 4 := hmu
      interval_cases mu <;> decide)).2 (by decide)
    have h2 := congrArg Prod.snd (hmap v hv)
    rw [lies_zero] at h2
    exact matrices_ne sign (by rw [hv2 0 (by decide)]; rfl) (fun mu hmu hlt => by
      rw [hv2 mu hlt, if_neg (by omega)]) h2

end GLU.Cuts
