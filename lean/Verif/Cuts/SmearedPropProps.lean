import Verif.Cuts.SmearedProp
import Verif.Cuts.GluonFails
import Verif.Mat.ProjProps

/-!
# Propagators of a field and of the smeared field (C98)
-/

namespace GLU.Cuts

open Complex Finset Matrix GLU.Mat GLU.Geom GLU.Field

/-! ### Specification -/

/-- The fields are the same on the lattice. -/
def SameOn (L : Latt) (A B : Gauge) : Prop := ∀ x < volume L, ∀ mu, A (x, mu) = B (x, mu)

/-- What a routine makes of a field depends only on the links of the lattice. -/
def OnLattice (L : Latt) (F : Gauge → Gauge) : Prop := ∀ A B, SameOn L A B → SameOn L (F A) (F B)

/-- Different sites have different tables of links. -/
def Distinct (L : Latt) (a : Sites) : Prop := ∀ x < volume L, ∀ y < volume L, a x = a y → x = y

/-! ### Lemmas -/

theorem SameOn.trans {L : Latt} {A B C : Gauge} (h : SameOn L A B) (k : SameOn L B C) : SameOn L A C :=
  fun x hx mu => (h x hx mu).trans (k x hx mu)

theorem copySites_eq {L : Latt} {a junk : Sites} {x : ℕ} (h : x < volume L) : copySites L a junk x = a x := if_pos h

theorem view_copy (L : Latt) (a junk : Sites) (h : Heap) : SameOn L (view h (copySites L a junk)) (view h a) := by
  intro x hx mu
  unfold view
  rw [copySites_eq hx]

theorem distinct_copy {L : Latt} {a junk : Sites} (h : Distinct L a) : Distinct L (copySites L a junk) := by
  intro x hx y hy e
  rw [copySites_eq hx, copySites_eq hy] at e
  exact h x hx y hy e

theorem view_through {L : Latt} {s : Sites} (hs : Distinct L s) (F : Gauge → Gauge) (h : Heap) :
    SameOn L (view (through L F s h) s) (F (view h s)) := by
  intro x hx mu
  unfold view through
  have hex : ∃ y < volume L, s y = s x := ⟨x, hx, rfl⟩
  rw [dif_pos hex]
  have := hs _ hex.choose_spec.1 _ hx hex.choose_spec.2
  rw [this]
  rfl

theorem view_through_a {L : Latt} {a : Sites} (hs : Distinct L a) {F : Gauge → Gauge} (hF : OnLattice L F) {h : Heap}
    {A : Gauge} (hA : SameOn L (view h a) A) : SameOn L (view (through L F a h) a) (F A) :=
  (view_through hs F h).trans (hF _ _ hA)

theorem view_through_copy {L : Latt} {a junk : Sites} (hs : Distinct L a) {F : Gauge → Gauge} (hF : OnLattice L F)
    {h : Heap} {A : Gauge} (hA : SameOn L (view h a) A) :
    SameOn L (view (through L F (copySites L a junk) h) a) (F A) := by
  intro x hx mu
  rw [← view_copy L a junk _ x hx mu]
  exact view_through_a (distinct_copy hs) hF ((view_copy L a junk h).trans hA) x hx mu

theorem mom_gauge_onLattice {NC : ℕ} {L : Latt} (hL : Valid L) (sign : ℝ) (log : Arr ℂ → Arr ℂ) :
    OnLattice L (mom_gauge NC L sign log) := by
  intro A B h x hx mu
  funext j
  unfold mom_gauge
  rw [h x hx mu]
  split
  · rw [small_plan_eq hL, small_plan_eq hL]
    exact sum_congr rfl fun y hy => by rw [h y (mem_range.1 hy) mu]
  · rfl

theorem landau_onLattice {NC : ℕ} {L : Latt} (sign : ℝ) (list : List Vec) (D : ℕ) :
    OnLattice L (correct_pspace_landau NC L sign list D) := by
  induction list with
  | nil => exact fun A B h => h
  | cons v t ih =>
    intro A B h
    refine ih (landauEntry NC L sign D A v) (landauEntry NC L sign D B v) ?_
    intro x hx mu
    funext j
    unfold landauEntry
    rw [h x hx mu]

theorem entry_congr (NC : ℕ) (tol : ℝ) (sinMom : Bool) {L : Latt} {A B : Gauge} {list : List Vec}
    (hl : ∀ v ∈ list, v.idx < volume L) (h : SameOn L A B) (i : ℕ) :
    smearedEntry NC tol sinMom L A list i = smearedEntry NC tol sinMom L B list i := by
  unfold smearedEntry
  dsimp only
  cases hv : list[i]? with
  | none => rfl
  | some v =>
    have hm : v ∈ list := List.mem_of_getElem? hv
    have : project_trans_long NC tol sinMom L A v.idx = project_trans_long NC tol sinMom L B v.idx := by
      unfold project_trans_long
      simp only [h _ (hl v hm)]
    rw [Option.bind_some, Option.bind_some, this]

theorem veclist_some {L : Latt} {keep : (ℕ → ℤ) → Bool} {list : List Vec}
    (h : compute_veclist L keep L.ND false = some list) : list = get_mom_veclist L keep L.ND := by
  unfold compute_veclist at h
  simp only [Bool.false_eq_true, if_false] at h
  split at h
  · cases h
  · exact (Option.some.inj h).symm

/-! ### The properties -/

/-- C98: whatever the smearing does, the two arrays written by the measurement on a field and on the smeared field are
the same: the copy of the array of sites shares the links of the original. -/
theorem C98_same {NC : ℕ} {tol : ℝ} {sinMom : Bool} {L : Latt} (hL : Valid L) {sign : ℝ} {log : Arr ℂ → Arr ℂ}
    {keep : (ℕ → ℤ) → Bool} (hk : Local L.ND keep) (smear : Gauge → Gauge) (a junk : Sites) (h : Heap)
    {r : (ℕ → Option ℝ) × (ℕ → Option ℝ)}
    (hr : cuts_struct_smeared NC tol sinMom L sign log keep smear a junk h = some r) : r.1 = r.2 := by
  unfold cuts_struct_smeared at hr
  dsimp only at hr
  split at hr
  · cases hr
  · next list hl =>
    rw [← Option.some.inj hr]
    funext i
    rw [veclist_some hl]
    refine entry_congr _ _ _ (fun v hv => (veclist_get hL hk hv).2.2.1) ?_ i
    exact fun x hx mu => (view_copy L a junk _ x hx mu).symm

/-- C98: both arrays belong to the smeared field of which the logarithm and the transform were taken twice, and which
was corrected to the middle of the links twice. -/
theorem C98_twice_partial {NC : ℕ} {tol : ℝ} {sinMom : Bool} {L : Latt} (hL : Valid L) {sign : ℝ} {log : Arr ℂ → Arr ℂ}
    {keep : (ℕ → ℤ) → Bool} (hk : Local L.ND keep) {smear : Gauge → Gauge} (hF : OnLattice L smear) {a : Sites}
    (ha : Distinct L a) (junk : Sites) (h : Heap)
    {r : (ℕ → Option ℝ) × (ℕ → Option ℝ)}
    (hr : cuts_struct_smeared NC tol sinMom L sign log keep smear a junk h = some r) :
    let G := mom_gauge NC L sign log
    let K := correct_pspace_landau NC L sign (get_mom_veclist L keep L.ND) L.ND
    let P := smearedEntry NC tol sinMom L (K (K (G (G (smear (view h a)))))) (get_mom_veclist L keep L.ND)
    r = (P, P) := by
  have hs := C98_same hL hk smear a junk h hr
  have h1 : r.1 = smearedEntry NC tol sinMom L (correct_pspace_landau NC L sign (get_mom_veclist L keep L.ND) L.ND
      (correct_pspace_landau NC L sign (get_mom_veclist L keep L.ND) L.ND (mom_gauge NC L sign log
      (mom_gauge NC L sign log (smear (view h a)))))) (get_mom_veclist L keep L.ND) := by
    unfold cuts_struct_smeared at hr
    dsimp only at hr
    split at hr
    · cases hr
    · next list hl =>
      rw [← Option.some.inj hr]
      funext i
      rw [veclist_some hl]
      refine entry_congr _ _ _ (fun v hv => (veclist_get hL hk hv).2.2.1) ?_ i
      have hG := mom_gauge_onLattice (NC := NC) hL sign log
      have hK := landau_onLattice (NC := NC) (L := L) sign (get_mom_veclist L keep L.ND) L.ND
      exact view_through_copy ha hK (view_through_a ha hK (view_through_copy ha hG (view_through_a ha hG
        (view_through_copy ha hF fun _ _ _ => rfl))))
  exact Prod.ext h1 (hs ▸ h1)

/-! ### The numbers are wrong -/

/-- The diagonal matrix `(i, -i, 1)` of SU(3). -/
noncomputable def diagI : Matrix (Fin 3) (Fin 3) ℂ := diagonal ![I, -I, 1]

theorem proj_diag {U : Arr ℂ} {a b c : ℂ} (h : toM 3 U = diagonal ![a, b, c]) :
    toM 3 (Hermitian_proj 3 scratch U) = diagonal ![(((2 * a.im - b.im - c.im) / 3 : ℝ) : ℂ),
      (((2 * b.im - a.im - c.im) / 3 : ℝ) : ℂ), (((2 * c.im - a.im - b.im) / 3 : ℝ) : ℂ)] := by
  have e : ∀ i j : Fin 3, U (j.1 + 3 * i.1) = (diagonal ![a, b, c] : Matrix (Fin 3) (Fin 3) ℂ) i j := fun i j => by
    rw [← h]; rfl
  have e00 := e 0 0; have e01 := e 0 1; have e02 := e 0 2
  have e10 := e 1 0; have e11 := e 1 1; have e12 := e 1 2
  have e20 := e 2 0; have e21 := e 2 1; have e22 := e 2 2
  simp at e00 e01 e02 e10 e11 e12 e20 e21 e22
  ext i j
  rw [toM_apply]
  unfold Hermitian_proj Hermitian_proj3
  simp only [if_true, e00, e01, e02, e10, e11, e12, e20, e21, e22]
  fin_cases i <;> fin_cases j <;> simp [arr, diagonal_apply, conj]
  ring

theorem coord_zero (L : Latt) (D mu : ℕ) : coord L D 0 mu = 0 := by
  unfold coord; split <;> simp

theorem phase_zero (L : Latt) (x : ℕ) : phase L x 0 = 0 := by
  unfold phase
  exact sum_eq_zero fun mu _ => by rw [coord_zero]; simp

/-- The transform of a constant is real. -/
theorem const_real {L : Latt} (hL : Valid L) {sign : ℝ} (hs : sign = 1 ∨ sign = -1) (k : ℕ) :
    ∃ r : ℝ, ∑ x ∈ range (volume L), exp (((sign * (2 * Real.pi * phase L x k) : ℝ) : ℂ) * I) = r := by
  rcases hs with rfl | rfl
  · have h := sum_phase hL 0 k 0
    simp only [phase_zero, add_zero, sub_zero] at h
    simp only [one_mul]
    rw [h]
    split
    · exact ⟨volume L, by simp⟩
    · exact ⟨0, by simp⟩
  · have h := sum_phase hL k 0 0
    simp only [phase_zero, add_zero, zero_sub] at h
    have e : ∀ x, (-1 * (2 * Real.pi * phase L x k) : ℝ) = 2 * Real.pi * -phase L x k := fun x => by ring
    simp only [e]
    rw [h]
    split
    · exact ⟨volume L, by simp⟩
    · exact ⟨0, by simp⟩

theorem const_mom {NC : ℕ} {L : Latt} (hL : Valid L) {sign : ℝ} (log : Arr ℂ → Arr ℂ)
    {A : Gauge} {U : Arr ℂ} (hA : ∀ x < volume L, ∀ mu < L.ND, A (x, mu) = U) {k mu : ℕ} (hk : k < volume L)
    (hmu : mu < L.ND) :
    toM NC (mom_gauge NC L sign log A (k, mu)) =
      (∑ x ∈ range (volume L), exp (((sign * (2 * Real.pi * phase L x k) : ℝ) : ℂ) * I)) • toM NC (log U) := by
  ext i j
  rw [toM_apply, Matrix.smul_apply, toM_apply, smul_eq_mul, sum_mul]
  unfold mom_gauge
  rw [if_pos ⟨hk, hmu, index_lt i.2 j.2⟩, small_plan_eq hL]
  refine sum_congr rfl fun x hx => ?_
  dsimp only
  rw [hA x (mem_range.1 hx) mu hmu, mul_comm]

theorem proj_real {U : Arr ℂ} {a b c : ℝ} (h : toM 3 U = diagonal ![(a : ℂ), b, c]) :
    toM 3 (Hermitian_proj 3 scratch U) = 0 := by
  rw [proj_diag h]
  simp

theorem diagI_su : IsSU 3 (arrOf diagI) := by
  have hD : toM 3 (arrOf diagI) = diagonal ![I, -I, 1] := toM_arrOf _
  unfold IsSU
  rw [hD, mem_specialUnitaryGroup_iff, mem_unitaryGroup_iff]
  constructor
  · rw [star_eq_conjTranspose, diagonal_conjTranspose, diagonal_mul_diagonal, ← diagonal_one]
    congr 1
    funext i
    fin_cases i <;> simp
  · rw [det_diagonal]
    simp [Fin.prod_univ_three]

theorem entry_mid {NC : ℕ} (tol : ℝ) (sinMom : Bool) {L : Latt} (A : Gauge) {list : List Vec} {v : Vec}
    (hl : list.length = 9) (hv : list[4]? = some v) (h : (project_trans_long NC tol sinMom L A v.idx).1 = 0) :
    smearedEntry NC tol sinMom L A list 4 = some 0 := by
  unfold smearedEntry
  dsimp only
  rw [hl, hv, Option.bind_some, Option.map_some, h]
  simp

theorem prop_pos {L : Latt} (hL : Valid L) (sign : ℝ) {A : Gauge} {U : Arr ℂ}
    (hA : ∀ x < volume L, ∀ mu < L.ND, A (x, mu) = U)
    (hlog : toM 3 (Hermitian_proj 3 scratch U) = diagonal ![((1 : ℝ) : ℂ), ((-1 : ℝ) : ℂ), ((0 : ℝ) : ℂ)]) :
    0 < (propagators true L sign (fun x mu => toM 3 (Hermitian_proj 3 scratch (A (x, mu)))) fun _ => 0).1 := by
  have hF : ∀ mu < L.ND, fieldFT L sign (fun x mu => toM 3 (Hermitian_proj 3 scratch (A (x, mu))))
      (fun _ => 0) mu = (volume L : ℂ) • diagonal ![((1 : ℝ) : ℂ), ((-1 : ℝ) : ℂ), ((0 : ℝ) : ℂ)] := by
    intro mu hmu
    unfold fieldFT
    have : ∀ x ∈ range (volume L), exp (((sign * ∑ nu ∈ range L.ND, momentum L (fun _ => 0) nu *
        ((coord L L.ND x nu : ℝ) + if nu = mu then 1 / 2 else 0) : ℝ) : ℂ) * I) •
        toM 3 (Hermitian_proj 3 scratch (A (x, mu))) =
        diagonal ![((1 : ℝ) : ℂ), ((-1 : ℝ) : ℂ), ((0 : ℝ) : ℂ)] := by
      intro x hx
      rw [hA x (mem_range.1 hx) mu hmu, hlog]
      simp [momentum]
    rw [sum_congr rfl this, sum_const, card_range, Nat.cast_smul_eq_nsmul]
  have hV : (0 : ℝ) < volume L := by exact_mod_cast volume_pos hL
  have hc : ∀ mu < L.ND, 0 < corr (fieldFT L sign (fun x mu => toM 3 (Hermitian_proj 3 scratch
      (A (x, mu)))) fun _ => 0) mu mu := by
    intro mu hmu
    unfold corr
    rw [hF mu hmu, conjTranspose_smul, diagonal_conjTranspose, smul_mul_smul_comm, diagonal_mul_diagonal,
      Matrix.trace_smul, trace_diagonal, Fin.sum_univ_three]
    simp
    exact (volume_pos hL).ne'
  unfold propagators transverse
  have hp : latMom true L (fun _ => 0) = fun _ => 0 := by
    funext mu; unfold latMom momentum; simp
  simp only [implies_true, if_true, hp]
  have hnd : (0 : ℝ) < L.ND := by have := hL.nd; exact_mod_cast (by omega : 0 < L.ND)
  refine mul_pos (div_pos two_pos (mul_pos (mul_pos (by norm_num) hnd) hV)) (sum_pos (fun mu hmu => ?_) ⟨0, by simp; have := hL.nd; omega⟩)
  rw [sum_eq_single mu]
  · simpa using hc mu (mem_range.1 hmu)
  · intro nu _ hne
    simp [Ne.symm hne]
  · exact fun hn => absurd hmu hn

/-- C98: what a user relies on fails.  On `4 x 4 x 6 x 8` with the momenta of squared length at most one and every link
the matrix `diag( i, -i, 1 )`, with no smearing at all and the linear definition of the gauge field, the transverse
propagator at zero momentum (the entry 4) is positive; both arrays have 0 there. -/
theorem C98_fails {sign : ℝ} (hs : sign = 1 ∨ sign = -1) (tol : ℝ) {a : Sites} (ha : Distinct L4468 a) (junk : Sites)
    {h : Heap} (hU : ∀ x < volume L4468, ∀ mu, h (a x) mu = arrOf diagI) :
    IsSU 3 (arrOf diagI) ∧
    0 < (propagators true L4468 sign (fun x mu => toM 3 (Hermitian_proj 3 scratch (view h a (x, mu)))) fun _ => 0).1 ∧
    ((get_mom_veclist L4468 keepUnit 4)[4]?).map (fun v => (v.MOM 0, v.MOM 1, v.MOM 2, v.MOM 3)) = some (0, 0, 0, 0) ∧
    ∃ r, cuts_struct_smeared 3 tol true L4468 sign (Hermitian_proj 3 scratch) keepUnit id a junk h = some r ∧
      r.1 4 = some 0 ∧ r.2 4 = some 0 := by
  have hL := valid_L4468
  have hD : toM 3 (arrOf diagI) = diagonal ![I, -I, 1] := toM_arrOf _
  have hlog : toM 3 (Hermitian_proj 3 scratch (arrOf diagI)) = diagonal ![((1 : ℝ) : ℂ), ((-1 : ℝ) : ℂ), ((0 : ℝ) : ℂ)] := by
    rw [proj_diag hD]
    norm_num
  have hview : ∀ x < volume L4468, ∀ mu < L4468.ND, view h a (x, mu) = arrOf diagI := fun x hx mu _ => hU x hx mu
  obtain ⟨-, -, hk, -, -, -, -, hlen⟩ := keepUnit_ok
  have hlist : ((get_mom_veclist L4468 keepUnit 4)[4]?).map (fun v => (v.MOM 0, v.MOM 1, v.MOM 2, v.MOM 3, v.idx)) =
      some (0, 0, 0, 0, 0) := by decide +kernel
  obtain ⟨v, hv, hv'⟩ := Option.map_eq_some_iff.1 hlist
  simp only [Prod.mk.injEq] at hv'
  obtain ⟨m0, m1, m2, m3, mi⟩ := hv'
  refine ⟨?_, ?_, by rw [hv]; simp [m0, m1, m2, m3], ?_⟩
  · exact diagI_su
  · exact prop_pos hL sign hview hlog
  · have hex : ∃ r, cuts_struct_smeared 3 tol true L4468 sign (Hermitian_proj 3 scratch) keepUnit id a junk h = some r := by
      unfold cuts_struct_smeared compute_veclist
      simp only [Bool.false_eq_true, if_false]
      rw [if_neg (show ¬ (get_mom_veclist L4468 keepUnit L4468.ND).length = 0 from by
        rw [show L4468.ND = 4 from rfl, hlen]; decide)]
      exact ⟨_, rfl⟩
    obtain ⟨r, hr⟩ := hex
    have h2 := C98_twice_partial hL hk (smear := id) (fun A B h => h) ha junk h hr
    dsimp only at h2
    have hmem : v ∈ get_mom_veclist L4468 keepUnit L4468.ND := List.mem_of_getElem? hv
    have hp := (C59_list hL (Or.inl rfl) keepUnit hk).2.2.imp fun h => h.1
    have hz : ∀ mu < L4468.ND, toM 3 (correct_pspace_landau 3 L4468 sign (get_mom_veclist L4468 keepUnit L4468.ND) L4468.ND
        (correct_pspace_landau 3 L4468 sign (get_mom_veclist L4468 keepUnit L4468.ND) L4468.ND
          (mom_gauge 3 L4468 sign (Hermitian_proj 3 scratch)
            (mom_gauge 3 L4468 sign (Hermitian_proj 3 scratch) (id (view h a))))) (v.idx, mu)) = 0 := by
      intro mu hmu
      have hG : ∀ x < volume L4468, toM 3 (Hermitian_proj 3 scratch
          (mom_gauge 3 L4468 sign (Hermitian_proj 3 scratch) (id (view h a)) (x, mu))) = 0 := by
        intro x hx
        have := const_mom (NC := 3) hL (sign := sign) (Hermitian_proj 3 scratch) hview hx hmu
        obtain ⟨s, hs⟩ := const_real hL hs x
        rw [hs, hlog] at this
        refine proj_real (a := s) (b := -s) (c := 0) (this.trans ?_)
        ext i j
        fin_cases i <;> fin_cases j <;> simp [diagonal_apply]
      ext i j
      rw [toM_apply, landau_mem 3 L4468 sign _ hp hmem hmu (index_lt i.2 j.2),
        landau_mem 3 L4468 sign _ hp hmem hmu (index_lt i.2 j.2)]
      have hm : mom_gauge 3 L4468 sign (Hermitian_proj 3 scratch)
          (mom_gauge 3 L4468 sign (Hermitian_proj 3 scratch) (id (view h a))) (v.idx, mu) (j.1 + 3 * i.1) = 0 := by
        rw [mom_gauge, if_pos ⟨(veclist_get hL hk hmem).2.2.1, hmu, index_lt i.2 j.2⟩, small_plan_eq hL]
        refine sum_eq_zero fun x hx => ?_
        have := congrFun (congrFun (hG x (mem_range.1 hx)) i) j
        rw [toM_apply] at this
        dsimp only
        rw [this]
        simp
      rw [hm]
      simp
    have hproj : project_trans_long 3 tol true L4468 (correct_pspace_landau 3 L4468 sign (get_mom_veclist L4468 keepUnit L4468.ND) L4468.ND
        (correct_pspace_landau 3 L4468 sign (get_mom_veclist L4468 keepUnit L4468.ND) L4468.ND
          (mom_gauge 3 L4468 sign (Hermitian_proj 3 scratch)
            (mom_gauge 3 L4468 sign (Hermitian_proj 3 scratch) (id (view h a)))))) v.idx = (0, 0) := by
      rw [project_eq]
      refine Prod.ext ?_ ?_ <;> dsimp only
      all_goals
        refine sum_eq_zero fun mu hmu => sum_eq_zero fun nu _ => ?_
        unfold corr
        beta_reduce
        rw [hz mu (mem_range.1 hmu)]
        simp
    have hent : r.1 4 = some 0 := by
      have hv2 : (get_mom_veclist L4468 keepUnit L4468.ND)[4]? = some v := hv
      have hl2 : (get_mom_veclist L4468 keepUnit L4468.ND).length = 9 := hlen
      have e := congrFun (congrArg Prod.fst h2) 4
      dsimp only at e
      rw [e]
      refine entry_mid tol true _ hl2 hv2 ?_
      rw [hproj]
    exact ⟨r, hr, hent, by rw [← C98_same hL hk id a junk h hr]; exact hent⟩

/-- The hypotheses of `C98_same`, `C98_twice_partial` and `C98_fails` can be met. -/
example : Valid L4468 ∧ Local L4468.ND keepUnit ∧ OnLattice L4468 id ∧ Distinct L4468 id ∧
    ∃ h : Heap, ∀ x < volume L4468, ∀ mu, h (id x) mu = arrOf diagI :=
  ⟨valid_L4468, keepUnit_ok.2.2.1, fun _ _ h => h, fun _ _ _ _ h => h, fun _ _ => arrOf diagI, fun _ _ _ => rfl⟩

/-- C98: the normalisations that go with the transverse parts: `2 / ( ( NC^2 - 1 ) ND V )` for the zero momentum and
`2 / ( ( NC^2 - 1 ) ( ND - 1 ) V )` for every other momentum of a reflection-symmetric list. -/
theorem C98_normalisation (NC : ℕ) (tol : ℝ) (sinMom : Bool) {L : Latt} (hL : Valid L) (A : Gauge)
    {keep : (ℕ → ℤ) → Bool} (hk : Local L.ND keep) (heven : ∀ n, keep (fun mu => -n mu) = keep n)
    (hb : ∀ n, keep n = true → InZone L L.ND n → ∀ mu < L.ND, 2 * n mu ≠ -(L.dims mu : ℤ))
    (h0 : keep (fun _ => 0) = true) {k : ℕ} (h : k < (get_mom_veclist L keep L.ND).length) :
    let v := (get_mom_veclist L keep L.ND)[k]
    let trans := (project_trans_long NC tol sinMom L A v.idx).1
    ((∀ mu < L.ND, v.MOM mu = 0) → smearedEntry NC tol sinMom L A (get_mom_veclist L keep L.ND) k =
      some (2 / (((NC : ℝ) ^ 2 - 1) * L.ND * volume L) * trans)) ∧
    ((∃ mu < L.ND, v.MOM mu ≠ 0) → smearedEntry NC tol sinMom L A (get_mom_veclist L keep L.ND) k =
      some (2 / (((NC : ℝ) ^ 2 - 1) * (L.ND - 1) * volume L) * trans)) := by
  obtain ⟨hodd, hzero⟩ := zero_middle hL hk heven hb h0
  have hpw := (C59_list hL (Or.inl rfl) keep hk).2.2.imp (S := fun v w : Vec => v.idx ≠ w.idx) fun h => h.1
  generalize get_mom_veclist L keep L.ND = list at *
  have hj : list.length - k - 1 < list.length := by omega
  dsimp only
  unfold smearedEntry
  dsimp only
  rw [List.getElem?_eq_getElem h, List.getElem?_eq_getElem hj, Option.bind_some, Option.map_some]
  constructor
  · intro hz
    have hk := (hzero k h).1 hz
    have he : list.length - k - 1 = k := by omega
    simp only [he, ne_eq, not_true_eq_false, if_false]
    congr 1
    ring
  · rintro ⟨mu, hmu, hne⟩
    have hk : k ≠ list.length / 2 := fun hc => hne ((hzero k h).2 hc mu hmu)
    rw [List.pairwise_iff_getElem] at hpw
    have hidx : list[list.length - k - 1].idx ≠ list[k].idx := by
      rcases Nat.lt_or_ge k (list.length - k - 1) with hl | hl
      · exact (hpw _ _ h hj hl).symm
      · exact hpw _ _ hj h (by omega)
    rw [if_pos hidx]
    congr 1
    ring

/-- The hypotheses are met by the nine momenta of squared length at most one on `4 x 4 x 6 x 8`. -/
example (NC : ℕ) (A : Gauge) {k : ℕ} (h : k < 9) :
    let list := get_mom_veclist L4468 keepUnit 4
    ∃ v, list[k]? = some v ∧ (smearedEntry NC 3e-14 true L4468 A list k).isSome := by
  obtain ⟨hL, -, hk, heven, hb, h0, -, hlen⟩ := keepUnit_ok
  have h' : k < (get_mom_veclist L4468 keepUnit L4468.ND).length := hlen.symm ▸ h
  have hN := C98_normalisation NC 3e-14 true hL A hk heven hb h0 h'
  refine ⟨_, List.getElem?_eq_getElem h', ?_⟩
  by_cases hz : ∀ mu < L4468.ND, ((get_mom_veclist L4468 keepUnit L4468.ND)[k]).MOM mu = 0
  · exact Option.isSome_iff_exists.2 ⟨_, hN.1 hz⟩
  · push Not at hz
    exact Option.isSome_iff_exists.2 ⟨_, hN.2 hz⟩

end GLU.Cuts
