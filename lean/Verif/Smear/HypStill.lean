import Verif.Smear.HypGauge
import Verif.Field.ChargeProps

/-! # Properties of hypercubic smearing (C89): fields that do not move, weights -/

namespace GLU.Smear

open GLU.Geom GLU.Sched GLU.Mat GLU.Field Complex Matrix

/-- A field of special unitary links all of whose staples equal the link, such as a gauge transform of the unit field. -/
structure FlatSU (NC : ℕ) (L : Latt) (V : MField NC) : Prop where
  su : ∀ i < volume L, ∀ mu < L.ND, V i mu ∈ specialUnitaryGroup (Fin NC) ℂ
  flat : ∀ i < volume L, ∀ mu < L.ND, ∀ nu < L.ND, V i nu * V (neighbor L i nu) mu * (V (neighbor L i mu) nu)ᴴ = V i mu

theorem flat_below {NC : ℕ} {L : Latt} (hL : Valid L) {V : MField NC} (hV : FlatSU NC L V) {i mu nu : ℕ} (hi : i < volume L)
    (hmu : mu < L.ND) (hnu : nu < L.ND) :
    (V (back L i nu) nu)ᴴ * V (back L i nu) mu * V (neighbor L (back L i nu) mu) nu = V i mu := by
  have hb := back_lt hL i hnu
  have h := hV.flat _ hb mu hmu nu hnu
  rw [(C02_inverse hL hi hnu).2] at h
  have u1 : (V (back L i nu) nu)ᴴ * V (back L i nu) nu = 1 :=
    mem_unitaryGroup_iff'.1 (mem_specialUnitaryGroup_iff.1 (hV.su _ hb nu hnu)).1
  have u2 : (V (neighbor L (back L i nu) mu) nu)ᴴ * V (neighbor L (back L i nu) mu) nu = 1 :=
    mem_unitaryGroup_iff'.1 (mem_specialUnitaryGroup_iff.1 (hV.su _ (neighbor_lt hL _ hmu) nu hnu)).1
  rw [← h]
  simp only [Matrix.mul_assoc, u2, Matrix.mul_one, cancel_left u1]

theorem flat_gauge {NC : ℕ} {L : Latt} (hL : Valid L) {g : ℕ → Matrix (Fin NC) (Fin NC) ℂ}
    (hg : ∀ i < volume L, g i ∈ specialUnitaryGroup (Fin NC) ℂ) : FlatSU NC L fun i mu => g i * (g (neighbor L i mu))ᴴ := by
  refine ⟨fun i hi mu hmu => mul_mem (hg i hi) (isSU_star (hg _ (neighbor_lt hL i hmu))), fun i hi mu hmu nu hnu => ?_⟩
  have c1 : (g (neighbor L i nu))ᴴ * g (neighbor L i nu) = 1 :=
    mem_unitaryGroup_iff'.1 (mem_specialUnitaryGroup_iff.1 (hg _ (neighbor_lt hL i hnu))).1
  have c2 : (g (neighbor L (neighbor L i mu) nu))ᴴ * g (neighbor L (neighbor L i mu) nu) = 1 :=
    mem_unitaryGroup_iff'.1 (mem_specialUnitaryGroup_iff.1 (hg _ (neighbor_lt hL _ hnu))).1
  simp only [conjTranspose_mul, conjTranspose_conjTranspose, Matrix.mul_assoc]
  rw [cancel_left c1, ← (C02_commute hL hmu hnu).1, cancel_left c2]

theorem addStaples_def {NC : ℕ} {proj : ℕ → Arr ℂ → Arr ℂ → Option (Arr ℂ)} {L : Latt} {i rho jj : ℕ}
    {U V : ℕ → Option (Arr ℂ)} (h : Six L i rho jj (fun _ o => o = some (got o)) (fun _ o => o = some (got o)) U V)
    (l : Option (Arr ℂ)) (l' s : Arr ℂ) : addStaples L (dressO NC proj) i rho jj U V l (some s) =
      some (addStaples L (arrDress NC) i rho jj (fun x => got (U x)) (fun x => got (V x)) l' s) := by
  simp only [addStaples, dressO, opsO, arrDress]
  rw [h.u0, h.v1, h.u1, h.ub, h.vb, h.un]
  rfl

/-- The projection leaves the link alone when the staples are a non-negative multiple of it. -/
def Still (NC : ℕ) (proj : ℕ → Arr ℂ → Arr ℂ → Option (Arr ℂ)) : Prop :=
  ∀ k s l (m : ℝ), 0 ≤ m → IsSU NC l → SumSU NC (toM NC s) → toM NC s = (m : ℂ) • toM NC l →
    ∃ W, proj k s l = some W ∧ toM NC W = toM NC l

theorem dressLink_still {NC : ℕ} {proj : ℕ → Arr ℂ → Arr ℂ → Option (Arr ℂ)} (hp : Still NC proj) {L : Latt} (hL : Valid L) {n : ℕ}
    (hn : n ≤ L.ND) {V : MField NC} (hV : FlatSU NC L V) {lat : Loc → Option (Arr ℂ)}
    (h : ∀ i < volume L, ∀ mu < L.ND, ∃ W, lat (i, mu) = some W ∧ toM NC W = V i mu) (k : ℕ) :
    ∀ pre, ∀ rho < n, ∀ i < volume L, ∃ W, dressLink L (dressO NC proj) n lat k pre rho i = some W ∧ toM NC W = V i rho := by
  induction k with
  | zero => exact fun pre rho hr i hi => h i hi rho (by omega)
  | succ k ih =>
    intro pre rho hr i hi
    obtain ⟨l, hl, el⟩ := h i hi rho (by omega)
    have sul : IsSU NC l := by rw [IsSU, el]; exact hV.su i hi rho (by omega)
    rw [dressLink_succ]
    have loop : ∀ m ≤ n, ∃ (S : Arr ℂ) (c : ℝ), 0 ≤ c ∧ SumSU NC (toM NC S) ∧ toM NC S = (c : ℂ) • V i rho ∧
        forN m (fun jj stap => if jj ∈ pre ++ [rho] then stap
          else addStaples L (dressO NC proj) i rho jj (dressLink L (dressO NC proj) n lat k (pre ++ [rho]) jj)
            (dressLink L (dressO NC proj) n lat k (pre ++ [jj]) rho) (lat (i, rho)) stap) (dressO NC proj).zero = some S := by
      intro m
      induction m with
      | zero =>
        intro _
        refine ⟨zero_mat NC scratch, 0, le_rfl, ?_, ?_, rfl⟩
        · rw [C63_zero_mat]; exact zero_mem _
        · rw [C63_zero_mat]; simp
      | succ m im =>
        intro hm
        obtain ⟨S, c, hc, hS, e, hf⟩ := im (by omega)
        rw [forN_succ, hf]
        by_cases hx : m ∈ pre ++ [rho]
        · rw [if_pos hx]
          exact ⟨S, c, hc, hS, e, rfl⟩
        · rw [if_neg hx]
          have hr' : rho < L.ND := by omega
          have hm' : m < L.ND := by omega
          have q1 := fun x (hx : x < volume L) => ih (pre ++ [rho]) m (by omega) x hx
          have q2 := fun x (hx : x < volume L) => ih (pre ++ [m]) rho (by omega) x hx
          have d1 : ∀ x < volume L, dressLink L (dressO NC proj) n lat k (pre ++ [rho]) m x =
              some (got (dressLink L (dressO NC proj) n lat k (pre ++ [rho]) m x)) := fun x hx => by
            obtain ⟨W, e, _⟩ := q1 x hx; rw [got_some e]; exact e
          have d2 : ∀ x < volume L, dressLink L (dressO NC proj) n lat k (pre ++ [m]) rho x =
              some (got (dressLink L (dressO NC proj) n lat k (pre ++ [m]) rho x)) := fun x hx => by
            obtain ⟨W, e, _⟩ := q2 x hx; rw [got_some e]; exact e
          have t1 : ∀ x < volume L, toM NC (got (dressLink L (dressO NC proj) n lat k (pre ++ [rho]) m x)) = V x m := fun x hx => by
            obtain ⟨W, e, e'⟩ := q1 x hx; rw [got_some e]; exact e'
          have t2 : ∀ x < volume L, toM NC (got (dressLink L (dressO NC proj) n lat k (pre ++ [m]) rho x)) = V x rho := fun x hx => by
            obtain ⟨W, e, e'⟩ := q2 x hx; rw [got_some e]; exact e'
          have b := back_lt hL i hm'
          have n1 := neighbor_lt hL i hm'
          have n2 := neighbor_lt hL i hr'
          have n3 := neighbor_lt hL (back L i m) hr'
          rw [addStaples_def ⟨d1 _ hi, d2 _ n1, d1 _ n2, d1 _ b, d2 _ b, d1 _ n3⟩ _ l]
          have s1 : ∀ x < volume L, IsSU NC (got (dressLink L (dressO NC proj) n lat k (pre ++ [rho]) m x)) := fun x hx => by
            rw [IsSU, t1 x hx]; exact hV.su x hx m hm'
          have s2 : ∀ x < volume L, IsSU NC (got (dressLink L (dressO NC proj) n lat k (pre ++ [m]) rho x)) := fun x hx => by
            rw [IsSU, t2 x hx]; exact hV.su x hx rho hr'
          obtain ⟨e1, e2⟩ := around_code (NC := NC) (L := L) (i := i) (rho := rho) (jj := m)
            (u := fun x => got (dressLink L (dressO NC proj) n lat k (pre ++ [rho]) m x))
            (v := fun x => got (dressLink L (dressO NC proj) n lat k (pre ++ [m]) rho x))
            ⟨s1 _ hi, s2 _ n1, s1 _ n2, s1 _ b, s2 _ b, s1 _ n3⟩ l S
          refine ⟨_, c + 2, by linarith, e2 hS, ?_, rfl⟩
          rw [e1, e]
          unfold aroundM
          dsimp only
          rw [t1 _ hi, t2 _ n1, t1 _ n2, t1 _ b, t2 _ b, t1 _ n3, hV.flat i hi rho hr' m hm', flat_below hL hV hi hr' hm']
          push_cast
          rw [add_smul, two_smul]
    obtain ⟨S, c, hc, hS, e, hf⟩ := loop n le_rfl
    obtain ⟨W, h1, h2⟩ := hp (n - (k + 1)) S l c hc sul hS (by rw [e, el])
    refine ⟨W, ?_, by rw [h2, el]⟩
    rw [hf, hl]
    exact h1

theorem iter_still {NC : ℕ} {proj : ℕ → Arr ℂ → Arr ℂ → Option (Arr ℂ)} (hp : Still NC proj) {L : Latt} (hL : Valid L) {dirs : ℕ}
    (h2 : 2 ≤ dirs) (hd : dirs ≤ L.ND) {V : MField NC} (hV : FlatSU NC L V) {f : (Loc → Option (Arr ℂ)) × (Loc → Unit)}
    (h : ∀ i < volume L, ∀ mu < L.ND, ∃ W, f.1 (i, mu) = some W ∧ toM NC W = V i mu) (n : ℕ) :
    ∀ i < volume L, ∀ mu < L.ND, ∃ W, hypIter L (dressO NC proj) dirs n f (i, mu) = some W ∧ toM NC W = V i mu := by
  induction n with
  | zero => exact h
  | succ n ih =>
    intro i hi mu hmu
    rw [hypIter_succ L _ h2]
    by_cases hm : mu < dirs
    · rw [if_pos ⟨hi, hm⟩]
      exact dressLink_still hp hL hd hV ih _ _ mu hm i hi
    · rw [if_neg fun q => hm q.2]
      exact ih i hi mu hmu

/-- **C89**, fixed points: a field whose staples equal its links, such as any gauge transform of the unit field
(`flat_gauge`), is left alone by hypercubic smearing with the APE projection, whatever the non-negative weights of the
staples and positive weights of the link; nothing is undefined on the way. -/
theorem C89_ape_still {NC : ℕ} (hN : 1 < NC) {w : ℕ → ℝ × ℝ} (hw : ∀ k, 0 ≤ (w k).1 ∧ 0 < (w k).2) (array : Arr ℂ) {L : Latt}
    (hL : Valid L) {directions : ℕ} (h2 : 2 ≤ directions) (hd : directions ≤ L.ND) {V : MField NC} (hV : FlatSU NC L V)
    (smiters : ℕ) (s : St (Option (Arr ℂ)) Unit) (hs : ∀ i < volume L, ∀ mu < L.ND, ∃ W, s.lat (i, mu) = some W ∧ toM NC W = V i mu)
    {i mu : ℕ} (hi : i < volume L) (hmu : mu < L.ND) :
    ∃ W, (HYsmearND L (apeDress NC w array) directions smiters s).lat (i, mu) = some W ∧ toM NC W = V i mu := by
  rw [C89_simultaneous hL _ hd]
  refine iter_still (f := (s.lat, s.z)) (fun k s l m hm hl _ e => ?_) hL h2 hd hV hs smiters i hi mu hmu
  exact C84_ape_still hN array hl e (by have := mul_nonneg (hw k).1 hm; linarith [(hw k).2])

theorem lieHerm_still {NC : ℕ} {l : Matrix (Fin NC) (Fin NC) ℂ} (hl : l ∈ specialUnitaryGroup (Fin NC) ℂ) (hN : 0 < NC) (m : ℝ) :
    lieHerm (((m : ℂ) • l) * lᴴ) = 0 := by
  have a2 : l * lᴴ = 1 := mem_unitaryGroup_iff.1 (mem_specialUnitaryGroup_iff.1 hl).1
  rw [Matrix.smul_mul, a2]
  unfold lieHerm
  rw [conjTranspose_smul, conjTranspose_one]
  have : star (m : ℂ) = m := Complex.conj_ofReal m
  rw [this, sub_self]
  simp

theorem stout_still {NC : ℕ} (hN : NC = 2 ∨ NC = 3) (w : ℕ → ℝ × ℝ) : Still NC (exactStout NC w) := by
  intro k s l m _ hl hS e
  have hN1 : 1 ≤ NC := by omega
  have e0 : lieHerm (toM NC s * (toM NC l)ᴴ) = 0 := by rw [e]; exact lieHerm_still hl hN1 m
  have hE : ExpExact NC (((w k).1 : ℂ) • lieHerm (toM NC s * (toM NC l)ᴴ)) := by
    rw [e0, smul_zero]
    rcases hN with rfl | rfl
    · exact expExact_two_zero
    · exact expExact_three_zero
  obtain ⟨V, h1, _, h3⟩ := link_exact hN1 hl (quat_of_sum hS) (w k).1 (w k).2 hE
  refine ⟨V, by rw [exactStout, if_pos hE]; exact h1, ?_⟩
  rw [h3, e0]
  simp [NormedSpace.exp_zero]

/-- **C89**, fixed points, stout projection: two and three colours, any weights. -/
theorem C89_stout_still {NC : ℕ} (hN : NC = 2 ∨ NC = 3) (w : ℕ → ℝ × ℝ) {L : Latt} (hL : Valid L) {directions : ℕ}
    (h2 : 2 ≤ directions) (hd : directions ≤ L.ND) {V : MField NC} (hV : FlatSU NC L V)
    (smiters : ℕ) (s : St (Option (Arr ℂ)) Unit) (hs : ∀ i < volume L, ∀ mu < L.ND, ∃ W, s.lat (i, mu) = some W ∧ toM NC W = V i mu)
    {i mu : ℕ} (hi : i < volume L) (hmu : mu < L.ND) :
    (∃ W, (HYsmearND L (dressO NC (exactStout NC w)) directions smiters s).lat (i, mu) = some W ∧ toM NC W = V i mu) ∧
    ∃ W, (HYsmearND L (stoutDress NC w) directions smiters s).lat (i, mu) = some W ∧ toM NC W = V i mu := by
  rw [C89_simultaneous hL _ hd, C89_simultaneous hL _ hd]
  obtain ⟨W, h1, h2'⟩ := iter_still (f := (s.lat, s.z)) (stout_still hN w) hL h2 hd hV hs smiters i hi mu hmu
  refine ⟨⟨W, h1, h2'⟩, W, iter_le (fun k s l W q => ?_) h2 (s.lat, s.z) smiters (i, mu) W h1, h2'⟩
  unfold exactStout at q
  split at q
  · exact q
  · exact absurd q (by simp)

/-! ## The weights -/

/-- **C89**, weights: in four dimensions the parameters of the two routines are the same. -/
theorem C89_weights_agree (sm_alpha : ℕ → ℝ) {k : ℕ} (h1 : 1 ≤ k) (h3 : k ≤ 3) : smearAlphas 4 sm_alpha k = macroAlphas sm_alpha k := by
  have : k = 1 ∨ k = 2 ∨ k = 3 := by omega
  rcases this with rfl | rfl | rfl <;> norm_num [smearAlphas, macroAlphas] <;> ring

/-- **C89**, weights (negation): the weight of the link and those of the `2 (ND - k)` staples at level `k` add up to one, as
they should (Hasenfratz and Knechtli), in four dimensions; in any other number of dimensions above two only where the
parameter is zero. -/
theorem C89_weights_partial {ND : ℕ} (hND : 3 ≤ ND) (sm_alpha : ℕ → ℝ) {k : ℕ} (h1 : 1 ≤ k) (hk : k < ND) :
    (smearAlphas ND sm_alpha k).2 + (2 * (ND - k) : ℕ) * (smearAlphas ND sm_alpha k).1 = 1 ↔ ND = 4 ∨ sm_alpha (k - 1) = 0 := by
  unfold smearAlphas
  rw [if_neg (by omega), show ND - (k - 1) - 1 = ND - k by omega]
  dsimp only
  have a : ((ND - k : ℕ) : ℝ) ≠ 0 := by exact_mod_cast (by omega : ND - k ≠ 0)
  have b : ((ND - 2 : ℕ) : ℝ) ≠ 0 := by exact_mod_cast (by omega : ND - 2 ≠ 0)
  generalize sm_alpha (k - 1) = α
  have e : ((2 * (ND - k) : ℕ) : ℝ) * (α / (((ND - k : ℕ) : ℝ) * ((ND - 2 : ℕ) : ℝ))) = 2 * α / ((ND - 2 : ℕ) : ℝ) := by
    push_cast
    field_simp
  rw [e]
  constructor
  · intro h
    by_cases hα : α = 0
    · exact Or.inr hα
    · left
      have : 2 * α / ((ND - 2 : ℕ) : ℝ) = α := by linarith
      rw [div_eq_iff b] at this
      have h' : ((ND - 2 : ℕ) : ℝ) = 2 := mul_left_cancel₀ hα (by rw [← this]; ring)
      have : ND - 2 = 2 := by exact_mod_cast h'
      omega
  · rintro (rfl | h)
    · norm_num
    · rw [h]; norm_num

/-- **C89**, weights (negation): the spatial routine in four dimensions has `2 (3 - k)` staples at level `k` of two, yet takes
the parameters for four directions: the weights add up to `1 - α / 3` and `1 - α / 2`, not one. -/
theorem C89_spatial_weights_fails (sm_alpha : ℕ → ℝ) :
    (macroAlphas sm_alpha 1).2 + (2 * (3 - 1) : ℕ) * (macroAlphas sm_alpha 1).1 = 1 - sm_alpha 0 / 3 ∧
    (macroAlphas sm_alpha 2).2 + (2 * (3 - 2) : ℕ) * (macroAlphas sm_alpha 2).1 = 1 - sm_alpha 1 / 2 := by
  constructor <;> norm_num [macroAlphas] <;> ring

/-! ## Cases -/

/-- Non-vacuity: any gauge transform of the unit field,
three colours, two iterations in all four directions. -/
example (w : ℕ → ℝ × ℝ) (array : Arr ℂ) (hw : ∀ k, 0 ≤ (w k).1 ∧ 0 < (w k).2) (g : ℕ → Matrix (Fin 3) (Fin 3) ℂ)
    (hg : ∀ i < volume L2345, g i ∈ specialUnitaryGroup (Fin 3) ℂ) (s : St (Option (Arr ℂ)) Unit)
    (hs : ∀ i mu, s.lat (i, mu) = some (arrOf (g i * (g (neighbor L2345 i mu))ᴴ))) :
    ∃ W, (HYsmearND L2345 (apeDress 3 w array) 4 2 s).lat (7, 3) = some W ∧
      toM 3 W = g 7 * (g (neighbor L2345 7 3))ᴴ :=
  C89_ape_still (by omega) hw array valid_L2345 (by omega) (by decide) (flat_gauge valid_L2345 hg) 2 s
    (fun i _ mu _ => ⟨_, hs i mu, toM_arrOf _⟩) (by decide) (by decide)

/-- Non-vacuity of `C89_stout_partial`: its hypothesis is met on such a field. -/
example (w : ℕ → ℝ × ℝ) (g : ℕ → Matrix (Fin 3) (Fin 3) ℂ)
    (hg : ∀ i < volume L2345, g i ∈ specialUnitaryGroup (Fin 3) ℂ) (s : St (Option (Arr ℂ)) Unit)
    (hs : ∀ i mu, s.lat (i, mu) = some (arrOf (g i * (g (neighbor L2345 i mu))ᴴ))) :
    ∃ W, (HYsmearND L2345 (dressO 3 (exactStout 3 w)) 4 2 s).lat (7, 3) = some W :=
  (C89_stout_still (Or.inr rfl) w valid_L2345 (by omega) (by decide) (flat_gauge valid_L2345 hg) 2 s
    (fun i _ mu _ => ⟨_, hs i mu, toM_arrOf _⟩) (i := 7) (mu := 3) (by decide) (by decide)).1.imp fun _ h => h.1

/-- The fast and the spatial routines with the projections of the code. -/
example (w : ℕ → ℝ × ℝ) (array : Arr ℂ) : ZeroAdd (apeDress 3 w array) ∧ ZeroAdd (stoutDress 3 w) :=
  ⟨opsO_zeroAdd 3 _, opsO_zeroAdd 3 _⟩

end GLU.Smear
