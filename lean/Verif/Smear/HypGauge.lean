import Verif.Smear.HypProps

/-! # Properties of hypercubic smearing (C89): matrices -/

namespace GLU.Smear

open GLU.Geom GLU.Sched GLU.Mat GLU.Field Complex Matrix

/-! ## Iterations -/

/-- The links after `n` iterations. -/
noncomputable def hypIter {M : Type} (L : Latt) (D : Dress M) (dirs n : ℕ) (f : (Loc → M) × (Loc → Unit)) : Loc → M :=
  ((simultaneous L dirs (hypLink L D dirs))^[n] f).1

theorem hypIter_succ {M : Type} (L : Latt) (D : Dress M) {dirs : ℕ} (hd : 2 ≤ dirs) (n : ℕ) (f : (Loc → M) × (Loc → Unit))
    (l : Loc) : hypIter L D dirs (n + 1) f l =
      if l.1 < volume L ∧ l.2 < dirs then dressLink L D dirs (hypIter L D dirs n f) (dirs - 1) [] l.2 l.1
      else hypIter L D dirs n f l := by
  unfold hypIter
  rw [Function.iterate_succ_apply']
  obtain ⟨m, rfl⟩ := Nat.exists_eq_add_of_le hd
  rw [show 2 + m - 1 = m + 1 by omega]
  simp only [simultaneous, hypLink, dressLink]
  rw [show 2 + m - 2 = m by omega]

theorem iter_su {NC : ℕ} {proj : ℕ → Arr ℂ → Arr ℂ → Option (Arr ℂ)} (hp : KeepsSU NC proj) {L : Latt} (hL : Valid L) {dirs : ℕ}
    (h2 : 2 ≤ dirs) (hd : dirs ≤ L.ND) {f : (Loc → Option (Arr ℂ)) × (Loc → Unit)} (hU : SUOpt NC L f.1) (n : ℕ) :
    SUOpt NC L (hypIter L (dressO NC proj) dirs n f) := by
  induction n with
  | zero => exact hU
  | succ n ih =>
    intro i hi mu hmu W h
    rw [hypIter_succ L _ h2] at h
    split at h
    · next hc => exact dressLink_su hp hL hd ih _ _ mu hc.2 i hi W h
    · exact ih i hi mu hmu W h

theorem suOpt_of_field {NC : ℕ} {L : Latt} {U : Gauge} (hU : SUField NC L U) : SUOpt NC L fun l => some (U l) := by
  intro i hi mu hmu W h
  rw [← Option.some_inj.1 h]
  exact hU i hi mu hmu

theorem ape_keeps {NC : ℕ} (hN : 1 < NC) (w : ℕ → ℝ × ℝ) (array : Arr ℂ) :
    KeepsSU NC fun k s l => project_APE NC s l (w k).1 (w k).2 array :=
  fun _ _ _ _ _ _ h => (C84_ape hN h).1

/-- **C89**, group: hypercubic smearing with the APE projection, any parameters: every link of the result that is defined is
special unitary. -/
theorem C89_ape_special_unitary {NC : ℕ} (hN : 1 < NC) (w : ℕ → ℝ × ℝ) (array : Arr ℂ) {L : Latt} (hL : Valid L) {directions : ℕ}
    (h2 : 2 ≤ directions) (hd : directions ≤ L.ND) {U : Gauge} (hU : SUField NC L U) (smiters : ℕ)
    (s : St (Option (Arr ℂ)) Unit) (hs : ∀ l, s.lat l = some (U l)) {i mu : ℕ} (hi : i < volume L) (hmu : mu < L.ND) {W : Arr ℂ}
    (h : (HYsmearND L (apeDress NC w array) directions smiters s).lat (i, mu) = some W) : IsSU NC W := by
  rw [C89_simultaneous hL _ hd] at h
  have e : s.lat = fun l => some (U l) := funext hs
  exact iter_su (ape_keeps hN w array) hL h2 hd (f := (s.lat, s.z)) (by rw [e]; exact suOpt_of_field hU) smiters i hi mu hmu W h

/-! ## Gauge covariance -/

theorem iter_gauge {NC : ℕ} {proj : ℕ → Arr ℂ → Arr ℂ → Option (Arr ℂ)} (hp : KeepsSU NC proj)
    (hc : ∀ k s l W s' l' W' A B, A ∈ specialUnitaryGroup (Fin NC) ℂ → B ∈ specialUnitaryGroup (Fin NC) ℂ →
      IsSU NC l → SumSU NC (toM NC s) → IsSU NC l' → SumSU NC (toM NC s') →
      toM NC s' = A * toM NC s * B → toM NC l' = A * toM NC l * B → proj k s l = some W → proj k s' l' = some W' →
      toM NC W' = A * toM NC W * B)
    {L : Latt} (hL : Valid L) {dirs : ℕ} (h2 : 2 ≤ dirs) (hd : dirs ≤ L.ND) {f f' : (Loc → Option (Arr ℂ)) × (Loc → Unit)}
    (hU : SUOpt NC L f.1) (hU' : SUOpt NC L f'.1)
    {g : ℕ → Matrix (Fin NC) (Fin NC) ℂ} (hg : ∀ i < volume L, g i ∈ specialUnitaryGroup (Fin NC) ℂ)
    (ht : ∀ i < volume L, ∀ mu < L.ND, ∀ l l', f.1 (i, mu) = some l → f'.1 (i, mu) = some l' →
      toM NC l' = g i * toM NC l * (g (neighbor L i mu))ᴴ) (n : ℕ) :
    ∀ i < volume L, ∀ mu < L.ND, ∀ l l', hypIter L (dressO NC proj) dirs n f (i, mu) = some l →
      hypIter L (dressO NC proj) dirs n f' (i, mu) = some l' → toM NC l' = g i * toM NC l * (g (neighbor L i mu))ᴴ := by
  induction n with
  | zero => exact ht
  | succ n ih =>
    intro i hi mu hmu l l' h h'
    rw [hypIter_succ L _ h2] at h h'
    by_cases hm : mu < dirs
    · rw [if_pos ⟨hi, hm⟩] at h h'
      exact dressLink_gauge hp hc hL hd (iter_su hp hL h2 hd hU n) (iter_su hp hL h2 hd hU' n) hg ih _ _ mu hm i hi l l' h h'
    · rw [if_neg fun q => hm q.2] at h h'
      exact ih i hi mu hmu l l' h h'

/-- **C89**, gauge covariance, APE projection, two colours: smearing a gauge transformed field gives the transform of the
smeared field, wherever both are defined.  Missing: more colours, for which the iterative projection is not covariant in
exact arithmetic. -/
theorem C89_ape_covariant_two_partial (w : ℕ → ℝ × ℝ) (array : Arr ℂ) {L : Latt} (hL : Valid L) {directions : ℕ}
    (h2 : 2 ≤ directions) (hd : directions ≤ L.ND) {U : Gauge} (hU : SUField 2 L U) {g : ℕ → Arr ℂ} (hg : SUGauge 2 L g)
    (smiters : ℕ) (s s' : St (Option (Arr ℂ)) Unit) (hs : ∀ l, s.lat l = some (U l))
    (hs' : ∀ l, s'.lat l = some (gtransform 2 L g U l)) {i mu : ℕ} (hi : i < volume L) (hmu : mu < L.ND) {W W' : Arr ℂ}
    (h : (HYsmearND L (apeDress 2 w array) directions smiters s).lat (i, mu) = some W)
    (h' : (HYsmearND L (apeDress 2 w array) directions smiters s').lat (i, mu) = some W') :
    toM 2 W' = toM 2 (g i) * toM 2 W * (toM 2 (g (neighbor L i mu)))ᴴ := by
  rw [C89_simultaneous hL _ hd] at h h'
  have e : s.lat = fun l => some (U l) := funext hs
  have e' : s'.lat = fun l => some (gtransform 2 L g U l) := funext hs'
  obtain ⟨t1, t2⟩ := C31_action hL hg hU
  refine iter_gauge (ape_keeps (by omega) w array) ?_ hL h2 hd (f := (s.lat, s.z)) (f' := (s'.lat, s'.z))
    (by rw [e]; exact suOpt_of_field hU) (by rw [e']; exact suOpt_of_field t1) (g := fun i => toM 2 (g i)) hg ?_ smiters i hi mu
    hmu W W' h h'
  · intro k s l W s' l' W' A B hA hB _ _ _ _ e1 e2 q q'
    exact C84_ape_covariant_two q q' hA hB e2 e1
  · intro i hi mu hmu l l' q q'
    rw [e] at q
    rw [e'] at q'
    rw [← Option.some_inj.1 q, ← Option.some_inj.1 q']
    exact t2 i hi mu hmu

/-! ## The stout projection -/

open Classical in
/-- The stout projection where the exponential routine is exact (see `ExpExact`), undefined elsewhere. -/
noncomputable def exactStout (NC : ℕ) (w : ℕ → ℝ × ℝ) (k : ℕ) (s l : Arr ℂ) : Option (Arr ℂ) :=
  if ExpExact NC (((w k).1 : ℂ) • lieHerm (toM NC s * (toM NC l)ᴴ)) then project_STOUT NC s l (w k).1 (w k).2 else none

theorem quat_of_sum {NC : ℕ} {s : Arr ℂ} (h : SumSU NC (toM NC s)) : QuatForm NC s := by
  intro h2
  subst h2
  have key : (toM 2 s) 1 0 = -star ((toM 2 s) 0 1) ∧ (toM 2 s) 1 1 = star ((toM 2 s) 0 0) := by
    refine AddSubmonoid.closure_induction (motive := fun (A : Matrix (Fin 2) (Fin 2) ℂ) _ => A 1 0 = -star (A 0 1) ∧ A 1 1 = star (A 0 0))
      (fun A hA => ?_) (by simp) (fun A B _ _ hA hB => ?_) h
    · exact su2_row hA
    · simp only [Matrix.add_apply, hA.1, hA.2, hB.1, hB.2, star_add]
      exact ⟨by ring, trivial⟩
  simpa [toM_apply, conj] using key

theorem exactStout_spec {NC : ℕ} (hN : 1 ≤ NC) (w : ℕ → ℝ × ℝ) {k : ℕ} {s l W : Arr ℂ} (hl : IsSU NC l)
    (hs : SumSU NC (toM NC s)) (h : exactStout NC w k s l = some W) :
    IsSU NC W ∧ toM NC W = stoutP (fun k => (w k).1) k (toM NC s) (toM NC l) := by
  unfold exactStout at h
  split at h
  · next hE =>
    obtain ⟨V, h1, h2, h3⟩ := link_exact hN hl (quat_of_sum hs) (w k).1 (w k).2 hE
    rw [h1] at h
    rw [← Option.some_inj.1 h]
    exact ⟨h2, h3⟩
  · exact absurd h (by simp)

theorem stoutP_gauge {NC : ℕ} (α : ℕ → ℝ) (k : ℕ) {A B : Matrix (Fin NC) (Fin NC) ℂ} (hA : A ∈ specialUnitaryGroup (Fin NC) ℂ)
    (hB : B ∈ specialUnitaryGroup (Fin NC) ℂ) (S U : Matrix (Fin NC) (Fin NC) ℂ) :
    stoutP α k (A * S * B) (A * U * B) = A * stoutP α k S U * B := by
  have a1 : Aᴴ * A = 1 := mem_unitaryGroup_iff'.1 (mem_specialUnitaryGroup_iff.1 hA).1
  have a2 : A * Aᴴ = 1 := mem_unitaryGroup_iff.1 (mem_specialUnitaryGroup_iff.1 hA).1
  have b2 : B * Bᴴ = 1 := mem_unitaryGroup_iff.1 (mem_specialUnitaryGroup_iff.1 hB).1
  have e : A * S * B * (A * U * B)ᴴ = A * (S * Uᴴ) * Aᴴ := by
    simp only [conjTranspose_mul, Matrix.mul_assoc, cancel_left b2]
  unfold stoutP
  rw [e, lieHerm_conj a1 a2]
  have e2 : I • (α k : ℂ) • (A * lieHerm (S * Uᴴ) * Aᴴ) = A * (I • (α k : ℂ) • lieHerm (S * Uᴴ)) * Aᴴ := by
    simp only [Matrix.mul_smul, Matrix.smul_mul]
  rw [e2, exp_unitary_conj a1 a2]
  simp only [Matrix.mul_assoc, cancel_left a1]

/-- Defined on the left implies the same on the right. -/
def Le (a b : Option (Arr ℂ)) : Prop := ∀ W, a = some W → b = some W

theorem lift2_le {f : Arr ℂ → Arr ℂ → Arr ℂ} {a b a' b' : Option (Arr ℂ)} (ha : Le a a') (hb : Le b b') :
    Le (lift2 f a b) (lift2 f a' b') := by
  intro W h
  obtain ⟨x, y, h1, h2, h3⟩ := lift2_some.1 h
  exact lift2_some.2 ⟨x, y, ha x h1, hb y h2, h3⟩

theorem dressLink_le {NC : ℕ} {proj proj' : ℕ → Arr ℂ → Arr ℂ → Option (Arr ℂ)} (hp : ∀ k s l, Le (proj k s l) (proj' k s l))
    {L : Latt} {n : ℕ} {lat lat' : Loc → Option (Arr ℂ)} (h : ∀ l, Le (lat l) (lat' l)) (k : ℕ) :
    ∀ pre rho i, Le (dressLink L (dressO NC proj) n lat k pre rho i) (dressLink L (dressO NC proj') n lat' k pre rho i) := by
  induction k with
  | zero => exact fun _ _ _ => h _
  | succ k ih =>
    intro pre rho i
    rw [dressLink_succ, dressLink_succ]
    have loop : ∀ m, Le (forN m (fun jj stap => if jj ∈ pre ++ [rho] then stap
        else addStaples L (dressO NC proj) i rho jj (dressLink L (dressO NC proj) n lat k (pre ++ [rho]) jj)
          (dressLink L (dressO NC proj) n lat k (pre ++ [jj]) rho) (lat (i, rho)) stap) (dressO NC proj).zero)
        (forN m (fun jj stap => if jj ∈ pre ++ [rho] then stap
        else addStaples L (dressO NC proj') i rho jj (dressLink L (dressO NC proj') n lat' k (pre ++ [rho]) jj)
          (dressLink L (dressO NC proj') n lat' k (pre ++ [jj]) rho) (lat' (i, rho)) stap) (dressO NC proj').zero) := by
      intro m
      induction m with
      | zero => exact fun W h => h
      | succ m im =>
        rw [forN_succ, forN_succ]
        by_cases hm : m ∈ pre ++ [rho]
        · rw [if_pos hm, if_pos hm]; exact im
        · rw [if_neg hm, if_neg hm]
          unfold addStaples
          exact lift2_le (lift2_le im (lift2_le (lift2_le (ih _ _ _) (ih _ _ _)) (ih _ _ _)))
            (lift2_le (lift2_le (ih _ _ _) (ih _ _ _)) (ih _ _ _))
    intro W hW
    obtain ⟨S, h1, h2⟩ := Option.bind_eq_some_iff.1 hW
    obtain ⟨l, h3, h4⟩ := Option.bind_eq_some_iff.1 h2
    exact Option.bind_eq_some_iff.2 ⟨S, loop n S h1, Option.bind_eq_some_iff.2 ⟨l, h _ l h3, hp _ _ _ W h4⟩⟩

theorem iter_le {NC : ℕ} {proj proj' : ℕ → Arr ℂ → Arr ℂ → Option (Arr ℂ)} (hp : ∀ k s l, Le (proj k s l) (proj' k s l))
    {L : Latt} {dirs : ℕ} (h2 : 2 ≤ dirs) (f : (Loc → Option (Arr ℂ)) × (Loc → Unit)) (n : ℕ) :
    ∀ l, Le (hypIter L (dressO NC proj) dirs n f l) (hypIter L (dressO NC proj') dirs n f l) := by
  induction n with
  | zero => exact fun l W h => h
  | succ n ih =>
    intro l
    rw [hypIter_succ L _ h2, hypIter_succ L _ h2]
    split
    · exact dressLink_le hp ih _ _ _ _
    · exact ih l

theorem iter_spec {NC : ℕ} {proj : ℕ → Arr ℂ → Arr ℂ → Option (Arr ℂ)} (hp : KeepsSU NC proj)
    {P : ℕ → Matrix (Fin NC) (Fin NC) ℂ → Matrix (Fin NC) (Fin NC) ℂ → Matrix (Fin NC) (Fin NC) ℂ}
    (hP : ∀ k s l W, IsSU NC l → SumSU NC (toM NC s) → proj k s l = some W → toM NC W = P k (toM NC s) (toM NC l))
    {L : Latt} (hL : Valid L) {dirs : ℕ} (h2 : 2 ≤ dirs) (hd : dirs ≤ L.ND) {f : (Loc → Option (Arr ℂ)) × (Loc → Unit)}
    (hU : SUOpt NC L f.1) {V : MField NC} (hV : ∀ i < volume L, ∀ mu < L.ND, ∀ W, f.1 (i, mu) = some W → toM NC W = V i mu)
    (n : ℕ) : ∀ i < volume L, ∀ mu < L.ND, ∀ W, hypIter L (dressO NC proj) dirs n f (i, mu) = some W →
      toM NC W = ((hypSmear L P dirs)^[n] V) i mu := by
  induction n with
  | zero => exact hV
  | succ n ih =>
    intro i hi mu hmu W h
    rw [hypIter_succ L _ h2] at h
    rw [Function.iterate_succ_apply', hypSmear]
    by_cases hm : mu < dirs
    · rw [if_pos ⟨hi, hm⟩] at h
      rw [if_pos hm]
      have := dressLink_spec hp hP hL hd (iter_su hp hL h2 hd hU n) ih (dirs - 1) [] mu hm i hi W h
      simpa using this
    · rw [if_neg fun q => hm q.2] at h
      rw [if_neg hm]
      exact ih i hi mu hmu W h

/-- **C89**, stout projection: wherever no exponential met on the way was approximated by its series, the link after
`smiters` iterations is that of hypercubic smearing, `exp( i α F ) U` at every level, and special unitary.  Missing: the
error of the series for near eigenvalues. -/
theorem C89_stout_partial {NC : ℕ} (hN : 1 ≤ NC) (w : ℕ → ℝ × ℝ) {L : Latt} (hL : Valid L) {directions : ℕ}
    (h2 : 2 ≤ directions) (hd : directions ≤ L.ND) {U : Gauge} (hU : SUField NC L U) (smiters : ℕ)
    (s : St (Option (Arr ℂ)) Unit) (hs : ∀ l, s.lat l = some (U l)) {i mu : ℕ} (hi : i < volume L) (hmu : mu < L.ND) {W : Arr ℂ}
    (h : (HYsmearND L (dressO NC (exactStout NC w)) directions smiters s).lat (i, mu) = some W) :
    (HYsmearND L (stoutDress NC w) directions smiters s).lat (i, mu) = some W ∧ IsSU NC W ∧
      toM NC W = ((hypSmear L (stoutP fun k => (w k).1) directions)^[smiters] (mfield NC U)) i mu := by
  rw [C89_simultaneous hL _ hd] at h ⊢
  have e : s.lat = fun l => some (U l) := funext hs
  have hk : KeepsSU NC (exactStout NC w) := fun k s l W hl hS q => (exactStout_spec hN w hl hS q).1
  have hsu : SUOpt NC L (s.lat, s.z).1 := by rw [e]; exact suOpt_of_field hU
  refine ⟨iter_le (fun k s l W q => ?_) h2 (s.lat, s.z) smiters (i, mu) W h, iter_su hk hL h2 hd hsu smiters i hi mu hmu W h,
    iter_spec hk (fun k s l W hl hS q => (exactStout_spec hN w hl hS q).2) hL h2 hd hsu ?_ smiters i hi mu hmu W h⟩
  · unfold exactStout at q
    split at q
    · exact q
    · exact absurd q (by simp)
  · intro i hi mu hmu W q
    rw [e] at q
    rw [← Option.some_inj.1 q]
    rfl

theorem hyp_gauge {NC : ℕ} {L : Latt} (hL : Valid L)
    {P : ℕ → Matrix (Fin NC) (Fin NC) ℂ → Matrix (Fin NC) (Fin NC) ℂ → Matrix (Fin NC) (Fin NC) ℂ}
    (hP : ∀ k S U A B, A ∈ specialUnitaryGroup (Fin NC) ℂ → B ∈ specialUnitaryGroup (Fin NC) ℂ →
      P k (A * S * B) (A * U * B) = A * P k S U * B) {n : ℕ} (hn : n ≤ L.ND) {U U' : MField NC}
    {g : ℕ → Matrix (Fin NC) (Fin NC) ℂ} (hg : ∀ i < volume L, g i ∈ specialUnitaryGroup (Fin NC) ℂ)
    (ht : ∀ i < volume L, ∀ mu < L.ND, U' i mu = g i * U i mu * (g (neighbor L i mu))ᴴ) (k : ℕ) :
    ∀ E, ∀ mu < n, ∀ i < volume L, dressed L P n U' k E mu i = g i * dressed L P n U k E mu i * (g (neighbor L i mu))ᴴ := by
  induction k with
  | zero => exact fun E mu hmu i hi => ht i hi mu (by omega)
  | succ k ih =>
    intro E mu hmu i hi
    rw [dressed, dressed, ht i hi mu (by omega), ← hP _ _ _ _ _ (hg i hi) (isSU_star (hg _ (neighbor_lt hL i (by omega))))]
    congr 1
    rw [Matrix.mul_sum, Matrix.sum_mul]
    refine Finset.sum_congr rfl fun nu hnu => ?_
    rw [Finset.mem_sdiff, Finset.mem_range] at hnu
    have hj : nu < L.ND := by omega
    have hm : mu < L.ND := by omega
    have hb := back_lt hL i hj
    have e : neighbor L (neighbor L (back L i nu) mu) nu = neighbor L i mu := by
      rw [(C02_commute hL hm hj).1, (C02_inverse hL hi hj).2]
    unfold aroundM
    rw [ih _ nu hnu.1 i hi, ih _ mu hmu _ (neighbor_lt hL _ hj), ih _ nu hnu.1 _ (neighbor_lt hL _ hm), ih _ nu hnu.1 _ hb,
      ih _ mu hmu _ hb, ih _ nu hnu.1 _ (neighbor_lt hL _ hm), (C02_inverse hL hi hj).2, e, (C02_commute hL hm hj).1]
    have c0 : ∀ x < volume L, ∀ X : Matrix (Fin NC) (Fin NC) ℂ, (g x)ᴴ * (g x * X) = X := by
      intro x hx X
      exact cancel_left (mem_unitaryGroup_iff'.1 (mem_specialUnitaryGroup_iff.1 (hg x hx)).1) X
    have c1 := c0 _ (neighbor_lt hL i hj)
    have c2 := c0 _ (neighbor_lt hL (neighbor L i nu) hm)
    have c3 := c0 _ hb
    have c4 := c0 _ (neighbor_lt hL (back L i nu) hm)
    simp only [conjTranspose_mul, conjTranspose_conjTranspose, Matrix.mul_assoc, c1, c2, c3, c4,
      Matrix.mul_add, Matrix.add_mul]

/-- **C89**, gauge covariance, stout projection, as `C89_stout_partial`. -/
theorem C89_stout_covariant_partial {NC : ℕ} (hN : 1 ≤ NC) (w : ℕ → ℝ × ℝ) {L : Latt} (hL : Valid L) {directions : ℕ}
    (h2 : 2 ≤ directions) (hd : directions ≤ L.ND) {U : Gauge} (hU : SUField NC L U) {g : ℕ → Arr ℂ} (hg : SUGauge NC L g)
    (smiters : ℕ) (s s' : St (Option (Arr ℂ)) Unit) (hs : ∀ l, s.lat l = some (U l))
    (hs' : ∀ l, s'.lat l = some (gtransform NC L g U l)) {i mu : ℕ} (hi : i < volume L) (hmu : mu < L.ND) {W W' : Arr ℂ}
    (h : (HYsmearND L (dressO NC (exactStout NC w)) directions smiters s).lat (i, mu) = some W)
    (h' : (HYsmearND L (dressO NC (exactStout NC w)) directions smiters s').lat (i, mu) = some W') :
    toM NC W' = toM NC (g i) * toM NC W * (toM NC (g (neighbor L i mu)))ᴴ := by
  obtain ⟨t1, t2⟩ := C31_action hL hg hU
  rw [(C89_stout_partial hN w hL h2 hd hU smiters s hs hi hmu h).2.2,
    (C89_stout_partial hN w hL h2 hd t1 smiters s' hs' hi hmu h').2.2]
  have key : ∀ n, ∀ i < volume L, ∀ mu < L.ND,
      ((hypSmear L (stoutP fun k => (w k).1) directions)^[n] (mfield NC (gtransform NC L g U))) i mu =
      toM NC (g i) * ((hypSmear L (stoutP fun k => (w k).1) directions)^[n] (mfield NC U)) i mu *
        (toM NC (g (neighbor L i mu)))ᴴ := by
    intro n
    induction n with
    | zero => exact fun i hi mu hmu => t2 i hi mu hmu
    | succ n ih =>
      intro i hi mu hmu
      rw [Function.iterate_succ_apply', Function.iterate_succ_apply', hypSmear, hypSmear]
      by_cases hm : mu < directions
      · rw [if_pos hm, if_pos hm]
        exact hyp_gauge hL (fun k S U A B hA hB => stoutP_gauge _ k hA hB S U) hd (g := fun i => toM NC (g i)) hg ih _ _ mu hm i hi
      · rw [if_neg hm, if_neg hm]
        exact ih i hi mu hmu
  exact key smiters i hi mu hmu

end GLU.Smear
