import Verif.Smear.HypLemmas
import Verif.Smear.StoutGauge
import Verif.Smear.GivensApe

/-! # Hypercubic smearing: the matrices -/

namespace GLU.Smear

open GLU.Geom GLU.Sched GLU.Mat GLU.Field Complex Matrix

/-! ## Specification -/

/-- The two paths around the link `mu` at `i` in the plane with `nu`, made of links `A` of direction `nu` and `B` of
direction `mu`. -/
def aroundM {NC : ℕ} (L : Latt) (A B : ℕ → Matrix (Fin NC) (Fin NC) ℂ) (i mu nu : ℕ) : Matrix (Fin NC) (Fin NC) ℂ :=
  A i * B (neighbor L i nu) * (A (neighbor L i mu))ᴴ +
    (A (back L i nu))ᴴ * B (back L i nu) * A (neighbor L (back L i nu) mu)

/-- The links of hypercubic smearing in `n` directions (Hasenfratz and Knechtli, Phys. Rev. D 64 (2001) 034504, eq. 3-5), `k`
steps up from the links of the field: the link of direction `mu` dressed in the directions other than its own and those of
`E`, by links dressed in fewer directions; `P` is the projection, its first argument the level counted from the top. -/
def dressed {NC : ℕ} (L : Latt) (P : ℕ → Matrix (Fin NC) (Fin NC) ℂ → Matrix (Fin NC) (Fin NC) ℂ → Matrix (Fin NC) (Fin NC) ℂ)
    (n : ℕ) (U : MField NC) : ℕ → Finset ℕ → ℕ → ℕ → Matrix (Fin NC) (Fin NC) ℂ
  | 0, _, mu, i => U i mu
  | k + 1, E, mu, i =>
    P (n - (k + 1)) (∑ nu ∈ Finset.range n \ insert mu E,
      aroundM L (dressed L P n U k (insert mu E) nu) (dressed L P n U k (insert nu E) mu) i mu nu) (U i mu)

/-- One iteration of hypercubic smearing in `n` directions. -/
def hypSmear {NC : ℕ} (L : Latt) (P : ℕ → Matrix (Fin NC) (Fin NC) ℂ → Matrix (Fin NC) (Fin NC) ℂ → Matrix (Fin NC) (Fin NC) ℂ)
    (n : ℕ) (U : MField NC) : MField NC := fun i mu => if mu < n then dressed L P n U (n - 1) ∅ mu i else U i mu

/-- The stout projection with weight `α k` at level `k`. -/
noncomputable def stoutP {NC : ℕ} (α : ℕ → ℝ) (k : ℕ) (S U : Matrix (Fin NC) (Fin NC) ℂ) : Matrix (Fin NC) (Fin NC) ℂ :=
  NormedSpace.exp (I • (α k : ℂ) • lieHerm (S * Uᴴ)) * U

/-- Sums of special unitary matrices. -/
def SumSU (NC : ℕ) (A : Matrix (Fin NC) (Fin NC) ℂ) : Prop :=
  A ∈ AddSubmonoid.closure {B : Matrix (Fin NC) (Fin NC) ℂ | B ∈ specialUnitaryGroup (Fin NC) ℂ}

/-! ## One step -/

theorem lift2_some {α β γ : Type} {f : α → β → γ} {a : Option α} {b : Option β} {c : γ} :
    lift2 f a b = some c ↔ ∃ x y, a = some x ∧ b = some y ∧ f x y = c := by
  cases a <;> cases b <;> simp [lift2]

/-- The links of level `k`: those of the field below level one. -/
def dressLink {M : Type} (L : Latt) (D : Dress M) (n : ℕ) (lat : Loc → M) : ℕ → List ℕ → ℕ → ℕ → M
  | 0, _, rho, i => lat (i, rho)
  | k + 1, pre, rho, i => recurse_staples L D n lat k pre rho i

theorem dressLink_succ {M : Type} (L : Latt) (D : Dress M) (n : ℕ) (lat : Loc → M) (k : ℕ) (pre : List ℕ) (rho i : ℕ) :
    dressLink L D n lat (k + 1) pre rho i = D.project (n - (k + 1)) (forN n (fun jj stap =>
      if jj ∈ pre ++ [rho] then stap
      else addStaples L D i rho jj (dressLink L D n lat k (pre ++ [rho]) jj)
        (dressLink L D n lat k (pre ++ [jj]) rho) (lat (i, rho)) stap) D.zero) (lat (i, rho)) := by
  cases k <;> (show recurse_staples _ _ _ _ _ _ _ _ = _; rw [recurse_staples]; rfl)

/-- The six links of the two staples. -/
structure Six {X : Type} (L : Latt) (i rho jj : ℕ) (Q R : ℕ → X → Prop) (U V : ℕ → X) : Prop where
  u0 : Q i (U i)
  v1 : R (neighbor L i jj) (V (neighbor L i jj))
  u1 : Q (neighbor L i rho) (U (neighbor L i rho))
  ub : Q (back L i jj) (U (back L i jj))
  vb : R (back L i jj) (V (back L i jj))
  un : Q (neighbor L (back L i jj) rho) (U (neighbor L (back L i jj) rho))

/-- The matrix of a link that is defined. -/
def got (o : Option (Arr ℂ)) : Arr ℂ := o.getD scratch

/-- The staples of defined links. -/
noncomputable def arrDress (NC : ℕ) : Dress (Arr ℂ) where
  ops := ops NC
  zero := zero_mat NC scratch
  post b _ := b
  project _ _ l := l

theorem addStaples_some {NC : ℕ} {proj : ℕ → Arr ℂ → Arr ℂ → Option (Arr ℂ)} {L : Latt} {i rho jj : ℕ}
    {U V : ℕ → Option (Arr ℂ)} {l st : Option (Arr ℂ)} (l' : Arr ℂ) {S : Arr ℂ}
    (h : addStaples L (dressO NC proj) i rho jj U V l st = some S) :
    Six L i rho jj (fun _ o => o = some (got o)) (fun _ o => o = some (got o)) U V ∧
    ∃ s0, st = some s0 ∧ S = addStaples L (arrDress NC) i rho jj (fun x => got (U x)) (fun x => got (V x)) l' s0 := by
  simp only [addStaples, dressO, opsO] at h
  obtain ⟨x, y, h1, h2, rfl⟩ := lift2_some.1 h
  obtain ⟨s0, b, h3, h4, rfl⟩ := lift2_some.1 h1
  obtain ⟨c, un, h5, h6, rfl⟩ := lift2_some.1 h2
  obtain ⟨ub, vb, h7, h8, rfl⟩ := lift2_some.1 h5
  obtain ⟨d, u1, h9, h10, rfl⟩ := lift2_some.1 h4
  obtain ⟨u0, v1, h11, h12, rfl⟩ := lift2_some.1 h9
  refine ⟨⟨?_, ?_, ?_, ?_, ?_, ?_⟩, s0, h3, ?_⟩
  · rw [h11]; rfl
  · rw [h12]; rfl
  · rw [h10]; rfl
  · rw [h7]; rfl
  · rw [h8]; rfl
  · rw [h6]; rfl
  · simp only [addStaples, arrDress, h11, h12, h10, h7, h8, h6]
    rfl

theorem around_code {NC : ℕ} {L : Latt} {i rho jj : ℕ} {u v : ℕ → Arr ℂ} (h : Six L i rho jj (fun _ => IsSU NC) (fun _ => IsSU NC) u v)
    (l s : Arr ℂ) : toM NC (addStaples L (arrDress NC) i rho jj u v l s) =
      toM NC s + aroundM L (fun x => toM NC (u x)) (fun x => toM NC (v x)) i rho jj ∧
    (SumSU NC (toM NC s) → SumSU NC (toM NC (addStaples L (arrDress NC) i rho jj u v l s))) := by
  obtain ⟨e1, s1⟩ := C11_multab_suNC h.u0 h.v1 scratch
  obtain ⟨e2, s2⟩ := C11_multab_dag_suNC s1 h.u1 scratch
  obtain ⟨e3, s3⟩ := C11_multabdag_suNC h.ub h.vb scratch
  obtain ⟨e4, s4⟩ := C11_multab_suNC s3 h.un scratch
  have e : toM NC (addStaples L (arrDress NC) i rho jj u v l s) =
      toM NC s + aroundM L (fun x => toM NC (u x)) (fun x => toM NC (v x)) i rho jj := by
    simp only [addStaples, arrDress, ops, C63_a_plus_b, e1, e2, e3, e4, aroundM, add_assoc]
  refine ⟨e, fun hs => ?_⟩
  rw [e]
  unfold aroundM
  refine AddSubmonoid.add_mem _ hs (AddSubmonoid.add_mem _ (AddSubmonoid.subset_closure ?_) (AddSubmonoid.subset_closure ?_))
  · show _ ∈ specialUnitaryGroup _ _
    rw [← e1, ← e2]; exact s2
  · show _ ∈ specialUnitaryGroup _ _
    rw [← e3, ← e4]; exact s4

/-- What a defined link of level `k + 1` is made of. -/
theorem dressLink_some {NC : ℕ} {proj : ℕ → Arr ℂ → Arr ℂ → Option (Arr ℂ)} {L : Latt} {n : ℕ} {lat : Loc → Option (Arr ℂ)}
    {k : ℕ} {pre : List ℕ} {rho i : ℕ} {W : Arr ℂ} (h : dressLink L (dressO NC proj) n lat (k + 1) pre rho i = some W) :
    lat (i, rho) = some (got (lat (i, rho))) ∧
    (∀ jj < n, jj ∉ pre ++ [rho] → Six L i rho jj (fun _ o => o = some (got o)) (fun _ o => o = some (got o))
      (dressLink L (dressO NC proj) n lat k (pre ++ [rho]) jj) (dressLink L (dressO NC proj) n lat k (pre ++ [jj]) rho)) ∧
    ∃ S : Arr ℂ, proj (n - (k + 1)) S (got (lat (i, rho))) = some W ∧
      ((∀ jj < n, jj ∉ pre ++ [rho] → Six L i rho jj (fun _ => IsSU NC) (fun _ => IsSU NC)
        (fun x => got (dressLink L (dressO NC proj) n lat k (pre ++ [rho]) jj x))
        (fun x => got (dressLink L (dressO NC proj) n lat k (pre ++ [jj]) rho x))) →
      SumSU NC (toM NC S) ∧ toM NC S = ∑ jj ∈ Finset.range n \ insert rho pre.toFinset,
        aroundM L (fun x => toM NC (got (dressLink L (dressO NC proj) n lat k (pre ++ [rho]) jj x)))
          (fun x => toM NC (got (dressLink L (dressO NC proj) n lat k (pre ++ [jj]) rho x))) i rho jj) := by
  rw [dressLink_succ] at h
  have key : ∀ m (S : Arr ℂ), forN m (fun jj stap =>
      if jj ∈ pre ++ [rho] then stap
      else addStaples L (dressO NC proj) i rho jj (dressLink L (dressO NC proj) n lat k (pre ++ [rho]) jj)
        (dressLink L (dressO NC proj) n lat k (pre ++ [jj]) rho) (lat (i, rho)) stap) (dressO NC proj).zero = some S →
      (∀ jj < m, jj ∉ pre ++ [rho] → Six L i rho jj (fun _ o => o = some (got o)) (fun _ o => o = some (got o))
        (dressLink L (dressO NC proj) n lat k (pre ++ [rho]) jj) (dressLink L (dressO NC proj) n lat k (pre ++ [jj]) rho)) ∧
      ((∀ jj < m, jj ∉ pre ++ [rho] → Six L i rho jj (fun _ => IsSU NC) (fun _ => IsSU NC)
        (fun x => got (dressLink L (dressO NC proj) n lat k (pre ++ [rho]) jj x))
        (fun x => got (dressLink L (dressO NC proj) n lat k (pre ++ [jj]) rho x))) →
      SumSU NC (toM NC S) ∧ toM NC S = ∑ jj ∈ Finset.range m \ insert rho pre.toFinset,
        aroundM L (fun x => toM NC (got (dressLink L (dressO NC proj) n lat k (pre ++ [rho]) jj x)))
          (fun x => toM NC (got (dressLink L (dressO NC proj) n lat k (pre ++ [jj]) rho x))) i rho jj) := by
    intro m
    induction m with
    | zero =>
      intro S hS
      have : zero_mat NC scratch = S := Option.some_inj.1 hS
      subst this
      refine ⟨fun jj hj => absurd hj (by omega), fun _ => ?_⟩
      rw [C63_zero_mat]
      exact ⟨AddSubmonoid.zero_mem _, by simp⟩
    | succ m ih =>
      intro S hS
      rw [forN_succ] at hS
      by_cases hm : m ∈ pre ++ [rho]
      · rw [if_pos hm] at hS
        obtain ⟨a, b⟩ := ih S hS
        refine ⟨fun jj hj hn => ?_, fun q => ?_⟩
        · rcases Nat.lt_succ_iff_lt_or_eq.1 hj with h | h
          · exact a jj h hn
          · rw [h] at hn; exact absurd hm hn
        · obtain ⟨c, d⟩ := b fun jj hj hn => q jj (by omega) hn
          refine ⟨c, d.trans ?_⟩
          rw [Finset.range_add_one, Finset.insert_sdiff_of_mem _ (by simp at hm ⊢; tauto)]
      · rw [if_neg hm] at hS
        obtain ⟨s6, s0, h0, rfl⟩ := addStaples_some (got (lat (i, rho))) hS
        obtain ⟨a, b⟩ := ih s0 h0
        refine ⟨fun jj hj hn => ?_, fun q => ?_⟩
        · rcases Nat.lt_succ_iff_lt_or_eq.1 hj with h | h
          · exact a jj h hn
          · rw [h]; exact s6
        · obtain ⟨c, d⟩ := b fun jj hj hn => q jj (by omega) hn
          obtain ⟨e, f⟩ := around_code (q m (by omega) hm) (got (lat (i, rho))) s0
          refine ⟨f c, ?_⟩
          rw [e, d, Finset.range_add_one, Finset.insert_sdiff_of_notMem _ (by simp at hm ⊢; tauto),
            Finset.sum_insert (by simp), add_comm]
  obtain ⟨S, h1, h2⟩ := Option.bind_eq_some_iff.1 h
  obtain ⟨l, h3, h4⟩ := Option.bind_eq_some_iff.1 h2
  have hg : got (lat (i, rho)) = l := by rw [h3]; rfl
  obtain ⟨a, b⟩ := key n S h1
  exact ⟨by rw [hg, h3], a, S, by rw [hg]; exact h4, b⟩

/-- The links of the field are defined and special unitary. -/
def SUOpt (NC : ℕ) (L : Latt) (lat : Loc → Option (Arr ℂ)) : Prop :=
  ∀ i < volume L, ∀ mu < L.ND, ∀ W, lat (i, mu) = some W → IsSU NC W

theorem six_map {X : Type} {L : Latt} (hL : Valid L) {i rho jj : ℕ} (hi : i < volume L) (hr : rho < L.ND) (hj : jj < L.ND)
    {Q R Q' R' : ℕ → X → Prop} {U V : ℕ → X} (h : Six L i rho jj Q R U V)
    (h1 : ∀ x < volume L, Q x (U x) → Q' x (U x)) (h2 : ∀ x < volume L, R x (V x) → R' x (V x)) :
    Six L i rho jj Q' R' U V :=
  ⟨h1 _ hi h.u0, h2 _ (neighbor_lt hL _ hj) h.v1, h1 _ (neighbor_lt hL _ hr) h.u1, h1 _ (back_lt hL _ hj) h.ub,
    h2 _ (back_lt hL _ hj) h.vb, h1 _ (neighbor_lt hL _ hr) h.un⟩

/-- The projection keeps links special unitary. -/
def KeepsSU (NC : ℕ) (proj : ℕ → Arr ℂ → Arr ℂ → Option (Arr ℂ)) : Prop :=
  ∀ k s l W, IsSU NC l → SumSU NC (toM NC s) → proj k s l = some W → IsSU NC W

theorem got_some {o : Option (Arr ℂ)} {W : Arr ℂ} (h : o = some W) : got o = W := by rw [h]; rfl

theorem six_su {NC : ℕ} {L : Latt} (hL : Valid L) {i rho jj : ℕ} (hi : i < volume L) (hr : rho < L.ND) (hj : jj < L.ND)
    {U V : ℕ → Option (Arr ℂ)} (h : Six L i rho jj (fun _ o => o = some (got o)) (fun _ o => o = some (got o)) U V)
    (h1 : ∀ x < volume L, ∀ W, U x = some W → IsSU NC W) (h2 : ∀ x < volume L, ∀ W, V x = some W → IsSU NC W) :
    Six L i rho jj (fun _ => IsSU NC) (fun _ => IsSU NC) (fun x => got (U x)) (fun x => got (V x)) :=
  ⟨h1 _ hi _ h.u0, h2 _ (neighbor_lt hL _ hj) _ h.v1, h1 _ (neighbor_lt hL _ hr) _ h.u1, h1 _ (back_lt hL _ hj) _ h.ub,
    h2 _ (back_lt hL _ hj) _ h.vb, h1 _ (neighbor_lt hL _ hr) _ h.un⟩

theorem dressLink_su {NC : ℕ} {proj : ℕ → Arr ℂ → Arr ℂ → Option (Arr ℂ)} (hp : KeepsSU NC proj) {L : Latt} (hL : Valid L) {n : ℕ}
    (hn : n ≤ L.ND) {lat : Loc → Option (Arr ℂ)} (hU : SUOpt NC L lat) (k : ℕ) :
    ∀ (pre : List ℕ) (rho : ℕ), rho < n → ∀ i < volume L, ∀ W,
      dressLink L (dressO NC proj) n lat k pre rho i = some W → IsSU NC W := by
  induction k with
  | zero => exact fun pre rho hr i hi W h => hU i hi rho (by omega) W h
  | succ k ih =>
    intro pre rho hr i hi W h
    obtain ⟨hl, h6, S, hS, hs⟩ := dressLink_some h
    exact hp _ S _ W (hU i hi rho (by omega) _ hl) (hs fun jj hj hm =>
      six_su hL hi (by omega) (by omega) (h6 jj hj hm) (ih _ jj hj) (ih _ rho hr)).1 hS

/-- The code computes the dressed links of the specification. -/
theorem dressLink_spec {NC : ℕ} {proj : ℕ → Arr ℂ → Arr ℂ → Option (Arr ℂ)} (hp : KeepsSU NC proj)
    {P : ℕ → Matrix (Fin NC) (Fin NC) ℂ → Matrix (Fin NC) (Fin NC) ℂ → Matrix (Fin NC) (Fin NC) ℂ}
    (hP : ∀ k s l W, IsSU NC l → SumSU NC (toM NC s) → proj k s l = some W → toM NC W = P k (toM NC s) (toM NC l))
    {L : Latt} (hL : Valid L) {n : ℕ} (hn : n ≤ L.ND) {lat : Loc → Option (Arr ℂ)} (hU : SUOpt NC L lat)
    {V : MField NC} (hV : ∀ i < volume L, ∀ mu < L.ND, ∀ W, lat (i, mu) = some W → toM NC W = V i mu) (k : ℕ) :
    ∀ (pre : List ℕ) (rho : ℕ), rho < n → ∀ i < volume L, ∀ W, dressLink L (dressO NC proj) n lat k pre rho i = some W →
      toM NC W = dressed L P n V k pre.toFinset rho i := by
  induction k with
  | zero =>
    intro pre rho hr i hi W h
    rw [dressed]
    exact hV i hi rho (by omega) W h
  | succ k ih =>
    intro pre rho hr i hi W h
    obtain ⟨hl, h6, S, hS, hs⟩ := dressLink_some h
    have h6' := fun jj hj hm => six_su hL hi (show rho < L.ND by omega) (show jj < L.ND by omega) (h6 jj hj hm)
      (dressLink_su hp hL hn hU k _ jj hj) (dressLink_su hp hL hn hU k _ rho hr)
    obtain ⟨s1, s2⟩ := hs h6'
    rw [hP _ S _ W (hU i hi rho (by omega) _ hl) s1 hS, dressed, s2,
      hV i hi rho (by omega) _ hl]
    congr 1
    refine Finset.sum_congr rfl fun jj hjj => ?_
    rw [Finset.mem_sdiff, Finset.mem_range] at hjj
    have hm : jj ∉ pre ++ [rho] := by
      have := hjj.2
      simp at this ⊢
      tauto
    have q := h6 jj hjj.1 hm
    have t1 : (pre ++ [rho]).toFinset = insert rho pre.toFinset := by ext x; simp
    have t2 : (pre ++ [jj]).toFinset = insert jj pre.toFinset := by ext x; simp
    have hj' : jj < L.ND := by omega
    have hr' : rho < L.ND := by omega
    unfold aroundM
    dsimp only
    rw [← t1, ← t2, ih _ jj hjj.1 i hi _ q.u0, ih _ rho hr _ (neighbor_lt hL _ hj') _ q.v1,
      ih _ jj hjj.1 _ (neighbor_lt hL _ hr') _ q.u1, ih _ jj hjj.1 _ (back_lt hL _ hj') _ q.ub,
      ih _ rho hr _ (back_lt hL _ hj') _ q.vb, ih _ jj hjj.1 _ (neighbor_lt hL _ hr') _ q.un]

/-- Dressed links of gauge equivalent fields, for projections that transform with the links. -/
theorem dressLink_gauge {NC : ℕ} {proj : ℕ → Arr ℂ → Arr ℂ → Option (Arr ℂ)} (hp : KeepsSU NC proj)
    (hc : ∀ k s l W s' l' W' A B, A ∈ specialUnitaryGroup (Fin NC) ℂ → B ∈ specialUnitaryGroup (Fin NC) ℂ →
      IsSU NC l → SumSU NC (toM NC s) → IsSU NC l' → SumSU NC (toM NC s') →
      toM NC s' = A * toM NC s * B → toM NC l' = A * toM NC l * B → proj k s l = some W → proj k s' l' = some W' →
      toM NC W' = A * toM NC W * B)
    {L : Latt} (hL : Valid L) {n : ℕ} (hn : n ≤ L.ND) {lat lat' : Loc → Option (Arr ℂ)} (hU : SUOpt NC L lat) (hU' : SUOpt NC L lat')
    {g : ℕ → Matrix (Fin NC) (Fin NC) ℂ} (hg : ∀ i < volume L, g i ∈ specialUnitaryGroup (Fin NC) ℂ)
    (ht : ∀ i < volume L, ∀ mu < L.ND, ∀ l l', lat (i, mu) = some l → lat' (i, mu) = some l' →
      toM NC l' = g i * toM NC l * (g (neighbor L i mu))ᴴ) (k : ℕ) :
    ∀ (pre : List ℕ) (rho : ℕ), rho < n → ∀ i < volume L, ∀ W W', dressLink L (dressO NC proj) n lat k pre rho i = some W →
      dressLink L (dressO NC proj) n lat' k pre rho i = some W' →
      toM NC W' = g i * toM NC W * (g (neighbor L i rho))ᴴ := by
  induction k with
  | zero => exact fun pre rho hr i hi W W' h h' => ht i hi rho (by omega) W W' h h'
  | succ k ih =>
    intro pre rho hr i hi W W' h h'
    obtain ⟨hl, h6, S, hS, hs⟩ := dressLink_some h
    obtain ⟨hl', h6', S', hS', hs'⟩ := dressLink_some h'
    have q6 := fun jj hj hm => six_su hL hi (show rho < L.ND by omega) (show jj < L.ND by omega) (h6 jj hj hm)
      (dressLink_su hp hL hn hU k _ jj hj) (dressLink_su hp hL hn hU k _ rho hr)
    have q6' := fun jj hj hm => six_su hL hi (show rho < L.ND by omega) (show jj < L.ND by omega) (h6' jj hj hm)
      (dressLink_su hp hL hn hU' k _ jj hj) (dressLink_su hp hL hn hU' k _ rho hr)
    obtain ⟨s1, s2⟩ := hs q6
    obtain ⟨s1', s2'⟩ := hs' q6'
    refine hc _ S _ W S' _ W' _ _ (hg i hi) (isSU_star (hg _ (neighbor_lt hL i (by omega)))) (hU i hi rho (by omega) _ hl) s1
      (hU' i hi rho (by omega) _ hl') s1' ?_ (ht i hi rho (by omega) _ _ hl hl') hS hS'
    rw [s2, s2', Matrix.mul_sum, Matrix.sum_mul]
    refine Finset.sum_congr rfl fun jj hjj => ?_
    rw [Finset.mem_sdiff, Finset.mem_range] at hjj
    have hm : jj ∉ pre ++ [rho] := by
      have := hjj.2
      simp at this ⊢
      tauto
    have q := h6 jj hjj.1 hm
    have q' := h6' jj hjj.1 hm
    have hj' : jj < L.ND := by omega
    have hr' : rho < L.ND := by omega
    have hb := back_lt hL i hj'
    have e : neighbor L (neighbor L (back L i jj) rho) jj = neighbor L i rho := by
      rw [(C02_commute hL hr' hj').1, (C02_inverse hL hi hj').2]
    unfold aroundM
    dsimp only
    rw [ih _ jj hjj.1 i hi _ _ q.u0 q'.u0, ih _ rho hr _ (neighbor_lt hL _ hj') _ _ q.v1 q'.v1,
      ih _ jj hjj.1 _ (neighbor_lt hL _ hr') _ _ q.u1 q'.u1, ih _ jj hjj.1 _ hb _ _ q.ub q'.ub,
      ih _ rho hr _ hb _ _ q.vb q'.vb, ih _ jj hjj.1 _ (neighbor_lt hL _ hr') _ _ q.un q'.un,
      (C02_inverse hL hi hj').2, e, (C02_commute hL hr' hj').1]
    have c0 : ∀ x < volume L, ∀ X : Matrix (Fin NC) (Fin NC) ℂ, (g x)ᴴ * (g x * X) = X := by
      intro x hx X
      exact cancel_left (mem_unitaryGroup_iff'.1 (mem_specialUnitaryGroup_iff.1 (hg x hx)).1) X
    have c1 := c0 _ (neighbor_lt hL i hj')
    have c2 := c0 _ (neighbor_lt hL (neighbor L i jj) hr')
    have c2' := c0 _ (neighbor_lt hL (neighbor L i rho) hj')
    have c3 := c0 _ hb
    have c4 := c0 _ (neighbor_lt hL (back L i jj) hr')
    simp only [conjTranspose_mul, conjTranspose_conjTranspose, Matrix.mul_assoc, c1, c2, c2', c3, c4,
      Matrix.mul_add, Matrix.add_mul]

end GLU.Smear
