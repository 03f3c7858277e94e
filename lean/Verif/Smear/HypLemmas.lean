import Verif.Smear.Hyp
import Verif.Smear.Props
import Verif.Mat.MMulLemmas
import Mathlib.Tactic.IntervalCases

/-! # Hypercubic smearing: lemmas -/

namespace GLU.Smear

open GLU.Geom GLU.Sched GLU.Mat GLU.Field

variable {M : Type}

/-! ### The loop with the copies inside -/

/-- Every link is computed from itself only. -/
def Own (upd : Upd M Unit) : Prop :=
  ∀ (lat lat' : Loc → M) (x mu : ℕ), lat (x, mu) = lat' (x, mu) → upd lat () x mu = upd lat' () x mu

theorem forN_succ {σ : Type*} (n : ℕ) (f : ℕ → σ → σ) (s : σ) : forN (n + 1) f s = f n (forN n f s) := rfl

/-- The copies of one site. -/
def rot1 (dirs t bck : ℕ) (b : Loc → M) (i : ℕ) (s : (Loc → M) × (Loc → M)) : (Loc → M) × (Loc → M) :=
  forN dirs (fun mu s =>
    ((if t ≠ 0 then Function.update s.1 (bck + i, mu) (s.2 (i, mu)) else s.1),
      Function.update s.2 (i, mu) (b (i, mu)))) s

theorem rotate_eq (L : Latt) (dirs t bck : ℕ) (b : Loc → M) (s : (Loc → M) × (Loc → M)) :
    rotate L dirs t bck b s = forN (lcu L) (rot1 dirs t bck b) s := rfl

theorem rotN_congr {dirs t bck n : ℕ} {b b' : Loc → M} (s : (Loc → M) × (Loc → M))
    (h : ∀ i < n, ∀ mu < dirs, b (i, mu) = b' (i, mu)) :
    forN n (rot1 dirs t bck b) s = forN n (rot1 dirs t bck b') s := by
  refine forN_congr (fun i hi s => ?_) s
  refine forN_congr (fun mu hmu s => ?_) s
  rw [h i hi mu hmu]

theorem rotN_other {dirs t bck n : ℕ} {b : Loc → M} (s : (Loc → M) × (Loc → M)) {l : Loc}
    (h : t ≠ 0 → ¬ (bck ≤ l.1 ∧ l.1 < bck + n)) :
    (forN n (rot1 dirs t bck b) s).1 l = s.1 l := by
  refine forN_inv (fun _ (r : (Loc → M) × (Loc → M)) => r.1 l = s.1 l) rfl ?_
  intro i hi r hr
  refine forN_inv (fun _ (r : (Loc → M) × (Loc → M)) => r.1 l = s.1 l) hr ?_
  intro mu _ r hr
  dsimp only
  by_cases ht : t ≠ 0
  · rw [if_pos ht, Function.update_of_ne, hr]
    rintro rfl
    exact h ht ⟨Nat.le_add_right _ _, by simpa using hi⟩
  · rw [if_neg ht, hr]

theorem fill_succ (upd : Upd M Unit) (base n : ℕ) (lat : Loc → M) (s : (Loc → Unit) × (Loc → M)) :
    fill upd 4 base (n + 1) lat s = forN 4 (fun mu s =>
      (Function.update s.1 (base + n, mu) (upd lat (s.1 (base + n, mu)) (base + n) mu).1,
        Function.update s.2 (n, mu) (upd lat (s.1 (base + n, mu)) (base + n) mu).2)) (fill upd 4 base n lat s) := rfl

theorem fill_before (upd : Upd M Unit) (base n : ℕ) (lat : Loc → M) (s : (Loc → Unit) × (Loc → M)) {i mu : ℕ}
    (hi : i < n) : (fill upd 4 base n lat s).2 (i, mu) = (fill upd 4 base (n + 1) lat s).2 (i, mu) := by
  rw [fill_succ]
  refine (forN_inv (fun _ (r : (Loc → Unit) × (Loc → M)) => r.2 (i, mu) = (fill upd 4 base n lat s).2 (i, mu))
    rfl ?_).symm
  intro nu _ r hr
  show Function.update r.2 _ _ _ = _
  rw [Function.update_of_ne, hr]
  intro e
  have := congrArg Prod.fst e
  simp only at this
  omega

theorem site_first {upd : Upd M Unit} (A C lat : Loc → M) (x i m : ℕ) (h : ∀ mu, upd A () x mu = upd lat () x mu)
    (s : (Loc → Unit) × (Loc → M)) :
    forN m (fun mu (s : (Loc → M) × (Loc → M) × (Loc → M)) =>
      (s.1, Function.update s.2.1 (i, mu) (upd s.1 () x mu).2, s.2.2)) (A, s.2, C) =
    (A, (forN m (fun mu (s : (Loc → Unit) × (Loc → M)) => (Function.update s.1 (x, mu) (upd lat (s.1 (x, mu)) x mu).1,
        Function.update s.2 (i, mu) (upd lat (s.1 (x, mu)) x mu).2)) s).2, C) := by
  induction m with
  | zero => rfl
  | succ m ih => rw [forN_succ, ih, forN_succ]; simp only [h]

theorem site_second (t bck i m : ℕ) (A B C : Loc → M) :
    forN m (fun mu (s : (Loc → M) × (Loc → M) × (Loc → M)) =>
      ((if t ≠ 0 then Function.update s.1 (bck + i, mu) (s.2.2 (i, mu)) else s.1), s.2.1,
        Function.update s.2.2 (i, mu) (s.2.1 (i, mu)))) (A, B, C) =
    ((rot1 m t bck B i (A, C)).1, B, (rot1 m t bck B i (A, C)).2) := by
  induction m with
  | zero => rfl
  | succ m ih => rw [forN_succ, ih]; rfl

/-- The fused loop over the first `n` sites. -/
theorem fused {L : Latt} {upd : Upd M Unit} (ho : Own upd) {t slice bck : ℕ} (z : Loc → Unit)
    (h : t ≠ 0 → bck + lcu L ≤ slice) (A B C : Loc → M) {n : ℕ} (hn : n ≤ lcu L) :
    forN n (fastSite L upd t slice bck) (A, B, C) =
      ((forN n (rot1 4 t bck (fill upd 4 slice n A (z, B)).2) (A, C)).1, (fill upd 4 slice n A (z, B)).2,
        (forN n (rot1 4 t bck (fill upd 4 slice n A (z, B)).2) (A, C)).2) := by
  induction n with
  | zero => rfl
  | succ n ih =>
    rw [forN_succ, ih (by omega), rotN_congr (A, C) fun i hi mu _ => fill_before upd slice n A (z, B) hi]
    unfold fastSite
    dsimp only
    rw [site_first _ _ A (slice + n) n 4 (fun mu => ho _ _ _ _ (rotN_other _ fun ht => by have := h ht; simp only; omega)),
      ← fill_succ, site_second]
    rfl

theorem slice_before {L : Latt} (hL : Valid L) {t : ℕ} (ht : t < extent L) (h0 : t ≠ 0) :
    back L (lcu L * t) (L.ND - 1) + lcu L ≤ lcu L * t := by
  have h := slice_back hL ht (lcu_pos hL)
  rw [Nat.add_zero, Nat.add_zero] at h
  have e : (t + (extent L - 1)) % extent L = t - 1 := by
    rw [show t + (extent L - 1) = t - 1 + extent L by omega, Nat.add_mod_right, Nat.mod_eq_of_lt (by omega)]
  rw [h, e, ← Nat.mul_succ, show (t - 1).succ = t by omega]

theorem fastStep_eq {L : Latt} (hL : Valid L) {upd : Upd M Unit} (ho : Own upd) {t : ℕ} (ht : t < extent L) (s : St M Unit) :
    fastStep L upd t s = timeStep L 4 upd t s := by
  unfold fastStep timeStep
  dsimp only
  rw [fused ho s.z (slice_before hL ht) s.lat s.lat2 s.lat3 le_rfl]
  simp only [St.mk.injEq]
  exact ⟨rfl, funext fun _ => rfl, trivial, rfl, trivial⟩

theorem own_fastLink (L : Latt) (D : Dress M) (lev2 : ℕ → ℕ → M) : Own (fastLink L D lev2) := by
  intro lat lat' x mu h
  simp only [fastLink, gen_staples_4D, h]

theorem fastSweep_eq {L : Latt} (hL : Valid L) (D : Dress M) (j1 j2 : ℕ → ℕ → M) (s : St M Unit) :
    fastSweep L D j1 j2 s = sweep L 4 (fastLink L D fun x => get_lv2 L D s.lat (fun x => get_lv1 L D 4 3 s.lat x (j1 x)) x (j2 x)) s := by
  unfold fastSweep sweep
  dsimp only
  have h : (St.mk s.lat s.z s.lat2 s.lat3 (fill (fastLink L D fun x => get_lv2 L D s.lat
      (fun x => get_lv1 L D 4 3 s.lat x (j1 x)) x (j2 x)) 4 (back L 0 (L.ND - 1)) (lcu L) s.lat (s.z, s.lat4)).2) =
      St.mk s.lat (fill (fastLink L D fun x => get_lv2 L D s.lat
      (fun x => get_lv1 L D 4 3 s.lat x (j1 x)) x (j2 x)) 4 (back L 0 (L.ND - 1)) (lcu L) s.lat (s.z, s.lat4)).1
      s.lat2 s.lat3 (fill (fastLink L D fun x => get_lv2 L D s.lat
      (fun x => get_lv1 L D 4 3 s.lat x (j1 x)) x (j2 x)) 4 (back L 0 (L.ND - 1)) (lcu L) s.lat (s.z, s.lat4)).2 := by
    simp only [St.mk.injEq, true_and, and_true]
    exact funext fun _ => rfl
  rw [h, forN_congr (fun t ht s => fastStep_eq hL (own_fastLink L D _) (by omega) s)]

/-! ### The tables of dressed links -/

/-- The two staples of one plane and the projection. -/
def thinDress (L : Latt) (D : Dress M) (level : ℕ) (lat : Loc → M) (i mu nu : ℕ) : M :=
  D.project level (D.ops.a_plus_b
    (D.post (D.ops.multab_dag (D.ops.multab (lat (i, nu)) (lat (neighbor L i nu, mu))) (lat (neighbor L i mu, nu))) (lat (i, mu)))
    (D.post (D.ops.multab (D.ops.multabdag (lat (back L i nu, nu)) (lat (back L i nu, mu)))
      (lat (neighbor L (back L i nu) mu, nu))) (lat (i, mu)))) (lat (i, mu))

theorem lv1_four (L : Latt) (D : Dress M) (lat : Loc → M) (i : ℕ) (junk : ℕ → M) {mu nu : ℕ} (hmu : mu < 4) (hnu : nu < 4)
    (h : mu ≠ nu) : get_lv1 L D 4 3 lat i junk (dressIdx 4 mu nu) = thinDress L D 3 lat i mu nu := by
  interval_cases mu <;> interval_cases nu <;> first | exact absurd rfl h | rfl

theorem lv1_three (L : Latt) (D : Dress M) (lat : Loc → M) (i : ℕ) (junk : ℕ → M) {mu nu : ℕ} (hmu : mu < 3) (hnu : nu < 3)
    (h : mu ≠ nu) : get_lv1 L D 3 2 lat i junk (dressIdx 3 mu nu) = thinDress L D 2 lat i mu nu := by
  interval_cases mu <;> interval_cases nu <;> first | exact absurd rfl h | rfl

/-- The entry of the second table. -/
def fatDress (L : Latt) (D : Dress M) (lat : Loc → M) (lev1 : ℕ → ℕ → M) (i mu nu : ℕ) : M :=
  D.project 2 (forN 4 (fun rho stap =>
        if rho = mu ∨ rho = nu then stap
        else
          addStaples L D i mu rho
            (fun x => lev1 x (dressIdx 4 rho (forN 4 (fun jj sigma => if jj ≠ mu ∧ jj ≠ nu ∧ jj ≠ rho then jj else sigma) 0)))
            (fun x => lev1 x (dressIdx 4 mu (forN 4 (fun jj sigma => if jj ≠ mu ∧ jj ≠ nu ∧ jj ≠ rho then jj else sigma) 0)))
            (lat (i, mu)) stap) D.zero) (lat (i, mu))

theorem lv2_four (L : Latt) (D : Dress M) (lat : Loc → M) (lev1 : ℕ → ℕ → M) (i : ℕ) (junk : ℕ → M) {mu nu : ℕ} (hmu : mu < 4)
    (hnu : nu < 4) (h : mu ≠ nu) : get_lv2 L D lat lev1 i junk (dressIdx 4 mu nu) = fatDress L D lat lev1 i mu nu := by
  interval_cases mu <;> interval_cases nu <;> first | exact absurd rfl h | rfl

theorem fourth {mu nu rho : ℕ} (hmu : mu < 4) (hnu : nu < 4) (hrho : rho < 4) (h1 : mu ≠ nu) (h2 : rho ≠ mu) (h3 : rho ≠ nu) :
    ∃ sigma < 4, sigma ≠ mu ∧ sigma ≠ nu ∧ sigma ≠ rho ∧
      forN 4 (fun jj sigma => if jj ≠ mu ∧ jj ≠ nu ∧ jj ≠ rho then jj else sigma) 0 = sigma := by
  have H : ∀ a b c : Fin 4, (a.1 ≠ b.1 ∧ c.1 ≠ a.1 ∧ c.1 ≠ b.1) → ∃ s : Fin 4, (s.1 ≠ a.1 ∧ s.1 ≠ b.1 ∧ s.1 ≠ c.1) ∧
      forN 4 (fun jj sigma => if jj ≠ a.1 ∧ jj ≠ b.1 ∧ jj ≠ c.1 then jj else sigma) 0 = s.1 := by decide
  obtain ⟨s, ⟨a, b, c⟩, e⟩ := H ⟨mu, hmu⟩ ⟨nu, hnu⟩ ⟨rho, hrho⟩ ⟨h1, h2, h3⟩
  exact ⟨s, s.2, a, b, c, e⟩

theorem third {mu nu : ℕ} (hmu : mu < 3) (hnu : nu < 3) (h1 : nu ≠ mu) :
    ∃ sigma < 3, sigma ≠ mu ∧ sigma ≠ nu ∧ forN 3 (fun jj sigma => if jj ≠ mu ∧ jj ≠ nu then jj else sigma) 0 = sigma := by
  have H : ∀ a < 3, ∀ b < 3, b ≠ a → ∃ s < 3, s ≠ a ∧ s ≠ b ∧
      forN 3 (fun jj sigma => if jj ≠ a ∧ jj ≠ b then jj else sigma) 0 = s := by decide
  exact H mu hmu nu hnu h1

/-- Adding the first staple to the zeroed matrix gives that staple. -/
def ZeroAdd (D : Dress M) : Prop :=
  ∀ a b l, D.ops.a_plus_b D.zero (D.post (D.ops.multab_dag a b) l) = D.post (D.ops.multab_dag a b) l

theorem forN_skip {σ : Type*} (n : ℕ) (l : List ℕ) (F : ℕ → σ → σ) (z : σ) :
    forN n (fun j s => if j ∈ l then s else F j s) z =
      ((List.range n).filter (fun j => ¬ j ∈ l)).foldl (fun s j => F j s) z := by
  induction n with
  | zero => rfl
  | succ n ih =>
    rw [forN_succ, ih, List.range_succ, List.filter_append, List.foldl_append]
    by_cases h : n ∈ l <;> simp [h]

theorem lone_four {a b c d : ℕ} (ha : a < 4) (hb : b < 4) (hc : c < 4) (hd : d < 4) (h1 : a ≠ b) (h2 : a ≠ c) (h3 : a ≠ d)
    (h4 : b ≠ c) (h5 : b ≠ d) (h6 : c ≠ d) : (List.range 4).filter (fun j => ¬ j ∈ [a, b] ++ [c]) = [d] := by
  have H : ∀ a b c d : Fin 4, (a.1 ≠ b.1 ∧ a.1 ≠ c.1 ∧ a.1 ≠ d.1 ∧ b.1 ≠ c.1 ∧ b.1 ≠ d.1 ∧ c.1 ≠ d.1) →
    (List.range 4).filter (fun j => ¬ j ∈ [a.1, b.1] ++ [c.1]) = [d.1] := by decide +kernel
  exact H ⟨a, ha⟩ ⟨b, hb⟩ ⟨c, hc⟩ ⟨d, hd⟩ ⟨h1, h2, h3, h4, h5, h6⟩

theorem lone_three {a c d : ℕ} (ha : a < 3) (hc : c < 3) (hd : d < 3) (h2 : a ≠ c) (h3 : a ≠ d) (h6 : c ≠ d) :
    (List.range 3).filter (fun j => ¬ j ∈ [a] ++ [c]) = [d] := by
  have H : ∀ a c d : Fin 3, (a.1 ≠ c.1 ∧ a.1 ≠ d.1 ∧ c.1 ≠ d.1) →
    (List.range 3).filter (fun j => ¬ j ∈ [a.1] ++ [c.1]) = [d.1] := by decide +kernel
  exact H ⟨a, ha⟩ ⟨c, hc⟩ ⟨d, hd⟩ ⟨h2, h3, h6⟩

theorem rec_four_one (L : Latt) {D : Dress M} (hz : ZeroAdd D) (lat : Loc → M) (i : ℕ) {a b c d : ℕ} (ha : a < 4) (hb : b < 4)
    (hc : c < 4) (hd : d < 4) (h1 : a ≠ b) (h2 : a ≠ c) (h3 : a ≠ d) (h4 : b ≠ c) (h5 : b ≠ d) (h6 : c ≠ d) :
    recurse_staples L D 4 lat 0 [a, b] c i = thinDress L D 3 lat i c d := by
  rw [recurse_staples]
  rw [forN_skip, lone_four ha hb hc hd h1 h2 h3 h4 h5 h6]
  simp only [List.foldl_cons, List.foldl_nil, addStaples, thinDress, hz _ _ _]

theorem rec_three_one (L : Latt) {D : Dress M} (hz : ZeroAdd D) (lat : Loc → M) (i : ℕ) {a c d : ℕ} (ha : a < 3)
    (hc : c < 3) (hd : d < 3) (h2 : a ≠ c) (h3 : a ≠ d) (h6 : c ≠ d) :
    recurse_staples L D 3 lat 0 [a] c i = thinDress L D 2 lat i c d := by
  rw [recurse_staples]
  rw [forN_skip, lone_three ha hc hd h2 h3 h6]
  simp only [List.foldl_cons, List.foldl_nil, addStaples, thinDress, hz _ _ _]

theorem rec_four_two (L : Latt) {D : Dress M} (hz : ZeroAdd D) (lat : Loc → M) (i : ℕ) (junk : ℕ → ℕ → M) {mu nu : ℕ}
    (hmu : mu < 4) (hnu : nu < 4) (h : mu ≠ nu) :
    recurse_staples L D 4 lat 1 [nu] mu i = fatDress L D lat (fun x => get_lv1 L D 4 3 lat x (junk x)) i mu nu := by
  rw [recurse_staples, fatDress]
  congr 1
  refine forN_congr (fun rho hrho stap => ?_) _
  by_cases hr : rho = mu ∨ rho = nu
  · rw [if_pos hr, if_pos (by simp; tauto)]
  · rw [if_neg hr, if_neg (by simp; tauto)]
    obtain ⟨sigma, hs, s1, s2, s3, e⟩ := fourth hmu hnu hrho h (by tauto) (by tauto)
    rw [e]
    congr 1
    · funext x
      rw [lv1_four L D lat x (junk x) hrho hs (by tauto)]
      exact rec_four_one L hz lat x hnu hmu hrho hs (by tauto) (by tauto) (by tauto) (by tauto) (by tauto) (by tauto)
    · funext x
      rw [lv1_four L D lat x (junk x) hmu hs (by tauto)]
      exact rec_four_one L hz lat x hnu hrho hmu hs (by tauto) (by tauto) (by tauto) (by tauto) (by tauto) (by tauto)

theorem rec_four (L : Latt) {D : Dress M} (hz : ZeroAdd D) (lat : Loc → M) (i : ℕ) (j1 j2 : ℕ → ℕ → M) {mu : ℕ} (hmu : mu < 4) :
    recurse_staples L D 4 lat 2 [] mu i =
      D.project 1 (gen_staples_4D L D (fun x => get_lv2 L D lat (fun x => get_lv1 L D 4 3 lat x (j1 x)) x (j2 x))
        lat i mu D.zero) (lat (i, mu)) := by
  rw [recurse_staples, gen_staples_4D]
  dsimp only
  congr 1
  refine forN_congr (fun nu hnu stap => ?_) _
  by_cases hr : mu = nu
  · rw [if_pos hr, if_pos (by simp [hr])]
  · rw [if_neg hr, if_neg (by simp; tauto)]
    congr 1
    · funext x
      rw [lv2_four L D lat _ x (j2 x) hnu hmu (by tauto)]
      exact rec_four_two L hz lat x j1 hnu hmu (by tauto)
    · funext x
      rw [lv2_four L D lat _ x (j2 x) hmu hnu (by tauto)]
      exact rec_four_two L hz lat x j1 hmu hnu (by tauto)

/-! ### Which sites are read -/

/-- Coordinate `b` is one of those next to `a` on a circle of `n` points. -/
def NearLink (n a b : ℕ) : Prop := b = a ∨ b = (a + 1) % n ∨ (b + 1) % n = a

/-- The sites `y` from which the link of direction `rho` at `x` is dressed, in `dirs` directions, without the directions of
`pre`. -/
def InCube (L : Latt) (dirs : ℕ) (pre : List ℕ) (rho x y : ℕ) : Prop :=
  ∀ d < L.ND,
    if d = rho then coord L L.ND y d = coord L L.ND x d ∨ coord L L.ND y d = (coord L L.ND x d + 1) % L.dims d
    else if d ∈ pre ∨ dirs ≤ d then coord L L.ND y d = coord L L.ND x d
    else NearLink (L.dims d) (coord L L.ND x d) (coord L L.ND y d)

theorem coordN_neighbor {L : Latt} (hL : Valid L) (i : ℕ) {mu nu : ℕ} (hmu : mu < L.ND) (hnu : nu < L.ND) :
    coord L L.ND (neighbor L i mu) nu = if nu = mu then (coord L L.ND i nu + 1) % L.dims nu else coord L L.ND i nu := by
  have h := coord_neighbor hL i hmu hnu
  by_cases e : nu = mu
  · subst e
    rw [if_pos rfl] at h ⊢
    exact_mod_cast h
  · rw [if_neg e] at h ⊢
    exact_mod_cast h

theorem coordN_back {L : Latt} (hL : Valid L) {i : ℕ} (hi : i < volume L) {mu nu : ℕ} (hmu : mu < L.ND) (hnu : nu < L.ND) :
    if nu = mu then (coord L L.ND (back L i mu) nu + 1) % L.dims nu = coord L L.ND i nu
    else coord L L.ND (back L i mu) nu = coord L L.ND i nu := by
  have h := coordN_neighbor hL (back L i mu) hmu hnu
  rw [(C02_inverse hL hi hmu).2] at h
  by_cases e : nu = mu
  · rw [if_pos e] at h ⊢; exact h.symm
  · rw [if_neg e] at h ⊢; exact h.symm

/-- What the six links of the two staples in the plane of `rho` and `jj` read. -/
structure CubeStep (L : Latt) (dirs : ℕ) (pre : List ℕ) (rho jj i : ℕ) : Prop where
  u0 : ∀ y, InCube L dirs (pre ++ [rho]) jj i y → InCube L dirs pre rho i y
  v1 : ∀ y, InCube L dirs (pre ++ [jj]) rho (neighbor L i jj) y → InCube L dirs pre rho i y
  u1 : ∀ y, InCube L dirs (pre ++ [rho]) jj (neighbor L i rho) y → InCube L dirs pre rho i y
  ub : ∀ y, InCube L dirs (pre ++ [rho]) jj (back L i jj) y → InCube L dirs pre rho i y
  vb : ∀ y, InCube L dirs (pre ++ [jj]) rho (back L i jj) y → InCube L dirs pre rho i y
  un : ∀ y, InCube L dirs (pre ++ [rho]) jj (neighbor L (back L i jj) rho) y → InCube L dirs pre rho i y

theorem cubeStep {L : Latt} (hL : Valid L) {dirs : ℕ} (hd : dirs ≤ L.ND) {pre : List ℕ} {rho jj i : ℕ} (hr : rho < dirs)
    (hj : jj < dirs) (hn : jj ∉ pre ++ [rho]) (hi : i < volume L) : CubeStep L dirs pre rho jj i := by
  have hjr : jj ≠ rho := by rintro rfl; simp at hn
  have hjp : jj ∉ pre := by intro h; apply hn; simp [h]
  have hb := back_lt hL i (show jj < L.ND by omega)
  constructor <;> intro y h d hdl <;> have h := h d hdl <;>
    have c1 := coordN_neighbor hL i (show jj < L.ND by omega) hdl <;>
    have c2 := coordN_neighbor hL i (show rho < L.ND by omega) hdl <;>
    have c3 := coordN_back hL hi (show jj < L.ND by omega) hdl <;>
    have c4 := coordN_neighbor hL (back L i jj) (show rho < L.ND by omega) hdl <;>
    clear * - h c1 c2 c3 c4 hjr hjp hj hr <;>
    simp only [NearLink, List.mem_append, List.mem_singleton] at h ⊢ <;>
    grind

theorem inCube_self (L : Latt) (dirs : ℕ) (pre : List ℕ) (rho x : ℕ) : InCube L dirs pre rho x x := by
  intro d _
  split
  · exact Or.inl rfl
  · split
    · rfl
    · exact Or.inl rfl

theorem addStaples_congr {L : Latt} {D : Dress M} {i rho jj : ℕ} {U V U' V' : ℕ → M} {l l' s s' : M}
    (h0 : U i = U' i) (h1 : V (neighbor L i jj) = V' (neighbor L i jj))
    (h2 : U (neighbor L i rho) = U' (neighbor L i rho)) (h3 : U (back L i jj) = U' (back L i jj))
    (h4 : V (back L i jj) = V' (back L i jj))
    (h5 : U (neighbor L (back L i jj) rho) = U' (neighbor L (back L i jj) rho)) (hl : l = l') (hs : s = s') :
    addStaples L D i rho jj U V l s = addStaples L D i rho jj U' V' l' s' := by
  unfold addStaples
  simp only [h0, h1, h2, h3, h4, h5, hl, hs]

theorem rec_congr {L : Latt} (hL : Valid L) (D : Dress M) {dirs : ℕ} (hd : dirs ≤ L.ND) {lat lat' : Loc → M} (k : ℕ) :
    ∀ (pre : List ℕ) {rho i : ℕ}, rho < dirs → i < volume L →
      (∀ y < volume L, InCube L dirs pre rho i y → ∀ nu < dirs, lat (y, nu) = lat' (y, nu)) →
      recurse_staples L D dirs lat k pre rho i = recurse_staples L D dirs lat' k pre rho i := by
  induction k with
  | zero =>
    intro pre rho i hr hi h
    have e := h i hi (inCube_self _ _ _ _ _) rho hr
    rw [recurse_staples, recurse_staples, e]
    congr 1
    refine forN_congr (fun jj hj s => ?_) _
    by_cases hm : jj ∈ pre ++ [rho]
    · rw [if_pos hm, if_pos hm]
    rw [if_neg hm, if_neg hm]
    have c := cubeStep hL hd hr hj hm hi
    have n1 := neighbor_lt hL i (show jj < L.ND by omega)
    have n2 := neighbor_lt hL i (show rho < L.ND by omega)
    have n3 := back_lt hL i (show jj < L.ND by omega)
    have n4 := neighbor_lt hL (back L i jj) (show rho < L.ND by omega)
    exact addStaples_congr (h _ hi (c.u0 _ (inCube_self _ _ _ _ _)) _ hj) (h _ n1 (c.v1 _ (inCube_self _ _ _ _ _)) _ hr)
      (h _ n2 (c.u1 _ (inCube_self _ _ _ _ _)) _ hj) (h _ n3 (c.ub _ (inCube_self _ _ _ _ _)) _ hj)
      (h _ n3 (c.vb _ (inCube_self _ _ _ _ _)) _ hr) (h _ n4 (c.un _ (inCube_self _ _ _ _ _)) _ hj) rfl rfl
  | succ k ih =>
    intro pre rho i hr hi h
    have e := h i hi (inCube_self _ _ _ _ _) rho hr
    rw [recurse_staples, recurse_staples, e]
    congr 1
    refine forN_congr (fun jj hj s => ?_) _
    by_cases hm : jj ∈ pre ++ [rho]
    · rw [if_pos hm, if_pos hm]
    rw [if_neg hm, if_neg hm]
    have c := cubeStep hL hd hr hj hm hi
    have n1 := neighbor_lt hL i (show jj < L.ND by omega)
    have n2 := neighbor_lt hL i (show rho < L.ND by omega)
    have n3 := back_lt hL i (show jj < L.ND by omega)
    have n4 := neighbor_lt hL (back L i jj) (show rho < L.ND by omega)
    exact addStaples_congr (ih _ hj hi fun y hy q => h y hy (c.u0 _ q)) (ih _ hr n1 fun y hy q => h y hy (c.v1 _ q))
      (ih _ hj n2 fun y hy q => h y hy (c.u1 _ q)) (ih _ hj n3 fun y hy q => h y hy (c.ub _ q))
      (ih _ hr n3 fun y hy q => h y hy (c.vb _ q)) (ih _ hj n4 fun y hy q => h y hy (c.un _ q)) rfl rfl

theorem time_coord {L : Latt} (hL : Valid L) {x : ℕ} (hx : x < volume L) : time L x = coord L L.ND x (L.ND - 1) := by
  have hnd := hL.nd
  rw [coord_eq L (show L.ND - 1 < L.ND by omega), ← lcu_eq L hnd]
  exact (Nat.mod_eq_of_lt (site_split hL hx).1).symm

theorem hyp_reads {L : Latt} (hL : Valid L) (D : Dress M) {dirs : ℕ} (hd : dirs ≤ L.ND) :
    ReadsIn L dirs (Adjacent (extent L)) (hypLink L D dirs) := by
  intro lat lat' z x mu hx hmu h
  unfold hypLink
  rw [rec_congr hL D hd (lat := lat) (lat' := lat') _ [] hmu hx]
  intro y hy hc nu hnu
  refine h y hy nu (by omega) ?_
  have := hc (L.ND - 1) (by have := hL.nd; omega)
  rw [← time_coord hL hy, ← time_coord hL hx] at this
  unfold Adjacent
  unfold NearLink at this
  split at this
  · rcases this with h | h
    · exact Or.inl h
    · exact Or.inr (Or.inl h)
  · split at this
    · exact Or.inl this
    · exact this

/-! ### Spatial smearing -/

theorem spatial_step {L : Latt} (hL : Valid L) {t i mu : ℕ} (ht : t < extent L) (hi : i < lcu L) (hmu : mu < L.ND - 1) :
    neighbor L i mu < lcu L ∧ neighbor L (lcu L * t + i) mu = lcu L * t + neighbor L i mu ∧
    back L i mu < lcu L ∧ back L (lcu L * t + i) mu = lcu L * t + back L i mu := by
  have h := (slice_neighbor hL (t := t) ht hi).1 mu hmu
  have hv : i < volume L := by
    have := slice_lt (L := L) (extent_pos hL) hi
    omega
  have hb : back L i mu < lcu L := by
    have q := time_back hL hv (show mu < L.ND by omega)
    rw [if_neg (by omega)] at q
    have z : time L i = 0 := Nat.div_eq_of_lt hi
    rw [z] at q
    exact (Nat.div_eq_zero_iff_lt (lcu_pos hL)).1 q
  refine ⟨h.1, h.2, hb, ?_⟩
  have h2 := ((slice_neighbor hL (t := t) ht hb).1 mu hmu).2
  rw [(C02_inverse hL hv (show mu < L.ND by omega)).2] at h2
  rw [← h2]
  exact (C02_inverse hL (slice_lt ht hb) (by omega)).1

theorem addStaples_slice {L : Latt} (hL : Valid L) (D : Dress M) {t i rho jj : ℕ} (ht : t < extent L) (hi : i < lcu L)
    (hr : rho < L.ND - 1) (hj : jj < L.ND - 1) (U V : ℕ → M) (l s : M) :
    addStaples L D (lcu L * t + i) rho jj U V l s =
      addStaples L D i rho jj (fun x => U (lcu L * t + x)) (fun x => V (lcu L * t + x)) l s := by
  obtain ⟨_, a2, a3, a4⟩ := spatial_step hL ht hi hj
  obtain ⟨_, b2, _, _⟩ := spatial_step hL ht hi hr
  obtain ⟨_, c2, _, _⟩ := spatial_step hL ht a3 hr
  unfold addStaples
  simp only [a2, a4, b2, c2]

theorem rec_three {L : Latt} (hL : Valid L) (h4 : L.ND = 4) {D : Dress M} (hz : ZeroAdd D) (lat : Loc → M) {t i : ℕ}
    (ht : t < extent L) (hi : i < lcu L) (junk : ℕ → ℕ → M) {mu : ℕ} (hmu : mu < 3) :
    recurse_staples L D 3 lat 1 [] mu (lcu L * t + i) =
      D.project 1 (staples3D L D (fun it => get_lv1 L D 3 2 lat (lcu L * t + it) (junk it)) lat i mu t D.zero)
        (lat (lcu L * t + i, mu)) := by
  rw [recurse_staples, staples3D]
  congr 1
  refine forN_congr (fun nu hnu stap => ?_) _
  by_cases hr : nu = mu
  · rw [if_pos hr, if_pos (by simp [hr])]
  · rw [if_neg hr, if_neg (by simp; tauto), addStaples_slice hL D ht hi (by omega) (by omega)]
    obtain ⟨s, hs, s1, s2, e⟩ := third hmu hnu hr
    rw [e]
    congr 1
    · funext x
      rw [lv1_three L D lat _ (junk x) hnu hs (by tauto)]
      exact rec_three_one L hz lat _ hmu hnu hs (by tauto) (by tauto) (by tauto)
    · funext x
      rw [lv1_three L D lat _ (junk x) hmu hs (by tauto)]
      exact rec_three_one L hz lat _ hnu hmu hs (by tauto) (by tauto) (by tauto)

theorem staples3D_congr (L : Latt) (D : Dress M) (lev1 : ℕ → ℕ → M) {lat lat' : Loc → M} {i mu t : ℕ}
    (h : lat (lcu L * t + i, mu) = lat' (lcu L * t + i, mu)) (z : M) :
    staples3D L D lev1 lat i mu t z = staples3D L D lev1 lat' i mu t z := by
  unfold staples3D
  rw [h]

theorem spatialSite_lat (L : Latt) (D : Dress M) (lev1 : ℕ → ℕ → M) (t i : ℕ) (s : (Loc → M) × (Loc → M)) (l : Loc) :
    (spatialSite L D lev1 t i s).1 l = if l.1 = lcu L * t + i ∧ l.2 < 3 then
      D.project 1 (staples3D L D lev1 s.1 i l.2 t D.zero) (s.1 l) else s.1 l := by
  obtain ⟨x, mu⟩ := l
  unfold spatialSite
  simp only [forN, Function.update_apply, Prod.mk.injEq]
  by_cases hx : x = lcu L * t + i
  · subst hx
    by_cases hmu : mu < 3
    · interval_cases mu <;> simp
    · rw [if_neg (by omega), if_neg (by omega), if_neg (by omega), if_neg (by omega)]
  · simp [hx]

theorem spatialStep_lat (L : Latt) (D : Dress M) (junk : ℕ → ℕ → M) (t : ℕ) (s : (Loc → M) × (Loc → M)) (l : Loc) :
    (spatialStep L D junk t s).1 l = if lcu L * t ≤ l.1 ∧ l.1 < lcu L * t + lcu L ∧ l.2 < 3 then
      D.project 1 (staples3D L D (fun it => get_lv1 L D 3 2 s.1 (lcu L * t + it) (junk it)) s.1 (l.1 - lcu L * t) l.2 t D.zero)
        (s.1 l) else s.1 l := by
  unfold spatialStep
  refine forN_inv (fun n (r : (Loc → M) × (Loc → M)) => ∀ l : Loc, r.1 l =
    if lcu L * t ≤ l.1 ∧ l.1 < lcu L * t + n ∧ l.2 < 3 then
      D.project 1 (staples3D L D (fun it => get_lv1 L D 3 2 s.1 (lcu L * t + it) (junk it)) s.1 (l.1 - lcu L * t) l.2 t D.zero)
        (s.1 l) else s.1 l) ?_ ?_ l
  · intro l
    rw [if_neg (by omega)]
  · intro n hn r h l
    rw [spatialSite_lat]
    by_cases hl : l.1 = lcu L * t + n ∧ l.2 < 3
    · have e : r.1 l = s.1 l := by rw [h l, if_neg (by omega)]
      rw [if_pos hl, if_pos (by omega), e, show l.1 - lcu L * t = n by omega]
      congr 1
      exact staples3D_congr L D _ (by rw [← hl.1]; exact e) _
    · rw [if_neg hl, h l]
      by_cases hc : lcu L * t ≤ l.1 ∧ l.1 < lcu L * t + n ∧ l.2 < 3
      · rw [if_pos hc, if_pos (by omega)]
      · rw [if_neg hc, if_neg (by omega)]

theorem spatialStep_eq {L : Latt} (hL : Valid L) (h4 : L.ND = 4) {D : Dress M} (hz : ZeroAdd D) (junk : ℕ → ℕ → M) {t : ℕ}
    (ht : t < extent L) (s : (Loc → M) × (Loc → M)) (st : St M Unit) (h : st.lat = s.1) :
    (spatialStep L D junk t s).1 = (slice3D L (hypLink L D 3) t st).lat := by
  funext l
  rw [spatialStep_lat, (slice3D_eq hL (hypLink L D 3) ht st).1 l, h]
  have hw := window hL (x := l.1) ht
  by_cases hc : lcu L * t ≤ l.1 ∧ l.1 < lcu L * t + lcu L ∧ l.2 < 3
  · rw [if_pos hc, if_pos ⟨(hw.1 ⟨hc.1, hc.2.1⟩).1, by omega, (hw.1 ⟨hc.1, hc.2.1⟩).2⟩]
    obtain ⟨i, hi⟩ := Nat.exists_eq_add_of_le hc.1
    obtain ⟨x, mu⟩ := l
    simp only at hi hc ⊢
    subst hi
    rw [Nat.add_sub_cancel_left]
    exact (rec_three hL h4 hz s.1 ht (by omega) junk hc.2.2).symm
  · rw [if_neg hc, if_neg]
    rintro ⟨a, b, c⟩
    have := hw.2 ⟨a, c⟩
    exact hc ⟨this.1, this.2, by omega⟩

theorem hyp_reads_slice {L : Latt} (hL : Valid L) (D : Dress M) : ReadsSlice L (hypLink L D (L.ND - 1)) := by
  intro lat lat' z x mu hx hmu h
  unfold hypLink
  rw [rec_congr hL D (by omega) (lat := lat) (lat' := lat') _ [] hmu hx]
  intro y hy hc nu hnu
  refine h y hy nu hnu ?_
  have := hc (L.ND - 1) (by have := hL.nd; omega)
  rw [← time_coord hL hy, ← time_coord hL hx, if_neg (by omega), if_pos (Or.inr le_rfl)] at this
  exact this

end GLU.Smear
