import Verif.Smear.Model
import Verif.Field.Props

/-!
# Helper lemmas for the smearing loops
-/

namespace GLU.Smear

open GLU.Geom GLU.Sched GLU.Field

/-- Two nested loops whose iterations only touch their own part of the state, observed
through `obs`. -/
theorem grid {σ X : Type*} (n m : ℕ) (body : ℕ → ℕ → σ → σ) (obs : ℕ → ℕ → σ → X)
    (G : ℕ → ℕ → X → X)
    (hown : ∀ i < n, ∀ mu < m, ∀ s, obs i mu (body i mu s) = G i mu (obs i mu s))
    (hoth : ∀ i < n, ∀ mu < m, ∀ i' < n, ∀ mu' < m, ∀ s, (i', mu') ≠ (i, mu) →
      obs i' mu' (body i mu s) = obs i' mu' s)
    (s : σ) {i mu : ℕ} (hi : i < n) (hmu : mu < m) :
    obs i mu (forN n (fun i s => forN m (fun mu s => body i mu s) s) s) = G i mu (obs i mu s) := by
  have inner : ∀ k < n, ∀ s : σ, ∀ i < n, ∀ mu < m, ∀ m' ≤ m,
      obs i mu (forN m' (fun mu s => body k mu s) s) =
        if i = k ∧ mu < m' then G i mu (obs i mu s) else obs i mu s := by
    intro k hk s i hi mu hmu m' hm'
    induction m' with
    | zero => simp [forN]
    | succ m' ih =>
      have ih' := ih (by omega)
      rw [forN]
      by_cases h : i = k ∧ mu = m'
      · obtain ⟨rfl, rfl⟩ := h
        rw [hown _ hk _ hmu, ih', if_neg (by omega), if_pos (by omega)]
      · rw [hoth k hk m' (by omega) i hi mu hmu _ (by simpa [Prod.ext_iff] using h), ih']
        by_cases h2 : i = k ∧ mu < m'
        · rw [if_pos h2, if_pos (by omega)]
        · rw [if_neg h2, if_neg (by omega)]
  have outer : ∀ n' ≤ n, obs i mu (forN n' (fun i s => forN m (fun mu s => body i mu s) s) s) =
      if i < n' then G i mu (obs i mu s) else obs i mu s := by
    intro n' hn'
    induction n' with
    | zero => simp [forN]
    | succ n' ih =>
      have ih' := ih (by omega)
      rw [forN, inner n' (by omega) _ i hi mu hmu m (le_refl _), ih']
      by_cases h : i = n'
      · rw [if_pos ⟨h, hmu⟩, if_neg (by omega), if_pos (by omega)]
      · rw [if_neg (by omega)]
        by_cases h2 : i < n'
        · rw [if_pos h2, if_pos (by omega)]
        · rw [if_neg h2, if_neg (by omega)]
  rw [outer n (le_refl _), if_pos hi]

/-- What no iteration changes stays. -/
theorem grid_frame {σ X : Type*} (n m : ℕ) (body : ℕ → ℕ → σ → σ) (obs : σ → X)
    (h : ∀ i < n, ∀ mu < m, ∀ s, obs (body i mu s) = obs s) (s : σ) :
    obs (forN n (fun i s => forN m (fun mu s => body i mu s) s) s) = obs s := by
  refine forN_inv (fun _ (s1 : σ) => obs s1 = obs s) rfl ?_
  intro i hi s' hs'
  rw [← hs']
  exact forN_inv (fun _ (s2 : σ) => obs s2 = obs s') rfl fun mu hmu s'' hs'' => by
    rw [h i hi mu hmu, hs'']

variable {M Z : Type}

theorem fill_own (upd : Upd M Z) (dirs base n : ℕ) (lat : Loc → M) (s : (Loc → Z) × (Loc → M)) {i mu : ℕ}
    (hi : i < n) (hmu : mu < dirs) :
    (fill upd dirs base n lat s).1 (base + i, mu) = (upd lat (s.1 (base + i, mu)) (base + i) mu).1 ∧
    (fill upd dirs base n lat s).2 (i, mu) = (upd lat (s.1 (base + i, mu)) (base + i) mu).2 := by
  have := grid n dirs (fun i mu (s : (Loc → Z) × (Loc → M)) =>
      ((Function.update s.1 (base + i, mu) (upd lat (s.1 (base + i, mu)) (base + i) mu).1,
        Function.update s.2 (i, mu) (upd lat (s.1 (base + i, mu)) (base + i) mu).2) :
        (Loc → Z) × (Loc → M)))
    (fun i mu s => (s.1 (base + i, mu), s.2 (i, mu)))
    (fun i mu x => ((upd lat x.1 (base + i) mu).1, (upd lat x.1 (base + i) mu).2))
    (by intro i _ mu _ s; simp)
    (by
      intro i _ mu _ i' _ mu' _ s hne
      have h1 : (base + i', mu') ≠ (base + i, mu) := by
        simp only [ne_eq, Prod.mk.injEq] at hne ⊢; omega
      simp only [Function.update_of_ne h1, Function.update_of_ne hne])
    s hi hmu
  exact Prod.ext_iff.mp this

theorem fill_z_other (upd : Upd M Z) (dirs base n : ℕ) (lat : Loc → M) (s : (Loc → Z) × (Loc → M)) {l : Loc}
    (hl : ¬ (base ≤ l.1 ∧ l.1 < base + n ∧ l.2 < dirs)) :
    (fill upd dirs base n lat s).1 l = s.1 l := by
  refine grid_frame n dirs (fun i mu (s : (Loc → Z) × (Loc → M)) =>
      ((Function.update s.1 (base + i, mu) (upd lat (s.1 (base + i, mu)) (base + i) mu).1,
        Function.update s.2 (i, mu) (upd lat (s.1 (base + i, mu)) (base + i) mu).2) :
        (Loc → Z) × (Loc → M))) (fun s => s.1 l) ?_ s
  intro i hi mu hmu s
  have : l ≠ (base + i, mu) := by rintro rfl; simp at hl; omega
  simp [Function.update_of_ne this]

theorem rotate_own (L : Latt) (dirs : ℕ) {t bck : ℕ} (lat2 : Loc → M) (s : (Loc → M) × (Loc → M)) {i mu : ℕ}
    (hi : i < lcu L) (hmu : mu < dirs) :
    (rotate L dirs t bck lat2 s).1 (bck + i, mu) = (if t ≠ 0 then s.2 (i, mu) else s.1 (bck + i, mu)) ∧
    (rotate L dirs t bck lat2 s).2 (i, mu) = lat2 (i, mu) := by
  have := grid (lcu L) dirs (fun i mu (s : (Loc → M) × (Loc → M)) =>
      ((if t ≠ 0 then Function.update s.1 (bck + i, mu) (s.2 (i, mu)) else s.1,
        Function.update s.2 (i, mu) (lat2 (i, mu))) : (Loc → M) × (Loc → M)))
    (fun i mu s => (s.1 (bck + i, mu), s.2 (i, mu)))
    (fun i mu x => (if t ≠ 0 then x.2 else x.1, lat2 (i, mu)))
    (by intro i _ mu _ s; by_cases h : t = 0 <;> simp [h])
    (by
      intro i _ mu _ i' _ mu' _ s hne
      have h1 : (bck + i', mu') ≠ (bck + i, mu) := by
        simp only [ne_eq, Prod.mk.injEq] at hne ⊢; omega
      by_cases h : t = 0 <;> simp [h, Function.update_of_ne h1, Function.update_of_ne hne])
    s hi hmu
  exact Prod.ext_iff.mp this

theorem rotate_other (L : Latt) (dirs : ℕ) {t bck : ℕ} (lat2 : Loc → M) (s : (Loc → M) × (Loc → M)) {l : Loc}
    (hl : t = 0 ∨ ¬ (bck ≤ l.1 ∧ l.1 < bck + lcu L ∧ l.2 < dirs)) :
    (rotate L dirs t bck lat2 s).1 l = s.1 l := by
  refine grid_frame (lcu L) dirs (fun i mu (s : (Loc → M) × (Loc → M)) =>
      ((if t ≠ 0 then Function.update s.1 (bck + i, mu) (s.2 (i, mu)) else s.1,
        Function.update s.2 (i, mu) (lat2 (i, mu))) : (Loc → M) × (Loc → M))) (fun s => s.1 l) ?_ s
  intro i hi mu hmu s
  by_cases h : t = 0
  · simp [h]
  · have : l ≠ (bck + i, mu) := by rintro rfl; simp at hl; omega
    simp [h, Function.update_of_ne this]

theorem finish_slice (L : Latt) (dirs : ℕ) (behind slice : ℕ) (hd : behind = slice ∨ behind + lcu L ≤ slice)
    (lat3 lat4 lat : Loc → M) {i mu : ℕ} (hi : i < lcu L) (hmu : mu < dirs) :
    finish L dirs behind slice lat3 lat4 lat (slice + i, mu) = lat4 (i, mu) := by
  exact grid (lcu L) dirs (fun i mu (lat : Loc → M) =>
      Function.update (Function.update lat (behind + i, mu) (lat3 (i, mu))) (slice + i, mu) (lat4 (i, mu)))
    (fun i mu lat => lat (slice + i, mu)) (fun i mu _ => lat4 (i, mu))
    (by intro i _ mu _ s; simp)
    (by
      intro i hi mu _ i' hi' mu' _ s hne
      have h1 : (slice + i', mu') ≠ (slice + i, mu) := by
        simp only [ne_eq, Prod.mk.injEq] at hne ⊢; omega
      have h2 : (slice + i', mu') ≠ (behind + i, mu) := by
        simp only [ne_eq, Prod.mk.injEq] at hne ⊢; omega
      simp only [Function.update_of_ne h1, Function.update_of_ne h2])
    lat hi hmu

theorem finish_behind (L : Latt) (dirs : ℕ) (behind slice : ℕ) (hd : behind + lcu L ≤ slice)
    (lat3 lat4 lat : Loc → M) {i mu : ℕ} (hi : i < lcu L) (hmu : mu < dirs) :
    finish L dirs behind slice lat3 lat4 lat (behind + i, mu) = lat3 (i, mu) := by
  exact grid (lcu L) dirs (fun i mu (lat : Loc → M) =>
      Function.update (Function.update lat (behind + i, mu) (lat3 (i, mu))) (slice + i, mu) (lat4 (i, mu)))
    (fun i mu lat => lat (behind + i, mu)) (fun i mu _ => lat3 (i, mu))
    (by
      intro i hi mu _ s
      have h1 : (behind + i, mu) ≠ (slice + i, mu) := by
        simp only [ne_eq, Prod.mk.injEq]; omega
      simp [Function.update_of_ne h1])
    (by
      intro i hi mu _ i' hi' mu' _ s hne
      have h1 : (behind + i', mu') ≠ (behind + i, mu) := by
        simp only [ne_eq, Prod.mk.injEq] at hne ⊢; omega
      have h2 : (behind + i', mu') ≠ (slice + i, mu) := by
        simp only [ne_eq, Prod.mk.injEq] at hne ⊢; omega
      simp only [Function.update_of_ne h1, Function.update_of_ne h2])
    lat hi hmu

theorem finish_other (L : Latt) (dirs : ℕ) (behind slice : ℕ) (lat3 lat4 lat : Loc → M) {l : Loc}
    (h1 : ¬ (behind ≤ l.1 ∧ l.1 < behind + lcu L ∧ l.2 < dirs))
    (h2 : ¬ (slice ≤ l.1 ∧ l.1 < slice + lcu L ∧ l.2 < dirs)) :
    finish L dirs behind slice lat3 lat4 lat l = lat l := by
  refine grid_frame (lcu L) dirs (fun i mu (lat : Loc → M) =>
      Function.update (Function.update lat (behind + i, mu) (lat3 (i, mu))) (slice + i, mu) (lat4 (i, mu)))
    (fun lat => lat l) ?_ lat
  intro i hi mu hmu s
  have e1 : l ≠ (behind + i, mu) := by rintro rfl; simp at h1; omega
  have e2 : l ≠ (slice + i, mu) := by rintro rfl; simp at h2; omega
  simp [Function.update_of_ne e1, Function.update_of_ne e2]

/-! ### Slices -/

/-- Time slice of a site. -/
def time (L : Latt) (x : ℕ) : ℕ := x / lcu L

theorem lcu_pos {L : Latt} (hL : Valid L) : 0 < lcu L := by
  rw [lcu_eq L hL.nd]; exact hL.radix_pos _ (by omega)

theorem extent_pos {L : Latt} (hL : Valid L) : 0 < extent L := by
  have := hL.nd; exact hL.pos _ (by omega)

theorem volume_slices (L : Latt) : volume L = lcu L * extent L := rfl

theorem time_add {L : Latt} (t : ℕ) {i : ℕ} (hi : i < lcu L) : time L (lcu L * t + i) = t := by
  unfold time
  rw [Nat.mul_add_div (by omega), Nat.div_eq_of_lt hi, Nat.add_zero]

theorem site_split {L : Latt} (hL : Valid L) {x : ℕ} (hx : x < volume L) :
    time L x < extent L ∧ x % lcu L < lcu L ∧ x = lcu L * time L x + x % lcu L :=
  ⟨Nat.div_lt_of_lt_mul hx, Nat.mod_lt _ (lcu_pos hL), (Nat.div_add_mod x _).symm⟩

theorem slice_lt {L : Latt} {t i : ℕ} (ht : t < extent L) (hi : i < lcu L) : lcu L * t + i < volume L := by
  rw [volume_slices]
  calc lcu L * t + i < lcu L * t + lcu L := by omega
    _ = lcu L * (t + 1) := by ring
    _ ≤ _ := Nat.mul_le_mul_left _ (by omega)

theorem slice_back {L : Latt} (hL : Valid L) {t i : ℕ} (ht : t < extent L) (hi : i < lcu L) :
    back L (lcu L * t + i) (L.ND - 1) = lcu L * ((t + (extent L - 1)) % extent L) + i := by
  have hnd := hL.nd
  have hp := extent_pos hL
  have hm : (t + (extent L - 1)) % extent L < extent L := Nat.mod_lt _ hp
  have h := (slice_neighbor hL (t := (t + (extent L - 1)) % extent L) hm hi).2
  have e : ((t + (extent L - 1)) % extent L + 1) % L.dims (L.ND - 1) = t := by
    show ((t + (extent L - 1)) % extent L + 1) % extent L = t
    rw [Nat.mod_add_mod, show t + (extent L - 1) + 1 = t + extent L by omega, Nat.add_mod_right,
      Nat.mod_eq_of_lt ht]
  rw [e] at h
  rw [← h]
  exact (C02_inverse hL (slice_lt hm hi) (by omega)).1

theorem time_neighbor {L : Latt} (hL : Valid L) {x mu : ℕ} (hx : x < volume L) (hmu : mu < L.ND) :
    time L (neighbor L x mu) = if mu = L.ND - 1 then (time L x + 1) % extent L else time L x := by
  obtain ⟨h1, h2, h3⟩ := site_split hL hx
  have h := slice_neighbor hL (t := time L x) h1 h2
  rw [← h3] at h
  split
  · next hm => rw [hm, h.2]; exact time_add _ h2
  · next hm =>
    obtain ⟨h4, h5⟩ := h.1 mu (by omega)
    rw [h5]; exact time_add _ h4

theorem time_back {L : Latt} (hL : Valid L) {x mu : ℕ} (hx : x < volume L) (hmu : mu < L.ND) :
    if mu = L.ND - 1 then (time L (back L x mu) + 1) % extent L = time L x
    else time L (back L x mu) = time L x := by
  have h := time_neighbor hL (back_lt hL x hmu) hmu
  rw [(C02_inverse hL hx hmu).2] at h
  split
  · next hm => rw [if_pos hm] at h; exact h.symm
  · next hm => rw [if_neg hm] at h; exact h.symm

end GLU.Smear
