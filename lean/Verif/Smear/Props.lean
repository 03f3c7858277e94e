import Verif.Smear.Lemmas

/-!
# C33, C65, C67: buffered smearing and flow sweeps are simultaneous updates
-/

namespace GLU.Smear

open GLU.Geom GLU.Sched GLU.Field

variable {M Z : Type}

/-! ### Specification -/

/-- All links in the first `dirs` directions are replaced at once, each computed from the
same old links. -/
def simultaneous (L : Latt) (dirs : ℕ) (upd : Upd M Z) (f : (Loc → M) × (Loc → Z)) :
    (Loc → M) × (Loc → Z) :=
  (fun l => if l.1 < volume L ∧ l.2 < dirs then (upd f.1 (f.2 l) l.1 l.2).2 else f.1 l,
   fun l => if l.1 < volume L ∧ l.2 < dirs then (upd f.1 (f.2 l) l.1 l.2).1 else f.2 l)

/-- Slices `s` and `t` are the same or next to each other on the periodic time axis. -/
def Adjacent (T s t : ℕ) : Prop := s = t ∨ s = (t + 1) % T ∨ (s + 1) % T = t

/-- Slices `s` and `t` are at most two steps apart on the periodic time axis. -/
def Adjacent2 (T s t : ℕ) : Prop := Adjacent T s t ∨ s = (t + 2) % T ∨ (s + 2) % T = t

/-- The update of a link reads only links of slices in relation `R` to its own. -/
def Reads (L : Latt) (R : ℕ → ℕ → Prop) (upd : Upd M Z) : Prop :=
  ∀ (lat lat' : Loc → M) (z : Z) (x mu : ℕ), x < volume L → mu < L.ND →
    (∀ y < volume L, ∀ nu < L.ND, R (time L y) (time L x) → lat (y, nu) = lat' (y, nu)) →
    upd lat z x mu = upd lat' z x mu

/-- As `Reads`, for the update of the links of `dirs` directions. -/
def ReadsIn (L : Latt) (dirs : ℕ) (R : ℕ → ℕ → Prop) (upd : Upd M Z) : Prop :=
  ∀ (lat lat' : Loc → M) (z : Z) (x mu : ℕ), x < volume L → mu < dirs →
    (∀ y < volume L, ∀ nu < L.ND, R (time L y) (time L x) → lat (y, nu) = lat' (y, nu)) →
    upd lat z x mu = upd lat' z x mu

/-- As `Reads`, for spatial links only: own slice, spatial directions. -/
def ReadsSlice (L : Latt) (upd : Upd M Z) : Prop :=
  ∀ (lat lat' : Loc → M) (z : Z) (x mu : ℕ), x < volume L → mu < L.ND - 1 →
    (∀ y < volume L, ∀ nu < L.ND - 1, time L y = time L x → lat (y, nu) = lat' (y, nu)) →
    upd lat z x mu = upd lat' z x mu

/-! ### The sweep -/

/-- Links, accumulated matrices and buffers when slices `0 .. k-1` and the last one have been
computed. -/
structure Inv (L : Latt) (dirs : ℕ) (upd : Upd M Z) (f : (Loc → M) × (Loc → Z)) (k : ℕ) (s : St M Z) : Prop where
  new : ∀ x < volume L, ∀ mu < dirs, time L x + 1 < k → s.lat (x, mu) = (upd f.1 (f.2 (x, mu)) x mu).2
  old : ∀ x < volume L, ∀ mu < dirs, k ≤ time L x + 1 → s.lat (x, mu) = f.1 (x, mu)
  out : ∀ l : Loc, ¬ (l.1 < volume L ∧ l.2 < dirs) → s.lat l = f.1 l
  buf3 : 1 ≤ k → ∀ i < lcu L, ∀ mu < dirs, s.lat3 (i, mu) =
    (upd f.1 (f.2 (lcu L * (k - 1) + i, mu)) (lcu L * (k - 1) + i) mu).2
  buf4 : ∀ i < lcu L, ∀ mu < dirs, s.lat4 (i, mu) =
    (upd f.1 (f.2 (lcu L * (extent L - 1) + i, mu)) (lcu L * (extent L - 1) + i) mu).2
  znew : ∀ x < volume L, ∀ mu < dirs, (time L x < k ∨ time L x = extent L - 1) →
    s.z (x, mu) = (upd f.1 (f.2 (x, mu)) x mu).1
  zold : ∀ x < volume L, ∀ mu < dirs, k ≤ time L x → time L x ≠ extent L - 1 → s.z (x, mu) = f.2 (x, mu)
  zout : ∀ l : Loc, ¬ (l.1 < volume L ∧ l.2 < dirs) → s.z l = f.2 l

theorem window {L : Latt} (hL : Valid L) {t x : ℕ} (ht : t < extent L) :
    (lcu L * t ≤ x ∧ x < lcu L * t + lcu L) ↔ (x < volume L ∧ time L x = t) := by
  have hp := lcu_pos hL
  constructor
  · rintro ⟨h1, h2⟩
    obtain ⟨i, rfl⟩ := Nat.exists_eq_add_of_le h1
    exact ⟨slice_lt ht (by omega), time_add t (by omega)⟩
  · rintro ⟨h1, rfl⟩
    obtain ⟨_, h3, h4⟩ := site_split hL h1
    constructor <;> omega

theorem back_slice {L : Latt} (hL : Valid L) {t : ℕ} (ht : t < extent L) :
    back L (lcu L * t) (L.ND - 1) = lcu L * ((t + (extent L - 1)) % extent L) := by
  have := slice_back hL ht (lcu_pos hL)
  simpa using this

theorem back_slice_pos {L : Latt} (hL : Valid L) {t : ℕ} (ht : t < extent L) (h0 : t ≠ 0) :
    back L (lcu L * t) (L.ND - 1) = lcu L * (t - 1) := by
  rw [back_slice hL ht, show t + (extent L - 1) = t - 1 + extent L by omega, Nat.add_mod_right,
    Nat.mod_eq_of_lt (by omega)]

theorem back_zero {L : Latt} (hL : Valid L) : back L 0 (L.ND - 1) = lcu L * (extent L - 1) := by
  have hp := extent_pos hL
  have := back_slice hL hp
  rwa [Nat.mul_zero, Nat.zero_add, Nat.mod_eq_of_lt (by omega)] at this

theorem Inv.init {L : Latt} (hL : Valid L) (dirs : ℕ) (upd : Upd M Z) (s : St M Z) :
    Inv L dirs upd (s.lat, s.z) 0
      { s with z := (fill upd dirs (back L 0 (L.ND - 1)) (lcu L) s.lat (s.z, s.lat4)).1
               lat4 := (fill upd dirs (back L 0 (L.ND - 1)) (lcu L) s.lat (s.z, s.lat4)).2 } := by
  have hp := extent_pos hL
  have hlast : extent L - 1 < extent L := by omega
  rw [back_zero hL]
  refine ⟨by omega, fun _ _ _ _ _ => rfl, fun _ _ => rfl, by omega, ?_, ?_, ?_, ?_⟩
  · intro i hi mu hmu
    exact (fill_own upd dirs _ (lcu L) s.lat (s.z, s.lat4) hi hmu).2
  · intro x hx mu hmu h
    obtain ⟨_, h2, h3⟩ := site_split hL hx
    rcases h with h | h
    · omega
    · rw [h] at h3
      have := (fill_own upd dirs (lcu L * (extent L - 1)) (lcu L) s.lat (s.z, s.lat4) h2 hmu).1
      rw [← h3] at this
      exact this
  · intro x hx mu hmu _ h
    refine fill_z_other upd dirs _ (lcu L) s.lat (s.z, s.lat4) ?_
    rintro ⟨h1, h2, _⟩
    exact h ((window hL hlast).1 ⟨h1, h2⟩).2
  · intro l hl
    refine fill_z_other upd dirs _ (lcu L) s.lat (s.z, s.lat4) ?_
    rintro ⟨h1, h2, h3⟩
    exact hl ⟨((window hL hlast).1 ⟨h1, h2⟩).1, h3⟩

theorem Inv.step {L : Latt} (hL : Valid L) {upd : Upd M Z} {dirs : ℕ} (hd : dirs ≤ L.ND)
    (hr : ReadsIn L dirs (Adjacent (extent L)) upd)
    {f : (Loc → M) × (Loc → Z)} {k : ℕ} (hk : k < extent L - 1) {s : St M Z} (h : Inv L dirs upd f k s) :
    Inv L dirs upd f (k + 1) (timeStep L dirs upd k s) := by
  have hkT : k < extent L := by omega
  have hsame : ∀ z, ∀ i < lcu L, ∀ mu < dirs, upd s.lat z (lcu L * k + i) mu = upd f.1 z (lcu L * k + i) mu := by
    intro z i hi mu hmu
    refine hr _ _ z _ mu (slice_lt hkT hi) hmu fun y hy nu hnu hadj => ?_
    rw [time_add k hi] at hadj
    by_cases hnd : nu < dirs
    swap
    · exact h.out _ fun hh => hnd hh.2
    refine h.old y hy nu hnd ?_
    rcases hadj with e | e | e
    · omega
    · rw [Nat.mod_eq_of_lt (by omega)] at e; omega
    · have hyt := (site_split hL hy).1
      by_cases hc : time L y + 1 < extent L
      · rw [Nat.mod_eq_of_lt hc] at e; omega
      · omega
  have hfill : ∀ i < lcu L, ∀ mu < dirs,
      (fill upd dirs (lcu L * k) (lcu L) s.lat (s.z, s.lat2)).1 (lcu L * k + i, mu) =
        (upd f.1 (f.2 (lcu L * k + i, mu)) (lcu L * k + i) mu).1 ∧
      (fill upd dirs (lcu L * k) (lcu L) s.lat (s.z, s.lat2)).2 (i, mu) =
        (upd f.1 (f.2 (lcu L * k + i, mu)) (lcu L * k + i) mu).2 := by
    intro i hi mu hmu
    have := fill_own upd dirs (lcu L * k) (lcu L) s.lat (s.z, s.lat2) hi hmu
    have hz : s.z (lcu L * k + i, mu) = f.2 (lcu L * k + i, mu) := by
      refine h.zold _ (slice_lt hkT hi) mu hmu ?_ ?_ <;> rw [time_add k hi]
      omega
    simp only [hz, hsame _ i hi mu hmu] at this
    exact this
  -- the copy loop
  have hrot : ∀ l : Loc, (timeStep L dirs upd k s).lat l =
      if k ≠ 0 ∧ l.1 < volume L ∧ l.2 < dirs ∧ time L l.1 + 1 = k then s.lat3 (l.1 % lcu L, l.2)
      else s.lat l := by
    rintro ⟨x, mu⟩
    by_cases h0 : k = 0
    · rw [if_neg (by tauto)]
      exact rotate_other L _ _ _ (Or.inl h0)
    have hb := back_slice_pos hL hkT h0
    by_cases hc : x < volume L ∧ mu < dirs ∧ time L x + 1 = k
    · rw [if_pos ⟨h0, hc⟩]
      obtain ⟨hx, hmu, ht⟩ := hc
      obtain ⟨h1, h2, h3⟩ := site_split hL hx
      have := (rotate_own L dirs (t := k) (bck := back L (lcu L * k) (L.ND - 1))
        (fill upd dirs (lcu L * k) (lcu L) s.lat (s.z, s.lat2)).2 (s.lat, s.lat3) h2 hmu).1
      rw [if_pos h0] at this
      have e : (x, mu) = (back L (lcu L * k) (L.ND - 1) + x % lcu L, mu) := by
        rw [hb, show k - 1 = time L x by omega, ← h3]
      rw [e]
      refine this.trans ?_
      rw [← e]
    · rw [if_neg (by tauto)]
      refine rotate_other L _ _ _ (Or.inr ?_)
      rw [hb]
      rintro ⟨h1, h2, h3⟩
      have := (window hL (show k - 1 < extent L by omega)).1 ⟨h1, h2⟩
      exact hc ⟨this.1, h3, by have := this.2; simp only at this; omega⟩
  refine ⟨?_, ?_, ?_, ?_, h.buf4, ?_, ?_, ?_⟩
  · intro x hx mu hmu ht
    rw [hrot]
    by_cases hc : time L x + 1 = k
    · rw [if_pos ⟨by omega, hx, hmu, hc⟩, h.buf3 (by omega) _ (site_split hL hx).2.1 mu hmu,
        show k - 1 = time L x by omega, ← (site_split hL hx).2.2]
    · rw [if_neg (by tauto)]
      exact h.new x hx mu hmu (by omega)
  · intro x hx mu hmu ht
    rw [hrot, if_neg (by simp only; omega)]
    exact h.old x hx mu hmu (by omega)
  · intro l hl
    rw [hrot, if_neg (by tauto)]
    exact h.out l hl
  · intro _ i hi mu hmu
    have := (rotate_own L dirs (t := k) (bck := back L (lcu L * k) (L.ND - 1))
        (fill upd dirs (lcu L * k) (lcu L) s.lat (s.z, s.lat2)).2 (s.lat, s.lat3) hi hmu).2
    rw [Nat.add_sub_cancel, ← (hfill i hi mu hmu).2, ← this]
    rfl
  · intro x hx mu hmu ht
    obtain ⟨h1, h2, h3⟩ := site_split hL hx
    by_cases hc : time L x = k
    · have := (hfill _ h2 mu hmu).1
      rw [← hc, ← h3, hc] at this
      exact this
    · have : (timeStep L dirs upd k s).z (x, mu) = s.z (x, mu) :=
        fill_z_other upd dirs _ (lcu L) s.lat (s.z, s.lat2) (by
          rintro ⟨e1, e2, _⟩
          exact hc ((window hL hkT).1 ⟨e1, e2⟩).2)
      rw [this]
      exact h.znew x hx mu hmu (by omega)
  · intro x hx mu hmu ht hlast
    have : (timeStep L dirs upd k s).z (x, mu) = s.z (x, mu) :=
        fill_z_other upd dirs _ (lcu L) s.lat (s.z, s.lat2) (by
          rintro ⟨e1, e2, _⟩
          have := ((window hL hkT).1 ⟨e1, e2⟩).2
          simp only at this
          omega)
    rw [this]
    exact h.zold x hx mu hmu (by omega) hlast
  · intro l hl
    have : (timeStep L dirs upd k s).z l = s.z l :=
        fill_z_other upd dirs _ (lcu L) s.lat (s.z, s.lat2) (by
          rintro ⟨e1, e2, e3⟩
          exact hl ⟨((window hL hkT).1 ⟨e1, e2⟩).1, e3⟩)
    rw [this]
    exact h.zout l hl

theorem sweep_eq {L : Latt} (hL : Valid L) {upd : Upd M Z} {dirs : ℕ} (hd : dirs ≤ L.ND)
    (hr : ReadsIn L dirs (Adjacent (extent L)) upd) (s : St M Z) :
    ((sweep L dirs upd s).lat, (sweep L dirs upd s).z) = simultaneous L dirs upd (s.lat, s.z) := by
  have hp := extent_pos hL
  have hlast : extent L - 1 < extent L := by omega
  have H := forN_inv (fun k s' => Inv L dirs upd (s.lat, s.z) k s') (n := extent L - 1) (body := timeStep L dirs upd)
    (Inv.init hL dirs upd s) (fun k hk s' h => h.step hL hd hr hk)
  unfold sweep
  simp only
  generalize forN (extent L - 1) (timeStep L dirs upd) _ = s' at H ⊢
  refine Prod.ext ?_ ?_
  · funext l
    obtain ⟨x, mu⟩ := l
    simp only [simultaneous]
    by_cases hx : x < volume L ∧ mu < dirs
    · rw [if_pos hx]
      obtain ⟨hx, hmu⟩ := hx
      obtain ⟨h1, h2, h3⟩ := site_split hL hx
      by_cases hT : time L x = extent L - 1
      · rw [hT] at h3
        have := finish_slice L dirs (back L (lcu L * (extent L - 1)) (L.ND - 1)) (lcu L * (extent L - 1)) (by
          by_cases h0 : extent L - 1 = 0
          · left
            rw [h0, Nat.mul_zero, back_zero hL, h0, Nat.mul_zero]
          · right
            rw [back_slice_pos hL hlast h0]
            obtain ⟨m, hm⟩ : ∃ m, extent L - 1 = m + 1 := ⟨extent L - 2, by omega⟩
            rw [hm, Nat.add_sub_cancel, Nat.mul_succ]) s'.lat3 s'.lat4 s'.lat h2 hmu
        rw [← h3] at this
        rw [this, H.buf4 _ h2 mu hmu, ← h3]
      · have h0 : extent L - 1 ≠ 0 := by omega
        rw [back_slice_pos hL hlast h0]
        by_cases hT2 : time L x = extent L - 2
        · have h3' := h3
          rw [hT2, show extent L - 2 = extent L - 1 - 1 by omega] at h3'
          have := finish_behind L dirs (lcu L * (extent L - 1 - 1)) (lcu L * (extent L - 1)) (by
            obtain ⟨m, hm⟩ : ∃ m, extent L - 1 = m + 1 := ⟨extent L - 2, by omega⟩
            rw [hm, Nat.add_sub_cancel, Nat.mul_succ]) s'.lat3 s'.lat4 s'.lat h2 hmu
          rw [← h3'] at this
          rw [this, H.buf3 (by omega) _ h2 mu hmu, ← h3']
        · rw [finish_other]
          · exact H.new x hx mu hmu (by omega)
          · rintro ⟨e1, e2, _⟩
            have := ((window hL (show extent L - 1 - 1 < extent L by omega)).1 ⟨e1, e2⟩).2
            simp only at this
            omega
          · rintro ⟨e1, e2, _⟩
            exact hT ((window hL hlast).1 ⟨e1, e2⟩).2
    · rw [if_neg hx]
      rw [finish_other]
      · exact H.out _ hx
      · rw [back_slice hL hlast]
        rintro ⟨e1, e2, e3⟩
        exact hx ⟨((window hL (Nat.mod_lt _ hp)).1 ⟨e1, e2⟩).1, e3⟩
      · rintro ⟨e1, e2, e3⟩
        exact hx ⟨((window hL hlast).1 ⟨e1, e2⟩).1, e3⟩
  · funext l
    obtain ⟨x, mu⟩ := l
    simp only [simultaneous]
    by_cases hx : x < volume L ∧ mu < dirs
    · rw [if_pos hx]
      have := (site_split hL hx.1).1
      exact H.znew x hx.1 mu hx.2 (by omega)
    · rw [if_neg hx]
      exact H.zout _ hx

theorem forN_const_iterate {σ : Type*} (g : σ → σ) (n : ℕ) (s : σ) : forN n (fun _ s => g s) s = g^[n] s := by
  induction n with
  | zero => rfl
  | succ n ih => rw [forN, ih, Function.iterate_succ_apply']

/-- **C33**: whatever the temporal extent (also one and two slices), the initial contents of the
buffers and the link update, as long as it reads only neighbouring slices, `smear4D`
performs `smiters` simultaneous updates of all links. -/
theorem C33_smear4D {L : Latt} (hL : Valid L) {upd : Upd M Z} (hr : Reads L (Adjacent (extent L)) upd)
    (smiters : ℕ) (s : St M Z) :
    ((smear4D L upd smiters s).lat, (smear4D L upd smiters s).z) =
      (simultaneous L L.ND upd)^[smiters] (s.lat, s.z) := by
  have key : ∀ n, ((forN n (fun _ s => sweep L L.ND upd s) s).lat, (forN n (fun _ s => sweep L L.ND upd s) s).z) =
      (simultaneous L L.ND upd)^[n] (s.lat, s.z) := by
    intro n
    induction n with
    | zero => rfl
    | succ n ih => rw [forN, sweep_eq hL le_rfl hr, ih, Function.iterate_succ_apply']
  unfold smear4D
  split
  · next h => subst h; rfl
  · exact key smiters

/-! ### Spatial smearing -/

theorem slice3D_eq {L : Latt} (hL : Valid L) (upd : Upd M Z) {t : ℕ} (ht : t < extent L) (s : St M Z) :
    (∀ l : Loc, (slice3D L upd t s).lat l =
      if l.1 < volume L ∧ l.2 < L.ND - 1 ∧ time L l.1 = t then (upd s.lat (s.z l) l.1 l.2).2 else s.lat l) ∧
    (∀ l : Loc, (slice3D L upd t s).z l =
      if l.1 < volume L ∧ l.2 < L.ND - 1 ∧ time L l.1 = t then (upd s.lat (s.z l) l.1 l.2).1 else s.z l) := by
  constructor
  · rintro ⟨x, mu⟩
    have := update_loops (lcu L) (L.ND - 1) (lcu L * t)
      (fun i mu _ => (fill upd (L.ND - 1) (lcu L * t) (lcu L) s.lat (s.z, s.lat2)).2 (i, mu)) s.lat (x, mu)
    refine this.trans ?_
    by_cases hc : x < volume L ∧ mu < L.ND - 1 ∧ time L x = t
    · have hw := (window hL ht).2 ⟨hc.1, hc.2.2⟩
      rw [if_pos ⟨hw.1, hw.2, hc.2.1⟩, if_pos hc]
      obtain ⟨i, rfl⟩ := Nat.exists_eq_add_of_le hw.1
      have := (fill_own upd (L.ND - 1) (lcu L * t) (lcu L) s.lat (s.z, s.lat2)
        (show i < lcu L by omega) hc.2.1).2
      simp only [Nat.add_sub_cancel_left]
      exact this
    · rw [if_neg hc, if_neg]
      rintro ⟨h1, h2, h3⟩
      have := (window hL ht).1 ⟨h1, h2⟩
      exact hc ⟨this.1, h3, this.2⟩
  · rintro ⟨x, mu⟩
    by_cases hc : x < volume L ∧ mu < L.ND - 1 ∧ time L x = t
    · rw [if_pos hc]
      have hw := (window hL ht).2 ⟨hc.1, hc.2.2⟩
      obtain ⟨i, rfl⟩ := Nat.exists_eq_add_of_le hw.1
      exact (fill_own upd (L.ND - 1) (lcu L * t) (lcu L) s.lat (s.z, s.lat2)
        (show i < lcu L by omega) hc.2.1).1
    · rw [if_neg hc]
      refine fill_z_other upd (L.ND - 1) _ (lcu L) s.lat (s.z, s.lat2) ?_
      rintro ⟨h1, h2, h3⟩
      have := (window hL ht).1 ⟨h1, h2⟩
      exact hc ⟨this.1, h3, this.2⟩

theorem sweep3D_eq {L : Latt} (hL : Valid L) {upd : Upd M Z} (hr : ReadsSlice L upd) (s : St M Z) :
    ((forN (extent L) (slice3D L upd) s).lat, (forN (extent L) (slice3D L upd) s).z) =
      simultaneous L (L.ND - 1) upd (s.lat, s.z) := by
  have H := forN_inv (fun k (s' : St M Z) => ∀ l : Loc,
      s'.lat l = (if l.1 < volume L ∧ l.2 < L.ND - 1 ∧ time L l.1 < k then (upd s.lat (s.z l) l.1 l.2).2 else s.lat l) ∧
      s'.z l = (if l.1 < volume L ∧ l.2 < L.ND - 1 ∧ time L l.1 < k then (upd s.lat (s.z l) l.1 l.2).1 else s.z l))
    (n := extent L) (body := slice3D L upd) (s := s) (by intro l; simp) (by
      intro k hk s' h l
      obtain ⟨e1, e2⟩ := slice3D_eq hL upd hk s'
      rw [e1, e2]
      by_cases hc : l.1 < volume L ∧ l.2 < L.ND - 1 ∧ time L l.1 = k
      · have hz : s'.z l = s.z l := by rw [(h l).2, if_neg (by omega)]
        have hu : upd s'.lat (s'.z l) l.1 l.2 = upd s.lat (s.z l) l.1 l.2 := by
          rw [hz]
          refine hr _ _ _ _ _ hc.1 hc.2.1 fun y hy nu hnu ht => ?_
          rw [(h (y, nu)).1, if_neg (by simp only; omega)]
        rw [if_pos hc, if_pos hc, hu, if_pos (by omega), if_pos (by omega)]
        exact ⟨rfl, rfl⟩
      · rw [if_neg hc, if_neg hc, (h l).1, (h l).2]
        by_cases h2 : l.1 < volume L ∧ l.2 < L.ND - 1 ∧ time L l.1 < k
        · rw [if_pos h2, if_pos h2, if_pos (by omega), if_pos (by omega)]
          exact ⟨rfl, rfl⟩
        · rw [if_neg h2, if_neg h2, if_neg (by omega), if_neg (by omega)]
          exact ⟨rfl, rfl⟩)
  refine Prod.ext ?_ ?_ <;> funext l <;> simp only [simultaneous]
  · rw [(H l).1]
    by_cases hc : l.1 < volume L ∧ l.2 < L.ND - 1
    · rw [if_pos hc, if_pos ⟨hc.1, hc.2, (site_split hL hc.1).1⟩]
    · rw [if_neg hc, if_neg (by tauto)]
  · rw [(H l).2]
    by_cases hc : l.1 < volume L ∧ l.2 < L.ND - 1
    · rw [if_pos hc, if_pos ⟨hc.1, hc.2, (site_split hL hc.1).1⟩]
    · rw [if_neg hc, if_neg (by tauto)]

/-- **C33**, spatial smearing: in three or more dimensions `smear3D` performs `smiters`
simultaneous updates of all spatial links; in two dimensions it does nothing. -/
theorem C33_smear3D {L : Latt} (hL : Valid L) {upd : Upd M Z} (hr : ReadsSlice L upd)
    (smiters : ℕ) (s : St M Z) :
    ((smear3D L upd smiters s).lat, (smear3D L upd smiters s).z) =
      if L.ND < 3 then (s.lat, s.z) else (simultaneous L (L.ND - 1) upd)^[smiters] (s.lat, s.z) := by
  have key : ∀ n, ((forN n (fun _ s => forN (extent L) (slice3D L upd) s) s).lat,
      (forN n (fun _ s => forN (extent L) (slice3D L upd) s) s).z) =
      (simultaneous L (L.ND - 1) upd)^[n] (s.lat, s.z) := by
    intro n
    induction n with
    | zero => rfl
    | succ n ih => rw [forN, sweep3D_eq hL hr, ih, Function.iterate_succ_apply']
  unfold smear3D
  split
  · rfl
  · split
    · next h => subst h; rfl
    · exact key smiters

/-! ### The memory-saving flow step -/

theorem RK3step_eq (L : Latt) (upd : Upd M Z) (s : St M Z) :
    ((RK3step L upd s).lat, (RK3step L upd s).z) = simultaneous L L.ND upd (s.lat, s.z) := by
  refine Prod.ext ?_ ?_ <;> funext ⟨x, mu⟩ <;> simp only [simultaneous]
  · have := update_loops (volume L) L.ND 0
      (fun i mu _ => (fill upd L.ND 0 (volume L) s.lat (s.z, s.lat2)).2 (i, mu)) s.lat (x, mu)
    simp only [Nat.zero_add] at this
    refine this.trans ?_
    by_cases hc : x < volume L ∧ mu < L.ND
    · rw [if_pos ⟨by omega, hc.1, hc.2⟩, if_pos hc]
      have := (fill_own upd L.ND 0 (volume L) s.lat (s.z, s.lat2) hc.1 hc.2).2
      simpa using this
    · rw [if_neg (by tauto), if_neg hc]
  · by_cases hc : x < volume L ∧ mu < L.ND
    · rw [if_pos hc]
      have := (fill_own upd L.ND 0 (volume L) s.lat (s.z, s.lat2) hc.1 hc.2).1
      rw [Nat.zero_add] at this
      exact this
    · rw [if_neg hc]
      refine fill_z_other upd L.ND _ (volume L) s.lat (s.z, s.lat2) ?_
      rintro ⟨_, h2, h3⟩
      exact hc ⟨by simpa using h2, h3⟩

/-- **C67**: the memory-saving flow step gives the same links and the same accumulated
matrices as the step that keeps a second copy of the whole lattice, whatever is in the
buffers. -/
theorem C67_memcheap {L : Latt} (hL : Valid L) {upd : Upd M Z} (hr : Reads L (Adjacent (extent L)) upd)
    (s s' : St M Z) (hlat : s.lat = s'.lat) (hz : s.z = s'.z) :
    (sweep L L.ND upd s).lat = (RK3step L upd s').lat ∧ (sweep L L.ND upd s).z = (RK3step L upd s').z := by
  have h1 := sweep_eq hL le_rfl hr s
  have h2 := RK3step_eq L upd s'
  rw [hlat, hz, ← h2] at h1
  exact Prod.ext_iff.mp h1

end GLU.Smear
