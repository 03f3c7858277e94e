import Verif.Smear.Props

/-!
# C65: the buffered sweep with improved staples
-/

namespace GLU.Smear

open GLU.Geom GLU.Sched GLU.Field

variable {M Z : Type}

theorem rotate2_own (L : Latt) {t bck : ℕ} (lat2 : Loc → M) (s : (Loc → M) × (Loc → M)) {i mu : ℕ}
    (hi : i < lcu L) (hmu : mu < L.ND) :
    (rotate2 L t bck lat2 s).1 (bck + i, mu) = (if t > 1 then s.2 (i, mu) else s.1 (bck + i, mu)) ∧
    (rotate2 L t bck lat2 s).2 (i, mu) = s.2 (i + lcu L, mu) ∧
    (rotate2 L t bck lat2 s).2 (i + lcu L, mu) = lat2 (i, mu) := by
  have := grid (lcu L) L.ND (fun i mu (s : (Loc → M) × (Loc → M)) =>
      ((if t > 1 then Function.update s.1 (bck + i, mu) (s.2 (i, mu)) else s.1,
        Function.update (Function.update s.2 (i, mu) (s.2 (i + lcu L, mu))) (i + lcu L, mu) (lat2 (i, mu))) :
        (Loc → M) × (Loc → M)))
    (fun i mu s => (s.1 (bck + i, mu), s.2 (i, mu), s.2 (i + lcu L, mu)))
    (fun i mu x => (if t > 1 then x.2.1 else x.1, x.2.2, lat2 (i, mu)))
    (by
      intro i hi mu _ s
      have h1 : (i, mu) ≠ (i + lcu L, mu) := by simp only [ne_eq, Prod.mk.injEq]; omega
      by_cases h : t > 1 <;> simp [h, Function.update_of_ne h1])
    (by
      intro i hi mu _ i' hi' mu' _ s hne
      simp only [ne_eq, Prod.mk.injEq] at hne
      have h1 : (bck + i', mu') ≠ (bck + i, mu) := by simp only [ne_eq, Prod.mk.injEq]; omega
      have h2 : (i', mu') ≠ (i, mu) := by simp only [ne_eq, Prod.mk.injEq]; omega
      have h3 : (i', mu') ≠ (i + lcu L, mu) := by simp only [ne_eq, Prod.mk.injEq]; omega
      have h4 : (i' + lcu L, mu') ≠ (i, mu) := by simp only [ne_eq, Prod.mk.injEq]; omega
      have h5 : (i' + lcu L, mu') ≠ (i + lcu L, mu) := by simp only [ne_eq, Prod.mk.injEq]; omega
      by_cases h : t > 1 <;> simp [h, Function.update_of_ne h1, Function.update_of_ne h2,
        Function.update_of_ne h3, Function.update_of_ne h4, Function.update_of_ne h5])
    s hi hmu
  obtain ⟨h1, h2⟩ := Prod.ext_iff.mp this
  obtain ⟨h2, h3⟩ := Prod.ext_iff.mp h2
  exact ⟨h1, h2, h3⟩

theorem rotate2_other (L : Latt) {t bck : ℕ} (lat2 : Loc → M) (s : (Loc → M) × (Loc → M)) {l : Loc}
    (hl : ¬ t > 1 ∨ ¬ (bck ≤ l.1 ∧ l.1 < bck + lcu L ∧ l.2 < L.ND)) :
    (rotate2 L t bck lat2 s).1 l = s.1 l := by
  refine grid_frame (lcu L) L.ND (fun i mu (s : (Loc → M) × (Loc → M)) =>
      ((if t > 1 then Function.update s.1 (bck + i, mu) (s.2 (i, mu)) else s.1,
        Function.update (Function.update s.2 (i, mu) (s.2 (i + lcu L, mu))) (i + lcu L, mu) (lat2 (i, mu))) :
        (Loc → M) × (Loc → M))) (fun s => s.1 l) ?_ s
  intro i hi mu hmu s
  by_cases h : t > 1
  · have : l ≠ (bck + i, mu) := by rintro rfl; simp at hl; omega
    simp [h, Function.update_of_ne this]
  · simp [h]

/-- Value of the last copy loop at one site: the last assignment to it wins. -/
theorem finish2_eq {L : Latt} (hL : Valid L) (tail : ℕ) {b2 b s : ℕ} (hs : s + 1 < extent L)
    (hb2 : b2 < extent L) (hb : b < extent L) (lat3 lat4 lat : Loc → M) {x mu : ℕ}
    (hx : x < volume L) (hmu : mu < L.ND) :
    finish2 L tail (lcu L * b2) (lcu L * b) (lcu L * s) lat3 lat4 lat (x, mu) =
      if time L x = s + 1 then lat4 (x % lcu L + lcu L, mu)
      else if time L x = s then lat4 (x % lcu L, mu)
      else if time L x = b then lat3 (x % lcu L + tail, mu)
      else if time L x = b2 then lat3 (x % lcu L, mu)
      else lat (x, mu) := by
  obtain ⟨h1, h2, h3⟩ := site_split hL hx
  have key := grid (lcu L) L.ND (fun i mu (lat : Loc → M) =>
      Function.update (Function.update (Function.update (Function.update lat (lcu L * b2 + i, mu) (lat3 (i, mu)))
        (lcu L * b + i, mu) (lat3 (i + tail, mu))) (lcu L * s + i, mu) (lat4 (i, mu)))
        (lcu L * s + i + lcu L, mu) (lat4 (i + lcu L, mu)))
    (fun i mu lat => lat (lcu L * time L x + i, mu))
    (fun i mu v => if time L x = s + 1 then lat4 (i + lcu L, mu)
      else if time L x = s then lat4 (i, mu)
      else if time L x = b then lat3 (i + tail, mu)
      else if time L x = b2 then lat3 (i, mu)
      else v)
    (by
      intro i hi mu _ lat
      have e : ∀ t, (lcu L * time L x + i, mu) = (lcu L * t + i, mu) ↔ time L x = t := by
        intro t
        simp only [Prod.mk.injEq, and_true]
        constructor
        · intro h
          have := congrArg (time L) h
          rwa [time_add _ hi, time_add _ hi] at this
        · rintro rfl; rfl
      have e' : lcu L * s + i + lcu L = lcu L * (s + 1) + i := by ring
      simp only [e', Function.update_apply, e])
    (by
      intro i hi mu _ i' hi' mu' _ lat hne
      have e : ∀ t, (lcu L * time L x + i', mu') ≠ (lcu L * t + i, mu) := by
        intro t h
        simp only [Prod.mk.injEq] at h
        have h' := congrArg (time L) h.1
        rw [time_add _ hi, time_add _ hi'] at h'
        rw [h'] at h
        exact hne (by simp only [Prod.mk.injEq]; omega)
      have e' : lcu L * s + i + lcu L = lcu L * (s + 1) + i := by ring
      simp only [e', Function.update_of_ne (e _)])
    lat h2 hmu
  rw [← h3] at key
  exact key

theorem finish2_other {L : Latt} (hL : Valid L) (tail : ℕ) {b2 b s : ℕ} (hs : s + 1 < extent L)
    (hb2 : b2 < extent L) (hb : b < extent L) (lat3 lat4 lat : Loc → M) {l : Loc}
    (hl : ¬ (l.1 < volume L ∧ l.2 < L.ND)) :
    finish2 L tail (lcu L * b2) (lcu L * b) (lcu L * s) lat3 lat4 lat l = lat l := by
  refine grid_frame (lcu L) L.ND (fun i mu (lat : Loc → M) =>
      Function.update (Function.update (Function.update (Function.update lat (lcu L * b2 + i, mu) (lat3 (i, mu)))
        (lcu L * b + i, mu) (lat3 (i + tail, mu))) (lcu L * s + i, mu) (lat4 (i, mu)))
        (lcu L * s + i + lcu L, mu) (lat4 (i + lcu L, mu)))
    (fun lat => lat l) ?_ lat
  intro i hi mu hmu lat
  have e : ∀ t < extent L, l ≠ (lcu L * t + i, mu) := by
    rintro t ht rfl
    exact hl ⟨slice_lt ht hi, hmu⟩
  have e' : lcu L * s + i + lcu L = lcu L * (s + 1) + i := by ring
  simp only [e', Function.update_of_ne (e _ hs), Function.update_of_ne (e s (by omega)),
    Function.update_of_ne (e _ hb), Function.update_of_ne (e _ hb2)]

/-- As `Inv`, two slices behind. -/
structure Inv2 (L : Latt) (upd : Upd M Z) (f : (Loc → M) × (Loc → Z)) (b3 : Loc → M) (k : ℕ) (s : St M Z) :
    Prop where
  new : ∀ x < volume L, ∀ mu < L.ND, time L x + 2 < k → s.lat (x, mu) = (upd f.1 (f.2 (x, mu)) x mu).2
  old : ∀ x < volume L, ∀ mu < L.ND, k ≤ time L x + 2 → s.lat (x, mu) = f.1 (x, mu)
  out : ∀ l : Loc, ¬ (l.1 < volume L ∧ l.2 < L.ND) → s.lat l = f.1 l
  buf3 : 1 ≤ k → ∀ i < lcu L, ∀ mu < L.ND, s.lat3 (i + lcu L, mu) =
    (upd f.1 (f.2 (lcu L * (k - 1) + i, mu)) (lcu L * (k - 1) + i) mu).2
  buf3' : 2 ≤ k → ∀ i < lcu L, ∀ mu < L.ND, s.lat3 (i, mu) =
    (upd f.1 (f.2 (lcu L * (k - 2) + i, mu)) (lcu L * (k - 2) + i) mu).2
  init3 : k = 0 → s.lat3 = b3
  first3 : k = 1 → ∀ i < lcu L, ∀ mu < L.ND, s.lat3 (i, mu) = b3 (i + lcu L, mu)
  buf4 : ∀ i < 2 * lcu L, ∀ mu < L.ND, s.lat4 (i, mu) =
    (upd f.1 (f.2 (lcu L * (extent L - 2) + i, mu)) (lcu L * (extent L - 2) + i) mu).2
  znew : ∀ x < volume L, ∀ mu < L.ND, (time L x < k ∨ extent L - 2 ≤ time L x) →
    s.z (x, mu) = (upd f.1 (f.2 (x, mu)) x mu).1
  zold : ∀ x < volume L, ∀ mu < L.ND, k ≤ time L x → time L x < extent L - 2 → s.z (x, mu) = f.2 (x, mu)
  zout : ∀ l : Loc, ¬ (l.1 < volume L ∧ l.2 < L.ND) → s.z l = f.2 l

theorem back_back_zero {L : Latt} (hL : Valid L) (h2 : 2 ≤ extent L) :
    back L (back L 0 (L.ND - 1)) (L.ND - 1) = lcu L * (extent L - 2) := by
  rw [back_zero hL, back_slice_pos hL (by omega) (by omega)]
  rfl

theorem Inv2.init {L : Latt} (hL : Valid L) (h2 : 2 ≤ extent L) (upd : Upd M Z) (s : St M Z) :
    Inv2 L upd (s.lat, s.z) s.lat3 0
      { s with
        z := (fill upd L.ND (back L (back L 0 (L.ND - 1)) (L.ND - 1)) (2 * lcu L) s.lat (s.z, s.lat4)).1
        lat4 := (fill upd L.ND (back L (back L 0 (L.ND - 1)) (L.ND - 1)) (2 * lcu L) s.lat (s.z, s.lat4)).2 } := by
  have hw : ∀ x, (lcu L * (extent L - 2) ≤ x ∧ x < lcu L * (extent L - 2) + 2 * lcu L) ↔
      (x < volume L ∧ extent L - 2 ≤ time L x) := by
    intro x
    have e1 := window hL (t := extent L - 2) (x := x) (by omega)
    have e2 := window hL (t := extent L - 1) (x := x) (by omega)
    obtain ⟨m, hm⟩ : ∃ m, extent L = m + 2 := ⟨extent L - 2, by omega⟩
    have e3 : lcu L * (extent L - 1) = lcu L * (extent L - 2) + lcu L := by
      rw [hm, show m + 2 - 1 = m + 1 by omega, Nat.add_sub_cancel, Nat.mul_succ]
    rw [e3] at e2
    constructor
    · rintro ⟨a, b⟩
      by_cases hc : x < lcu L * (extent L - 2) + lcu L
      · have := e1.1 ⟨a, hc⟩; exact ⟨this.1, by omega⟩
      · have := e2.1 ⟨by omega, by omega⟩; exact ⟨this.1, by omega⟩
    · rintro ⟨a, b⟩
      have := (site_split hL a).1
      by_cases hc : time L x = extent L - 2
      · have := e1.2 ⟨a, hc⟩; omega
      · have := e2.2 ⟨a, by omega⟩; omega
  rw [back_back_zero hL h2]
  refine ⟨by omega, fun _ _ _ _ _ => rfl, fun _ _ => rfl, by omega, by omega, fun _ => rfl, by omega, ?_, ?_, ?_, ?_⟩
  · intro i hi mu hmu
    exact (fill_own upd L.ND _ (2 * lcu L) s.lat (s.z, s.lat4) hi hmu).2
  · intro x hx mu hmu h
    have hwx := (hw x).2 ⟨hx, by omega⟩
    obtain ⟨i, rfl⟩ := Nat.exists_eq_add_of_le hwx.1
    exact (fill_own upd L.ND (lcu L * (extent L - 2)) (2 * lcu L) s.lat (s.z, s.lat4)
      (show i < 2 * lcu L by omega) hmu).1
  · intro x hx mu hmu _ h
    refine fill_z_other upd L.ND _ (2 * lcu L) s.lat (s.z, s.lat4) ?_
    rintro ⟨h1, h2, _⟩
    have := ((hw x).1 ⟨h1, h2⟩).2
    omega
  · intro l hl
    refine fill_z_other upd L.ND _ (2 * lcu L) s.lat (s.z, s.lat4) ?_
    rintro ⟨h1, h2, h3⟩
    exact hl ⟨((hw l.1).1 ⟨h1, h2⟩).1, h3⟩

theorem Inv2.step {L : Latt} (hL : Valid L) {upd : Upd M Z} (hr : Reads L (Adjacent2 (extent L)) upd)
    {f : (Loc → M) × (Loc → Z)} {b3 : Loc → M} {k : ℕ} (hk : k < extent L - 2) {s : St M Z}
    (h : Inv2 L upd f b3 k s) :
    Inv2 L upd f b3 (k + 1) (timeStep2 L upd k s) := by
  have hkT : k < extent L := by omega
  have hsame : ∀ z, ∀ i < lcu L, ∀ mu < L.ND, upd s.lat z (lcu L * k + i) mu = upd f.1 z (lcu L * k + i) mu := by
    intro z i hi mu hmu
    refine hr _ _ z _ mu (slice_lt hkT hi) hmu fun y hy nu hnu hadj => ?_
    rw [time_add k hi] at hadj
    refine h.old y hy nu hnu ?_
    have hyt := (site_split hL hy).1
    rcases hadj with (e | e | e) | e | e
    · omega
    · rw [Nat.mod_eq_of_lt (by omega)] at e; omega
    · by_cases hc : time L y + 1 < extent L
      · rw [Nat.mod_eq_of_lt hc] at e; omega
      · omega
    · rw [Nat.mod_eq_of_lt (by omega)] at e; omega
    · by_cases hc : time L y + 2 < extent L
      · rw [Nat.mod_eq_of_lt hc] at e; omega
      · omega
  have hfill : ∀ i < lcu L, ∀ mu < L.ND,
      (fill upd L.ND (lcu L * k) (lcu L) s.lat (s.z, s.lat2)).1 (lcu L * k + i, mu) =
        (upd f.1 (f.2 (lcu L * k + i, mu)) (lcu L * k + i) mu).1 ∧
      (fill upd L.ND (lcu L * k) (lcu L) s.lat (s.z, s.lat2)).2 (i, mu) =
        (upd f.1 (f.2 (lcu L * k + i, mu)) (lcu L * k + i) mu).2 := by
    intro i hi mu hmu
    have := fill_own upd L.ND (lcu L * k) (lcu L) s.lat (s.z, s.lat2) hi hmu
    have hz : s.z (lcu L * k + i, mu) = f.2 (lcu L * k + i, mu) := by
      refine h.zold _ (slice_lt hkT hi) mu hmu ?_ ?_ <;> rw [time_add k hi]
      omega
    simp only [hz, hsame _ i hi mu hmu] at this
    exact this
  have hrot : ∀ l : Loc, (timeStep2 L upd k s).lat l =
      if k > 1 ∧ l.1 < volume L ∧ l.2 < L.ND ∧ time L l.1 + 2 = k then s.lat3 (l.1 % lcu L, l.2)
      else s.lat l := by
    rintro ⟨x, mu⟩
    by_cases h0 : k > 1
    swap
    · rw [if_neg (by tauto)]
      exact rotate2_other L _ _ (Or.inl h0)
    have hb : back L (back L (lcu L * k) (L.ND - 1)) (L.ND - 1) = lcu L * (k - 2) := by
      rw [back_slice_pos hL hkT (by omega), back_slice_pos hL (by omega) (by omega)]
      rfl
    by_cases hc : x < volume L ∧ mu < L.ND ∧ time L x + 2 = k
    · rw [if_pos ⟨h0, hc⟩]
      obtain ⟨hx, hmu, ht⟩ := hc
      obtain ⟨h1, h2, h3⟩ := site_split hL hx
      have := (rotate2_own L (t := k) (bck := back L (back L (lcu L * k) (L.ND - 1)) (L.ND - 1))
        (fill upd L.ND (lcu L * k) (lcu L) s.lat (s.z, s.lat2)).2 (s.lat, s.lat3) h2 hmu).1
      rw [if_pos h0] at this
      have e : (x, mu) = (back L (back L (lcu L * k) (L.ND - 1)) (L.ND - 1) + x % lcu L, mu) := by
        rw [hb, show k - 2 = time L x by omega, ← h3]
      rw [e]
      refine this.trans ?_
      rw [← e]
    · rw [if_neg (by tauto)]
      refine rotate2_other L _ _ (Or.inr ?_)
      rw [hb]
      rintro ⟨h1, h2, h3⟩
      have := (window hL (show k - 2 < extent L by omega)).1 ⟨h1, h2⟩
      exact hc ⟨this.1, h3, by have := this.2; simp only at this; omega⟩
  have h3 : ∀ i < lcu L, ∀ mu < L.ND, (timeStep2 L upd k s).lat3 (i, mu) = s.lat3 (i + lcu L, mu) ∧
      (timeStep2 L upd k s).lat3 (i + lcu L, mu) =
        (upd f.1 (f.2 (lcu L * k + i, mu)) (lcu L * k + i) mu).2 := by
    intro i hi mu hmu
    have := (rotate2_own L (t := k) (bck := back L (back L (lcu L * k) (L.ND - 1)) (L.ND - 1))
        (fill upd L.ND (lcu L * k) (lcu L) s.lat (s.z, s.lat2)).2 (s.lat, s.lat3) hi hmu).2
    rw [(hfill i hi mu hmu).2] at this
    exact this
  have hz : ∀ l : Loc, ¬ (l.1 < volume L ∧ l.2 < L.ND ∧ time L l.1 = k) → (timeStep2 L upd k s).z l = s.z l := by
    intro l hl
    exact fill_z_other upd L.ND _ (lcu L) s.lat (s.z, s.lat2) (by
      rintro ⟨e1, e2, e3⟩
      have := (window hL hkT).1 ⟨e1, e2⟩
      exact hl ⟨this.1, e3, this.2⟩)
  refine ⟨?_, ?_, ?_, ?_, ?_, by omega, ?_, h.buf4, ?_, ?_, ?_⟩
  · intro x hx mu hmu ht
    rw [hrot]
    by_cases hc : time L x + 2 = k
    · rw [if_pos ⟨by omega, hx, hmu, hc⟩, h.buf3' (by omega) _ (site_split hL hx).2.1 mu hmu,
        show k - 2 = time L x by omega, ← (site_split hL hx).2.2]
    · rw [if_neg (by tauto)]
      exact h.new x hx mu hmu (by omega)
  · intro x hx mu hmu ht
    rw [hrot, if_neg (by simp only; omega)]
    exact h.old x hx mu hmu (by omega)
  · intro l hl
    rw [hrot, if_neg (by tauto)]
    exact h.out l hl
  · intro _ i hi mu hmu
    rw [(h3 i hi mu hmu).2, Nat.add_sub_cancel]
  · intro hk2 i hi mu hmu
    rw [(h3 i hi mu hmu).1, h.buf3 (by omega) i hi mu hmu]
    rfl
  · intro hk1 i hi mu hmu
    rw [(h3 i hi mu hmu).1, h.init3 (by omega)]
  · intro x hx mu hmu ht
    obtain ⟨h1, h2, h3⟩ := site_split hL hx
    by_cases hc : time L x = k
    · have := (hfill _ h2 mu hmu).1
      rw [← hc, ← h3, hc] at this
      exact this
    · rw [hz _ (by tauto)]
      exact h.znew x hx mu hmu (by omega)
  · intro x hx mu hmu ht hlast
    rw [hz _ (by simp only; omega)]
    exact h.zold x hx mu hmu (by omega) hlast
  · intro l hl
    rw [hz _ (by tauto)]
    exact h.zout l hl

/-- Everything about one improved sweep, for both offsets used in the code. -/
theorem sweep2_spec {L : Latt} (hL : Valid L) (h2 : 2 ≤ extent L) {upd : Upd M Z}
    (hr : Reads L (Adjacent2 (extent L)) upd) (tail : ℕ) (s : St M Z) :
    ∃ s', sweep2 L tail upd s = some s' ∧
      (∀ x < volume L, ∀ mu < L.ND, time L x + 3 ≠ extent L →
        s'.lat (x, mu) = (upd s.lat (s.z (x, mu)) x mu).2) ∧
      (tail = lcu L → ∀ x < volume L, ∀ mu < L.ND, s'.lat (x, mu) = (upd s.lat (s.z (x, mu)) x mu).2) ∧
      (tail = 0 → 4 ≤ extent L → ∀ i < lcu L, ∀ mu < L.ND, s'.lat (lcu L * (extent L - 3) + i, mu) =
        (upd s.lat (s.z (lcu L * (extent L - 4) + i, mu)) (lcu L * (extent L - 4) + i) mu).2) ∧
      (tail = 0 → extent L = 3 → ∀ i < lcu L, ∀ mu < L.ND, s'.lat (i, mu) = s.lat3 (i + lcu L, mu)) ∧
      (∀ l : Loc, ¬ (l.1 < volume L ∧ l.2 < L.ND) → s'.lat l = s.lat l) ∧
      s'.z = (simultaneous L L.ND upd (s.lat, s.z)).2 := by
  have hp := extent_pos hL
  have hl := lcu_pos hL
  have H := forN_inv (fun k s' => Inv2 L upd (s.lat, s.z) s.lat3 k s') (n := extent L - 2)
    (body := timeStep2 L upd) (Inv2.init hL h2 upd s) (fun k hk s' h => h.step hL hr hk)
  unfold sweep2
  rw [if_neg (by omega)]
  simp only
  generalize forN (extent L - 2) (timeStep2 L upd) _ = s' at H ⊢
  refine ⟨_, rfl, ?_⟩
  simp only
  obtain ⟨b, hb⟩ : ∃ b, b = (extent L - 2 + (extent L - 1)) % extent L := ⟨_, rfl⟩
  obtain ⟨b2, hb2⟩ : ∃ b2, b2 = (b + (extent L - 1)) % extent L := ⟨_, rfl⟩
  have hbT : b < extent L := by rw [hb]; exact Nat.mod_lt _ hp
  have hb2T : b2 < extent L := by rw [hb2]; exact Nat.mod_lt _ hp
  have hs : extent L - 2 + 1 < extent L := by omega
  have e1 : back L (lcu L * (extent L - 2)) (L.ND - 1) = lcu L * b := by
    rw [back_slice hL (by omega), hb]
  have e2 : back L (lcu L * b) (L.ND - 1) = lcu L * b2 := by
    rw [back_slice hL hbT, hb2]
  rw [e1, e2]
  have hbv : 3 ≤ extent L → b = extent L - 3 := by
    intro h3
    rw [hb, show extent L - 2 + (extent L - 1) = extent L - 3 + extent L by omega, Nat.add_mod_right,
      Nat.mod_eq_of_lt (by omega)]
  have hb2v : 4 ≤ extent L → b2 = extent L - 4 := by
    intro h3
    rw [hb2, hbv (by omega), show extent L - 3 + (extent L - 1) = extent L - 4 + extent L by omega,
      Nat.add_mod_right, Nat.mod_eq_of_lt (by omega)]
  have hF : ∀ x < volume L, ∀ mu < L.ND, _ = _ := fun x hx mu hmu =>
    finish2_eq hL tail hs hb2T hbT s'.lat3 s'.lat4 s'.lat hx hmu
  -- slices other than T-3
  have hother : ∀ x < volume L, ∀ mu < L.ND, time L x + 3 ≠ extent L →
      finish2 L tail (lcu L * b2) (lcu L * b) (lcu L * (extent L - 2)) s'.lat3 s'.lat4 s'.lat (x, mu) =
        (upd s.lat (s.z (x, mu)) x mu).2 := by
    intro x hx mu hmu hne
    obtain ⟨h1, h3, h4⟩ := site_split hL hx
    rw [hF x hx mu hmu]
    by_cases c1 : time L x = extent L - 2 + 1
    · rw [if_pos c1, H.buf4 _ (by omega) mu hmu]
      have : lcu L * (extent L - 2) + (x % lcu L + lcu L) = x := by
        conv_rhs => rw [h4, c1]
        ring
      rw [this]
    · rw [if_neg c1]
      by_cases c2 : time L x = extent L - 2
      · rw [if_pos c2, H.buf4 _ (by omega) mu hmu, ← c2, ← h4]
      · have h4' : 4 ≤ extent L := by omega
        rw [if_neg c2, if_neg (by rw [hbv (by omega)]; omega)]
        by_cases c3 : time L x = b2
        · rw [if_pos c3, H.buf3' (by omega) _ h3 mu hmu,
            show extent L - 2 - 2 = time L x by rw [c3, hb2v h4']; omega, ← h4]
        · rw [if_neg c3]
          rw [hb2v h4'] at c3
          exact H.new x hx mu hmu (by omega)
  refine ⟨hother, ?_, ?_, ?_, ?_, ?_⟩
  · rintro rfl x hx mu hmu
    by_cases hne : time L x + 3 ≠ extent L
    · exact hother x hx mu hmu hne
    · obtain ⟨h1, h3, h4⟩ := site_split hL hx
      rw [hF x hx mu hmu, if_neg (by omega), if_neg (by omega), if_pos (by rw [hbv (by omega)]; omega),
        H.buf3 (by omega) _ h3 mu hmu, show extent L - 2 - 1 = time L x by omega, ← h4]
  · rintro rfl h4 i hi mu hmu
    have ht := time_add (L := L) (extent L - 3) hi
    have hm : (lcu L * (extent L - 3) + i) % lcu L = i := by rw [Nat.mul_add_mod, Nat.mod_eq_of_lt hi]
    rw [hF _ (slice_lt (by omega) hi) mu hmu, ht, if_neg (by omega), if_neg (by omega),
      if_pos (by rw [hbv (by omega)]), hm, Nat.add_zero, H.buf3' (by omega) i hi mu hmu]
    rfl
  · rintro rfl h3 i hi mu hmu
    have ht := time_add (L := L) 0 hi
    rw [Nat.mul_zero, Nat.zero_add] at ht
    rw [hF _ (by have := slice_lt (L := L) (t := 0) (by omega) hi; rwa [Nat.mul_zero, Nat.zero_add] at this) mu hmu,
      ht, if_neg (by omega), if_neg (by omega), if_pos (by rw [hbv (by omega)]; omega), Nat.mod_eq_of_lt hi,
      Nat.add_zero]
    exact H.first3 (by omega) i hi mu hmu
  · intro l hl'
    rw [finish2_other hL tail hs hb2T hbT s'.lat3 s'.lat4 s'.lat hl']
    exact H.out l hl'
  · funext ⟨x, mu⟩
    simp only [simultaneous]
    by_cases hx : x < volume L ∧ mu < L.ND
    · rw [if_pos hx]
      exact H.znew x hx.1 mu hx.2 (by omega)
    · rw [if_neg hx]
      exact H.zout _ hx

/-- **C65**, the flow step: with improved staples (reading up to two slices away) the memory-saving
step is the simultaneous update for every temporal extent of at least two. -/
theorem C65_flow {L : Latt} (hL : Valid L) (h2 : 2 ≤ extent L) {upd : Upd M Z}
    (hr : Reads L (Adjacent2 (extent L)) upd) (s : St M Z) :
    ∃ s', sweep2 L (lcu L) upd s = some s' ∧ (s'.lat, s'.z) = simultaneous L L.ND upd (s.lat, s.z) := by
  obtain ⟨s', h, _, h1, _, _, h3, h4⟩ := sweep2_spec hL h2 hr (lcu L) s
  refine ⟨s', h, Prod.ext ?_ h4⟩
  funext ⟨x, mu⟩
  simp only [simultaneous]
  by_cases hx : x < volume L ∧ mu < L.ND
  · rw [if_pos hx]; exact h1 rfl x hx.1 mu hx.2
  · rw [if_neg hx]; exact h3 _ hx

/-- **C65**, `smear4D`, what holds: with improved staples every slice but the third from the end is
right.  Missing: that slice (see `C65_smear_wrong_slice`). -/
theorem C65_smear_partial {L : Latt} (hL : Valid L) (h2 : 2 ≤ extent L) {upd : Upd M Z}
    (hr : Reads L (Adjacent2 (extent L)) upd) (s : St M Z) :
    ∃ s', sweep2 L 0 upd s = some s' ∧ ∀ x < volume L, ∀ mu < L.ND, time L x + 3 ≠ extent L →
      s'.lat (x, mu) = (simultaneous L L.ND upd (s.lat, s.z)).1 (x, mu) := by
  obtain ⟨s', h, h1, _⟩ := sweep2_spec hL h2 hr 0 s
  refine ⟨s', h, fun x hx mu hmu ht => ?_⟩
  simp only [simultaneous]
  rw [if_pos ⟨hx, hmu⟩]
  exact h1 x hx mu hmu ht

/-- **C65** fails in `smear4D` for every temporal extent of four or more: the third slice from the
end receives the new links of the slice before it; with three slices the first slice receives
whatever was in the buffer. -/
theorem C65_smear_wrong_slice {L : Latt} (hL : Valid L) {upd : Upd M Z}
    (hr : Reads L (Adjacent2 (extent L)) upd) (s : St M Z) :
    (4 ≤ extent L → ∃ s', sweep2 L 0 upd s = some s' ∧ ∀ i < lcu L, ∀ mu < L.ND,
      s'.lat (lcu L * (extent L - 3) + i, mu) =
        (simultaneous L L.ND upd (s.lat, s.z)).1 (lcu L * (extent L - 4) + i, mu)) ∧
    (extent L = 3 → ∃ s', sweep2 L 0 upd s = some s' ∧ ∀ i < lcu L, ∀ mu < L.ND,
      s'.lat (i, mu) = s.lat3 (i + lcu L, mu)) := by
  constructor
  · intro h4
    obtain ⟨s', h, _, _, h1, _⟩ := sweep2_spec hL (by omega) hr 0 s
    refine ⟨s', h, fun i hi mu hmu => ?_⟩
    simp only [simultaneous]
    rw [if_pos ⟨slice_lt (by omega) hi, hmu⟩]
    exact h1 rfl h4 i hi mu hmu
  · intro h3
    obtain ⟨s', h, _, _, _, h1, _⟩ := sweep2_spec hL (by omega) hr 0 s
    exact ⟨s', h, h1 rfl h3⟩

/-- **C65** fails: on every lattice with four or more slices there are a field and an update
(even one that does not change any link) for which the improved `smear4D` is not the
simultaneous update. -/
theorem C65_smear_fails {L : Latt} (hL : Valid L) (h4 : 4 ≤ extent L) :
    ∃ (upd : Upd ℕ Unit) (s : St ℕ Unit), Reads L (Adjacent2 (extent L)) upd ∧
      ∀ s', sweep2 L 0 upd s = some s' → s'.lat ≠ (simultaneous L L.ND upd (s.lat, s.z)).1 := by
  have hr : Reads L (Adjacent2 (extent L)) (fun (lat : Loc → ℕ) (_ : Unit) x mu => ((), lat (x, mu))) := by
    intro lat lat' z x mu hx hmu h
    simp only
    rw [h x hx mu hmu (Or.inl (Or.inl rfl))]
  refine ⟨_, ⟨fun l => l.1, fun _ => (), fun _ => 0, fun _ => 0, fun _ => 0⟩, hr, fun s' hs' heq => ?_⟩
  obtain ⟨s'', h, hw⟩ := (C65_smear_wrong_slice hL hr ⟨fun l => l.1, fun _ => (), fun _ => 0, fun _ => 0, fun _ => 0⟩).1 h4
  rw [hs', Option.some_inj] at h
  subst h
  have hl := lcu_pos hL
  have hnd := hL.nd
  have := hw 0 hl 0 (by omega)
  rw [heq] at this
  simp only [simultaneous] at this
  rw [if_pos ⟨slice_lt (by omega) hl, by omega⟩, if_pos ⟨slice_lt (by omega) hl, by omega⟩] at this
  obtain ⟨m, hm⟩ : ∃ m, extent L = m + 4 := ⟨extent L - 4, by omega⟩
  rw [hm, show m + 4 - 3 = m + 1 by omega, Nat.add_sub_cancel, Nat.mul_succ] at this
  omega

/-- **C65**: with a single time slice both improved sweeps leave their arrays. -/
theorem C65_one_slice {L : Latt} (tail : ℕ) (upd : Upd M Z) (s : St M Z) (h : extent L = 1) :
    sweep2 L tail upd s = none := by
  unfold sweep2; rw [if_pos (by omega)]

end GLU.Smear
