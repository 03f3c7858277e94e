import Verif.Cuts.ConfigLemmas
import Verif.Field.ChargeProps
import Mathlib.Algebra.Order.BigOperators.Group.Finset

/-!
# The gluon correlator in configuration space (C92)
-/

namespace GLU.Cuts

open Complex Finset Matrix GLU.Mat GLU.Geom GLU.Field

/-- The matrices of a field. -/
noncomputable def mats (NC : ℕ) (A : Gauge) (x mu : ℕ) : Matrix (Fin NC) (Fin NC) ℂ := toM NC (A (x, mu))

/-- All matrices of the field are Hermitian and traceless. -/
def HermField (NC : ℕ) (L : Latt) (A : Gauge) : Prop :=
  ∀ x < volume L, ∀ mu < L.ND, HermTraceless NC (A (x, mu))

theorem momSquare_eq (NC : ℕ) (L : Latt) (sign : ℝ) (A : Gauge) {k : ℕ} (hk : k < volume L) :
    momSquare NC L (mom_gauge NC L sign id A) k =
      ∑ mu ∈ range L.ND, ∑ a : Fin NC, ∑ b : Fin NC,
        small_plan L sign (fun x => mats NC A x mu a b) k * star (small_plan L sign (fun x => mats NC A x mu a b) k) := by
  unfold momSquare
  rw [forN_sum, zero_add]
  refine sum_congr rfl fun mu hmu => ?_
  rw [C12_trace_ab_dag]
  simp only [Matrix.trace, diag_apply, mul_apply, conjTranspose_apply]
  refine sum_congr rfl fun a _ => sum_congr rfl fun b _ => ?_
  have : toM NC (mom_gauge NC L sign id A (k, mu)) a b = small_plan L sign (fun x => mats NC A x mu a b) k := by
    rw [toM_apply]
    unfold mom_gauge
    rw [if_pos ⟨hk, mem_range.1 hmu, index_lt a.2 b.2⟩]
    rfl
  rw [this]

theorem sum_swap4 {α β : Type*} (s t : Finset ℕ) (u : Finset α) (v : Finset β) (f : α → β → ℕ → ℕ → ℂ) :
    ∑ a ∈ u, ∑ b ∈ v, ∑ x ∈ s, ∑ y ∈ t, f a b x y = ∑ x ∈ s, ∑ y ∈ t, ∑ a ∈ u, ∑ b ∈ v, f a b x y := by
  calc ∑ a ∈ u, ∑ b ∈ v, ∑ x ∈ s, ∑ y ∈ t, f a b x y
      = ∑ a ∈ u, ∑ x ∈ s, ∑ b ∈ v, ∑ y ∈ t, f a b x y := sum_congr rfl fun a _ => sum_comm
    _ = ∑ x ∈ s, ∑ a ∈ u, ∑ b ∈ v, ∑ y ∈ t, f a b x y := sum_comm
    _ = ∑ x ∈ s, ∑ a ∈ u, ∑ y ∈ t, ∑ b ∈ v, f a b x y :=
        sum_congr rfl fun x _ => sum_congr rfl fun a _ => sum_comm
    _ = _ := sum_congr rfl fun x _ => sum_comm

theorem out_eq {NC : ℕ} {L : Latt} (hL : Valid L) {sign : ℝ} (hs : sign = 1 ∨ sign = -1) (A : Gauge) (r : ℕ) :
    small_plan L (-sign) (momSquare NC L (mom_gauge NC L sign id A)) r =
      volume L * ∑ mu ∈ range L.ND, ∑ x ∈ range (volume L), ∑ y ∈ range (volume L),
        if Shifted L r y x then trace (mats NC A x mu * (mats NC A y mu)ᴴ) else 0 := by
  rw [plan_congr hL _ fun k hk => momSquare_eq NC L sign A hk, plan_sum, mul_sum]
  refine sum_congr rfl fun mu _ => ?_
  simp only [plan_sum, autocorr hL hs]
  simp only [← mul_sum]
  congr 1
  have : ∀ x y, (if Shifted L r y x then trace (mats NC A x mu * (mats NC A y mu)ᴴ) else 0) =
      ∑ a : Fin NC, ∑ b : Fin NC, if Shifted L r y x then mats NC A x mu a b * star (mats NC A y mu a b) else 0 := by
    intro x y
    split
    · simp only [Matrix.trace, diag_apply, mul_apply, conjTranspose_apply]
    · simp
  simp only [this]
  exact sum_swap4 _ _ _ _ _

/-- C92, a build with FFTW: whatever the sign of the transform, the correlator written is the correlator of the slice
sums of all directions (the temporal one included), divided by `ND - 1` and the spatial volume. -/
theorem C92_fft {NC : ℕ} {L : Latt} (hL : Valid L) {sign : ℝ} (hs : sign = 1 ∨ sign = -1) {A : Gauge}
    (hA : HermField NC L A) {spacing : ℕ} (hsp : spacing ≤ L.dims (L.ND - 1)) :
    ∃ gs, spatial_correlator_fft NC L sign A (spat_norm L) spacing = some gs ∧
      ∀ t < L.dims (L.ND - 1), gs t = 1 / ((L.ND - 1) * lcu L) * sliceCorr L (mats NC A) L.ND t := by
  unfold spatial_correlator_fft
  rw [if_neg (by omega)]
  refine ⟨_, rfl, fun t ht => ?_⟩
  rw [acc_eq, ← re_sum, sum_time_gen hL ht (fun r => small_plan L (-sign)
    (momSquare NC L (mom_gauge NC L sign id A)) r)]
  simp only [out_eq hL hs]
  have e1 : ∑ r ∈ range (volume L), (if coord L L.ND r (L.ND - 1) = t then
      (volume L : ℂ) * ∑ mu ∈ range L.ND, ∑ x ∈ range (volume L), ∑ y ∈ range (volume L),
        (if Shifted L r y x then trace (mats NC A x mu * (mats NC A y mu)ᴴ) else 0) else 0) =
      volume L * ∑ mu ∈ range L.ND, ∑ x ∈ range (volume L), ∑ y ∈ range (volume L),
        if coord L L.ND x (L.ND - 1) = (coord L L.ND y (L.ND - 1) + t) % L.dims (L.ND - 1) then
          trace (mats NC A x mu * (mats NC A y mu)ᴴ) else 0 := by
    have : ∀ r, (if coord L L.ND r (L.ND - 1) = t then
      (volume L : ℂ) * ∑ mu ∈ range L.ND, ∑ x ∈ range (volume L), ∑ y ∈ range (volume L),
        (if Shifted L r y x then trace (mats NC A x mu * (mats NC A y mu)ᴴ) else 0) else 0) =
        volume L * ∑ mu ∈ range L.ND, ∑ x ∈ range (volume L), ∑ y ∈ range (volume L),
          if coord L L.ND r (L.ND - 1) = t then
            (if Shifted L r y x then trace (mats NC A x mu * (mats NC A y mu)ᴴ) else 0) else 0 := by
      intro r
      split
      · rfl
      · simp
    simp only [this]
    rw [← mul_sum]
    congr 1
    rw [sum_comm]
    refine sum_congr rfl fun mu _ => ?_
    rw [sum_comm]
    refine sum_congr rfl fun x hx => ?_
    rw [sum_comm]
    refine sum_congr rfl fun y hy => ?_
    exact sum_separation hL ht (mem_range.1 hx) (mem_range.1 hy) _
  rw [e1, ← ofReal_natCast, re_ofReal_mul]
  have e2 : (∑ mu ∈ range L.ND, ∑ x ∈ range (volume L), ∑ y ∈ range (volume L),
        if coord L L.ND x (L.ND - 1) = (coord L L.ND y (L.ND - 1) + t) % L.dims (L.ND - 1) then
          trace (mats NC A x mu * (mats NC A y mu)ᴴ) else 0 : ℂ).re = sliceCorr L (mats NC A) L.ND t := by
    rw [re_sum]
    unfold sliceCorr
    refine sum_congr rfl fun mu hmu => ?_
    have e3 := pair_slices hL (mats NC A) mu (t := t)
    rw [re_sum]
    simp only [re_sum, apply_ite Complex.re, zero_re]
    rw [e3]
    refine sum_congr rfl fun tau _ => ?_
    rw [sliceField_herm (A := mats NC A) (mu := mu) fun x hx => (hA x hx mu (mem_range.1 hmu)).1, Matrix.trace_mul_comm]
  rw [e2]
  unfold spat_norm
  have hV : (volume L : ℝ) ≠ 0 := by
    have := volume_pos hL
    exact_mod_cast this.ne'
  field_simp

theorem herm_re {NC : ℕ} {L : Latt} {A : Gauge} (hA : HermField NC L A) {x y mu : ℕ} (hx : x < volume L)
    (hy : y < volume L) (hmu : mu < L.ND) :
    trace_ab_herm NC (A (x, mu)) (A (y, mu)) = (trace (mats NC A x mu * mats NC A y mu)).re := by
  have h := C12_trace_ab_herm (hA x hx mu hmu).1 (hA y hy mu hmu).1 fun _ => ⟨(hA x hx mu hmu).2, (hA y hy mu hmu).2⟩
  have h2 := congrArg Complex.re h
  rw [ofReal_re] at h2
  exact h2

theorem slice_lt {L : Latt} {i tau : ℕ} (hi : i < lcu L) (ht : tau < L.dims (L.ND - 1)) :
    lcu L * tau + i < volume L := by
  unfold volume
  calc lcu L * tau + i < lcu L * tau + lcu L := by omega
    _ = lcu L * (tau + 1) := by ring
    _ ≤ _ := Nat.mul_le_mul_left _ ht

/-- A field contracted with a slice sum. -/
theorem contract_eq {NC : ℕ} {L : Latt} (hL : Valid L) {A : Gauge} (hA : HermField NC L A) {x tau : ℕ}
    (hx : x < volume L) (ht : tau < L.dims (L.ND - 1)) :
    ∑ j ∈ range (lcu L), ∑ mu ∈ range (L.ND - 1), trace_ab_herm NC (A (x, mu)) (A (j + lcu L * tau, mu)) =
      ∑ mu ∈ range (L.ND - 1), (trace (mats NC A x mu * sliceField L (mats NC A) mu tau)).re := by
  rw [sum_comm]
  refine sum_congr rfl fun mu hmu => ?_
  rw [sliceField_eq hL _ _ ht, Matrix.mul_sum, trace_sum, re_sum]
  refine sum_congr rfl fun j hj => ?_
  rw [add_comm j, herm_re hA hx (slice_lt (mem_range.1 hj) ht) (by have := mem_range.1 hmu; omega)]

/-- C92, a build without FFTW and unit spacing: the correlator of the slice sums of the spatial directions. -/
theorem C92_pointsource {NC : ℕ} {L : Latt} (hL : Valid L) {A : Gauge} (hA : HermField NC L A) :
    ∃ gs, spatial_correlator_direct NC L A 1 = some gs ∧
      ∀ t < L.dims (L.ND - 1), gs t = 2 / (lcu L ^ 2 * L.dims (L.ND - 1)) * sliceCorr L (mats NC A) (L.ND - 1) t := by
  unfold spatial_correlator_direct
  refine ⟨_, if_pos rfl, ?_⟩
  have hpos := hL.pos (L.ND - 1) (by have := hL.nd; omega)
  have key : ∀ t, acc (fun tau => acc (fun i => acc (fun j => acc (fun mu =>
      trace_ab_herm NC (A (i + lcu L * tau, mu)) (A (j + lcu L * ((tau + t) % L.dims (L.ND - 1)), mu))) (L.ND - 1))
        (lcu L)) (lcu L)) (L.dims (L.ND - 1)) * 2 / (lcu L * lcu L * L.dims (L.ND - 1)) =
      2 / (lcu L ^ 2 * L.dims (L.ND - 1)) * sliceCorr L (mats NC A) (L.ND - 1) t := by
    intro t
    simp only [acc_eq]
    have e : ∑ tau ∈ range (L.dims (L.ND - 1)), ∑ i ∈ range (lcu L), ∑ j ∈ range (lcu L), ∑ mu ∈ range (L.ND - 1),
        trace_ab_herm NC (A (i + lcu L * tau, mu)) (A (j + lcu L * ((tau + t) % L.dims (L.ND - 1)), mu)) =
        sliceCorr L (mats NC A) (L.ND - 1) t := by
      unfold sliceCorr
      conv_rhs => rw [sum_comm]
      refine sum_congr rfl fun tau htau => ?_
      have htau := mem_range.1 htau
      have hm := Nat.mod_lt (tau + t) hpos
      have e' : ∀ i ∈ range (lcu L), ∑ j ∈ range (lcu L), ∑ mu ∈ range (L.ND - 1),
          trace_ab_herm NC (A (i + lcu L * tau, mu)) (A (j + lcu L * ((tau + t) % L.dims (L.ND - 1)), mu)) =
          ∑ mu ∈ range (L.ND - 1), (trace (mats NC A (lcu L * tau + i) mu *
            sliceField L (mats NC A) mu ((tau + t) % L.dims (L.ND - 1)))).re := fun i hi => by
        rw [add_comm i]; exact contract_eq hL hA (slice_lt (mem_range.1 hi) htau) hm
      rw [sum_congr rfl e', sum_comm]
      refine sum_congr rfl fun mu _ => ?_
      rw [← re_sum, ← trace_sum, ← Matrix.sum_mul, sliceField_eq hL _ _ htau]
    rw [e]
    ring
  intro t ht
  unfold spatial_pointsource
  dsimp only
  split
  · exact key t
  · rw [key, sliceCorr_symm hL _ _ ht.le]

/-! ### Sparse sources -/

theorem mem_strided {s n nu : ℕ} (hs : 0 < s) : nu ∈ strided s n ↔ nu < n ∧ s ∣ nu := by
  unfold strided
  simp only [List.mem_map, List.mem_range]
  constructor
  · rintro ⟨k, hk, rfl⟩
    refine ⟨?_, dvd_mul_right _ _⟩
    rw [Nat.lt_div_iff_mul_lt hs] at hk
    rw [mul_comm]
    omega
  · rintro ⟨h1, k, rfl⟩
    refine ⟨k, ?_, rfl⟩
    rw [Nat.lt_div_iff_mul_lt hs, mul_comm]
    omega

theorem nodup_strided {s : ℕ} (hs : 0 < s) (n : ℕ) : (strided s n).Nodup := by
  unfold strided
  exact List.nodup_range.map fun a b h => Nat.eq_of_mul_eq_mul_left hs h

/-- The loop over the strided values as a sum. -/
theorem strided_sum {s : ℕ} (hs : 0 < s) (n : ℕ) (f : ℕ → ℝ) (g : ℕ → ℕ) (nm : ℕ) :
    (strided s n).foldl (fun (p : ℝ × ℕ) nu => (p.1 + f nu, p.2 + g nu)) (0, nm) =
      (∑ nu ∈ range n, (if s ∣ nu then f nu else 0), nm + ∑ nu ∈ range n, if s ∣ nu then g nu else 0) := by
  have h1 : ∀ (l : List ℕ) (a : ℝ) (b : ℕ), l.foldl (fun (p : ℝ × ℕ) nu => (p.1 + f nu, p.2 + g nu)) (a, b) =
      (a + (l.map f).sum, b + (l.map g).sum) := by
    intro l
    induction l with
    | nil => intro a b; simp
    | cons x t ih => intro a b; rw [List.foldl_cons, ih, List.map_cons, List.map_cons, List.sum_cons, List.sum_cons,
        add_assoc, add_assoc]
  have h2 : (strided s n).toFinset = (range n).filter (s ∣ ·) := by
    ext nu
    rw [List.mem_toFinset, mem_strided hs, mem_filter, mem_range]
  rw [h1, ← List.sum_toFinset _ (nodup_strided hs n), ← List.sum_toFinset _ (nodup_strided hs n), h2, sum_filter,
    sum_filter, zero_add]

/-- The sites of the first slice that `recurse_sum` visits with `n` directions left. -/
def Visited (L : Latt) (spacing n : ℕ) (vec : ℕ → ℤ) (y : ℕ) : Prop :=
  ∀ nu < L.ND - 1, (nu < L.ND - 1 - n → (coord L L.ND y nu : ℤ) = vec nu) ∧
    (L.ND - 1 - n ≤ nu → spacing ∣ coord L L.ND y nu)

instance (L : Latt) (spacing n : ℕ) (vec : ℕ → ℤ) (y : ℕ) : Decidable (Visited L spacing n vec y) :=
  inferInstanceAs (Decidable (∀ nu < L.ND - 1, _))

theorem lt_lcu {L : Latt} (hL : Valid L) {x : ℕ} (hx : x < volume L) (h0 : coord L L.ND x (L.ND - 1) = 0) :
    x < lcu L := by
  have hnd := hL.nd
  rw [coord_eq L (by omega), ← lcu_eq L hnd] at h0
  unfold volume at hx
  have h1 : x / lcu L < L.dims (L.ND - 1) := Nat.div_lt_of_lt_mul hx
  rw [Nat.mod_eq_of_lt h1] at h0
  have hpos : 0 < lcu L := Nat.pos_of_ne_zero fun h => by rw [h] at hx; omega
  exact (Nat.div_eq_zero_iff_lt hpos).1 h0

theorem coord_last_zero {L : Latt} (hL : Valid L) {x : ℕ} (hx : x < lcu L) : coord L L.ND x (L.ND - 1) = 0 := by
  have hpos := hL.pos (L.ND - 1) (by have := hL.nd; omega)
  have := coord_last hL hpos hx
  rwa [Nat.mul_zero, Nat.zero_add] at this

theorem recurse_eq {NC : ℕ} {L : Latt} (hL : Valid L) (A : Gauge) (idx1 idx2 : ℕ) {spacing : ℕ} (hs : 0 < spacing) :
    ∀ (n : ℕ) (vec : ℕ → ℤ) (nm : ℕ), n ≤ L.ND - 1 →
      (∀ nu < L.ND - 1 - n, 0 ≤ vec nu ∧ vec nu < L.dims nu) → (∀ nu, L.ND - 1 - n ≤ nu → vec nu = 0) →
      recurse_sum NC L A idx1 idx2 spacing n vec nm =
        (∑ y ∈ range (lcu L), (if Visited L spacing n vec y then contract_slices NC L A (idx1 + y) idx2 else 0),
         nm + ∑ y ∈ range (lcu L), if Visited L spacing n vec y then 1 else 0) := by
  have hnd := hL.nd
  intro n
  induction n with
  | zero =>
    intro vec nm _ hv h0
    have hin : InRange L vec := by
      intro nu hnu
      rcases Nat.lt_or_ge nu (L.ND - 1) with h | h
      · exact hv nu (by omega)
      · rw [h0 nu (by omega)]
        have := hL.pos nu hnu
        omega
    have hlt : gen_site L vec < volume L := gen_site_lt hL hin
    have hc : ∀ nu < L.ND, (coord L L.ND (gen_site L vec) nu : ℤ) = vec nu := fun nu hnu => coord_gen_site hL hin hnu
    have hl : gen_site L vec < lcu L := by
      refine lt_lcu hL hlt ?_
      have := hc (L.ND - 1) (by omega)
      rw [h0 _ (by omega)] at this
      exact_mod_cast this
    have hiff : ∀ y ∈ range (lcu L), Visited L spacing 0 vec y ↔ y = gen_site L vec := by
      intro y hy
      have hy := mem_range.1 hy
      constructor
      · intro h
        have hyV : y < volume L := lt_of_lt_of_le hy (by
          unfold volume; exact Nat.le_mul_of_pos_right _ (hL.pos _ (by omega)))
        refine Geom.site_ext hL hyV hlt fun mu hmu => ?_
        rcases Nat.lt_or_ge mu (L.ND - 1) with h' | h'
        · have h1 := (h mu h').1 (by omega)
          have h2 := hc mu hmu
          omega
        · have hmu' : mu = L.ND - 1 := by omega
          subst hmu'
          rw [coord_last_zero hL hy, coord_last_zero hL hl]
      · rintro rfl
        intro nu hnu
        exact ⟨fun _ => hc nu (by omega), fun h => by omega⟩
    rw [recurse_sum]
    rw [sum_congr rfl fun y hy => if_congr (hiff y hy) rfl rfl, sum_congr rfl fun y hy => if_congr (hiff y hy) rfl rfl,
      sum_ite_eq', sum_ite_eq', if_pos (mem_range.2 hl), if_pos (mem_range.2 hl)]
  | succ n ih =>
    intro vec nm hn hv h0
    rw [recurse_sum]
    dsimp only
    set mu := L.ND - 1 - (n + 1) with hmu
    have hstep : ∀ nu ∈ strided spacing (L.dims mu), ∀ m, recurse_sum NC L A idx1 idx2 spacing n
        (Function.update vec mu (nu : ℤ)) m =
        (∑ y ∈ range (lcu L), (if Visited L spacing n (Function.update vec mu (nu : ℤ)) y then
            contract_slices NC L A (idx1 + y) idx2 else 0),
         m + ∑ y ∈ range (lcu L), if Visited L spacing n (Function.update vec mu (nu : ℤ)) y then 1 else 0) := by
      intro nu hnu m
      have hnu := ((mem_strided hs).1 hnu).1
      refine ih _ m (by omega) (fun rho hrho => ?_) (fun rho hrho => ?_)
      · rw [Function.update_apply]
        split
        · rename_i h; rw [h]; exact ⟨Int.natCast_nonneg _, by exact_mod_cast hnu⟩
        · exact hv rho (by omega)
      · rw [Function.update_of_ne (by omega)]
        exact h0 rho (by omega)
    rw [List.foldl_ext _ (fun (p : ℝ × ℕ) (nu : ℕ) => (p.1 + ∑ y ∈ range (lcu L),
        (if Visited L spacing n (Function.update vec mu (nu : ℤ)) y then contract_slices NC L A (idx1 + y) idx2 else 0),
        p.2 + ∑ y ∈ range (lcu L), if Visited L spacing n (Function.update vec mu (nu : ℤ)) y then 1 else 0)) (0, nm)
      (fun p nu hnu => by rw [hstep nu hnu]), strided_sum hs]
    have hvis : ∀ y nu, (spacing ∣ nu ∧ Visited L spacing n (Function.update vec mu (nu : ℤ)) y) ↔
        (nu = coord L L.ND y mu ∧ Visited L spacing (n + 1) vec y) := by
      intro y nu
      constructor
      · rintro ⟨h1, h2⟩
        have h3 := (h2 mu (by omega)).1 (by omega)
        rw [Function.update_self] at h3
        have h4 : nu = coord L L.ND y mu := by exact_mod_cast h3.symm
        refine ⟨h4, fun rho hrho => ⟨fun h => ?_, fun h => ?_⟩⟩
        · have := (h2 rho hrho).1 (by omega)
          rwa [Function.update_of_ne (by omega)] at this
        · rcases Nat.lt_or_ge mu rho with h5 | h5
          · exact (h2 rho hrho).2 (by omega)
          · have : rho = mu := by omega
            rw [this, ← h4]; exact h1
      · rintro ⟨rfl, h2⟩
        refine ⟨(h2 mu (by omega)).2 (by omega), fun rho hrho => ⟨fun h => ?_, fun h => (h2 rho hrho).2 (by omega)⟩⟩
        rw [Function.update_apply]
        split
        · rename_i h3; rw [h3]
        · exact (h2 rho hrho).1 (by omega)
    have hswap : ∀ {M : Type} [AddCommMonoid M] (c : ℕ → M), ∑ nu ∈ range (L.dims mu), (if spacing ∣ nu then
        ∑ y ∈ range (lcu L), (if Visited L spacing n (Function.update vec mu (nu : ℤ)) y then c y else 0) else 0) =
        ∑ y ∈ range (lcu L), if Visited L spacing (n + 1) vec y then c y else 0 := by
      intro M _ c
      have h1 : ∀ nu, (if spacing ∣ nu then ∑ y ∈ range (lcu L),
          (if Visited L spacing n (Function.update vec mu (nu : ℤ)) y then c y else 0) else 0) =
          ∑ y ∈ range (lcu L), if nu = coord L L.ND y mu then
            (if Visited L spacing (n + 1) vec y then c y else 0) else 0 := by
        intro nu
        by_cases hd : spacing ∣ nu
        · rw [if_pos hd]
          refine sum_congr rfl fun y _ => ?_
          rw [← ite_and]
          exact if_congr ((and_iff_right hd).symm.trans (hvis y nu)) rfl rfl
        · rw [if_neg hd]
          refine (sum_eq_zero fun y _ => ?_).symm
          rw [← ite_and, if_neg fun h => hd ((hvis y nu).2 h).1]
      simp only [h1]
      rw [sum_comm]
      refine sum_congr rfl fun y _ => ?_
      rw [sum_ite_eq', if_pos (mem_range.2 (coord_lt L hL.pos L.ND y (by omega)))]
    rw [hswap, hswap]

theorem coord_spatial {L : Latt} (hL : Valid L) (t i : ℕ) {mu : ℕ}
    (hmu : mu < L.ND - 1) : coord L L.ND (lcu L * t + i) mu = coord L L.ND i mu := by
  have hmu' : mu < L.ND := by omega
  rw [coord_eq L hmu', coord_eq L hmu']
  obtain ⟨k, hk⟩ := dvd_radix L.dims hmu
  rw [lcu_eq L hL.nd, hk, show radix L.dims mu * L.dims mu * k * t + i
    = i + radix L.dims mu * (L.dims mu * (k * t)) by ring, Nat.add_mul_div_left _ _ (hL.radix_pos mu hmu'.le),
    Nat.add_mul_mod_self_left]

theorem forN_pair (n : ℕ) (f : ℕ → ℝ) (g : ℕ → ℕ) (h : ℕ → ℕ → ℝ × ℕ)
    (hh : ∀ tau < n, ∀ m, h tau m = (f tau, m + g tau)) :
    forN n (fun tau (s : ℝ × ℕ) => (s.1 + (h tau s.2).1, (h tau s.2).2)) (0, 0) =
      (∑ tau ∈ range n, f tau, ∑ tau ∈ range n, g tau) := by
  induction n with
  | zero => simp [forN]
  | succ n ih =>
    rw [forN, ih fun tau htau => hh tau (by omega)]
    dsimp only
    rw [hh n (by omega), sum_range_succ, sum_range_succ]

theorem sparse_slice {L : Latt} (hL : Valid L) (t i spacing : ℕ) :
    Sparse L spacing (lcu L * t + i) ↔ Sparse L spacing i := by
  unfold Sparse
  refine forall_congr' fun mu => forall_congr' fun hmu => ?_
  rw [coord_spatial hL t i hmu]

/-- C92, a build without FFTW and any positive spacing: the correlator of the sums over the sparse sites with the slice
sums, for the spatial directions, averaged over the sparse sites and over the slice. -/
theorem C92_sparse {NC : ℕ} {L : Latt} (hL : Valid L) {A : Gauge} (hA : HermField NC L A) {spacing : ℕ}
    (hs : 0 < spacing) :
    ∃ gs, spatial_correlator_direct NC L A spacing = some gs ∧
      ∀ t < L.dims (L.ND - 1), gs t = 2 / (lcu L * ((range (volume L)).filter (Sparse L spacing)).card) *
        sparseCorr L (mats NC A) spacing t := by
  have hpos := hL.pos (L.ND - 1) (by have := hL.nd; omega)
  by_cases h1 : spacing = 1
  · subst h1
    obtain ⟨gs, e1, e2⟩ := C92_pointsource hL hA
    refine ⟨gs, e1, fun t ht => ?_⟩
    have hall : ∀ x, Sparse L 1 x := fun x mu _ => one_dvd _
    have hcard : ((range (volume L)).filter (Sparse L 1)).card = lcu L * L.dims (L.ND - 1) := by
      rw [filter_true_of_mem fun x _ => hall x, card_range]; rfl
    have hcorr : sparseCorr L (mats NC A) 1 t = sliceCorr L (mats NC A) (L.ND - 1) t := by
      unfold sparseCorr sliceCorr sparseField sliceField
      simp only [hall, and_true]
    rw [e2 t ht, hcard, hcorr]
    push_cast
    rw [sq, mul_assoc]
  · unfold spatial_correlator_direct
    dsimp only
    rw [if_neg h1, if_neg (by omega)]
    refine ⟨_, rfl, fun t ht => ?_⟩
    have hrec : ∀ tau < L.dims (L.ND - 1), ∀ m, recurse_sum NC L A (lcu L * tau)
        (lcu L * ((tau + t) % L.dims (L.ND - 1))) spacing (L.ND - 1) (fun _ => 0) m =
        (1 / lcu L * ∑ mu ∈ range (L.ND - 1), (trace (sparseField L (mats NC A) spacing mu tau *
            sliceField L (mats NC A) mu ((tau + t) % L.dims (L.ND - 1)))).re,
          m + ∑ y ∈ range (volume L), if coord L L.ND y (L.ND - 1) = tau ∧ Sparse L spacing y then 1 else 0) := by
      intro tau htau m
      have hm := Nat.mod_lt (tau + t) hpos
      rw [recurse_eq hL A _ _ hs _ _ _ le_rfl (fun nu h => by omega) (fun nu _ => rfl)]
      have hvis : ∀ y ∈ range (lcu L), Visited L spacing (L.ND - 1) (fun _ => 0) y ↔
          Sparse L spacing (lcu L * tau + y) := by
        intro y _
        rw [sparse_slice hL]
        unfold Visited Sparse
        refine forall_congr' fun nu => forall_congr' fun hnu => ?_
        exact ⟨fun h => h.2 (by omega), fun h => ⟨fun h2 => by omega, fun _ => h⟩⟩
      have hslice : ∀ {M : Type} [AddCommMonoid M] (c : ℕ → M),
          ∑ y ∈ range (volume L), (if coord L L.ND y (L.ND - 1) = tau ∧ Sparse L spacing y then c y else 0) =
          ∑ y ∈ range (lcu L), if Sparse L spacing (lcu L * tau + y) then c (lcu L * tau + y) else 0 := by
        intro M _ c
        rw [sum_time_gen hL htau fun y => if Sparse L spacing y then c y else 0]
        exact sum_congr rfl fun y _ => by rw [ite_and]
      rw [sum_congr rfl fun y hy => if_congr (hvis y hy) rfl rfl,
        sum_congr rfl fun y hy => if_congr (hvis y hy) rfl rfl, hslice]
      refine Prod.ext ?_ rfl
      dsimp only
      unfold sparseField
      simp only [hslice]
      rw [mul_sum]
      simp only [Matrix.sum_mul, trace_sum, re_sum, mul_sum]
      rw [sum_comm]
      refine sum_congr rfl fun y hy => ?_
      split
      · unfold contract_slices
        simp only [acc_eq]
        rw [contract_eq hL hA (slice_lt (mem_range.1 hy) htau) hm, div_eq_inv_mul, mul_sum, one_div]
      · simp
    rw [forN_pair _ _ _ _ hrec]
    dsimp only
    have hN : ∑ tau ∈ range (L.dims (L.ND - 1)), ∑ y ∈ range (volume L),
        (if coord L L.ND y (L.ND - 1) = tau ∧ Sparse L spacing y then 1 else 0) =
        ((range (volume L)).filter (Sparse L spacing)).card := by
      rw [sum_comm, card_filter]
      refine sum_congr rfl fun y _ => ?_
      simp only [ite_and]
      rw [sum_ite_eq, if_pos (mem_range.2 (coord_lt L hL.pos L.ND y (by have := hL.nd; omega)))]
    rw [hN, ← mul_sum]
    unfold sparseCorr
    rw [sum_comm]
    ring

/-- C92: in both builds the correlator is symmetric about half the time extent. -/
theorem C92_symmetric {NC : ℕ} {L : Latt} (hL : Valid L) {sign : ℝ} (hs : sign = 1 ∨ sign = -1) {A : Gauge}
    (hA : HermField NC L A) {spacing : ℕ} (hsp : spacing ≤ L.dims (L.ND - 1)) :
    (∃ gs, spatial_correlator_fft NC L sign A (spat_norm L) spacing = some gs ∧
      ∀ t, 0 < t → t < L.dims (L.ND - 1) → gs (L.dims (L.ND - 1) - t) = gs t) ∧
    ∃ gs, spatial_correlator_direct NC L A 1 = some gs ∧
      ∀ t, 0 < t → t < L.dims (L.ND - 1) → gs (L.dims (L.ND - 1) - t) = gs t := by
  obtain ⟨g1, a1, b1⟩ := C92_fft hL hs hA hsp
  obtain ⟨g2, a2, b2⟩ := C92_pointsource hL hA
  refine ⟨⟨g1, a1, fun t h0 ht => ?_⟩, ⟨g2, a2, fun t h0 ht => ?_⟩⟩
  · rw [b1 _ (by omega), b1 t ht, sliceCorr_symm hL _ _ ht.le]
  · rw [b2 _ (by omega), b2 t ht, sliceCorr_symm hL _ _ ht.le]

/-- A field whose only component is the temporal one, the same matrix everywhere. -/
noncomputable def temporalField (L : Latt) : Gauge := fun l =>
  if l.2 = L.ND - 1 then arrOf (Matrix.diagonal ![(1 : ℂ), -1]) else fun _ => 0

/-- C92: the two builds do not compute the same number.  On every lattice, for a field with only a temporal
component, the build with FFTW writes a positive correlator and the build without FFTW writes zero. -/
theorem C92_builds_fail {L : Latt} (hL : Valid L) {sign : ℝ} (hs : sign = 1 ∨ sign = -1) :
    HermField 2 L (temporalField L) ∧
    ∃ g1 g2, spatial_correlator_fft 2 L sign (temporalField L) (spat_norm L) 1 = some g1 ∧
      spatial_correlator_direct 2 L (temporalField L) 1 = some g2 ∧
      ∀ t < L.dims (L.ND - 1), 0 < g1 t ∧ g2 t = 0 := by
  have hnd := hL.nd
  have hpos := hL.pos (L.ND - 1) (by omega)
  have hmat : ∀ x mu, mats 2 (temporalField L) x mu = if mu = L.ND - 1 then Matrix.diagonal ![(1 : ℂ), -1] else 0 := by
    intro x mu
    unfold mats temporalField
    dsimp only
    split
    · exact toM_arrOf _
    · ext a b; simp
  have hA : HermField 2 L (temporalField L) := by
    intro x _ mu _
    have h := hmat x mu
    unfold mats at h
    unfold HermTraceless
    rw [h]
    split
    · refine ⟨?_, ?_⟩
      · unfold Matrix.IsHermitian
        rw [diagonal_conjTranspose]
        congr 1
        funext i
        fin_cases i <;> simp
      · rw [trace_diagonal]; simp
    · exact ⟨isHermitian_zero, trace_zero _ _⟩
  refine ⟨hA, ?_⟩
  obtain ⟨g1, a1, b1⟩ := C92_fft hL hs hA (spacing := 1) hpos
  obtain ⟨g2, a2, b2⟩ := C92_pointsource hL hA
  refine ⟨g1, g2, a1, a2, fun t ht => ⟨?_, ?_⟩⟩
  · rw [b1 t ht]
    have hlcu : 0 < lcu L := by
      have := volume_pos hL
      unfold volume at this
      exact Nat.pos_of_mul_pos_right this
    have hl : (0 : ℝ) < lcu L := by exact_mod_cast hlcu
    have hn : (0 : ℝ) < L.ND - 1 := by
      have : (2 : ℝ) ≤ L.ND := by exact_mod_cast hnd
      linarith
    refine mul_pos (by positivity) ?_
    have hslice : ∀ tau < L.dims (L.ND - 1), ∀ mu, sliceField L (mats 2 (temporalField L)) mu tau =
        if mu = L.ND - 1 then (lcu L : ℂ) • Matrix.diagonal ![(1 : ℂ), -1] else 0 := by
      intro tau htau mu
      rw [sliceField_eq hL _ _ htau]
      simp only [hmat]
      rw [sum_const, card_range]
      split
      · rw [Nat.cast_smul_eq_nsmul]
      · simp
    unfold sliceCorr
    have hval : ∀ mu ∈ range L.ND, ∑ tau ∈ range (L.dims (L.ND - 1)),
        (trace (sliceField L (mats 2 (temporalField L)) mu tau *
          sliceField L (mats 2 (temporalField L)) mu ((tau + t) % L.dims (L.ND - 1)))).re =
        if mu = L.ND - 1 then L.dims (L.ND - 1) * (2 * (lcu L : ℝ) ^ 2) else 0 := by
      intro mu _
      rw [sum_congr rfl fun tau htau => by
        rw [hslice tau (mem_range.1 htau), hslice _ (Nat.mod_lt _ hpos)]]
      rw [sum_const, card_range]
      split
      · rw [nsmul_eq_mul]
        congr 1
        rw [Matrix.smul_mul, Matrix.mul_smul, diagonal_mul_diagonal, trace_smul, trace_smul, trace_diagonal]
        simp
        ring
      · simp
    rw [sum_congr rfl hval, sum_ite_eq', if_pos (mem_range.2 (by omega))]
    have hT : (0 : ℝ) < L.dims (L.ND - 1) := by exact_mod_cast hpos
    positivity
  · rw [b2 t ht]
    have : sliceCorr L (mats 2 (temporalField L)) (L.ND - 1) t = 0 := by
      unfold sliceCorr
      refine sum_eq_zero fun mu hmu => sum_eq_zero fun tau htau => ?_
      have hmu := mem_range.1 hmu
      rw [sliceField_eq hL _ _ (mem_range.1 htau)]
      simp only [hmat]
      rw [if_neg (by omega)]
      simp
    rw [this, mul_zero]

/-- C92: a spacing of zero is a loop without end in the build without FFTW, and a spacing beyond the time extent is
refused only by the build with FFTW. -/
theorem C92_spacing {NC : ℕ} {L : Latt} (hL : Valid L) (sign : ℝ) (A : Gauge) (hA : HermField NC L A) (c : ℝ) :
    spatial_correlator_direct NC L A 0 = none ∧
    ∀ s, L.dims (L.ND - 1) < s → spatial_correlator_fft NC L sign A c s = none ∧
      ∃ gs, spatial_correlator_direct NC L A s = some gs := by
  refine ⟨rfl, fun s hs => ⟨if_pos hs, ?_⟩⟩
  obtain ⟨gs, h, -⟩ := C92_sparse hL hA (spacing := s) (by omega)
  exact ⟨gs, h⟩

end GLU.Cuts
