import Verif.Cuts.StaticPot
import Verif.Cuts.CutProps
import Verif.Cuts.GluonLandau
import Verif.Cuts.SpatialProps
import Verif.Field.PolyProps

/-!
# Correlators of temporal lines (C107)
-/

namespace GLU.Cuts

open Complex Matrix Finset GLU.Mat GLU.Geom GLU.Field

/-! ## Specification -/

/-- `x` is at the time of `y` and displaced from it by `d`, with periodic boundaries. -/
def Apart (L : Latt) (d : ℕ → ℤ) (y x : ℕ) : Prop :=
  coord L L.ND x (L.ND - 1) = coord L L.ND y (L.ND - 1) ∧
    ∀ mu < L.ND - 1, (L.dims mu : ℤ) ∣ (coord L L.ND x mu : ℤ) - coord L L.ND y mu - d mu

/-- The product of `t` temporal links from `x` on. -/
def timeLine (NC : ℕ) (L : Latt) (lat : Gauge) (t x : ℕ) : Matrix (Fin NC) (Fin NC) ℂ := line NC L lat (L.ND - 1) t x

open Classical in
/-- The sum over a time slice of `g( x , y )` for `x - y = d`, averaged over the times. -/
noncomputable def pairSum (L : Latt) (d : ℕ → ℤ) (g : ℕ → ℕ → ℂ) : ℂ :=
  (∑ x ∈ range (volume L), ∑ y ∈ range (volume L), if Apart L d y x then g x y else 0) / (L.dims (L.ND - 1) : ℂ)

/-- The trace of a line and the conjugate of the line at the distance `d`. -/
noncomputable def staticTr (NC : ℕ) (L : Latt) (lat : Gauge) (t : ℕ) (d : ℕ → ℤ) : ℂ :=
  pairSum L d fun x y => Matrix.trace (timeLine NC L lat t x * (timeLine NC L lat t y)ᴴ)

/-- The product of the traces. -/
noncomputable def staticTrTr (NC : ℕ) (L : Latt) (lat : Gauge) (t : ℕ) (d : ℕ → ℤ) : ℂ :=
  pairSum L d fun x y => Matrix.trace (timeLine NC L lat t x) * star (Matrix.trace (timeLine NC L lat t y))

/-! ## Geometry -/

theorem slice_volume {L : Latt} (h3 : 3 ≤ L.ND) : volume (sliceLatt L) = lcu L := by
  rw [volume_eq (sliceLatt L) (by show 2 ≤ L.ND - 1; omega), lcu_eq L (by omega)]
  rfl

theorem valid_slice {L : Latt} (hL : Valid L) (h3 : 3 ≤ L.ND) : Valid (sliceLatt L) := by
  refine ⟨by show 2 ≤ L.ND - 1; omega, fun mu hmu => hL.pos mu (by have : mu < L.ND - 1 := hmu; omega), ?_⟩
  have : radix L.dims (L.ND - 1) < 2 ^ 31 := hL.radix_lt (by omega)
  exact this

/-- The entry of the list for the displacement. -/
def Names (L : Latt) (d : ℕ → ℤ) (idx : ℕ) : Prop :=
  ∀ mu < L.ND - 1, (L.dims mu : ℤ) ∣ d mu - (coord L (L.ND - 1) idx mu : ℤ)

theorem apart_iff {L : Latt} (hL : Valid L) {d : ℕ → ℤ} {idx : ℕ} (hd : Names L d idx) {t t' i j : ℕ}
    (ht : t < L.dims (L.ND - 1)) (ht' : t' < L.dims (L.ND - 1)) (hi : i < lcu L) (hj : j < lcu L) :
    Apart L d (lcu L * t' + j) (lcu L * t + i) ↔ t = t' ∧ Shifted (sliceLatt L) idx j i := by
  have hnd := hL.nd
  unfold Apart
  rw [coord_last hL ht hi, coord_last hL ht' hj]
  refine and_congr Iff.rfl (forall_congr' fun mu => forall_congr' fun hmu => ?_)
  rw [slice_coord hL t i hmu, slice_coord hL t' j hmu]
  have e : ∀ k, coord (sliceLatt L) (sliceLatt L).ND k mu = coord L (L.ND - 1) k mu := fun k => by
    rw [coord_eq (sliceLatt L) (show mu < (sliceLatt L).ND from hmu), coord_eq L hmu]
    rfl
  rw [e, e, e]
  have hl := coord_lt L hL.pos (L.ND - 1) i (show mu < L.ND by omega)
  have h1 := hd mu hmu
  show _ ↔ _ = _ % L.dims mu
  generalize coord L (L.ND - 1) i mu = a at *
  generalize coord L (L.ND - 1) j mu = b at *
  generalize coord L (L.ND - 1) idx mu = c at *
  have h2 : (L.dims mu : ℤ) ∣ (a : ℤ) - b - d mu ↔ (L.dims mu : ℤ) ∣ (a : ℤ) - ((b + c : ℕ) : ℤ) := by
    rw [show (a : ℤ) - ((b + c : ℕ) : ℤ) = (a - b - d mu) + (d mu - c) by push_cast; ring]
    exact (dvd_add_left h1).symm
  rw [h2, ← Nat.modEq_iff_dvd, Nat.ModEq, Nat.mod_eq_of_lt hl, eq_comm]

/-- Sums over pairs at a distance, slice by slice. -/
theorem pair_slices_eq {L : Latt} (hL : Valid L) {d : ℕ → ℤ} {idx : ℕ} (hd : Names L d idx) (g : ℕ → ℕ → ℂ) :
    ∑ t ∈ range (L.dims (L.ND - 1)), ∑ i ∈ range (lcu L), ∑ j ∈ range (lcu L),
        (if Shifted (sliceLatt L) idx j i then g (lcu L * t + i) (lcu L * t + j) else 0) =
      pairSum L d g * (L.dims (L.ND - 1) : ℂ) := by
  classical
  have hT : (L.dims (L.ND - 1) : ℂ) ≠ 0 := by
    have := hL.pos (L.ND - 1) (by have := hL.nd; omega)
    exact_mod_cast this.ne'
  unfold pairSum
  rw [div_mul_cancel₀ _ hT]
  unfold volume
  rw [sum_range_mul]
  refine sum_congr rfl fun t ht => sum_congr rfl fun i hi => ?_
  rw [sum_range_mul, sum_eq_single_of_mem t ht]
  · refine sum_congr rfl fun j hj => ?_
    rw [mem_range] at ht hi hj
    have := apart_iff hL hd ht ht hi hj
    by_cases h : Shifted (sliceLatt L) idx j i
    · rw [if_pos h, if_pos (this.2 ⟨rfl, h⟩)]
    · rw [if_neg h, if_neg fun h' => h (this.1 h').2]
  · intro t' ht' hne
    refine sum_eq_zero fun j hj => if_neg fun h => hne ?_
    rw [mem_range] at ht hi hj ht'
    exact ((apart_iff hL hd ht ht' hi hj).1 h).1.symm

/-! ## The lines -/

theorem time_neighbor {L : Latt} (hL : Valid L) {i : ℕ} (hi : i < volume L) :
    neighbor L i (L.ND - 1) = (i + lcu L) % volume L := by
  have hl : 0 < lcu L := by
    by_contra h
    have : lcu L = 0 := by omega
    unfold volume at hi
    rw [this, zero_mul] at hi
    omega
  have hT : i / lcu L < L.dims (L.ND - 1) := by
    rw [Nat.div_lt_iff_lt_mul hl, mul_comm]
    exact hi
  have h := (slice_neighbor hL hT (Nat.mod_lt i hl)).2
  rw [Nat.div_add_mod] at h
  rw [h]
  have e : (i + lcu L) % volume L = lcu L * ((i / lcu L + 1) % L.dims (L.ND - 1)) + i % lcu L := by
    conv_lhs => rw [← Nat.div_add_mod i (lcu L)]
    rw [show lcu L * (i / lcu L) + i % lcu L + lcu L = i % lcu L + lcu L * (i / lcu L + 1) by ring]
    unfold volume
    rw [Nat.mod_mul, Nat.add_mul_mod_self_left, Nat.mod_mod, Nat.add_mul_div_left _ _ hl,
      Nat.div_eq_of_lt (Nat.mod_lt i hl), zero_add]
    ring
  rw [e]

theorem time_iterate {L : Latt} (hL : Valid L) {i : ℕ} (hi : i < volume L) (t : ℕ) :
    (fun y => neighbor L y (L.ND - 1))^[t] i = (i + t * lcu L) % volume L := by
  induction t with
  | zero => simp [Nat.mod_eq_of_lt hi]
  | succ t ih =>
    rw [Function.iterate_succ_apply', ih]
    rw [time_neighbor hL (Nat.mod_lt _ (by omega)), Nat.mod_add_mod]
    congr 1
    ring

/-- The lines held by the program when the length is `t`. -/
def HoldsLines (NC : ℕ) (L : Latt) (lat : Gauge) (t : ℕ) (poly : ℕ → Arr ℂ) : Prop :=
  ∀ i < volume L, toM NC (poly i) = timeLine NC L lat t (neighbor L i (L.ND - 1))

theorem holds_extend {NC : ℕ} {L : Latt} (hL : Valid L) {lat : Gauge} {t : ℕ} {poly : ℕ → Arr ℂ}
    (h : HoldsLines NC L lat t poly) : HoldsLines NC L lat (t + 1) (extendLines NC L lat (t + 1) poly) := by
  intro i hi
  unfold extendLines
  rw [if_pos hi, C10_multab_atomic_right, h i hi, ← time_iterate hL hi, Function.iterate_succ_apply]
  exact (line_succ NC L lat (L.ND - 1) t _).symm

theorem holds_start {NC : ℕ} {L : Latt} {lat : Gauge} : HoldsLines NC L lat 0 fun _ => Mat.identity NC scratch := by
  intro i _
  rw [C63_identity]
  simp [timeLine, line]

/-- The start of the lines does not matter in the average over the times. -/
theorem pairSum_shift {L : Latt} (hL : Valid L) (d : ℕ → ℤ) (g : ℕ → ℕ → ℂ) :
    pairSum L d (fun x y => g (neighbor L x (L.ND - 1)) (neighbor L y (L.ND - 1))) = pairSum L d g := by
  classical
  have hnd := hL.nd
  have hm : L.ND - 1 < L.ND := by omega
  unfold pairSum
  congr 1
  refine Eq.trans ?_ (sum_neighbor_gen hL hm fun x => ∑ y ∈ range (volume L), if Apart L d y x then g x y else 0)
  refine sum_congr rfl fun x hx => ?_
  refine Eq.trans ?_ (sum_neighbor_gen hL hm fun y =>
    if Apart L d y (neighbor L x (L.ND - 1)) then g (neighbor L x (L.ND - 1)) y else 0)
  refine sum_congr rfl fun y hy => ?_
  have e : Apart L d (neighbor L y (L.ND - 1)) (neighbor L x (L.ND - 1)) ↔ Apart L d y x := by
    unfold Apart
    refine and_congr ?_ (forall_congr' fun mu => forall_congr' fun hmu => ?_)
    · have h1 := ((C02_step hL (i := x) hm).2 (L.ND - 1) hm).1
      have h2 := ((C02_step hL (i := y) hm).2 (L.ND - 1) hm).1
      rw [if_pos rfl] at h1 h2
      rw [← Int.natCast_inj, h1, h2]
      have a1 := coord_lt L hL.pos L.ND x hm
      have a2 := coord_lt L hL.pos L.ND y hm
      generalize coord L L.ND x (L.ND - 1) = a at *
      generalize coord L L.ND y (L.ND - 1) = b at *
      generalize L.dims (L.ND - 1) = n at *
      rw [show ((a : ℤ) + 1) % n = (((a + 1) % n : ℕ) : ℤ) by push_cast; rfl,
        show ((b : ℤ) + 1) % n = (((b + 1) % n : ℕ) : ℤ) by push_cast; rfl, Int.natCast_inj]
      rcases Nat.lt_or_ge (a + 1) n with ha | ha <;> rcases Nat.lt_or_ge (b + 1) n with hb | hb
      · rw [Nat.mod_eq_of_lt ha, Nat.mod_eq_of_lt hb]; omega
      · rw [Nat.mod_eq_of_lt ha, show b + 1 = n by omega, Nat.mod_self]; omega
      · rw [Nat.mod_eq_of_lt hb, show a + 1 = n by omega, Nat.mod_self]; omega
      · rw [show b + 1 = n by omega, show a + 1 = n by omega]; omega
    · have h1 := ((C02_step hL (i := x) hm).2 mu (by omega)).1
      have h2 := ((C02_step hL (i := y) hm).2 mu (by omega)).1
      rw [if_neg (by omega)] at h1 h2
      rw [h1, h2]
  by_cases h : Apart L d y x
  · rw [if_pos h, if_pos (e.2 h)]
  · rw [if_neg h, if_neg fun h' => h (e.1 h')]

theorem pairSum_congr {L : Latt} (d : ℕ → ℤ) {f g : ℕ → ℕ → ℂ}
    (h : ∀ x < volume L, ∀ y < volume L, Apart L d y x → f x y = g x y) : pairSum L d f = pairSum L d g := by
  classical
  unfold pairSum
  congr 1
  refine sum_congr rfl fun x hx => sum_congr rfl fun y hy => ?_
  split
  · next hA => exact h x (mem_range.1 hx) y (mem_range.1 hy) hA
  · rfl

/-! ## The transforms -/

theorem forN_sumC2 (n : ℕ) (f g : ℕ → ℂ) (s : ℂ × ℂ) :
    forN n (fun j (s : ℂ × ℂ) => (s.1 + f j, s.2 + g j)) s =
      (s.1 + ∑ j ∈ Finset.range n, f j, s.2 + ∑ j ∈ Finset.range n, g j) := by
  induction n with
  | zero => simp [forN]
  | succ n ih => rw [forN, ih, Finset.sum_range_succ, Finset.sum_range_succ]; simp [add_assoc]

theorem trtr_eq {NC : ℕ} {L : Latt} (hL : Valid L) (h3 : 3 ≤ L.ND) (poly : ℕ → Arr ℂ) (t idx : ℕ) :
    compute_trtr NC L poly t idx = lcu L * ∑ i ∈ range (lcu L), ∑ j ∈ range (lcu L),
      if Shifted (sliceLatt L) idx j i then
        Matrix.trace (toM NC (poly (lcu L * t + i))) * star (Matrix.trace (toM NC (poly (lcu L * t + j)))) else 0 := by
  unfold compute_trtr
  have := autocorr (valid_slice hL h3) (sign := -1) (Or.inr rfl) (fun i => Mat.trace NC (poly (i + lcu L * t))) idx
  rw [neg_neg, slice_volume h3] at this
  refine this.trans ?_
  congr 1
  refine sum_congr rfl fun i _ => sum_congr rfl fun j _ => ?_
  rw [C12_trace, C12_trace, add_comm i, add_comm j]

theorem tr_eq {NC : ℕ} {L : Latt} (hL : Valid L) (h3 : 3 ≤ L.ND) (poly : ℕ → Arr ℂ) (t idx : ℕ) :
    compute_tr NC L poly t idx = lcu L * ∑ i ∈ range (lcu L), ∑ j ∈ range (lcu L),
      if Shifted (sliceLatt L) idx j i then
        Matrix.trace (toM NC (poly (lcu L * t + i)) * (toM NC (poly (lcu L * t + j)))ᴴ) else 0 := by
  unfold compute_tr
  dsimp only
  have e : ∀ k, trace_ab_dag NC (fun j => small_plan (sliceLatt L) (-1) (fun i => equiv NC scratch (poly (i + lcu L * t)) j) k)
      (fun j => small_plan (sliceLatt L) (-1) (fun i => equiv NC scratch (poly (i + lcu L * t)) j) k) =
      ∑ a : Fin NC, ∑ b : Fin NC,
        small_plan (sliceLatt L) (-1) (fun i => toM NC (poly (i + lcu L * t)) a b) k *
          star (small_plan (sliceLatt L) (-1) (fun i => toM NC (poly (i + lcu L * t)) a b) k) := by
    intro k
    rw [C12_trace_ab_dag]
    have e1 : ∀ a b : Fin NC, toM NC (fun j => small_plan (sliceLatt L) (-1)
        (fun i => equiv NC scratch (poly (i + lcu L * t)) j) k) a b =
        small_plan (sliceLatt L) (-1) (fun i => toM NC (poly (i + lcu L * t)) a b) k := by
      intro a b
      rw [toM_apply]
      refine congrFun (congrArg _ (funext fun i => ?_)) k
      rw [← C63_equiv NC scratch (poly (i + lcu L * t)), toM_apply]
    simp only [Matrix.trace, Matrix.diag_apply, Matrix.mul_apply, conjTranspose_apply, e1]
  simp only [e]
  rw [plan_sum]
  simp only [plan_sum]
  have h1 : ∀ a b : Fin NC, small_plan (sliceLatt L) 1 (fun k =>
      small_plan (sliceLatt L) (-1) (fun i => toM NC (poly (i + lcu L * t)) a b) k *
          star (small_plan (sliceLatt L) (-1) (fun i => toM NC (poly (i + lcu L * t)) a b) k)) idx =
      lcu L * ∑ i ∈ range (lcu L), ∑ j ∈ range (lcu L), if Shifted (sliceLatt L) idx j i then
        toM NC (poly (lcu L * t + i)) a b * star (toM NC (poly (lcu L * t + j)) a b) else 0 := by
    intro a b
    have := autocorr (valid_slice hL h3) (sign := -1) (Or.inr rfl) (fun i => toM NC (poly (i + lcu L * t)) a b) idx
    rw [neg_neg, slice_volume h3] at this
    refine this.trans ?_
    congr 1
    refine sum_congr rfl fun i _ => sum_congr rfl fun j _ => ?_
    rw [add_comm i, add_comm j]
  simp only [h1, ← mul_sum]
  congr 1
  have : ∀ a : Fin NC, ∑ b : Fin NC, ∑ i ∈ range (lcu L), ∑ j ∈ range (lcu L), (if Shifted (sliceLatt L) idx j i then
        toM NC (poly (lcu L * t + i)) a b * star (toM NC (poly (lcu L * t + j)) a b) else 0) =
      ∑ i ∈ range (lcu L), ∑ j ∈ range (lcu L), ∑ b : Fin NC, (if Shifted (sliceLatt L) idx j i then
        toM NC (poly (lcu L * t + i)) a b * star (toM NC (poly (lcu L * t + j)) a b) else 0) := by
    intro a
    rw [sum_comm]
    exact sum_congr rfl fun i _ => sum_comm
  simp only [this]
  rw [sum_comm]
  refine sum_congr rfl fun i _ => ?_
  rw [sum_comm]
  refine sum_congr rfl fun j _ => ?_
  split
  · simp only [Matrix.trace, Matrix.diag_apply, Matrix.mul_apply, conjTranspose_apply]
  · simp

theorem correlator_fft {NC : ℕ} {L : Latt} (hL : Valid L) (h3 : 3 ≤ L.ND) {d : ℕ → ℤ} {idx : ℕ} (hd : Names L d idx)
    (poly : ℕ → Arr ℂ) :
    static_quark_correlator_fft NC L poly idx =
      (pairSum L d fun x y => Matrix.trace (toM NC (poly x) * (toM NC (poly y))ᴴ),
        pairSum L d fun x y => Matrix.trace (toM NC (poly x)) * star (Matrix.trace (toM NC (poly y)))) := by
  have hT : (L.dims (L.ND - 1) : ℂ) ≠ 0 := by
    have := hL.pos (L.ND - 1) (by omega)
    exact_mod_cast this.ne'
  have hl : (lcu L : ℂ) ≠ 0 := by
    have : 0 < lcu L := by
      rw [lcu_eq L hL.nd]
      exact hL.radix_pos _ (by omega)
    exact_mod_cast this.ne'
  unfold static_quark_correlator_fft
  rw [forN_sumC2]
  simp only [zero_add, tr_eq hL h3, trtr_eq hL h3, ← mul_sum]
  rw [pair_slices_eq hL hd (fun x y => Matrix.trace (toM NC (poly x) * (toM NC (poly y))ᴴ)),
    pair_slices_eq hL hd (fun x y => Matrix.trace (toM NC (poly x)) * star (Matrix.trace (toM NC (poly y))))]
  refine Prod.ext ?_ ?_
  · push_cast
    field_simp
  · push_cast
    field_simp

theorem correlator_direct {NC : ℕ} {L : Latt} (hL : Valid L) (h3 : 3 ≤ L.ND) {d : ℕ → ℤ} {idx : ℕ} (hd : Names L d idx)
    (poly : ℕ → Arr ℂ) :
    static_quark_correlator_direct NC L poly idx =
      (pairSum L d fun x y => Matrix.trace (toM NC (poly y) * (toM NC (poly x))ᴴ),
        pairSum L d fun x y => Matrix.trace (toM NC (poly y)) * Matrix.trace (toM NC (poly x))) := by
  have hT : (L.dims (L.ND - 1) : ℂ) ≠ 0 := by
    have := hL.pos (L.ND - 1) (by omega)
    exact_mod_cast this.ne'
  have hS : ∀ k < lcu L, ∀ G : ℕ → ℂ, G (compute_spacing L (fun mu => (coord L (L.ND - 1) idx mu : ℤ)) k (L.ND - 1)) =
      ∑ i ∈ range (lcu L), if Shifted (sliceLatt L) idx k i then G i else 0 := by
    intro k hk G
    have h31 : ∀ mu < L.ND - 1, (coord L (L.ND - 1) idx mu : ℤ) < 2 ^ 31 := by
      intro mu hmu
      have h1 := coord_lt L hL.pos (L.ND - 1) idx (show mu < L.ND by omega)
      have h2 : L.dims mu ≤ radix L.dims L.ND := Nat.le_of_dvd (hL.radix_pos _ le_rfl)
        (Dvd.dvd.trans (Dvd.intro_left _ rfl) (dvd_radix L.dims (show mu < L.ND by omega)))
      have h3 := hL.radix_lt (le_refl L.ND)
      have : coord L (L.ND - 1) idx mu < 2 ^ 31 := by omega
      exact_mod_cast this
    obtain ⟨c1, c2⟩ := C04_translation_partial hL (DIMS := L.ND - 1) (Or.inr (by omega))
      (fun mu => (coord L (L.ND - 1) idx mu : ℤ)) k
      (fun mu hmu => ⟨by have := Int.natCast_nonneg (coord L (L.ND - 1) idx mu)
                         have := Int.natCast_nonneg (L.dims mu)
                         omega, h31 mu hmu⟩)
    set z := compute_spacing L (fun mu => (coord L (L.ND - 1) idx mu : ℤ)) k (L.ND - 1)
    have hz : z < lcu L := by rw [lcu_eq L hL.nd]; exact c1
    have e : ∀ k, ∀ mu < L.ND - 1, coord (sliceLatt L) (sliceLatt L).ND k mu = coord L (L.ND - 1) k mu := fun k mu hmu => by
      rw [coord_eq (sliceLatt L) (show mu < (sliceLatt L).ND from hmu), coord_eq L hmu]
      rfl
    have hsz : Shifted (sliceLatt L) idx k z := by
      intro mu hmu
      have hmu' : mu < L.ND - 1 := hmu
      rw [e _ mu hmu', e _ mu hmu', e _ mu hmu']
      exact_mod_cast c2 mu hmu'
    have hv := valid_slice hL h3
    rw [sum_eq_single_of_mem z (mem_range.2 hz), if_pos hsz]
    intro i hi hne
    refine if_neg fun hs => hne ?_
    rw [mem_range] at hi
    refine Field.site_ext hv (by rw [slice_volume h3]; exact hi) (by rw [slice_volume h3]; exact hz) fun mu hmu => ?_
    rw [hs mu hmu, hsz mu hmu]
  unfold static_quark_correlator_direct
  simp only [forN_sumC2, zero_add]
  have core : ∀ g : ℕ → ℕ → ℂ, ∑ k ∈ range (lcu L), ∑ t ∈ range (L.dims (L.ND - 1)),
      g (compute_spacing L (fun mu => (coord L (L.ND - 1) idx mu : ℤ)) k (L.ND - 1) + lcu L * t) (k + lcu L * t) =
      pairSum L d g * (L.dims (L.ND - 1) : ℂ) := by
    intro g
    rw [← pair_slices_eq hL hd g, sum_comm]
    refine sum_congr rfl fun t _ => ?_
    rw [sum_comm (s := range (lcu L)) (t := range (lcu L))]
    refine sum_congr rfl fun k hk => ?_
    rw [hS k (mem_range.1 hk) (fun z => g (z + lcu L * t) (k + lcu L * t))]
    refine sum_congr rfl fun i _ => ?_
    rw [add_comm i, add_comm k]
  have h1 := core fun x y => Matrix.trace (toM NC (poly y) * (toM NC (poly x))ᴴ)
  have h2 := core fun x y => Matrix.trace (toM NC (poly y)) * Matrix.trace (toM NC (poly x))
  simp only [C12_trace_ab_dag, C12_trace]
  rw [h1, h2]
  refine Prod.ext ?_ ?_
  · push_cast
    field_simp
  · push_cast
    field_simp

/-! ## The measurement -/

theorem names_list {L : Latt} (hL : Valid L) {keep : (ℕ → ℤ) → Bool} {v : Vec} (hv : v ∈ get_veclist L keep (L.ND - 1)) :
    Names L v.MOM v.idx := by
  intro mu hmu
  rw [(C59_config L keep (L.ND - 1)).1 v hv]
  exact (C05_displacement hL (by omega) v.idx hmu).1

theorem staticLoop_eq {NC : ℕ} {L : Latt} (hL : Valid L) (fft : Bool) (lat : Gauge) (list : List Vec)
    (row : ℕ → Vec → ℂ × ℂ)
    (hrow : ∀ t poly, HoldsLines NC L lat t poly → ∀ v ∈ list, static_quark_correlator fft NC L poly v.idx = row t v)
    (n t : ℕ) (poly : ℕ → Arr ℂ) (h : HoldsLines NC L lat t poly) :
    staticLoop fft NC L lat list n (t + 1) poly = (List.range n).map fun k => list.map (row (t + 1 + k)) := by
  induction n generalizing t poly with
  | zero => rfl
  | succ n ih =>
    have h' := holds_extend hL h
    rw [staticLoop, List.range_succ_eq_map, List.map_cons, List.map_map]
    refine congrArg₂ List.cons ?_ ?_
    · exact List.map_congr_left fun v hv => hrow _ _ h' v hv
    · rw [ih (t + 1) _ h']
      refine List.map_congr_left fun k _ => ?_
      show list.map (row (t + 1 + 1 + k)) = list.map (row (t + 1 + (k + 1)))
      rw [show t + 1 + 1 + k = t + 1 + (k + 1) by ring]

/-- **C107.** The measurement with FFTW writes, for every displacement of the list and for every length from one to one less
than the number given, the sum over a time slice of the traces of the lines at this displacement, averaged over the times,
for both colour contractions.  It fails only for the number zero. -/
theorem C107_correlators {NC : ℕ} {L : Latt} (hL : Valid L) (h3 : 3 ≤ L.ND) (lat : Gauge) (keep : (ℕ → ℤ) → Bool)
    (max_t : ℕ) :
    Coul_staticpot true NC L lat keep max_t =
      if max_t = 0 then none else
        let list := get_veclist L keep (L.ND - 1)
        some (list, (List.range (max_t - 1)).map fun k => list.map fun v =>
          (staticTr NC L lat (k + 1) v.MOM, staticTrTr NC L lat (k + 1) v.MOM)) := by
  have hV : ¬ volume L < 1 := by
    rw [volume_eq L hL.nd]
    have := hL.radix_pos L.ND le_rfl
    omega
  unfold Coul_staticpot
  by_cases h0 : max_t = 0
  · rw [if_pos (Or.inl (by omega)), if_pos h0]
  rw [if_neg (by omega), if_neg h0]
  dsimp only
  rw [staticLoop_eq hL true lat _ (fun t v => (staticTr NC L lat t v.MOM, staticTrTr NC L lat t v.MOM)) _ _ 0 _ holds_start]
  · simp only [zero_add, add_comm 1]
  · intro t poly hp v hv
    unfold static_quark_correlator
    rw [if_pos rfl, correlator_fft hL h3 (names_list hL hv)]
    refine Prod.ext ?_ ?_
    · unfold staticTr
      refine Eq.trans ?_ (pairSum_shift hL _ _)
      exact pairSum_congr _ fun x hx y hy _ => by rw [hp x hx, hp y hy]
    · unfold staticTrTr
      refine Eq.trans ?_ (pairSum_shift hL _ _)
      exact pairSum_congr _ fun x hx y hy _ => by rw [hp x hx, hp y hy]

/-- The product of the traces without the conjugate. -/
noncomputable def staticSame (NC : ℕ) (L : Latt) (lat : Gauge) (t : ℕ) (d : ℕ → ℤ) : ℂ :=
  pairSum L d fun x y => Matrix.trace (timeLine NC L lat t x) * Matrix.trace (timeLine NC L lat t y)

theorem star_pairSum (L : Latt) (d : ℕ → ℤ) (g : ℕ → ℕ → ℂ) : star (pairSum L d g) = pairSum L d fun x y => star (g x y) := by
  classical
  unfold pairSum
  rw [star_div₀, star_sum, Complex.star_def, Complex.conj_natCast]
  congr 1
  refine sum_congr rfl fun x _ => ?_
  rw [map_sum]
  refine sum_congr rfl fun y _ => ?_
  split
  · rfl
  · exact map_zero _

theorem star_trace_pair {N : ℕ} (A B : Matrix (Fin N) (Fin N) ℂ) :
    star (Matrix.trace (A * Bᴴ)) = Matrix.trace (B * Aᴴ) := by
  rw [← trace_conjTranspose, conjTranspose_mul, conjTranspose_conjTranspose]

/-- **C107**, partial: without FFTW the first number is the complex conjugate, which is the value at the opposite
displacement; the second is formed without the conjugate. -/
theorem C107_direct_partial {NC : ℕ} {L : Latt} (hL : Valid L) (h3 : 3 ≤ L.ND) (lat : Gauge) (keep : (ℕ → ℤ) → Bool)
    (max_t : ℕ) :
    Coul_staticpot false NC L lat keep max_t =
      if max_t = 0 then none else
        let list := get_veclist L keep (L.ND - 1)
        some (list, (List.range (max_t - 1)).map fun k => list.map fun v =>
          (star (staticTr NC L lat (k + 1) v.MOM), staticSame NC L lat (k + 1) v.MOM)) := by
  have hV : ¬ volume L < 1 := by
    rw [volume_eq L hL.nd]
    have := hL.radix_pos L.ND le_rfl
    omega
  unfold Coul_staticpot
  by_cases h0 : max_t = 0
  · rw [if_pos (Or.inl (by omega)), if_pos h0]
  rw [if_neg (by omega), if_neg h0]
  dsimp only
  rw [staticLoop_eq hL false lat _ (fun t v => (star (staticTr NC L lat t v.MOM), staticSame NC L lat t v.MOM)) _ _ 0 _
    holds_start]
  · simp only [zero_add, add_comm 1]
  · intro t poly hp v hv
    unfold static_quark_correlator
    rw [if_neg (by simp), correlator_direct hL h3 (names_list hL hv)]
    refine Prod.ext ?_ ?_
    · unfold staticTr
      rw [star_pairSum]
      refine Eq.trans ?_ (pairSum_shift hL _ _)
      exact pairSum_congr _ fun x hx y hy _ => by rw [hp x hx, hp y hy, star_trace_pair]
    · unfold staticSame
      refine Eq.trans ?_ (pairSum_shift hL _ _)
      exact pairSum_congr _ fun x hx y hy _ => by rw [hp x hx, hp y hy, mul_comm]

/-- **C107**, reflection: the value at the opposite displacement is the complex conjugate. -/
theorem C107_reflection (NC : ℕ) (L : Latt) (lat : Gauge) (t : ℕ) (d : ℕ → ℤ) :
    staticTr NC L lat t (fun mu => -d mu) = star (staticTr NC L lat t d) ∧
      staticTrTr NC L lat t (fun mu => -d mu) = star (staticTrTr NC L lat t d) := by
  classical
  have e : ∀ x y, Apart L (fun mu => -d mu) y x ↔ Apart L d x y := by
    intro x y
    unfold Apart
    refine and_congr eq_comm (forall_congr' fun mu => forall_congr' fun _ => ?_)
    rw [← dvd_neg, show -((coord L L.ND x mu : ℤ) - coord L L.ND y mu - -d mu) =
      (coord L L.ND y mu : ℤ) - coord L L.ND x mu - d mu by ring]
  have core : ∀ g : ℕ → ℕ → ℂ, pairSum L (fun mu => -d mu) g = pairSum L d fun x y => g y x := by
    intro g
    unfold pairSum
    congr 1
    rw [sum_comm]
    refine sum_congr rfl fun x _ => sum_congr rfl fun y _ => ?_
    by_cases h : Apart L d y x
    · rw [if_pos h, if_pos ((e y x).2 h)]
    · rw [if_neg h, if_neg fun h' => h ((e y x).1 h')]
  constructor
  · unfold staticTr
    rw [core, star_pairSum]
    exact pairSum_congr _ fun x _ y _ _ => (star_trace_pair _ _).symm
  · unfold staticTrTr
    rw [core, star_pairSum]
    exact pairSum_congr _ fun x _ y _ _ => by rw [star_mul', star_star, mul_comm]

/-- A gauge transformation that depends on the time only. -/
def TimeOnly (NC : ℕ) (L : Latt) (g : ℕ → Arr ℂ) : Prop :=
  ∀ x < volume L, ∀ y < volume L, coord L L.ND x (L.ND - 1) = coord L L.ND y (L.ND - 1) → toM NC (g x) = toM NC (g y)

theorem iterate_lt {L : Latt} (hL : Valid L) {x : ℕ} (hx : x < volume L) (t : ℕ) :
    (fun y => neighbor L y (L.ND - 1))^[t] x < volume L := by
  rw [time_iterate hL hx]
  exact Nat.mod_lt _ (by omega)

theorem iterate_apart {L : Latt} (hL : Valid L) {x y : ℕ} (h : coord L L.ND x (L.ND - 1) = coord L L.ND y (L.ND - 1)) (t : ℕ) :
    coord L L.ND ((fun y => neighbor L y (L.ND - 1))^[t] x) (L.ND - 1) =
      coord L L.ND ((fun y => neighbor L y (L.ND - 1))^[t] y) (L.ND - 1) := by
  have hm : L.ND - 1 < L.ND := by have := hL.nd; omega
  induction t with
  | zero => exact h
  | succ t ih =>
    rw [Function.iterate_succ_apply', Function.iterate_succ_apply']
    have h1 := ((C02_step hL (i := (fun y => neighbor L y (L.ND - 1))^[t] x) hm).2 (L.ND - 1) hm).1
    have h2 := ((C02_step hL (i := (fun y => neighbor L y (L.ND - 1))^[t] y) hm).2 (L.ND - 1) hm).1
    rw [if_pos rfl] at h1 h2
    rw [ih, ← h2] at h1
    exact_mod_cast h1

/-- **C107**, gauge dependence: the correlators do not change under the gauge transformations that Coulomb gauge leaves open,
those that depend on the time only. -/
theorem C107_residual {NC : ℕ} {L : Latt} (hL : Valid L) {g : ℕ → Arr ℂ} {lat lat' : Gauge} (hg : SUGauge NC L g)
    (h : Transformed NC L g lat lat') (ht : TimeOnly NC L g) (t : ℕ) (d : ℕ → ℤ) :
    staticTr NC L lat' t d = staticTr NC L lat t d := by
  have hm : L.ND - 1 < L.ND := by have := hL.nd; omega
  unfold staticTr
  refine pairSum_congr _ fun x hx y hy hA => ?_
  unfold timeLine
  rw [line_transformed hL hg h hm t hx, line_transformed hL hg h hm t hy, ht x hx y hy hA.1,
    ht _ (iterate_lt hL hx t) _ (iterate_lt hL hy t) (iterate_apart hL hA.1 t)]
  have h1 := su_star_mul (hg y hy)
  have h2 := su_star_mul (hg _ (iterate_lt hL hy t))
  generalize toM NC (g y) = A at *
  generalize toM NC (g ((fun y => neighbor L y (L.ND - 1))^[t] y)) = B at *
  generalize line NC L lat (L.ND - 1) t x = X
  generalize line NC L lat (L.ND - 1) t y = Y
  rw [conjTranspose_mul, conjTranspose_mul, conjTranspose_conjTranspose]
  have e : A * X * Bᴴ * (B * (Yᴴ * Aᴴ)) = A * (X * Yᴴ * Aᴴ) := by
    simp only [Matrix.mul_assoc]
    rw [← Matrix.mul_assoc Bᴴ B, h2, Matrix.one_mul]
  rw [e, Matrix.trace_mul_comm, Matrix.mul_assoc, h1, Matrix.mul_one]

/-- **C107**, lines around the lattice: the product of the traces does not change under any gauge transformation when the length
is a multiple of the extent in time. -/
theorem C107_closed {NC : ℕ} {L : Latt} (hL : Valid L) {g : ℕ → Arr ℂ} {lat lat' : Gauge} (hg : SUGauge NC L g)
    (h : Transformed NC L g lat lat') (n : ℕ) (d : ℕ → ℤ) :
    staticTrTr NC L lat' (n * L.dims (L.ND - 1)) d = staticTrTr NC L lat (n * L.dims (L.ND - 1)) d := by
  have hm : L.ND - 1 < L.ND := by have := hL.nd; omega
  have hper : ∀ x < volume L, (fun y => neighbor L y (L.ND - 1))^[n * L.dims (L.ND - 1)] x = x := by
    intro x hx
    rw [mul_comm, Function.iterate_mul]
    exact Function.iterate_fixed (C02_period hL hx hm) n
  have htr : ∀ x < volume L, Matrix.trace (timeLine NC L lat' (n * L.dims (L.ND - 1)) x) =
      Matrix.trace (timeLine NC L lat (n * L.dims (L.ND - 1)) x) := by
    intro x hx
    unfold timeLine
    rw [line_transformed hL hg h hm _ hx, hper x hx, Matrix.mul_assoc, Matrix.trace_mul_comm, Matrix.mul_assoc,
      su_star_mul (hg x hx), Matrix.mul_one]
  unfold staticTrTr
  exact pairSum_congr _ fun x hx y hy _ => by rw [htr x hx, htr y hy]

theorem apart_zero {L : Latt} (hL : Valid L) {d : ℕ → ℤ} (hd : ∀ mu < L.ND - 1, d mu = 0) {x y : ℕ} (hx : x < volume L)
    (hy : y < volume L) : Apart L d y x ↔ x = y := by
  refine ⟨fun h => Field.site_ext hL hx hy fun mu hmu => ?_, fun h => ⟨by rw [h], fun mu hmu => by rw [h, hd mu hmu]; simp⟩⟩
  by_cases hm : mu = L.ND - 1
  · rw [hm]; exact h.1
  · have h1 := h.2 mu (by omega)
    rw [hd mu (by omega), sub_zero] at h1
    have a := coord_lt L hL.pos L.ND x hmu
    have b := coord_lt L hL.pos L.ND y hmu
    have := Nat.modEq_iff_dvd.2 h1
    rw [Nat.ModEq, Nat.mod_eq_of_lt a, Nat.mod_eq_of_lt b] at this
    exact this.symm

theorem pairSum_zero {L : Latt} (hL : Valid L) {d : ℕ → ℤ} (hd : ∀ mu < L.ND - 1, d mu = 0) {g : ℕ → ℕ → ℂ} {c : ℂ}
    (hg : ∀ x < volume L, g x x = c) : pairSum L d g = lcu L * c := by
  classical
  have hT : (L.dims (L.ND - 1) : ℂ) ≠ 0 := by
    have := hL.pos (L.ND - 1) (by have := hL.nd; omega)
    exact_mod_cast this.ne'
  unfold pairSum
  have e : ∀ x ∈ range (volume L), (∑ y ∈ range (volume L), if Apart L d y x then g x y else 0) = c := by
    intro x hx
    rw [sum_eq_single_of_mem x hx, if_pos ((apart_zero hL hd (mem_range.1 hx) (mem_range.1 hx)).2 rfl),
      hg x (mem_range.1 hx)]
    intro y hy hne
    exact if_neg fun h => hne ((apart_zero hL hd (mem_range.1 hx) (mem_range.1 hy)).1 h).symm
  rw [sum_congr rfl e, sum_const, card_range, nsmul_eq_mul]
  unfold volume
  push_cast
  field_simp

theorem line_unitary {NC : ℕ} {L : Latt} (hL : Valid L) {lat : Gauge} (hU : ∀ i < volume L, IsSU NC (lat (i, L.ND - 1)))
    (t : ℕ) {x : ℕ} (hx : x < volume L) : timeLine NC L lat t x * (timeLine NC L lat t x)ᴴ = 1 := by
  induction t with
  | zero => simp [timeLine, line]
  | succ t ih =>
    unfold timeLine at ih ⊢
    rw [line_succ, conjTranspose_mul, Matrix.mul_assoc, ← Matrix.mul_assoc (link NC lat _ _)]
    have := su_mul_star (hU _ (iterate_lt hL hx t))
    unfold link
    rw [this, Matrix.one_mul, ih]

/-- **C107**, normalisation: at the displacement zero the first number is the number of colours times the number of sites of a
time slice, for every length; the correlators are sums over the slice, not averages. -/
theorem C107_origin {NC : ℕ} {L : Latt} (hL : Valid L) {lat : Gauge}
    (hU : ∀ i < volume L, IsSU NC (lat (i, L.ND - 1))) (t : ℕ) {d : ℕ → ℤ} (hd : ∀ mu < L.ND - 1, d mu = 0) :
    staticTr NC L lat t d = (∏ mu ∈ range (L.ND - 1), L.dims mu : ℕ) * NC := by
  unfold staticTr
  rw [pairSum_zero hL hd (c := NC), (C01_volume hL.nd).2]
  intro x hx
  rw [line_unitary hL hU t hx, Matrix.trace_one, Fintype.card_fin]

/-- The special unitary matrix `diag( i , i , -1 )`. -/
noncomputable def centreless : Arr ℂ := arr [I, 0, 0, 0, I, 0, 0, 0, -1]

theorem toM_centreless : toM 3 centreless = Matrix.diagonal ![I, I, -1] := by
  ext i j
  fin_cases i <;> fin_cases j <;> simp [centreless, toM_apply, arr]

theorem isSU_centreless : IsSU 3 centreless := by
  unfold IsSU
  rw [toM_centreless, mem_specialUnitaryGroup_iff, mem_unitaryGroup_iff, star_eq_conjTranspose,
    diagonal_conjTranspose, diagonal_mul_diagonal, Matrix.det_diagonal]
  constructor
  · rw [← diagonal_one]
    congr 1
    funext i
    fin_cases i <;> simp
  · simp [Fin.prod_univ_three]

/-- **C107** fails without FFTW: the second number is formed without the conjugate.  With all links `diag( i , i , -1 )` it is
not even real at the displacement zero. -/
theorem C107_direct_fails {L : Latt} (hL : Valid L) (h3 : 3 ≤ L.ND) :
    ∃ lat : Gauge, (∀ l, IsSU 3 (lat l)) ∧
      Coul_staticpot false 3 L lat (fun _ => true) 2 ≠
        some (get_veclist L (fun _ => true) (L.ND - 1), [(get_veclist L (fun _ => true) (L.ND - 1)).map fun v =>
          (star (staticTr 3 L lat 1 v.MOM), staticTrTr 3 L lat 1 v.MOM)]) := by
  refine ⟨fun _ => centreless, fun _ => isSU_centreless, ?_⟩
  rw [C107_direct_partial hL h3, if_neg (by norm_num)]
  dsimp only
  intro h
  have h1 := (Prod.mk.inj (Option.some.inj h)).2
  simp only [show 2 - 1 = 1 from rfl, List.range_one, List.map_cons, List.map_nil, zero_add, List.cons.injEq, and_true] at h1
  rw [List.map_inj_left] at h1
  obtain ⟨c1, c2, -⟩ := C59_config L (fun _ => true) (L.ND - 1)
  have h0 : 0 ∈ (get_veclist L (fun _ => true) (L.ND - 1)).map Vec.idx := by
    rw [c2]
    exact ⟨prod_pos fun mu hmu => hL.pos mu (by have := mem_range.1 hmu; omega), rfl⟩
  obtain ⟨v, hv, hv0⟩ := List.mem_map.1 h0
  have hd : ∀ mu < L.ND - 1, v.MOM mu = 0 := by
    intro mu hmu
    rw [c1 v hv, hv0]
    unfold get_vec_from_origin
    have hc : coord L (L.ND - 1) 0 mu = 0 := by rw [coord_eq L hmu, Nat.zero_div, Nat.zero_mod]
    dsimp only
    rw [if_pos hmu, hc, if_neg (by omega)]
    rfl
  have h2 := (Prod.mk.inj (h1 v hv)).2
  have ht : ∀ x, Matrix.trace (timeLine 3 L (fun _ => centreless) 1 x) = 2 * I - 1 := by
    intro x
    unfold timeLine
    rw [line_succ]
    simp only [line, List.range_zero, List.map_nil, List.prod_nil, Matrix.one_mul, link, toM_centreless]
    simp [Matrix.trace, Fin.sum_univ_three]
    ring
  unfold staticSame staticTrTr at h2
  rw [pairSum_zero hL hd (c := (2 * I - 1) * (2 * I - 1)) (fun x _ => by rw [ht]),
    pairSum_zero hL hd (c := (2 * I - 1) * star (2 * I - 1)) (fun x _ => by rw [ht])] at h2
  have hl : (lcu L : ℂ) ≠ 0 := by
    have : 0 < lcu L := by
      rw [lcu_eq L hL.nd]
      exact hL.radix_pos _ (by omega)
    exact_mod_cast this.ne'
  have h4 := congrArg Complex.im (mul_left_cancel₀ hl h2)
  simp at h4

/-! ## Examples -/

example : Valid L4468 ∧ 3 ≤ L4468.ND := ⟨valid_L4468, by decide⟩

/-- A configuration and a transformation for `C107_residual`: everything one. -/
example : SUGauge 3 L4468 (fun _ => centreless) ∧ TimeOnly 3 L4468 (fun _ => centreless) ∧
    Transformed 3 L4468 (fun _ => centreless) (fun _ => centreless) (fun _ => centreless) := by
  refine ⟨fun _ _ => isSU_centreless, fun _ _ _ _ _ => rfl, fun i _ mu _ => ?_⟩
  show toM 3 centreless = toM 3 centreless * toM 3 centreless * (toM 3 centreless)ᴴ
  rw [Matrix.mul_assoc, su_mul_star isSU_centreless, Matrix.mul_one]

/-- The number of rows: nothing is measured at the length given. -/
example (lat : Gauge) : ∃ l rows, Coul_staticpot true 3 L4468 lat (fun _ => true) 1 = some (l, rows) ∧ rows = [] := by
  rw [C107_correlators valid_L4468 (by decide)]
  exact ⟨_, _, rfl, rfl⟩

end GLU.Cuts
