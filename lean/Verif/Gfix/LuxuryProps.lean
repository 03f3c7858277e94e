import Verif.Gfix.Luxury
import Verif.Gfix.DriverProps

/-!
# Best of several gauge copies (C100)
-/

namespace GLU.Gfix

open Complex Finset Matrix GLU.Mat GLU.Geom GLU.Field

/-! ### Specification -/

/-- The run on the copy `c` ended with the field `out` after `iters` iterations, and the functional of `out` is `f`. -/
def CopyRun (NC : ℕ) (L : Latt) (fa : ℝ → ℕ → Gauge → FaOut) (lat : Gauge) (g : ℕ → ℕ → Arr ℂ) (c : ℕ) (out : Gauge) (f : ℝ)
    (iters : ℕ) : Prop :=
  ∃ th, fa 1e-6 1000 (gtransform NC L (g c) lat) = .done out iters th ∧ gauge_functional NC L out = some f

/-- A count of iterations that does not stand for a run that gave up. -/
def Converged (iters : ℕ) : Prop := iters ≠ 1000 ∧ iters ≠ 123456789

/-! ### Lemmas -/

/-- What is known after the copies before `c`. -/
structure LuxInv (NC : ℕ) (L : Latt) (fa : ℝ → ℕ → Gauge → FaOut) (lat : Gauge) (g : ℕ → ℕ → Arr ℂ) (c : ℕ) (s : LuxState) :
    Prop where
  le_one : s.maxlink ≤ 1
  none_eq : s.best = none → s.maxlink = 1
  some_run : ∀ b, s.best = some b → ∃ d < c, ∃ it, CopyRun NC L fa lat g d b s.maxlink it ∧ Converged it ∧ s.maxlink < 1
  bound : ∀ d < c, ∀ out f it, CopyRun NC L fa lat g d out f it → Converged it → s.maxlink ≤ f
  all : ∀ d < c, ∃ out f it, CopyRun NC L fa lat g d out f it
  last : ∀ d, c = d + 1 → ∃ out f, CopyRun NC L fa lat g d out f s.iters

theorem copyRun_unique {NC : ℕ} {L : Latt} {fa : ℝ → ℕ → Gauge → FaOut} {lat : Gauge} {g : ℕ → ℕ → Arr ℂ} {c : ℕ}
    {out out' : Gauge} {f f' : ℝ} {it it' : ℕ} (h : CopyRun NC L fa lat g c out f it)
    (h' : CopyRun NC L fa lat g c out' f' it') : out = out' ∧ f = f' ∧ it = it' := by
  obtain ⟨th, h1, h2⟩ := h
  obtain ⟨th', h1', h2'⟩ := h'
  rw [h1] at h1'
  injection h1' with e1 e2 e3
  subst e1
  rw [h2] at h2'
  exact ⟨rfl, Option.some.inj h2', e2⟩

theorem luxCopy_inv {NC : ℕ} {L : Latt} {fa : ℝ → ℕ → Gauge → FaOut} {lat : Gauge} {g : ℕ → ℕ → Arr ℂ} {c : ℕ}
    {s s' : LuxState} (hi : LuxInv NC L fa lat g c s) (h : luxCopy NC L fa lat (g c) s = .state s') :
    LuxInv NC L fa lat g (c + 1) s' := by
  unfold luxCopy at h
  split at h
  · cases h
  · cases h
  · next out it th hfa =>
    split at h
    · cases h
    · next f hf =>
      have hrun : CopyRun NC L fa lat g c out f it := ⟨th, hfa, hf⟩
      split at h
      · next hc =>
        injection h with h
        subst h
        refine ⟨hc.1.le.trans hi.le_one, by simp, ?_, ?_, ?_, ?_⟩
        · intro b hb
          injection hb with hb
          subst hb
          exact ⟨c, Nat.lt_succ_self c, it, hrun, hc.2, hc.1.trans_le hi.le_one⟩
        · intro d hd out' f' it' hr hcv
          rcases Nat.lt_succ_iff_lt_or_eq.1 hd with hd | rfl
          · exact hc.1.le.trans (hi.bound d hd _ _ _ hr hcv)
          · exact (copyRun_unique hrun hr).2.1.le
        · intro d hd
          rcases Nat.lt_succ_iff_lt_or_eq.1 hd with hd | rfl
          · exact hi.all d hd
          · exact ⟨_, _, _, hrun⟩
        · intro d hd
          have : c = d := by omega
          subst this
          exact ⟨_, _, hrun⟩
      · next hc =>
        injection h with h
        subst h
        refine ⟨hi.le_one, hi.none_eq, ?_, ?_, ?_, ?_⟩
        · intro b hb
          obtain ⟨d, hd, r⟩ := hi.some_run b hb
          exact ⟨d, hd.trans (Nat.lt_succ_self c), r⟩
        · intro d hd out' f' it' hr hcv
          rcases Nat.lt_succ_iff_lt_or_eq.1 hd with hd | rfl
          · exact hi.bound d hd _ _ _ hr hcv
          · obtain ⟨-, e, e'⟩ := copyRun_unique hrun hr
            subst e e'
            by_contra hlt
            exact hc ⟨lt_of_not_ge hlt, hcv.1, hcv.2⟩
        · intro d hd
          rcases Nat.lt_succ_iff_lt_or_eq.1 hd with hd | rfl
          · exact hi.all d hd
          · exact ⟨_, _, _, hrun⟩
        · intro d hd
          have : c = d := by omega
          subst this
          exact ⟨_, _, hrun⟩

theorem luxCopies_inv {NC : ℕ} {L : Latt} {fa : ℝ → ℕ → Gauge → FaOut} {lat : Gauge} {g : ℕ → ℕ → Arr ℂ} (n : ℕ) {c : ℕ}
    {s s' : LuxState} (hi : LuxInv NC L fa lat g c s) (h : luxCopies NC L fa lat g n c s = .state s') :
    LuxInv NC L fa lat g (c + n) s' := by
  induction n generalizing c s with
  | zero =>
    injection h with h
    exact h ▸ hi
  | succ n ih =>
    unfold luxCopies at h
    split at h
    · next s1 h1 =>
      have := ih (luxCopy_inv hi h1) h
      rwa [show c + 1 + n = c + (n + 1) by omega] at this
    · cases h
    · cases h

theorem lux_start (NC : ℕ) (L : Latt) (fa : ℝ → ℕ → Gauge → FaOut) (lat : Gauge) (g : ℕ → ℕ → Arr ℂ) :
    LuxInv NC L fa lat g 0 ⟨none, 1, 0⟩ :=
  ⟨le_rfl, fun _ => rfl, by simp, by simp, by simp, by simp⟩

/-! ### The properties -/

/-- C100: when the search ends, the field returned is the result of the final run on the copy with the smallest
functional among all copies whose run converged; that functional is below one. -/
theorem C100_best_partial {NC : ℕ} {L : Latt} {fa : ℝ → ℕ → Gauge → FaOut} {copies : ℕ} {g : ℕ → ℕ → Arr ℂ} {acc : ℝ}
    {max_iters : ℕ} {lat lat' : Gauge} {iters : ℕ} {th : ℝ}
    (h : luxury_copy_fast NC L fa true copies g acc max_iters lat = .done lat' iters th) :
    ∃ c < copies, ∃ best f it it', CopyRun NC L fa lat g c best f it ∧ Converged it ∧ f < 1 ∧
      fa acc max_iters best = .done lat' it' th ∧
      ∀ d < copies, ∃ out f' k, CopyRun NC L fa lat g d out f' k ∧ (Converged k → f ≤ f') := by
  unfold luxury_copy_fast at h
  rw [if_neg (by simp)] at h
  split at h
  · cases h
  · cases h
  · next s hs =>
    have hi := luxCopies_inv copies (lux_start NC L fa lat g) hs
    rw [zero_add] at hi
    split at h
    · cases h
    · next b hb =>
      obtain ⟨c, hc, it, hr, hcv, h1⟩ := hi.some_run b hb
      split at h
      · cases h
      · cases h
      · next l k tr hf =>
        injection h with e1 e2 e3
        subst e1 e3
        refine ⟨c, hc, b, s.maxlink, it, k, hr, hcv, h1, hf, fun d hd => ?_⟩
        obtain ⟨out, f', k', hr'⟩ := hi.all d hd
        exact ⟨out, f', k', hr', hi.bound d hd _ _ _ hr'⟩

/-- C100: the search only moves along the gauge orbit, whether or not the temporaries could be allocated. -/
theorem C100_orbit {NC : ℕ} {L : Latt} (hL : Valid L) {fa : ℝ → ℕ → Gauge → FaOut}
    (hfa : ∀ a m, StaysOnOrbit NC L (fa a m)) {alloc : Bool} {copies : ℕ} {g : ℕ → ℕ → Arr ℂ}
    (hg : ∀ c, SUGauge NC L (g c)) {acc : ℝ} {max_iters : ℕ} : StaysOnOrbit NC L
      (luxury_copy_fast NC L fa alloc copies g acc max_iters) := by
  intro lat lat' iters th hU h
  cases alloc with
  | false =>
    unfold luxury_copy_fast at h
    rw [if_pos rfl] at h
    injection h with e
    exact e ▸ ⟨orbit_refl NC L lat, hU⟩
  | true =>
    obtain ⟨c, -, best, f, it, it', ⟨th1, h1, -⟩, -, -, h2, -⟩ := C100_best_partial h
    obtain ⟨t1, t2⟩ := gtransform_transformed hL (hg c) hU
    obtain ⟨o1, o2⟩ := hfa _ _ _ _ _ _ t2 h1
    obtain ⟨o3, o4⟩ := hfa _ _ _ _ _ _ o2 h2
    exact ⟨orbit_trans ⟨g c, hg c, t1⟩ (orbit_trans o1 o3), o4⟩

/-- C100: if no copy has a converged run with a functional below one, the field is overwritten with memory that was
never written. -/
theorem C100_none_fails {NC : ℕ} {L : Latt} {fa : ℝ → ℕ → Gauge → FaOut} {copies : ℕ} {g : ℕ → ℕ → Arr ℂ} {acc : ℝ}
    {max_iters : ℕ} {lat : Gauge} (hall : ∀ c < copies, ∃ out f it, CopyRun NC L fa lat g c out f it ∧ (Converged it → 1 ≤ f)) :
    luxury_copy_fast NC L fa true copies g acc max_iters lat = .undef := by
  have key : ∀ n c it, (∀ d, c ≤ d → d < c + n → ∃ out f k, CopyRun NC L fa lat g d out f k ∧ (Converged k → 1 ≤ f)) →
      ∃ it', luxCopies NC L fa lat g n c ⟨none, 1, it⟩ = .state ⟨none, 1, it'⟩ := by
    intro n
    induction n with
    | zero => exact fun c it _ => ⟨it, rfl⟩
    | succ n ih =>
      intro c it h
      obtain ⟨out, f, k, ⟨th, h1, h2⟩, h3⟩ := h c le_rfl (by omega)
      have hs : luxCopy NC L fa lat (g c) ⟨none, 1, it⟩ = .state ⟨none, 1, k⟩ := by
        unfold luxCopy
        rw [h1]
        dsimp only
        rw [h2]
        dsimp only
        rw [if_neg]
        rintro ⟨a, b⟩
        exact absurd a (not_lt.2 (h3 b))
      obtain ⟨it', h4⟩ := ih (c + 1) k fun d hd hd' => h d (by omega) (by omega)
      refine ⟨it', ?_⟩
      unfold luxCopies
      rw [hs]
      exact h4
  obtain ⟨it', h⟩ := key copies 0 0 fun d _ hd => hall d (by omega)
  unfold luxury_copy_fast
  rw [if_neg (by simp), h]

/-- C100: the count returned is that of the last copy plus that of the final run; the other copies are not counted. -/
theorem C100_count {NC : ℕ} {L : Latt} {fa : ℝ → ℕ → Gauge → FaOut} {copies : ℕ} {g : ℕ → ℕ → Arr ℂ} {acc : ℝ}
    {max_iters : ℕ} {lat out : Gauge} {n : ℕ} {th : ℝ}
    (h : luxury_copy_fast NC L fa true (copies + 1) g acc max_iters lat = .done out n th) :
    ∃ c ≤ copies, ∃ best f it it' last f' k, CopyRun NC L fa lat g c best f it ∧ Converged it ∧
      fa acc max_iters best = .done out it' th ∧ CopyRun NC L fa lat g copies last f' k ∧ n = k + it' := by
  unfold luxury_copy_fast at h
  rw [if_neg (by simp)] at h
  split at h
  · cases h
  · cases h
  · next s hs =>
    have hi := luxCopies_inv (copies + 1) (lux_start NC L fa lat g) hs
    obtain ⟨last, f', hl⟩ := hi.last copies (by omega)
    split at h
    · cases h
    · next b hb =>
      obtain ⟨c, hc, it, hr, hcv, -⟩ := hi.some_run b hb
      split at h
      · cases h
      · cases h
      · next l k tr hf =>
        injection h with e1 e2 e3
        subst e1 e3
        exact ⟨c, by omega, b, _, it, k, last, f', s.iters, hr, hcv, hf, hl, e2.symm⟩

/-- C100: the failure code of the final run is hidden by the iterations of the last copy: if these are not zero, and the
final run gives up, the Landau driver neither restarts nor reports a failure, and ends with the field of the run that
gave up. -/
theorem C100_failure_hidden {NC : ℕ} {L : Latt} {scratch : Arr ℂ} {fa : ℝ → ℕ → Gauge → FaOut} {copies : ℕ}
    {g : ℕ → ℕ → Arr ℂ} {acc : ℝ} {max_iters : ℕ} {gaugeAlloc : Bool} {reread : ℕ → Gauge → Reread} {g' : ℕ → ℕ → Arr ℂ}
    {lat out : Gauge} {th : ℝ} {last : Gauge} {f : ℝ} {k n : ℕ} (hk : 0 < k)
    (hfail : ∀ c ≤ copies, ∀ best f it, CopyRun NC L fa lat g c best f it → Converged it →
      ∃ o t, fa acc max_iters best = .done o 123456789 t)
    (hrun : CopyRun NC L fa lat g copies last f k)
    (h : luxury_copy_fast NC L fa true (copies + 1) g acc max_iters lat = .done out n th) :
    n = k + 123456789 ∧
    Landau NC L scratch (luxury_copy_fast NC L fa true (copies + 1) g acc max_iters) max_iters gaugeAlloc reread g' lat =
      landauFinish NC L scratch out n th := by
  obtain ⟨c, hc, best, f1, it, it', last', f', k', hr, hcv, hf, hl, rfl⟩ := C100_count h
  obtain ⟨o, t, ho⟩ := hfail c hc best f1 it hr hcv
  rw [hf] at ho
  injection ho with _ e _
  have ek := (copyRun_unique hrun hl).2.2
  subst e ek
  refine ⟨rfl, ?_⟩
  unfold Landau
  rw [h]
  dsimp only
  rw [if_neg (by omega)]

/-- C100: when the temporaries cannot be allocated the Landau driver ends as after a run that was converged at once, and
prints the accuracy zero. -/
theorem C100_no_memory {NC : ℕ} {L : Latt} {scratch : Arr ℂ} {fa : ℝ → ℕ → Gauge → FaOut} {copies : ℕ}
    {g : ℕ → ℕ → Arr ℂ} {acc : ℝ} {max_iters : ℕ} {gaugeAlloc : Bool} {reread : ℕ → Gauge → Reread} {g' : ℕ → ℕ → Arr ℂ}
    {lat : Gauge} :
    Landau NC L scratch (luxury_copy_fast NC L fa false copies g acc max_iters) max_iters gaugeAlloc reread g' lat =
      landauFinish NC L scratch lat 0 0 := rfl

/-! ### Examples -/

/-- The field with every link minus one. -/
noncomputable def minusField : Gauge := fun _ => arr [-1, 0, 0, -1]

theorem minus_su (L : Latt) : SUField 2 L minusField := by
  intro i _ mu _
  have : toM 2 (minusField (i, mu)) = -1 := by
    ext a b
    rw [toM_apply]
    fin_cases a <;> fin_cases b <;> simp [minusField, arr]
  unfold IsSU
  rw [this, mem_specialUnitaryGroup_iff, mem_unitaryGroup_iff]
  constructor
  · simp
  · rw [det_fin_two]; simp

theorem const_functional {L : Latt} (hL : Valid L) {lat : Gauge} {c : ℝ}
    (h : ∀ i < volume L, ∀ mu < L.ND, link 2 lat i mu = (c : ℂ) • 1) : gauge_functional 2 L lat = some (1 - c) := by
  obtain ⟨x, h1, h2⟩ := C80_functional (NC := 2) (by norm_num) hL lat
  rw [h2, links_linkSum (by norm_num) hL, Option.some_inj] at *
  have hs : linkSum 2 lat (range (volume L)) L.ND = volume L * (L.ND * (2 * c)) := by
    unfold linkSum
    rw [sum_congr rfl fun i hi => sum_congr rfl fun mu hmu => by
      rw [h i (mem_range.1 hi) mu (mem_range.1 hmu)]]
    simp [Matrix.trace_smul, mul_comm]
  rw [hs] at h1
  have hV : (volume L : ℝ) ≠ 0 := by exact_mod_cast (volume_pos hL).ne'
  have hD : (L.ND : ℝ) ≠ 0 := by have := hL.nd; exact_mod_cast (by omega : L.ND ≠ 0)
  rw [← h1]
  congr 2
  push_cast
  field_simp

theorem const_theta {L : Latt} (hL : Valid L) (scratch : Arr ℂ) {lat : Gauge} {c : ℝ} (hU : SUField 2 L lat)
    (h : ∀ i < volume L, ∀ mu < L.ND, link 2 lat i mu = (c : ℂ) • 1) : theta_test_lin 2 L scratch lat L.ND = some 0 := by
  rw [C80_theta (by norm_num) hL scratch hU le_rfl]
  have : ∀ i ∈ range (volume L), divergence 2 L lat i L.ND = 0 := by
    intro i hi
    unfold divergence
    refine sum_eq_zero fun mu hmu => ?_
    rw [h i (mem_range.1 hi) mu (mem_range.1 hmu), h _ (back_lt hL i (mem_range.1 hmu)) mu (mem_range.1 hmu), sub_self]
  rw [sum_congr rfl fun i hi => by rw [this i hi]]
  simp

/-- C100: this happens with the conjugate gradient routine, whatever the number of copies: for the SU(2) field with every
link minus one, when the random matrices are all one, every copy is stationary with the functional 2, and none is taken. -/
theorem C100_none_witness_fails {L : Latt} (hL : Valid L) (scratch : Arr ℂ) (accel : Planes → Planes) (tol al : ℝ)
    (alloc : Bool) (runs copies : ℕ) (acc : ℝ) (max_iters : ℕ) :
    SUField 2 L minusField ∧ SUGauge 2 L (fun _ => identity 2 fun _ => 0) ∧
    luxury_copy_fast 2 L (fun a m => FACG ⟨2, L, scratch, accel, tol, al⟩ alloc a m runs) true copies
      (fun _ _ => identity 2 fun _ => 0) acc max_iters minusField = .undef := by
  have hg : SUGauge 2 L fun _ => identity 2 fun _ => 0 := fun i _ => by
    unfold IsSU; rw [C63_identity]; exact one_mem _
  refine ⟨minus_su L, hg, C100_none_fails fun c _ => ?_⟩
  obtain ⟨t1, t2⟩ := gtransform_transformed hL hg (minus_su L)
  have hl : ∀ i < volume L, ∀ mu < L.ND, link 2 (gtransform 2 L (fun _ => identity 2 fun _ => 0) minusField) i mu =
      (((-1 : ℝ)) : ℂ) • 1 := by
    intro i hi mu hmu
    rw [t1 i hi mu hmu, C63_identity]
    unfold link
    ext a b
    fin_cases a <;> fin_cases b <;> simp [minusField, arr, toM_apply]
  refine ⟨_, _, 0, ⟨0, ?_, const_functional hL hl⟩, fun _ => by norm_num⟩
  unfold FACG
  dsimp only
  rw [const_theta hL scratch t2 hl]
  dsimp only
  rw [if_pos (by norm_num)]

/-- The hypotheses of `C100_best_partial`, `C100_count` and `C100_failure_hidden` can be met: a routine that takes five
iterations for a copy and gives up in the final run. -/
example {L : Latt} (hL : Valid L) (scratch : Arr ℂ) (reread : ℕ → Gauge → Reread) (g g' : ℕ → ℕ → Arr ℂ) (lat : Gauge) :
    let one : Gauge := fun _ => arr [1, 0, 0, 1]
    let fa : ℝ → ℕ → Gauge → FaOut := fun _ m l => if m = 1000 then .done one 5 0 else .done l 123456789 1
    Landau 2 L scratch (luxury_copy_fast 2 L fa true 1 g 0 2) 2 true reread g' lat =
      landauFinish 2 L scratch one (5 + 123456789) 1 := by
  intro one fa
  have hf : gauge_functional 2 L one = some 0 := by
    have := const_functional (lat := one) (c := 1) hL fun i _ mu _ => by
      ext a b
      unfold link
      rw [toM_apply]
      fin_cases a <;> fin_cases b <;> simp [one, arr]
    simpa using this
  have hrun : ∀ c, CopyRun 2 L fa lat g c one 0 5 := fun c => ⟨0, if_pos rfl, hf⟩
  have h : luxury_copy_fast 2 L fa true 1 g 0 2 lat = .done one (5 + 123456789) 1 := by
    have h1 : luxCopy 2 L fa lat (g 0) ⟨none, 1, 0⟩ = .state ⟨some one, 0, 5⟩ := by
      unfold luxCopy
      rw [show fa 1e-6 1000 (gtransform 2 L (g 0) lat) = .done one 5 0 from if_pos rfl]
      dsimp only
      rw [hf]
      dsimp only
      rw [if_pos ⟨by norm_num, by norm_num, by norm_num⟩]
    unfold luxury_copy_fast luxCopies
    rw [if_neg (by simp), h1]
    dsimp only
    unfold luxCopies
    dsimp only
    rw [show fa 0 2 one = .done one 123456789 1 from if_neg (by norm_num)]
  exact (C100_failure_hidden (by norm_num) (fun c _ best f it h hc => ⟨best, 1, if_neg (by norm_num)⟩) (hrun 0) h).2

end GLU.Gfix
