import Verif.Field.SlabProps
import Mathlib.Order.Interval.Finset.Basic
import Mathlib.Data.Int.Interval
import Mathlib.Tactic.IntervalCases

/-!
# C88: the moments of the topological charge
-/

namespace GLU.Field

open Complex Finset GLU.Mat GLU.Geom

/-! ## Specification -/

/-- The slice of the signed coordinate `t` of a periodic direction of extent `LT`. -/
def wrapped (LT : ℕ) (t : ℤ) : ℕ := (t % LT).toNat

/-- The sum of `t^n Q(t)` over the signed coordinates `-LT/2 < t < LT/2`. -/
noncomputable def powerSum (LT n : ℕ) (Q : ℕ → ℝ) : ℝ :=
  ∑ t ∈ Ioo (-(LT / 2 : ℕ) : ℤ) (LT / 2 : ℕ), (t : ℝ) ^ n * Q (wrapped LT t)

/-- The sign of the moment `n`: `1, 1, -1, -1, ...`. -/
def momentSign (n : ℕ) : ℝ := (-1) ^ (n / 2)

/-! ## The slices -/

theorem loc_idx_slab {L : Latt} (hL : Valid L) {dir t : ℕ} (hdir : dir < L.ND) (ht : t < L.dims dir) (i : ℕ) :
    loc_idx L dir i t = slab_idx L dir 1 t i := by
  have hD := hL.pos dir hdir
  have h := coord_lt (slabLatt L dir 1) (slab_valid hL one_pos hD).pos L.ND i (mu := dir) hdir
  rw [slabLatt_dims, if_pos rfl, Nat.lt_one_iff] at h
  unfold loc_idx slab_idx
  rw [h, Nat.zero_add, Nat.mod_eq_of_lt ht]

theorem momentQt_re {L : Latt} (hL : Valid L) {dir t : ℕ} (hdir : dir < L.ND) (ht : t < L.dims dir) (q : ℕ → ℂ) (norm : ℝ) :
    (momentQt L q norm dir t).re = norm * sliceCharge L q dir t := by
  have h := slab_sum hL hdir one_pos (hL.pos dir hdir) t q
  have e : slabCharge L q dir 1 t = sliceCharge L q dir t := by
    unfold slabCharge
    rw [sum_range_one, Nat.add_zero, Nat.mod_eq_of_lt ht]
  unfold momentQt
  rw [forN_sum, zero_add, re_mul_ofReal, re_sum, ← e, ← h, mul_comm]
  congr 1
  exact sum_congr rfl fun i _ => by rw [loc_idx_slab hL hdir ht]

/-! ## The loops -/

/-- The coordinate of the iteration `k`. -/
def tOf (LT k : ℕ) : ℤ := -(LT / 2 : ℕ) + 1 + k

theorem posit_eq (LT : ℕ) (t : ℤ) : ((t + LT) % LT).toNat = wrapped LT t := by
  unfold wrapped
  rw [Int.add_emod_right]

theorem wrapped_lt {LT : ℕ} (h : 0 < LT) (t : ℤ) : wrapped LT t < LT := by
  unfold wrapped
  have h1 := Int.emod_nonneg t (show (LT : ℤ) ≠ 0 by omega)
  have h2 := Int.emod_lt_of_pos t (show (0 : ℤ) < LT by omega)
  omega

theorem wrapped_inj {LT k l : ℕ} (hk : k < 2 * (LT / 2) - 1) (hl : l < 2 * (LT / 2) - 1)
    (h : wrapped LT (tOf LT k) = wrapped LT (tOf LT l)) : k = l := by
  have hLT : 0 < LT := by omega
  have h1 := Int.emod_nonneg (tOf LT k) (show (LT : ℤ) ≠ 0 by omega)
  have h2 := Int.emod_nonneg (tOf LT l) (show (LT : ℤ) ≠ 0 by omega)
  unfold wrapped at h
  have e : tOf LT k % LT = tOf LT l % LT := by omega
  have hd : (LT : ℤ) ∣ tOf LT k - tOf LT l := Int.dvd_of_emod_eq_zero (by
    have h3 : (tOf LT k - tOf LT l) % LT = 0 % LT := Int.ModEq.sub_right (tOf LT l) e |>.trans (by rw [sub_self])
    rw [h3, Int.zero_emod])
  obtain ⟨c, hc⟩ := hd
  unfold tOf at hc
  have hlt : (k : ℤ) - l < LT ∧ -(LT : ℤ) < k - l := by omega
  have hcz : c = 0 := by
    have e1 : (LT : ℤ) * c < LT * 1 := by rw [← hc]; omega
    have e2 : (LT : ℤ) * (-1) < LT * c := by rw [← hc]; omega
    have := lt_of_mul_lt_mul_left e1 (by omega)
    have := lt_of_mul_lt_mul_left e2 (by omega)
    omega
  rw [hcz, mul_zero] at hc
  omega

/-- What `momentLoop` did when it was defined. -/
structure LoopDone (LT m : ℕ) (Qt : ℕ → ℂ) (s : ℝ × (ℕ → ℤ)) (r : ℝ × (ℕ → ℤ)) : Prop where
  sum : r.1 = s.1 + ∑ k ∈ range m, (s.2 (wrapped LT (tOf LT k)) : ℝ) * (Qt (wrapped LT (tOf LT k))).re
  done : ∀ k < m, r.2 (wrapped LT (tOf LT k)) = s.2 (wrapped LT (tOf LT k)) * tOf LT k
  rest : ∀ k, m ≤ k → k < 2 * (LT / 2) - 1 → r.2 (wrapped LT (tOf LT k)) = s.2 (wrapped LT (tOf LT k))
  range : ∀ k < m, -2 ^ 31 ≤ s.2 (wrapped LT (tOf LT k)) * tOf LT k ∧ s.2 (wrapped LT (tOf LT k)) * tOf LT k < 2 ^ 31

theorem loop_step {LT m : ℕ} (hm : m < 2 * (LT / 2) - 1) {Qt : ℕ → ℂ} {s r : ℝ × (ℕ → ℤ)} (h : LoopDone LT m Qt s r)
    (hr : -2 ^ 31 ≤ s.2 (wrapped LT (tOf LT m)) * tOf LT m ∧ s.2 (wrapped LT (tOf LT m)) * tOf LT m < 2 ^ 31) :
    LoopDone LT (m + 1) Qt s (r.1 + (r.2 (wrapped LT (tOf LT m)) : ℝ) * (Qt (wrapped LT (tOf LT m))).re,
      Function.update r.2 (wrapped LT (tOf LT m)) (r.2 (wrapped LT (tOf LT m)) * tOf LT m)) := by
  have hrest := h.rest m le_rfl hm
  refine ⟨?_, fun k hk => ?_, fun k hk hk' => ?_, fun k hk => ?_⟩
  · dsimp only
    rw [hrest, h.sum, sum_range_succ, add_assoc]
  · dsimp only
    rcases Nat.lt_succ_iff_lt_or_eq.1 hk with hk | rfl
    · rw [Function.update_of_ne (fun e => by have := wrapped_inj (by omega) hm e; omega), h.done k hk]
    · rw [Function.update_self, hrest]
  · dsimp only
    rw [Function.update_of_ne (fun e => by have := wrapped_inj hk' hm e; omega), h.rest k (by omega) hk']
  · rcases Nat.lt_succ_iff_lt_or_eq.1 hk with hk | rfl
    · exact h.range k hk
    · exact hr

/-- The loop is defined exactly when no product overflows. -/
theorem momentLoop_spec (LT : ℕ) (Qt : ℕ → ℂ) (s : ℝ × (ℕ → ℤ)) :
    (∀ r, momentLoop LT Qt s = some r → LoopDone LT (2 * (LT / 2) - 1) Qt s r) ∧
    ((∀ k < 2 * (LT / 2) - 1, -2 ^ 31 ≤ s.2 (wrapped LT (tOf LT k)) * tOf LT k ∧ s.2 (wrapped LT (tOf LT k)) * tOf LT k < 2 ^ 31) →
      ∃ r, momentLoop LT Qt s = some r) := by
  have key : ∀ m ≤ 2 * (LT / 2) - 1,
      (∀ r, forN m (fun k (o : Option (ℝ × (ℕ → ℤ))) => o.bind fun s =>
        let t : ℤ := -(LT / 2 : ℕ) + 1 + k
        let posit := ((t + LT) % LT).toNat
        let sum := s.1 + (s.2 posit : ℝ) * (Qt posit).re
        let p := s.2 posit * t
        if -2 ^ 31 ≤ p ∧ p < 2 ^ 31 then some (sum, Function.update s.2 posit p) else none) (some s) = some r →
          LoopDone LT m Qt s r) ∧
      ((∀ k < m, -2 ^ 31 ≤ s.2 (wrapped LT (tOf LT k)) * tOf LT k ∧ s.2 (wrapped LT (tOf LT k)) * tOf LT k < 2 ^ 31) →
        ∃ r, forN m (fun k (o : Option (ℝ × (ℕ → ℤ))) => o.bind fun s =>
        let t : ℤ := -(LT / 2 : ℕ) + 1 + k
        let posit := ((t + LT) % LT).toNat
        let sum := s.1 + (s.2 posit : ℝ) * (Qt posit).re
        let p := s.2 posit * t
        if -2 ^ 31 ≤ p ∧ p < 2 ^ 31 then some (sum, Function.update s.2 posit p) else none) (some s) = some r) := by
    intro m
    induction m with
    | zero =>
      intro _
      refine ⟨fun r h => ?_, fun _ => ⟨s, rfl⟩⟩
      have : s = r := Option.some.inj h
      subst this
      exact ⟨by simp, fun k hk => absurd hk (by omega), fun _ _ _ => rfl, fun k hk => absurd hk (by omega)⟩
    | succ m ih =>
      intro hm
      obtain ⟨i1, i2⟩ := ih (by omega)
      refine ⟨fun r h => ?_, fun h => ?_⟩
      · rw [forN, Option.bind_eq_some_iff] at h
        obtain ⟨r', h', h⟩ := h
        have d := i1 r' h'
        dsimp only at h
        rw [posit_eq, show (-(LT / 2 : ℕ) + 1 + m : ℤ) = tOf LT m from rfl] at h
        have hrest := d.rest m le_rfl (by omega)
        split at h
        · next hr =>
          rw [← Option.some.inj h]
          rw [hrest] at hr
          exact loop_step (by omega) d hr
        · exact absurd h (by simp)
      · obtain ⟨r', h'⟩ := i2 fun k hk => h k (by omega)
        have d := i1 r' h'
        have hrest := d.rest m le_rfl (by omega)
        rw [forN, h', Option.bind_some]
        dsimp only
        rw [posit_eq, show (-(LT / 2 : ℕ) + 1 + m : ℤ) = tOf LT m from rfl, if_pos (by rw [hrest]; exact h m (by omega))]
        exact ⟨_, rfl⟩
  exact key _ le_rfl

theorem sum_tOf (LT : ℕ) (f : ℤ → ℝ) :
    ∑ k ∈ range (2 * (LT / 2) - 1), f (tOf LT k) = ∑ t ∈ Ioo (-(LT / 2 : ℕ) : ℤ) (LT / 2 : ℕ), f t := by
  refine sum_nbij (tOf LT) (fun k hk => ?_) (fun a _ b _ h => ?_) (fun t ht => ?_) (fun k _ => rfl)
  · have := mem_range.1 hk
    rw [mem_Ioo]
    unfold tOf
    omega
  · unfold tOf at h
    omega
  · have := mem_Ioo.1 (mem_coe.1 ht)
    refine ⟨(t + (LT / 2 : ℕ) - 1).toNat, mem_coe.2 (mem_range.2 (by omega)), ?_⟩
    unfold tOf
    omega

theorem sign_eq (n : ℕ) (x : ℝ) : (if n % 4 = 0 ∨ n % 4 = 1 then x else -x) = momentSign n * x := by
  unfold momentSign
  rw [neg_one_pow_eq_pow_mod_two]
  split
  · next h => rw [show n / 2 % 2 = 0 by omega, pow_zero, one_mul]
  · next h => rw [show n / 2 % 2 = 1 by omega, pow_one, neg_one_mul]

/-- The loop over the moments, after `N` of them. -/
theorem moments_inv (LT dir : ℕ) (Qt : ℕ → ℂ) (M : ℕ → ℝ) (N : ℕ) :
    (∀ r, forN N (fun n (o : Option ((ℕ → ℝ) × (ℕ → ℤ))) => o.bind fun s =>
      (momentLoop LT Qt (0, s.2)).map fun r =>
        let sum := r.1 / fac n
        (Function.update s.1 (n + 12 * dir) (if n % 4 = 0 ∨ n % 4 = 1 then sum else -sum), r.2)) (some (M, fun _ => 1)) = some r →
      (∀ k < 2 * (LT / 2) - 1, r.2 (wrapped LT (tOf LT k)) = tOf LT k ^ N) ∧
      (∀ k < 2 * (LT / 2) - 1, ∀ n < N, -2 ^ 31 ≤ tOf LT k ^ (n + 1) ∧ tOf LT k ^ (n + 1) < 2 ^ 31) ∧
      (∀ n < N, r.1 (n + 12 * dir) = momentSign n * (powerSum LT n (fun t => (Qt t).re) / fac n)) ∧
      (∀ j, (∀ n < N, j ≠ n + 12 * dir) → r.1 j = M j)) ∧
    ((∀ k < 2 * (LT / 2) - 1, ∀ n < N, -2 ^ 31 ≤ tOf LT k ^ (n + 1) ∧ tOf LT k ^ (n + 1) < 2 ^ 31) →
      ∃ r, forN N (fun n (o : Option ((ℕ → ℝ) × (ℕ → ℤ))) => o.bind fun s =>
      (momentLoop LT Qt (0, s.2)).map fun r =>
        let sum := r.1 / fac n
        (Function.update s.1 (n + 12 * dir) (if n % 4 = 0 ∨ n % 4 = 1 then sum else -sum), r.2)) (some (M, fun _ => 1)) = some r) := by
  induction N with
  | zero =>
    refine ⟨fun r h => ?_, fun _ => ⟨_, rfl⟩⟩
    have : (M, fun _ => (1 : ℤ)) = r := Option.some.inj h
    subst this
    exact ⟨fun _ _ => by rw [pow_zero], fun _ _ n hn => absurd hn (by omega), fun n hn => absurd hn (by omega), fun _ _ => rfl⟩
  | succ N ih =>
    obtain ⟨i1, i2⟩ := ih
    refine ⟨fun r h => ?_, fun h => ?_⟩
    · rw [forN, Option.bind_eq_some_iff] at h
      obtain ⟨s, hs, h⟩ := h
      obtain ⟨p1, p2, p3, p4⟩ := i1 s hs
      rw [Option.map_eq_some_iff] at h
      obtain ⟨r', h', h⟩ := h
      have d := (momentLoop_spec LT Qt (0, s.2)).1 r' h'
      dsimp only at h
      subst h
      have hp : ∀ k < 2 * (LT / 2) - 1, s.2 (wrapped LT (tOf LT k)) * tOf LT k = tOf LT k ^ (N + 1) :=
        fun k hk => by rw [p1 k hk, pow_succ]
      refine ⟨fun k hk => ?_, fun k hk n hn => ?_, fun n hn => ?_, fun j hj => ?_⟩
      · show r'.2 _ = _
        rw [d.done k hk]
        exact hp k hk
      · rcases Nat.lt_succ_iff_lt_or_eq.1 hn with hn | rfl
        · exact p2 k hk n hn
        · rw [← hp k hk]; exact d.range k hk
      · dsimp only
        rcases Nat.lt_succ_iff_lt_or_eq.1 hn with hn | rfl
        · rw [Function.update_of_ne (by omega), p3 n hn]
        · rw [Function.update_self, sign_eq, d.sum]
          dsimp only
          rw [zero_add]
          congr 2
          unfold powerSum
          rw [← sum_tOf LT fun t => (t : ℝ) ^ n * (Qt (wrapped LT t)).re]
          exact sum_congr rfl fun k hk => by rw [p1 k (mem_range.1 hk)]; push_cast; rfl
      · dsimp only
        rw [Function.update_of_ne (hj N (by omega)), p4 j fun n hn => hj n (by omega)]
    · obtain ⟨s, hs⟩ := i2 fun k hk n hn => h k hk n (by omega)
      obtain ⟨p1, -, -, -⟩ := i1 s hs
      obtain ⟨r', h'⟩ := (momentLoop_spec LT Qt (0, s.2)).2 fun k hk => by
        show -2 ^ 31 ≤ s.2 _ * _ ∧ s.2 _ * _ < 2 ^ 31
        rw [p1 k hk, ← pow_succ]
        exact h k hk N (by omega)
      rw [forN, hs, Option.bind_some, h']
      exact ⟨_, rfl⟩

/-! ## Theorems -/

/-- **C88**, one direction: the twelve moments written for a direction of at most 13 sites. Each is the sum over the signed
coordinates of `t^n` times the charge of the slice, divided by the table `fac` and with the sign of `n`; nothing else is
written. -/
theorem C88_time_moments_partial {L : Latt} (hL : Valid L) {dir : ℕ} (hdir : dir < L.ND) (hsmall : L.dims dir ≤ 13) (M : ℕ → ℝ)
    (q : ℕ → ℂ) (norm : ℝ) :
    ∃ M', Time_Moments L M q norm dir = some M' ∧
      (∀ n < 12, M' (n + 12 * dir) = momentSign n * (norm * powerSum (L.dims dir) n (sliceCharge L q dir) / fac n)) ∧
      ∀ j, (∀ n < 12, j ≠ n + 12 * dir) → M' j = M j := by
  obtain ⟨i1, i2⟩ := moments_inv (L.dims dir) dir (momentQt L q norm dir) M 12
  obtain ⟨r, hr⟩ := i2 fun k hk n hn => by
    have hb : |tOf (L.dims dir) k| ≤ 5 := by
      unfold tOf
      rw [abs_le]
      omega
    have h1 : |tOf (L.dims dir) k ^ (n + 1)| ≤ 5 ^ 12 := by
      rw [abs_pow]
      exact (pow_le_pow_left₀ (abs_nonneg _) hb _).trans (pow_le_pow_right₀ (by norm_num) (by omega))
    have h2 := abs_le.1 h1
    constructor <;> linarith
  obtain ⟨-, -, p3, p4⟩ := i1 r hr
  refine ⟨r.1, ?_, fun n hn => ?_, p4⟩
  · unfold Time_Moments
    dsimp only
    rw [hr]
    rfl
  · rw [p3 n hn]
    congr 2
    unfold powerSum
    rw [mul_sum]
    refine sum_congr rfl fun t _ => ?_
    dsimp only
    rw [momentQt_re hL hdir (wrapped_lt (hL.pos dir hdir) t)]
    ring

/-- **C88**, the table is that of the factorials except for one entry. -/
theorem C88_fac {n : ℕ} (hn : n < 12) (h10 : n ≠ 10) : fac n = (n.factorial : ℝ) := by
  unfold fac
  interval_cases n <;> first | exact absurd rfl h10 | norm_num [Nat.factorial]

/-- C88 fails for the tenth moment: the factorial in the table has two digits exchanged. -/
theorem C88_factorial_fails : fac 10 ≠ ((Nat.factorial 10 : ℕ) : ℝ) := by
  unfold fac
  norm_num [Nat.factorial]

/-- C88 fails for a direction of more than 13 sites: the powers of `t` overflow the type `int`, which is undefined, for every
charge density. -/
theorem C88_overflow_fails (L : Latt) (M : ℕ → ℝ) (q : ℕ → ℂ) (norm : ℝ) {dir : ℕ} (h : 14 ≤ L.dims dir) :
    Time_Moments L M q norm dir = none := by
  obtain ⟨i1, -⟩ := moments_inv (L.dims dir) dir (momentQt L q norm dir) M 12
  unfold Time_Moments
  dsimp only
  rw [Option.map_eq_none_iff, Option.eq_none_iff_forall_ne_some]
  intro r hr
  obtain ⟨-, p2, -⟩ := i1 r hr
  have := p2 (2 * (L.dims dir / 2) - 2) (by omega) 11 (by omega)
  have hb : 6 ≤ tOf (L.dims dir) (2 * (L.dims dir / 2) - 2) := by unfold tOf; omega
  have hp : (6 : ℤ) ^ 12 ≤ tOf (L.dims dir) (2 * (L.dims dir / 2) - 2) ^ (11 + 1) := pow_le_pow_left₀ (by norm_num) hb _
  have := this.2
  have : (6 : ℤ) ^ 12 < 2 ^ 31 := lt_of_le_of_lt hp this
  norm_num at this

/-- The signed coordinates in the sum miss some slice. -/
theorem half_missed {LT : ℕ} (h : 0 < LT) : ∀ t ∈ Ioo (-(LT / 2 : ℕ) : ℤ) (LT / 2 : ℕ), wrapped LT t ≠ LT / 2 := by
  intro t ht e
  rw [mem_Ioo] at ht
  unfold wrapped at e
  rcases lt_or_ge t 0 with h0 | h0
  · rw [← Int.add_emod_right, Int.emod_eq_of_lt (by omega) (by omega)] at e
    omega
  · rw [Int.emod_eq_of_lt h0 (by omega)] at e
    omega

/-- C88 fails for the zeroth moment of every lattice: it is not the charge, since the slice half way round is left out. -/
theorem C88_zeroth_fails {L : Latt} (hL : Valid L) {dir : ℕ} (hdir : dir < L.ND) :
    ∃ q : ℕ → ℂ, RealDensity L q ∧ totalCharge L q = 1 ∧ powerSum (L.dims dir) 0 (sliceCharge L q dir) = 0 := by
  have hD := hL.pos dir hdir
  have hin : InRange L fun mu => ((if mu = dir then L.dims dir / 2 else 0 : ℕ) : ℤ) := by
    intro mu hmu
    refine ⟨Int.natCast_nonneg _, Int.ofNat_lt.2 ?_⟩
    split
    · next h => rw [h]; omega
    · exact hL.pos mu hmu
  obtain ⟨x0, hx0, hc⟩ : ∃ x0 < volume L, coord L L.ND x0 dir = L.dims dir / 2 := by
    refine ⟨_, gen_site_lt hL hin, Int.ofNat_inj.1 ((coord_gen_site hL hin hdir).trans ?_)⟩
    rw [if_pos rfl]
  refine ⟨fun i => if i = x0 then 1 else 0, fun i _ => ?_, ?_, ?_⟩
  · dsimp only; split <;> simp
  · unfold totalCharge
    rw [sum_eq_single_of_mem x0 (mem_range.2 hx0)]
    · simp
    · intro b _ hb; simp [hb]
  · unfold powerSum
    refine sum_eq_zero fun t ht => ?_
    have : sliceCharge L (fun i => if i = x0 then 1 else 0) dir (wrapped (L.dims dir) t) = 0 := by
      unfold sliceCharge
      refine sum_eq_zero fun x _ => ?_
      split
      · next h =>
        have : x ≠ x0 := fun e => half_missed hD t ht (by rw [← h, e, hc])
        simp [this]
      · rfl
    rw [this, mul_zero]

/-- All directions, one after the other. -/
theorem all_dirs {L : Latt} (hL : Valid L) (hsmall : ∀ dir < L.ND, L.dims dir ≤ 13) (M : ℕ → ℝ) (q : ℕ → ℂ) (norm : ℝ) :
    ∃ M', forN L.ND (fun mu o => o.bind fun Q => Time_Moments L Q q norm mu) (some M) = some M' ∧
      ∀ dir < L.ND, ∀ n < 12, M' (n + 12 * dir) =
        momentSign n * (norm * powerSum (L.dims dir) n (sliceCharge L q dir) / fac n) := by
  have key : ∀ m ≤ L.ND, ∃ M', forN m (fun mu o => o.bind fun Q => Time_Moments L Q q norm mu) (some M) = some M' ∧
      ∀ dir < m, ∀ n < 12, M' (n + 12 * dir) =
        momentSign n * (norm * powerSum (L.dims dir) n (sliceCharge L q dir) / fac n) := by
    intro m
    induction m with
    | zero => exact fun _ => ⟨M, rfl, fun dir h => absurd h (by omega)⟩
    | succ m ih =>
      intro hm
      obtain ⟨M1, h1, h2⟩ := ih (by omega)
      obtain ⟨M2, h3, h4, h5⟩ := C88_time_moments_partial hL (show m < L.ND by omega) (hsmall m (by omega)) M1 q norm
      refine ⟨M2, by rw [forN, h1, Option.bind_some, h3], fun dir hdir n hn => ?_⟩
      rcases Nat.lt_succ_iff_lt_or_eq.1 hdir with hdir | rfl
      · rw [h5 _ (fun n' hn' => by omega), h2 dir hdir n hn]
      · exact h4 n hn
  exact key _ le_rfl

/-- **C88**, the moments of the charge in all directions. -/
theorem C88_Q_partial {L : Latt} (hL : Valid L) (hsmall : ∀ dir < L.ND, L.dims dir ≤ 13) (M : ℕ → ℝ) (q : ℕ → ℂ) :
    ∃ M', compute_Q_moments L M q = some M' ∧ ∀ dir < L.ND, ∀ n < 12, M' (n + 12 * dir) =
      momentSign n * (NORM * powerSum (L.dims dir) n (sliceCharge L q dir) / fac n) :=
  all_dirs hL hsmall M q NORM

theorem sliceCharge_congr {L : Latt} {q p : ℕ → ℂ} (h : ∀ i < volume L, (q i).re = (p i).re) (dir t : ℕ) :
    sliceCharge L q dir t = sliceCharge L p dir t :=
  sum_congr rfl fun x hx => by rw [h x (mem_range.1 hx)]

/-- **C88**, the moments of the correlator of the charge in all directions are the same for both builds: those of the correlator
that is summed over all pairs of sites. -/
theorem C88_Q2_partial {L : Latt} (hL : Valid L) (hsmall : ∀ dir < L.ND, L.dims dir ≤ 13) (fft : Bool) (M : ℕ → ℝ) {q : ℕ → ℂ}
    (hq : RealDensity L q) :
    ∃ M', compute_Q2_moments fft L M q = some M' ∧ ∀ dir < L.ND, ∀ n < 12, M' (n + 12 * dir) =
      momentSign n * (NORM ^ 2 * powerSum (L.dims dir) n (sliceCharge L (fun r => (chargeCorr L q r : ℂ)) dir) / fac n) := by
  cases fft
  · obtain ⟨M', h1, h2⟩ := all_dirs hL hsmall M (fun i => forN (volume L) (fun source sum =>
      sum + q source * q (compute_spacing L (fun mu => (coord L L.ND i mu : ℤ)) source L.ND)) 0) NORMSQ
    refine ⟨M', h1, fun dir hdir n hn => ?_⟩
    rw [h2 dir hdir n hn]
    have e : ∀ t, sliceCharge L (fun i => forN (volume L) (fun source sum =>
      sum + q source * q (compute_spacing L (fun mu => (coord L L.ND i mu : ℤ)) source L.ND)) 0) dir t =
        sliceCharge L (fun r => (chargeCorr L q r : ℂ)) dir t := by
      intro t
      refine sliceCharge_congr (fun r _ => ?_) dir t
      rw [forN_sum, zero_add, re_sum, ofReal_re]
      unfold chargeCorr
      rw [sum_comm]
      refine sum_congr rfl fun y hy => ?_
      obtain ⟨g1, g2⟩ := spacing_shifted hL r y
      rw [sum_eq_single_of_mem _ (mem_range.2 g1)]
      · rw [if_pos ((g2 _ g1).2 rfl), mul_re, hq y (mem_range.1 hy), zero_mul, sub_zero, mul_comm]
      · intro x hx hne
        exact if_neg fun h => hne ((g2 x (mem_range.1 hx)).1 h)
    rw [show NORMSQ = NORM ^ 2 by unfold NORMSQ; ring, funext e]
  · have hV : (volume L : ℝ) ≠ 0 := by exact_mod_cast (volume_pos hL).ne'
    obtain ⟨M', h1, h2⟩ := all_dirs hL hsmall M (small_plan L 1 fun i => small_plan L (-1) q i * star (small_plan L (-1) q i))
      (NORMSQ / (volume L : ℝ))
    refine ⟨M', h1, fun dir hdir n hn => ?_⟩
    rw [h2 dir hdir n hn]
    have e : ∀ t, sliceCharge L (small_plan L 1 fun i => small_plan L (-1) q i * star (small_plan L (-1) q i)) dir t =
        volume L * sliceCharge L (fun r => (chargeCorr L q r : ℂ)) dir t := by
      intro t
      unfold sliceCharge
      rw [mul_sum]
      refine sum_congr rfl fun r hr => ?_
      split
      · have c := convolution hL q 1 r
        simp only [mul_one, one_mul] at c
        rw [c, show ((volume L : ℕ) : ℂ) = ((volume L : ℝ) : ℂ) by push_cast; rfl, re_ofReal_mul, ofReal_re]
        congr 1
        unfold chargeCorr
        rw [re_sum]
        refine sum_congr rfl fun x hx => ?_
        rw [re_sum]
        refine sum_congr rfl fun y hy => ?_
        split
        · simp [hq x (mem_range.1 hx), hq y (mem_range.1 hy)]
        · simp
      · rw [mul_zero]
    have p : powerSum (L.dims dir) n (sliceCharge L (small_plan L 1 fun i => small_plan L (-1) q i * star (small_plan L (-1) q i)) dir) =
        volume L * powerSum (L.dims dir) n (sliceCharge L (fun r => (chargeCorr L q r : ℂ)) dir) := by
      unfold powerSum
      rw [mul_sum]
      exact sum_congr rfl fun t _ => by rw [e]; ring
    rw [p]
    congr 2
    unfold NORMSQ
    field_simp

/-- The hypotheses of the theorems above are met by the `2 x 3 x 4 x 5` lattice, and those of `C88_overflow_fails` by any lattice
of 14 or more sites in the direction. -/
example : ∀ dir < L2345.ND, L2345.dims dir ≤ 13 := by decide
example : 14 ≤ (⟨4, fun _ => 16⟩ : Latt).dims 3 := by decide

end GLU.Field
