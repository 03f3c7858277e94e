import Verif.Field.ChargeProps
import Verif.Field.LinksProps
import Mathlib.Analysis.Real.Pi.Bounds

/-!
# C76: the threaded measurement, the charge density and the printed charge

`compute_Gmunu_th` and `compute_Gmunu_array` of `clover.c` and `gauge_topological_meas_th` of `plaqs_links.c`, against
`compute_Gmunu`.
-/

namespace GLU.Field

open Finset GLU.Geom GLU.Mat Matrix Complex

/-! ### The reduction array -/

theorem slot_self {c n o t : ℕ} (hc : 0 < c) (ht : t < n) (red : ℕ → ℝ) (v : ℝ) :
    ∑ k ∈ range n, Function.update red (o + c * t) v (o + c * k) = (∑ k ∈ range n, red (o + c * k)) - red (o + c * t) + v := by
  have h0 : t ∈ range n := mem_range.2 ht
  rw [← add_sum_erase _ _ h0, ← add_sum_erase (range n) (fun k => red (o + c * k)) h0, Function.update_self]
  have he : ∑ k ∈ (range n).erase t, Function.update red (o + c * t) v (o + c * k) = ∑ k ∈ (range n).erase t, red (o + c * k) := by
    refine sum_congr rfl fun k hk => Function.update_of_ne ?_ _ _
    intro e
    exact (mem_erase.1 hk).1 (Nat.eq_of_mul_eq_mul_left hc (by omega))
  rw [he]
  ring

theorem slot_ne {c o o' : ℕ} (ho : o < c) (ho' : o' < c) (h : o ≠ o') (k t : ℕ) : o + c * k ≠ o' + c * t := by
  intro e
  apply h
  have := congrArg (· % c) e
  simpa [Nat.add_mul_mod_self_left, Nat.mod_eq_of_lt ho, Nat.mod_eq_of_lt ho'] using this

theorem slot_other {c n o o' t : ℕ} (ho : o < c) (ho' : o' < c) (h : o ≠ o') (red : ℕ → ℝ) (v : ℝ) :
    ∑ k ∈ range n, Function.update red (o' + c * t) v (o + c * k) = ∑ k ∈ range n, red (o + c * k) :=
  sum_congr rfl fun k _ => Function.update_of_ne (slot_ne ho ho' h k t) _ _

/-- The total contribution of one site to the action, before the normalisation of the plaquette definition. -/
noncomputable def siteGG (NC : ℕ) (L : Latt) (df : FmunuDef) (lat : Gauge) (i : ℕ) : ℝ :=
  let a := compute_Gmunu_kernel NC L df lat i 3 0 1 2
  let b := compute_Gmunu_kernel NC L df lat i 3 1 2 0
  let c := compute_Gmunu_kernel NC L df lat i 3 2 0 1
  (a.plaq_t + a.plaq_sp) + (b.plaq_t + b.plaq_sp) + (c.plaq_t + c.plaq_sp)

/-- The total contribution of one site to the charge. -/
noncomputable def siteQ (NC : ℕ) (L : Latt) (df : FmunuDef) (lat : Gauge) (i : ℕ) : ℝ :=
  (compute_Gmunu_kernel NC L df lat i 3 0 1 2).q + (compute_Gmunu_kernel NC L df lat i 3 1 2 0).q +
    (compute_Gmunu_kernel NC L df lat i 3 2 0 1).q

/-- The factor of the plaquette definition. -/
noncomputable def norm16 : FmunuDef → ℝ
  | .plaquette => 16
  | _ => 1

theorem compute_Gmunu_sums {NC : ℕ} {L : Latt} (h4 : L.ND = 4) (df : FmunuDef) (lat : Gauge) :
    compute_Gmunu NC L df lat = some ((∑ i ∈ range (volume L), siteGG NC L df lat i) * norm16 df,
      (∑ i ∈ range (volume L), siteQ NC L df lat i) * norm16 df) := by
  unfold compute_Gmunu
  rw [if_neg (by omega)]
  have hs : forN (volume L) (siteGmunu NC L df lat) ((0, 0, 0) : ℝ × ℝ × ℝ) =
      forN (volume L) (fun i s => (s.1 + ((compute_Gmunu_kernel NC L df lat i 3 0 1 2).plaq_sp +
        (compute_Gmunu_kernel NC L df lat i 3 1 2 0).plaq_sp + (compute_Gmunu_kernel NC L df lat i 3 2 0 1).plaq_sp),
        s.2.1 + ((compute_Gmunu_kernel NC L df lat i 3 0 1 2).plaq_t +
        (compute_Gmunu_kernel NC L df lat i 3 1 2 0).plaq_t + (compute_Gmunu_kernel NC L df lat i 3 2 0 1).plaq_t),
        s.2.2 + siteQ NC L df lat i)) (0, 0, 0) := by
    refine forN_congr (fun i hi s => ?_) _
    unfold siteGmunu siteQ
    simp only [add_assoc]
  rw [hs, forN_triple]
  dsimp only
  have hg : ∑ i ∈ range (volume L), siteGG NC L df lat i = (∑ i ∈ range (volume L), ((compute_Gmunu_kernel NC L df lat i 3 0 1 2).plaq_sp +
        (compute_Gmunu_kernel NC L df lat i 3 1 2 0).plaq_sp + (compute_Gmunu_kernel NC L df lat i 3 2 0 1).plaq_sp)) +
      ∑ i ∈ range (volume L), ((compute_Gmunu_kernel NC L df lat i 3 0 1 2).plaq_t +
        (compute_Gmunu_kernel NC L df lat i 3 1 2 0).plaq_t + (compute_Gmunu_kernel NC L df lat i 3 2 0 1).plaq_t) := by
    rw [← sum_add_distrib]
    refine sum_congr rfl fun i _ => ?_
    unfold siteGG
    ring
  rw [hg]
  cases df <;> simp [norm16]

theorem siteGmunu_th_slots {NC : ℕ} {L : Latt} (df : FmunuDef) (lat : Gauge) {n : ℕ} {it : ℕ × ℕ} (h : it.2 < n)
    (hc : 1 < cline L.ND) (red : ℕ → ℝ) :
    ∑ k ∈ range n, siteGmunu_th NC L df lat it red (0 + cline L.ND * k) =
      (∑ k ∈ range n, red (0 + cline L.ND * k)) + siteGG NC L df lat it.1 ∧
    ∑ k ∈ range n, siteGmunu_th NC L df lat it red (1 + cline L.ND * k) =
      (∑ k ∈ range n, red (1 + cline L.ND * k)) + siteQ NC L df lat it.1 := by
  have key : ∀ (r : Kernel) (red : ℕ → ℝ),
      ∑ k ∈ range n, Function.update (Function.update red (0 + cline L.ND * it.2) (red (0 + cline L.ND * it.2) + (r.plaq_t + r.plaq_sp)))
        (1 + cline L.ND * it.2) (Function.update red (0 + cline L.ND * it.2) (red (0 + cline L.ND * it.2) + (r.plaq_t + r.plaq_sp))
          (1 + cline L.ND * it.2) + r.q) (0 + cline L.ND * k) = (∑ k ∈ range n, red (0 + cline L.ND * k)) + (r.plaq_t + r.plaq_sp) ∧
      ∑ k ∈ range n, Function.update (Function.update red (0 + cline L.ND * it.2) (red (0 + cline L.ND * it.2) + (r.plaq_t + r.plaq_sp)))
        (1 + cline L.ND * it.2) (Function.update red (0 + cline L.ND * it.2) (red (0 + cline L.ND * it.2) + (r.plaq_t + r.plaq_sp))
          (1 + cline L.ND * it.2) + r.q) (1 + cline L.ND * k) = (∑ k ∈ range n, red (1 + cline L.ND * k)) + r.q := by
    intro r red
    constructor
    · rw [slot_other (by omega) hc (by omega), slot_self (by omega) h]
      ring
    · rw [slot_self (by omega) h, slot_other hc (by omega) (by omega)]
      ring
  unfold siteGmunu_th siteGG siteQ
  dsimp only
  constructor
  · rw [(key _ _).1, (key _ _).1, (key _ _).1]
    ring
  · rw [(key _ _).2, (key _ _).2, (key _ _).2]
    ring

theorem fold_slots {NC : ℕ} {L : Latt} (df : FmunuDef) (lat : Gauge) {n : ℕ} (hc : 1 < cline L.ND) (sched : List (ℕ × ℕ))
    (h : ∀ it ∈ sched, it.2 < n) (red : ℕ → ℝ) :
    ∑ k ∈ range n, sched.foldl (fun red it => siteGmunu_th NC L df lat it red) red (0 + cline L.ND * k) =
      (∑ k ∈ range n, red (0 + cline L.ND * k)) + (sched.map fun it => siteGG NC L df lat it.1).sum ∧
    ∑ k ∈ range n, sched.foldl (fun red it => siteGmunu_th NC L df lat it red) red (1 + cline L.ND * k) =
      (∑ k ∈ range n, red (1 + cline L.ND * k)) + (sched.map fun it => siteQ NC L df lat it.1).sum := by
  induction sched generalizing red with
  | nil => simp
  | cons it sched ih =>
    have h1 := ih (fun it hi => h it (List.mem_cons_of_mem _ hi)) (siteGmunu_th NC L df lat it red)
    have h2 := siteGmunu_th_slots (NC := NC) df lat (h it List.mem_cons_self) hc red
    rw [List.foldl_cons, h1.1, h1.2, h2.1, h2.2, List.map_cons, List.sum_cons, List.map_cons, List.sum_cons, add_assoc, add_assoc]
    exact ⟨rfl, rfl⟩

theorem zero_slots {c : ℕ} (hc : 1 < c) (n : ℕ) (red : ℕ → ℝ) : ∀ k < n,
    forN n (fun i red => Function.update (Function.update red (0 + c * i) (0 : ℝ)) (1 + c * i) 0) red (0 + c * k) = 0 ∧
    forN n (fun i red => Function.update (Function.update red (0 + c * i) (0 : ℝ)) (1 + c * i) 0) red (1 + c * k) = 0 := by
  induction n with
  | zero => intro k hk; omega
  | succ n ih =>
    intro k hk
    rw [forN]
    by_cases h : k = n
    · subst h
      rw [Function.update_of_ne (slot_ne (by omega) hc (by omega) _ _), Function.update_self, Function.update_self]
      exact ⟨rfl, rfl⟩
    · have hne : ∀ o, o + c * k ≠ o + c * n := fun o e => h (Nat.eq_of_mul_eq_mul_left (by omega : 0 < c) (by omega))
      rw [Function.update_of_ne (slot_ne (by omega) hc (by omega) _ _), Function.update_of_ne (hne 0),
        Function.update_of_ne (hne 1), Function.update_of_ne (slot_ne hc (by omega) (by omega) _ _)]
      exact ih k (by omega)

theorem scale_slots {c : ℕ} (hc : 1 < c) (n : ℕ) (red : ℕ → ℝ) : ∀ k,
    forN n (fun i red => Function.update (Function.update red (0 + c * i) (red (0 + c * i) * 16)) (1 + c * i)
      (Function.update red (0 + c * i) (red (0 + c * i) * 16) (1 + c * i) * 16)) red (0 + c * k) =
        (if k < n then red (0 + c * k) * 16 else red (0 + c * k)) ∧
    forN n (fun i red => Function.update (Function.update red (0 + c * i) (red (0 + c * i) * 16)) (1 + c * i)
      (Function.update red (0 + c * i) (red (0 + c * i) * 16) (1 + c * i) * 16)) red (1 + c * k) =
        (if k < n then red (1 + c * k) * 16 else red (1 + c * k)) := by
  induction n with
  | zero => intro k; simp [forN]
  | succ n ih =>
    intro k
    rw [forN]
    by_cases h : k = n
    · subst h
      rw [Function.update_of_ne (slot_ne (by omega) hc (by omega) _ _), Function.update_self, Function.update_self,
        Function.update_of_ne (slot_ne hc (by omega) (by omega) _ _), (ih k).1, (ih k).2]
      simp
    · have hne : ∀ o, o + c * k ≠ o + c * n := fun o e => h (Nat.eq_of_mul_eq_mul_left (by omega : 0 < c) (by omega))
      rw [Function.update_of_ne (slot_ne (by omega) hc (by omega) _ _), Function.update_of_ne (hne 0),
        Function.update_of_ne (hne 1), Function.update_of_ne (slot_ne hc (by omega) (by omega) _ _), (ih k).1, (ih k).2]
      have : k < n + 1 ↔ k < n := by omega
      simp only [this, and_self]

theorem sched_sum {V n : ℕ} {sched : List (ℕ × ℕ)} (hs : IsSchedule V n sched) (f : ℕ → ℝ) :
    (sched.map fun it => f it.1).sum = ∑ i ∈ range V, f i := by
  rw [show (fun it : ℕ × ℕ => f it.1) = f ∘ Prod.fst from rfl, ← List.map_map, (hs.1.map _).sum_eq,
    Finset.sum_eq_multiset_sum, Finset.range_val, ← Multiset.coe_range, Multiset.map_coe, Multiset.sum_coe]

/-- **C76** with threads, for every number of colours: whatever thread does which site and in which order, and whatever the
reduction array held before, the slots add up to the two numbers of the serial measurement. -/
theorem C76_threads {NC : ℕ} {L : Latt} (h4 : L.ND = 4) (df : FmunuDef) {n : ℕ} {sched : List (ℕ × ℕ)}
    (hs : IsSchedule (volume L) n sched) (lat : Gauge) (red : ℕ → ℝ) :
    ∃ out, compute_Gmunu_th NC L df n sched lat red = some out ∧
      compute_Gmunu NC L df lat =
        some (∑ k ∈ range n, out (0 + cline L.ND * k), ∑ k ∈ range n, out (1 + cline L.ND * k)) := by
  have hc : 1 < cline L.ND := by rw [h4]; decide
  rw [compute_Gmunu_sums h4]
  unfold compute_Gmunu_th
  rw [if_neg (by omega)]
  dsimp only
  have hf := fold_slots (NC := NC) df lat hc sched hs.2 (forN n (fun i red => Function.update (Function.update red
    (0 + cline L.ND * i) 0) (1 + cline L.ND * i) 0) red)
  rw [sched_sum hs (fun i => siteGG NC L df lat i), sched_sum hs (fun i => siteQ NC L df lat i),
    sum_eq_zero fun k hk => (zero_slots hc n red k (mem_range.1 hk)).1,
    sum_eq_zero fun k hk => (zero_slots hc n red k (mem_range.1 hk)).2, zero_add, zero_add] at hf
  cases df with
  | plaquette =>
    refine ⟨_, rfl, ?_⟩
    have e1 := sum_congr (rfl : range n = range n) fun k hk => (scale_slots hc n (sched.foldl (fun red it =>
      siteGmunu_th NC L .plaquette lat it red) (forN n (fun i red => Function.update (Function.update red
      (0 + cline L.ND * i) 0) (1 + cline L.ND * i) 0) red)) k).1.trans (if_pos (mem_range.1 hk))
    have e2 := sum_congr (rfl : range n = range n) fun k hk => (scale_slots hc n (sched.foldl (fun red it =>
      siteGmunu_th NC L .plaquette lat it red) (forN n (fun i red => Function.update (Function.update red
      (0 + cline L.ND * i) 0) (1 + cline L.ND * i) 0) red)) k).2.trans (if_pos (mem_range.1 hk))
    rw [e1, e2, ← sum_mul, ← sum_mul, hf.1, hf.2]
    rfl
  | _ =>
    refine ⟨_, rfl, ?_⟩
    rw [hf.1, hf.2]
    simp [norm16]

/-- In other than four dimensions all three measurements read memory that was never written. -/
theorem C76_four_dimensions_only {NC : ℕ} {L : Latt} (h4 : L.ND ≠ 4) (df : FmunuDef) (n : ℕ) (sched : List (ℕ × ℕ)) (lat : Gauge)
    (red : ℕ → ℝ) (i : ℕ) : compute_Gmunu NC L df lat = none ∧ compute_Gmunu_th NC L df n sched lat red = none ∧
      compute_Gmunu_array NC L df lat i = none := by
  unfold compute_Gmunu compute_Gmunu_th compute_Gmunu_array
  rw [if_pos h4, if_pos h4, if_pos h4]
  exact ⟨rfl, rfl, rfl⟩

/-! ### The charge density -/

/-- **C76**: for every number of colours the real parts of the charge density add up to the charge. -/
theorem C76_density {NC : ℕ} {L : Latt} (h4 : L.ND = 4) (df : FmunuDef) (lat : Gauge) :
    ∃ q : ℕ → ℂ, (∀ i, compute_Gmunu_array NC L df lat i = some (q i)) ∧
      ∃ GG, compute_Gmunu NC L df lat = some (GG, ∑ i ∈ range (volume L), (q i).re) := by
  refine ⟨fun i => (trace NC (compute_q NC L df lat i 3 0 1 2) + trace NC (compute_q NC L df lat i 3 1 2 0) +
    trace NC (compute_q NC L df lat i 3 2 0 1)) * (norm16 df : ℂ), fun i => ?_,
    (∑ i ∈ range (volume L), siteGG NC L df lat i) * norm16 df, ?_⟩
  · unfold compute_Gmunu_array
    rw [if_neg (by omega)]
    cases df <;> simp [norm16]
  · rw [compute_Gmunu_sums h4]
    congr 2
    rw [sum_mul]
    refine sum_congr rfl fun i _ => ?_
    have hq : ∀ mu nu rho delta, (compute_Gmunu_kernel NC L df lat i mu nu rho delta).q =
        (trace NC (compute_q NC L df lat i mu nu rho delta)).re := by
      intro mu nu rho delta
      rw [C12_trace, compute_q, C10_multab, ← C12_trace_ab]
      unfold compute_Gmunu_kernel compute_GG_q
      cases df <;> rfl
    unfold siteQ
    rw [hq, hq, hq, Complex.re_mul_ofReal]
    simp only [Complex.add_re]

/-- The trace of a product of Hermitian matrices is real. -/
theorem trace_herm_im {n : ℕ} {A B : Matrix (Fin n) (Fin n) ℂ} (hA : Aᴴ = A) (hB : Bᴴ = B) : (Matrix.trace (A * B)).im = 0 := by
  have h : star (Matrix.trace (A * B)) = Matrix.trace (A * B) := by
    rw [← Matrix.trace_conjTranspose, conjTranspose_mul, hA, hB, Matrix.trace_mul_comm]
  exact Complex.conj_eq_iff_im.1 h

/-- **C76**: for two and three colours each entry of the charge density is real and is the contraction of the field
strength at the site with its dual. -/
theorem C76_density_site_partial {NC : ℕ} (hN : NC = 2 ∨ NC = 3) {L : Latt} (hL : Valid L) (h4 : L.ND = 4) (df : FmunuDef)
    {lat : Gauge} (hU : SUField NC L lat) {i : ℕ} (hi : i < volume L) :
    compute_Gmunu_array NC L df lat i = some ((-(1 / 8) * siteCharge NC L df lat i : ℝ) : ℂ) := by
  have hd : ∀ a < 4, a < L.ND := fun a ha => by omega
  have hq : ∀ mu < 4, ∀ nu < 4, ∀ rho < 4, ∀ delta < 4, trace NC (compute_q NC L df lat i mu nu rho delta) =
      (((Matrix.trace (Fmunu NC L df lat i mu nu * Fmunu NC L df lat i rho delta)).re : ℝ) : ℂ) := by
    intro mu hmu nu hnu rho hrho delta hdelta
    rw [C12_trace, compute_q, C10_multab, hermitian_proj_Fmunu hN hL df hU hi (hd mu hmu) (hd nu hnu),
      hermitian_proj_Fmunu hN hL df hU hi (hd rho hrho) (hd delta hdelta)]
    apply Complex.ext
    · simp
    · rw [trace_herm_im (Fmunu_hermitian ..) (Fmunu_hermitian ..)]
      simp
  unfold compute_Gmunu_array
  rw [if_neg (by omega), siteCharge_planes hL h4 df lat hi, hq 3 (by norm_num) 0 (by norm_num) 1 (by norm_num) 2 (by norm_num),
    hq 3 (by norm_num) 1 (by norm_num) 2 (by norm_num) 0 (by norm_num),
    hq 3 (by norm_num) 2 (by norm_num) 0 (by norm_num) 1 (by norm_num)]
  cases df <;>
  · simp only [scale, Option.some.injEq]
    push_cast
    ring

/-! ### The printed charge -/

/-- The factor in `gauge_topological_meas_th` is `1 / (64 π²)`: `1 / (32 π²)` with the factor `1/16` of the four leaves
squared, and the eight equal terms of the contraction with the antisymmetric tensor. -/
theorem C76_constant : |0.001583143494411527678811 - 1 / (64 * Real.pi ^ 2)| < 1e-19 := by
  have h1 := Real.pi_gt_d20
  have h2 := Real.pi_lt_d20
  have hp : (0 : ℝ) < 64 * Real.pi ^ 2 := by positivity
  rw [abs_sub_lt_iff]
  have b1 : (3.14159265358979323846 : ℝ) ^ 2 < Real.pi ^ 2 := by
    apply pow_lt_pow_left₀ h1 (by norm_num) (by norm_num)
  have b2 : Real.pi ^ 2 < (3.14159265358979323847 : ℝ) ^ 2 := by
    apply pow_lt_pow_left₀ h2 (by positivity) (by norm_num)
  constructor
  · rw [sub_lt_iff_lt_add, ← sub_lt_iff_lt_add', lt_div_iff₀ hp]
    norm_num at b2 ⊢
    linarith
  · rw [sub_lt_iff_lt_add, div_lt_iff₀ hp]
    norm_num at b1 ⊢
    linarith

/-- Rounding as in `gauge_topological_meas_th`: the integer is nearest to the value. -/
theorem round_nearest {x : ℝ} {n : ℤ} (h : toInt (if x > 0 then x + 0.5 else x - 0.5) = some n) : |(n : ℝ) - x| ≤ 1 / 2 := by
  unfold toInt at h
  dsimp only at h
  by_cases hx : x > 0
  · rw [if_pos hx, if_pos (show (0 : ℝ) ≤ x + 0.5 by norm_num; linarith)] at h
    split at h
    · rw [Option.some.injEq] at h
      subst h
      have h1 := Int.floor_le (x + 0.5)
      have h2 := Int.lt_floor_add_one (x + 0.5)
      rw [abs_le]
      have e : (0.5 : ℝ) = 1 / 2 := by norm_num
      rw [e] at h1 h2 ⊢
      constructor <;> linarith
    · exact absurd h (by simp)
  · rw [if_neg hx, if_neg (show ¬ (0 : ℝ) ≤ x - 0.5 by push Not at hx ⊢; norm_num; linarith)] at h
    split at h
    · rw [Option.some.injEq] at h
      subst h
      have h1 := Int.le_ceil (x - 0.5)
      have h2 := Int.ceil_lt_add_one (x - 0.5)
      rw [abs_le]
      have e : (0.5 : ℝ) = 1 / 2 := by norm_num
      rw [e] at h1 h2 ⊢
      constructor <;> linarith
    · exact absurd h (by simp)

theorem toInt_some {x : ℝ} (h : |x| < 2 ^ 31 - 1) : ∃ n, toInt (if x > 0 then x + 0.5 else x - 0.5) = some n := by
  unfold toInt
  dsimp only
  rw [abs_lt] at h
  have hn : ∀ y : ℝ, |y| < 2 ^ 31 → ∃ n, (if -2 ^ 31 ≤ (if 0 ≤ y then ⌊y⌋ else ⌈y⌉) ∧ (if 0 ≤ y then ⌊y⌋ else ⌈y⌉) < 2 ^ 31 then
      some (if 0 ≤ y then ⌊y⌋ else ⌈y⌉) else none) = some n := by
    intro y hy
    rw [abs_lt] at hy
    refine ⟨_, if_pos ?_⟩
    by_cases h0 : 0 ≤ y
    · rw [if_pos h0]
      exact ⟨le_trans (by norm_num) (Int.floor_nonneg.2 h0), Int.floor_lt.2 (by push_cast; linarith [hy.2])⟩
    · rw [if_neg h0]
      push Not at h0
      refine ⟨?_, lt_of_le_of_lt (Int.ceil_le.2 (by push_cast; exact h0.le) : ⌈y⌉ ≤ 0) (by norm_num)⟩
      have := Int.le_ceil y
      have h3 : ((-2 ^ 31 : ℤ) : ℝ) < (⌈y⌉ : ℝ) := by push_cast; linarith [hy.1]
      exact_mod_cast h3.le
  apply hn
  split <;> rw [abs_lt] <;> constructor <;> norm_num at * <;> linarith

/-- **C76**, the printed measurement, for every schedule: the action density is the action divided by `16 V`, the new
charge is the charge times the constant of `C76_constant`, an integer is only reported when the charge is within `0.1`
of it and within `0.005` of the previous charge, and then always. -/
theorem C76_measurement {NC : ℕ} {L : Latt} (hL : Valid L) (h4 : L.ND = 4) (df : FmunuDef) {n : ℕ} {sched : List (ℕ × ℕ)}
    (hs : IsSchedule (volume L) n sched) (lat : Gauge) (red : ℕ → ℝ) (qtop_old : ℝ) {GG Q : ℝ}
    (hm : compute_Gmunu NC L df lat = some (GG, Q)) (hQ : |Q * -0.001583143494411527678811| < 2 ^ 31 - 1) :
    ∃ r, gauge_topological_meas_th NC L df n sched lat red qtop_old = some r ∧ r.GT = GG / (16 * volume L) ∧
      r.qtop_new = Q * -0.001583143494411527678811 ∧
      (∀ k, r.charge = some k ↔ |(k : ℝ) - r.qtop_new| < 0.10 ∧ |qtop_old - r.qtop_new| < 5.0e-3) ∧
      r.qtop_old = if r.charge.isSome then qtop_old else r.qtop_new := by
  obtain ⟨out, ho, hv⟩ := C76_threads (NC := NC) h4 df hs lat red
  rw [hm, Option.some.injEq, Prod.mk.injEq] at hv
  obtain ⟨k, hk⟩ := toInt_some hQ
  have hV : (0 : ℝ) < 16 * volume L := by
    have := volume_pos hL
    positivity
  have hf : forN n (fun i (s : ℝ × ℝ) => (s.1 + out (0 + cline L.ND * i), s.2 + out (1 + cline L.ND * i))) (0, 0) = (GG, Q) := by
    rw [hv.1, hv.2]
    clear * -
    induction n with
    | zero => simp [forN]
    | succ n ih => rw [forN, ih, sum_range_succ, sum_range_succ]
  unfold gauge_topological_meas_th
  rw [ho]
  simp only [Option.bind_eq_bind, Option.bind_some]
  rw [hf]
  simp only [fdiv, if_neg hV.ne', Option.bind_some, hk]
  have hr := round_nearest hk
  split
  · next h =>
    refine ⟨_, rfl, rfl, rfl, fun j => ⟨fun e => ?_, fun e => ?_⟩, by simp⟩
    · rw [Option.some.injEq] at e
      subst e
      exact ⟨h.2, h.1⟩
    · dsimp only at e ⊢
      rw [Option.some.injEq]
      by_contra hne
      have h1 := abs_lt.1 e.1
      have h2 := abs_le.1 hr
      have : j - k < 1 ∧ k - j < 1 := by
        constructor
        · have : ((j - k : ℤ) : ℝ) < 1 := by push_cast; linarith [h1.2, h2.1]
          exact_mod_cast this
        · have : ((k - j : ℤ) : ℝ) < 1 := by push_cast; linarith [h1.1, h2.2]
          exact_mod_cast this
      omega
  · next h =>
    refine ⟨_, rfl, rfl, rfl, fun j => ⟨fun e => absurd e (by simp), fun e => ?_⟩, by simp⟩
    dsimp only at e ⊢
    exfalso
    apply h
    have hjk : j = k := by
      by_contra hne
      have h1 := abs_lt.1 e.1
      have h2 := abs_le.1 hr
      have : j - k < 1 ∧ k - j < 1 := by
        constructor
        · have : ((j - k : ℤ) : ℝ) < 1 := by push_cast; linarith [h1.2, h2.1]
          exact_mod_cast this
        · have : ((k - j : ℤ) : ℝ) < 1 := by push_cast; linarith [h1.1, h2.2]
          exact_mod_cast this
      omega
    subst hjk
    exact ⟨e.2, e.1⟩

/-! ### More than three colours -/

/-- A diagonal special unitary matrix of four colours. -/
noncomputable def phaseFour : Arr ℂ :=
  arr [(3 + 4 * I) / 5, 0, 0, 0, 0, (3 - 4 * I) / 5, 0, 0, 0, 0, 1, 0, 0, 0, 0, 1]

theorem toM_phaseFour : toM 4 phaseFour = diagonal ![(3 + 4 * I) / 5, (3 - 4 * I) / 5, 1, 1] := by
  ext i j
  fin_cases i <;> fin_cases j <;> simp [phaseFour]

theorem phase_mul : (3 + 4 * I) / 5 * ((3 - 4 * I) / 5) = 1 := by
  linear_combination (-16 / 25 : ℂ) * Complex.I_sq

theorem star_phase : star ((3 + 4 * I) / 5 : ℂ) = (3 - 4 * I) / 5 := by
  apply Complex.ext <;> simp

theorem star_phase' : star ((3 - 4 * I) / 5 : ℂ) = (3 + 4 * I) / 5 := by
  apply Complex.ext <;> simp

theorem phaseFour_star : (toM 4 phaseFour)ᴴ = diagonal ![(3 - 4 * I) / 5, (3 + 4 * I) / 5, 1, 1] := by
  rw [toM_phaseFour, diagonal_conjTranspose]
  congr 1
  ext i
  fin_cases i <;> simp [Pi.star_apply, star_phase, star_phase', -star_div₀, -Complex.star_def]

theorem phaseFour_unitary : toM 4 phaseFour * (toM 4 phaseFour)ᴴ = 1 := by
  rw [phaseFour_star, toM_phaseFour, diagonal_mul_diagonal, ← diagonal_one]
  congr 1
  ext i
  fin_cases i <;> simp [phase_mul, mul_comm ((3 - 4 * I) / 5 : ℂ)]

theorem phaseFour_su : IsSU 4 phaseFour := by
  rw [IsSU, mem_specialUnitaryGroup_iff, mem_unitaryGroup_iff]
  refine ⟨phaseFour_unitary, ?_⟩
  rw [toM_phaseFour, det_diagonal, Fin.prod_univ_four]
  simp [phase_mul]

/-- All links equal. -/
noncomputable def constField : Gauge := fun _ => phaseFour

theorem along_const {L : Latt} {i : ℕ} {a b : Step} : along 4 L constField i (rect a 1 b 1) = 1 := by
  have h := phaseFour_unitary
  have h' : (toM 4 phaseFour)ᴴ * toM 4 phaseFour = 1 := mul_eq_one_comm.1 h
  obtain ⟨mu, b1⟩ := a
  obtain ⟨nu, b2⟩ := b
  cases b1 <;> cases b2 <;>
    simp only [rect, rev, List.replicate_one, List.cons_append, List.nil_append, along, hopLink, link, constField,
      Bool.not_true, Bool.not_false, Bool.false_eq_true, if_true, if_false, mul_one] <;>
    first
      | rw [← Matrix.mul_assoc (toM 4 phaseFour) (toM 4 phaseFour)ᴴ, h, Matrix.one_mul, h]
      | rw [← Matrix.mul_assoc (toM 4 phaseFour) (toM 4 phaseFour)ᴴ, h, Matrix.one_mul, h']
      | rw [← Matrix.mul_assoc (toM 4 phaseFour)ᴴ (toM 4 phaseFour), h', Matrix.one_mul, h]
      | rw [← Matrix.mul_assoc (toM 4 phaseFour)ᴴ (toM 4 phaseFour), h', Matrix.one_mul, h']

/-- The sum of the four leaves that the code forms on the constant field. -/
theorem const_cloverSum {L : Latt} (i mu nu : ℕ) :
    toM 4 (cloverSum 4 L .standard constField i mu nu) =
      diagonal ![3 + ((3 + 4 * I) / 5) ^ 4, 3 + ((3 - 4 * I) / 5) ^ 4, 4, 4] := by
  have hD : Holds 4 phaseFour (toM 4 phaseFour) := ⟨rfl, phaseFour_su⟩
  have h1 := (holds_dag (holds_dag (holds_mul hD hD scratch) hD scratch) hD scratch).1
  have h2 := (holds_dag (holds_mul (holds_ldag hD hD scratch) hD scratch) hD scratch).1
  have h4 := (holds_mul (holds_dag (holds_dag hD hD scratch) hD scratch) hD scratch).1
  have hdd : toM 4 (multab_dagdag_suNC 4 phaseFour phaseFour scratch) = toM 4 phaseFour * toM 4 phaseFour := by
    rw [show multab_dagdag_suNC 4 phaseFour phaseFour scratch = multab_dagdag 4 phaseFour phaseFour scratch from rfl,
      C10_multab_dagdag_generic (by decide) (by decide), toM_phaseFour, diagonal_transpose]
  have hdds : Holds 4 (multab_dagdag_suNC 4 phaseFour phaseFour scratch) (toM 4 phaseFour * toM 4 phaseFour) :=
    ⟨hdd, by rw [IsSU, hdd]; exact isSU_mul phaseFour_su phaseFour_su⟩
  have h3 := (holds_mul (holds_mul hdds hD scratch) hD scratch).1
  unfold cloverSum compute_s1 compute_s2 compute_s3 compute_s4 s1_1x1 s2_1x1 s3_1x1 s4_1x1 constField
  dsimp only
  rw [C63_a_plus_Sxb, C63_a_plus_Sxb, C63_a_plus_Sxb, C63_a_plus_Sxb, C63_zero_mat, h1, h2, h3, h4, phaseFour_star, toM_phaseFour]
  simp only [diagonal_mul_diagonal, ofReal_one, one_smul, zero_add, diagonal_add]
  congr 1
  ext k
  have hp := phase_mul
  fin_cases k <;> simp
  · linear_combination ((3 + 4 * I) / 5 * ((3 - 4 * I) / 5) + 1) * 3 * hp
  · linear_combination ((3 + 4 * I) / 5 * ((3 - 4 * I) / 5) + 1) * 3 * hp
  · norm_num
  · norm_num

/-- **C76** fails with four colours, on every lattice: on links that are all the same diagonal matrix every plaquette is
the identity and the action density is zero at every site, but the code measures a non-zero action, because its product
of two conjugated links leaves out the complex conjugation. -/
theorem C76_four_colours {L : Latt} (hL : Valid L) (h4 : L.ND = 4) :
    SUField 4 L constField ∧ (∀ i, siteAction 4 L .standard constField i = 0) ∧
    ∃ GG Q, compute_Gmunu 4 L .standard constField = some (GG, Q) ∧ 0 < GG := by
  refine ⟨fun i _ mu _ => phaseFour_su, fun i => ?_, _, _, compute_Gmunu_sums h4 _ _, ?_⟩
  · have hF : ∀ mu nu, Fmunu 4 L .standard constField i mu nu = 0 := by
      intro mu nu
      refine lieHerm_real ?_
      simp [leafSum, loops, shapes, leaves, along_const]
    simp [siteAction, planeAction, hF]
  · have hF : ∀ i mu nu, (trace_ab 4 (Hermitian_proj 4 scratch (cloverSum 4 L .standard constField i mu nu))
        (Hermitian_proj 4 scratch (cloverSum 4 L .standard constField i mu nu))).re = 2 * (336 / 625) ^ 2 := by
      intro i mu nu
      have e1 : ((3 + 4 * I) / 5) ^ 4 = (-527 - 336 * I) / 625 := by
        linear_combination (1 / 625 : ℂ) * (256 * I ^ 2 + 864 + 768 * I - 256) * Complex.I_sq
      have e2 : ((3 - 4 * I) / 5) ^ 4 = (-527 + 336 * I) / 625 := by
        linear_combination (1 / 625 : ℂ) * (-768 * I + 256 * I ^ 2 + 864 - 256) * Complex.I_sq
      rw [C12_trace_ab, C70_hermitian (by norm_num) _ (fun h => absurd h (by norm_num)), const_cloverSum, e1, e2]
      have : lieHerm (diagonal ![3 + (-527 - 336 * I) / 625, 3 + (-527 + 336 * I) / 625, 4, 4] : Matrix (Fin 4) (Fin 4) ℂ) =
          diagonal ![-336 / 625, 336 / 625, 0, 0] := by
        have hs : (diagonal ![3 + (-527 - 336 * I) / 625, 3 + (-527 + 336 * I) / 625, 4, 4] : Matrix (Fin 4) (Fin 4) ℂ)ᴴ =
            diagonal ![3 + (-527 + 336 * I) / 625, 3 + (-527 - 336 * I) / 625, 4, 4] := by
          rw [diagonal_conjTranspose]
          congr 1
          ext k
          fin_cases k <;> simp [Pi.star_apply] <;> ring
        unfold lieHerm
        rw [hs, diagonal_sub, trace_diagonal, Fin.sum_univ_four, ← diagonal_one, ← diagonal_smul, ← diagonal_smul, diagonal_sub]
        congr 1
        ext k
        fin_cases k <;> simp <;> ring_nf <;> simp <;> norm_num
      rw [this, diagonal_mul_diagonal, trace_diagonal, Fin.sum_univ_four]
      simp
      norm_num
    have hG : ∀ i, siteGG 4 L .standard constField i = 12 * (336 / 625) ^ 2 := by
      intro i
      unfold siteGG compute_Gmunu_kernel compute_GG_q
      dsimp only
      rw [hF, hF, hF, hF, hF, hF]
      norm_num
    simp only [hG, norm16, sum_const, card_range, nsmul_eq_mul]
    have := volume_pos hL
    positivity

/-! ### Examples -/

/-- The hypotheses of `C76_threads` are met: two threads on a lattice of sixteen sites, each doing half of it. -/
example : IsSchedule 16 2 ((List.range 16).map fun i => (i, i % 2)) := by
  refine ⟨?_, fun it hi => ?_⟩
  · rw [List.map_map]
    have : (Prod.fst ∘ fun i : ℕ => (i, i % 2)) = id := rfl
    rw [this, List.map_id]
  · obtain ⟨i, _, rfl⟩ := List.mem_map.1 hi
    exact Nat.mod_lt _ (by norm_num)

end GLU.Field
