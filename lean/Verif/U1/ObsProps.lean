import Verif.U1.Props
import Mathlib.Tactic.IntervalCases

/-!
# Theorems about the U(1) observables

C97: what the plaquettes, rectangles, norm and topological numbers of a U(1) field are, and that they do not depend on the
gauge.
-/

namespace GLU.U1

open Complex Finset GLU.Mat GLU.Geom GLU.Field

/-! ## Lemmas -/

theorem forN_pair (n : ℕ) (body : ℕ → ℝ × ℝ → ℝ × ℝ) (f g : ℕ → ℝ)
    (h : ∀ j s, body j s = (s.1 + f j, s.2 + g j)) (s : ℝ × ℝ) :
    forN n body s = (s.1 + ∑ j ∈ range n, f j, s.2 + ∑ j ∈ range n, g j) := by
  rw [← forN_sum2]
  exact congrArg (fun b => forN n b s) (funext fun j => funext fun s => h j s)

theorem sum_planes (D : ℕ) (f : ℕ → ℕ → ℝ) :
    ∑ m ∈ range (D - 1), ∑ nu ∈ range (m + 1), f (m + 1) nu = ∑ mu ∈ range D, ∑ nu ∈ range mu, f mu nu := by
  rcases D with _ | D
  · rfl
  · rw [Nat.add_sub_cancel, sum_range_succ' (fun mu => ∑ nu ∈ range mu, f mu nu)]
    simp

theorem planes_loop (L : Latt) (body : ℕ → ℕ → ℕ → ℝ × ℝ → ℝ × ℝ) (f g : ℕ → ℕ → ℕ → ℝ)
    (h : ∀ i mu nu s, body i mu nu s = (s.1 + f i mu nu, s.2 + g i mu nu)) :
    forN (volume L) (fun i (r : ℝ × ℝ) =>
      (r.1 + (forN (L.ND - 1) (fun m (s : ℝ × ℝ) => forN (m + 1) (fun nu q => body i (m + 1) nu q) s) (0, 0)).1,
       r.2 + (forN (L.ND - 1) (fun m (s : ℝ × ℝ) => forN (m + 1) (fun nu q => body i (m + 1) nu q) s) (0, 0)).2)) (0, 0) =
    (∑ x ∈ range (volume L), ∑ mu ∈ range L.ND, ∑ nu ∈ range mu, f x mu nu,
      ∑ x ∈ range (volume L), ∑ mu ∈ range L.ND, ∑ nu ∈ range mu, g x mu nu) := by
  have e : ∀ i, forN (L.ND - 1) (fun m (s : ℝ × ℝ) => forN (m + 1) (fun nu q => body i (m + 1) nu q) s) (0, 0) =
      (∑ mu ∈ range L.ND, ∑ nu ∈ range mu, f i mu nu, ∑ mu ∈ range L.ND, ∑ nu ∈ range mu, g i mu nu) := by
    intro i
    rw [forN_pair (L.ND - 1) _ (fun m => ∑ nu ∈ range (m + 1), f i (m + 1) nu) (fun m => ∑ nu ∈ range (m + 1), g i (m + 1) nu)
      (fun m s => forN_pair (m + 1) _ (fun nu => f i (m + 1) nu) (fun nu => g i (m + 1) nu) (fun nu s => h i (m + 1) nu s) s) (0, 0),
      sum_planes, sum_planes, zero_add, zero_add]
  rw [forN_pair (volume L) _ (fun i => ∑ mu ∈ range L.ND, ∑ nu ∈ range mu, f i mu nu)
    (fun i => ∑ mu ∈ range L.ND, ∑ nu ∈ range mu, g i mu nu) (fun i s => by rw [e]) (0, 0), zero_add, zero_add]

theorem planes_pos {L : Latt} (hL : Valid L) : 0 < volume L * L.ND * (L.ND - 1) := by
  have := hL.nd
  have h1 := volume_pos hL
  have h2 : 0 < L.ND - 1 := by omega
  positivity

theorem curl_eq (L : Latt) (O : Fields) (i mu nu : ℕ) :
    (O mu i + O nu (neighbor L i mu) - O mu (neighbor L i nu) - O nu i).re = curl L (angles O) i mu nu := by
  simp [curl, angles]

theorem face_eq (L : Latt) (O : Fields) (i mu nu : ℕ) : noncompact_face L O i mu nu = curl L (angles O) i mu nu := rfl

/-! ## Averages -/

/-- **C97**, the plaquettes: the averages over all sites and planes of the square and of the cosine of the plaquette angle. -/
theorem C97_plaquettes {L : Latt} (hL : Valid L) (O : Fields) : non_plaquette L O =
    some (planeMean L fun x mu nu => curl L (angles O) x mu nu ^ 2, planeMean L fun x mu nu => Real.cos (curl L (angles O) x mu nu)) := by
  have hp : ((volume L * L.ND * (L.ND - 1) : ℕ) : ℝ) ≠ 0 := by exact_mod_cast (planes_pos hL).ne'
  have hnd := hL.nd
  unfold non_plaquette
  have e := planes_loop L (fun i mu nu (q : ℝ × ℝ) =>
      (q.1 + Real.cos (O mu i + O nu (neighbor L i mu) - O mu (neighbor L i nu) - O nu i).re,
       q.2 + (O mu i + O nu (neighbor L i mu) - O mu (neighbor L i nu) - O nu i).re *
        (O mu i + O nu (neighbor L i mu) - O mu (neighbor L i nu) - O nu i).re))
    (fun x mu nu => Real.cos (curl L (angles O) x mu nu)) (fun x mu nu => curl L (angles O) x mu nu ^ 2)
    (fun i mu nu s => by rw [curl_eq, sq])
  dsimp only at e ⊢
  rw [e, fdiv, if_neg hp, Option.map_some]
  unfold planeMean
  have hc : ((volume L * L.ND * (L.ND - 1) : ℕ) : ℝ) = (volume L : ℝ) * ((L.ND : ℝ) * ((L.ND : ℝ) - 1) / 2) * 2 := by
    rw [Nat.cast_mul, Nat.cast_mul, Nat.cast_sub (by omega)]; push_cast; ring
  rw [hc] at hp ⊢
  have hp' := left_ne_zero_of_mul hp
  congr 2 <;> field_simp

/-- **C97**, the rectangles: an angle is the sum of those of the two plaquettes that make up the rectangle, and the averages
run over all sites, planes and both orientations. -/
theorem C97_rectangles {L : Latt} (hL : Valid L) (O : Fields) : U1_rectangle L O =
    some (planeMean L fun x mu nu => ((curl L (angles O) x mu nu + curl L (angles O) (neighbor L x mu) mu nu) ^ 2 +
        (curl L (angles O) x mu nu + curl L (angles O) (neighbor L x nu) mu nu) ^ 2) / 2,
      planeMean L fun x mu nu => (Real.cos (curl L (angles O) x mu nu + curl L (angles O) (neighbor L x mu) mu nu) +
        Real.cos (curl L (angles O) x mu nu + curl L (angles O) (neighbor L x nu) mu nu)) / 2) := by
  have hp : ((volume L * L.ND * (L.ND - 1) : ℕ) : ℝ) ≠ 0 := by exact_mod_cast (planes_pos hL).ne'
  have hnd := hL.nd
  unfold U1_rectangle
  set A1 : ℕ → ℕ → ℕ → ℝ := fun i mu nu => (O mu i + O mu (neighbor L i mu) + O nu (neighbor L (neighbor L i mu) mu) -
    O mu (neighbor L (neighbor L i nu) mu) - O mu (neighbor L i nu) - O nu i).re with hA1
  set A2 : ℕ → ℕ → ℕ → ℝ := fun i mu nu => (O mu i + O nu (neighbor L i mu) + O nu (neighbor L (neighbor L i mu) nu) -
    O mu (neighbor L (neighbor L i nu) nu) - O nu (neighbor L i nu) - O nu i).re with hA2
  have e := planes_loop L (fun i mu nu (q : ℝ × ℝ) =>
      (q.1 + Real.cos (A1 i mu nu) + Real.cos (A2 i mu nu), q.2 + A1 i mu nu * A1 i mu nu + A2 i mu nu * A2 i mu nu))
    (fun x mu nu => Real.cos (A1 x mu nu) + Real.cos (A2 x mu nu)) (fun x mu nu => A1 x mu nu ^ 2 + A2 x mu nu ^ 2)
    (fun i mu nu s => by rw [Prod.mk.injEq]; constructor <;> ring)
  have h1 : ∀ x mu nu, mu < L.ND → nu < L.ND → A1 x mu nu = curl L (angles O) x mu nu + curl L (angles O) (neighbor L x mu) mu nu := by
    intro x mu nu hmu hnu
    simp only [hA1, curl, angles, sub_re, add_re]
    rw [(C02_commute hL hmu hnu (i := x)).1]
    ring
  have h2 : ∀ x mu nu, mu < L.ND → nu < L.ND → A2 x mu nu = curl L (angles O) x mu nu + curl L (angles O) (neighbor L x nu) mu nu := by
    intro x mu nu hmu hnu
    simp only [hA2, curl, angles, sub_re, add_re]
    rw [(C02_commute hL hmu hnu (i := x)).1]
    ring
  dsimp only at e ⊢
  rw [e, fdiv, if_neg hp, Option.map_some]
  unfold planeMean
  have hc : ((volume L * L.ND * (L.ND - 1) : ℕ) : ℝ) = (volume L : ℝ) * ((L.ND : ℝ) * ((L.ND : ℝ) - 1) / 2) * 2 := by
    rw [Nat.cast_mul, Nat.cast_mul, Nat.cast_sub (by omega)]; push_cast; ring
  rw [hc] at hp ⊢
  have hp' := left_ne_zero_of_mul hp
  have key : ∀ (f g : ℕ → ℕ → ℕ → ℝ) (c : ℝ), c ≠ 0 → (∀ x mu nu, mu < L.ND → nu < L.ND → f x mu nu = g x mu nu) →
      (∑ x ∈ range (volume L), ∑ mu ∈ range L.ND, ∑ nu ∈ range mu, f x mu nu) * (1 / (c * 2)) =
      (∑ x ∈ range (volume L), ∑ mu ∈ range L.ND, ∑ nu ∈ range mu, g x mu nu / 2) / c := by
    intro f g c hc hfg
    have : ∑ x ∈ range (volume L), ∑ mu ∈ range L.ND, ∑ nu ∈ range mu, g x mu nu / 2 =
        (∑ x ∈ range (volume L), ∑ mu ∈ range L.ND, ∑ nu ∈ range mu, f x mu nu) / 2 := by
      rw [sum_div]
      refine sum_congr rfl fun x _ => ?_
      rw [sum_div]
      refine sum_congr rfl fun mu hmu => ?_
      rw [sum_div]
      refine sum_congr rfl fun nu hnu => ?_
      rw [mem_range] at hmu hnu
      rw [hfg x mu nu hmu (by omega)]
    rw [this]
    field_simp
  congr 2
  · exact key _ _ _ hp' fun x mu nu hmu hnu => by rw [h1 x mu nu hmu hnu, h2 x mu nu hmu hnu]
  · exact key _ _ _ hp' fun x mu nu hmu hnu => by rw [h1 x mu nu hmu hnu, h2 x mu nu hmu hnu]

theorem planeMean_mono {L : Latt} (hL : Valid L) {f g : ℕ → ℕ → ℕ → ℝ} (h : ∀ x mu nu, f x mu nu ≤ g x mu nu) :
    planeMean L f ≤ planeMean L g := by
  have hV : (0 : ℝ) < volume L := by exact_mod_cast volume_pos hL
  have hnd : (2 : ℝ) ≤ L.ND := by exact_mod_cast hL.nd
  unfold planeMean
  refine div_le_div_of_nonneg_right ?_ (by have : 0 ≤ (L.ND : ℝ) - 1 := by linarith
                                           positivity)
  exact sum_le_sum fun x _ => sum_le_sum fun mu _ => sum_le_sum fun nu _ => h x mu nu

theorem planeMean_const {L : Latt} (hL : Valid L) (c : ℝ) : planeMean L (fun _ _ _ => c) = c := by
  have hV : (0 : ℝ) < volume L := by exact_mod_cast volume_pos hL
  have hnd : (2 : ℝ) ≤ L.ND := by exact_mod_cast hL.nd
  have e : ∀ n : ℕ, ∑ mu ∈ range n, (mu : ℝ) = n * (n - 1) / 2 := by
    intro n
    induction n with
    | zero => simp
    | succ n ih => rw [sum_range_succ, ih]; push_cast; ring
  unfold planeMean
  simp only [sum_const, card_range, nsmul_eq_mul]
  rw [← sum_mul, e]
  have h1 : (L.ND : ℝ) * ((L.ND : ℝ) - 1) / 2 ≠ 0 := by
    have : 0 < (L.ND : ℝ) - 1 := by linarith
    positivity
  have h2 : (volume L : ℝ) ≠ 0 := hV.ne'
  rw [← mul_assoc]
  exact mul_div_cancel_left₀ _ (mul_ne_zero h2 h1)

/-- **C97**, ranges: the compact plaquette is at most one and at least one minus half the noncompact plaquette. -/
theorem C97_ranges {L : Latt} (hL : Valid L) {O : Fields} {nonc comp : ℝ} (h : non_plaquette L O = some (nonc, comp)) :
    0 ≤ nonc ∧ -1 ≤ comp ∧ comp ≤ 1 ∧ 1 - nonc / 2 ≤ comp := by
  rw [C97_plaquettes hL, Option.some_inj, Prod.mk.injEq] at h
  obtain ⟨rfl, rfl⟩ := h
  refine ⟨?_, ?_, ?_, ?_⟩
  · rw [← planeMean_const hL 0]; exact planeMean_mono hL fun x mu nu => sq_nonneg _
  · rw [← planeMean_const hL (-1)]; exact planeMean_mono hL fun x mu nu => Real.neg_one_le_cos _
  · refine le_of_le_of_eq (planeMean_mono hL fun x mu nu => Real.cos_le_one _) (planeMean_const hL 1)
  · have e : 1 - planeMean L (fun x mu nu => curl L (angles O) x mu nu ^ 2) / 2 =
        planeMean L fun x mu nu => 1 - curl L (angles O) x mu nu ^ 2 / 2 := by
      conv_lhs => rw [← planeMean_const hL 1]
      unfold planeMean
      simp only [sum_sub_distrib, ← sum_div]
      ring
    rw [e]
    exact planeMean_mono hL fun x mu nu => Real.one_sub_sq_div_two_le_cos

/-- **C97**, the norm: the modulus of the sum of all components over the square root of the volume. -/
theorem C97_norm {L : Latt} (hL : Valid L) (U : Fields) : normU L U =
    some (|∑ x ∈ range (volume L), ∑ mu ∈ range L.ND, (U mu x).re| / Real.sqrt (volume L)) := by
  have hV : (volume L : ℝ) ≠ 0 := by exact_mod_cast (volume_pos hL).ne'
  unfold normU
  have e : forN (volume L) (fun i (s : ℝ) => forN L.ND (fun mu (s : ℝ) => s + (U mu i).re) s) 0 =
      ∑ x ∈ range (volume L), ∑ mu ∈ range L.ND, (U mu x).re := by
    rw [← zero_add (∑ x ∈ range (volume L), ∑ mu ∈ range L.ND, (U mu x).re), ← forN_sum]
    exact congrArg (fun b => forN (volume L) b (0 : ℝ)) (funext fun i => funext fun s => forN_sum L.ND _ s)
  dsimp only
  rw [e, fdiv, if_neg hV, Option.map_some, ← sq, Real.sqrt_div (sq_nonneg _), Real.sqrt_sq_eq_abs]

/-- **C97**, the norm of the fields that `suNC_cross_u1` makes in four dimensions with even extents is zero, as the line that
prints it says. -/
theorem C97_norm_zero {NC : ℕ} {L : Latt} (hL : Valid L) (h4 : L.ND = 4) (he : EvenDims L L.ND) {alpha charge : ℝ}
    {rnd A : Fields} {lat lat' : Gauge} (h : suNC_cross_u1 NC L alpha charge rnd lat = some (A, lat')) :
    normU L A = some 0 := by
  obtain ⟨A', l', f, h1, -, -, h3⟩ := C96_fields_partial NC hL h4 he alpha charge rnd lat
  rw [h1, Option.some_inj, Prod.mk.injEq] at h
  obtain ⟨rfl, -⟩ := h
  rw [C97_norm hL]
  have hz : ∀ mu < L.ND, ∑ x ∈ range (volume L), A' mu x = 0 := by
    intro mu hmu
    have e : ∑ x ∈ range (volume L), A' mu x = ∑ t ∈ range (L.dims (L.ND - 1)),
        ∑ x ∈ range (volume L), (if coord L L.ND x (L.ND - 1) = t then A' mu x else 0) := by
      rw [sum_comm]
      refine sum_congr rfl fun x _ => ?_
      rw [sum_ite_eq, if_pos (mem_range.2 (coord_lt L hL.pos _ _ (by omega)))]
    rw [e]
    exact sum_eq_zero fun t _ => h3 mu hmu t
  have : ∑ x ∈ range (volume L), ∑ mu ∈ range L.ND, (A' mu x).re = 0 := by
    rw [sum_comm]
    refine sum_eq_zero fun mu hmu => ?_
    rw [← Complex.re_sum, hz mu (mem_range.1 hmu), zero_re]
  rw [this, abs_zero, zero_div]

/-! ## Gauge invariance -/

theorem curl_gauged {L : Latt} (hL : Valid L) {w : ℕ → ℝ} {O O' : Fields}
    (h : ∀ mu < L.ND, ∀ x < volume L, angles O' mu x = gauged L w (angles O) mu x) {x mu nu : ℕ} (hx : x < volume L)
    (hmu : mu < L.ND) (hnu : nu < L.ND) : curl L (angles O') x mu nu = curl L (angles O) x mu nu := by
  unfold curl
  rw [h mu hmu x hx, h nu hnu _ (neighbor_lt hL x hmu), h mu hmu _ (neighbor_lt hL x hnu), h nu hnu x hx]
  unfold gauged
  rw [(C02_commute hL hmu hnu (i := x)).1]
  ring

theorem planeMean_congr {L : Latt} {f g : ℕ → ℕ → ℕ → ℝ}
    (h : ∀ x < volume L, ∀ mu < L.ND, ∀ nu < L.ND, f x mu nu = g x mu nu) : planeMean L f = planeMean L g := by
  unfold planeMean
  congr 1
  refine sum_congr rfl fun x hx => sum_congr rfl fun mu hmu => sum_congr rfl fun nu hnu => ?_
  rw [mem_range] at hx hmu hnu
  exact h x hx mu hmu nu (by omega)

theorem dirac_congr {L : Latt} (hL : Valid L) {S S' : ℕ → ℕ → ℕ → ℤ}
    (h : ∀ x < volume L, ∀ mu < L.ND, ∀ nu < L.ND, S x mu nu = S' x mu nu) (mu : ℕ) {i : ℕ} (hi : i < volume L) :
    dirac L S mu i = dirac L S' mu i := by
  unfold dirac
  refine forN_congr (fun nu hnu M => ?_) _
  by_cases hne : nu ≠ mu
  · rw [if_pos hne, if_pos hne]
    refine forN_congr (fun rho hrho M => forN_congr (fun sigma hsig M => ?_) _) _
    dsimp only
    have h2 : S (gen_shift L i nu) rho sigma = S' (gen_shift L i nu) rho sigma :=
      h _ (neighbor_lt hL i hnu) rho hrho sigma (by omega)
    rw [h i hi rho hrho sigma (by omega), h2]
  · rw [if_neg hne, if_neg hne]

/-- **C97**, gauge invariance: two fields of angles that differ by a gauge transformation have the same plaquettes, the same
rectangles and the same topological numbers. -/
theorem C97_gauge_invariant {L : Latt} (hL : Valid L) (w : ℕ → ℝ) {O O' : Fields}
    (h : ∀ mu < L.ND, ∀ x < volume L, angles O' mu x = gauged L w (angles O) mu x) :
    non_plaquette L O' = non_plaquette L O ∧ U1_rectangle L O' = U1_rectangle L O ∧ U1_topological L O' = U1_topological L O := by
  have hc : ∀ x < volume L, ∀ mu < L.ND, ∀ nu < L.ND, curl L (angles O') x mu nu = curl L (angles O) x mu nu :=
    fun x hx mu hmu nu hnu => curl_gauged hL h hx hmu hnu
  refine ⟨?_, ?_, ?_⟩
  · rw [C97_plaquettes hL, C97_plaquettes hL,
      planeMean_congr fun x hx mu hmu nu hnu => by rw [hc x hx mu hmu nu hnu],
      planeMean_congr (f := fun x mu nu => Real.cos (curl L (angles O') x mu nu)) fun x hx mu hmu nu hnu => by rw [hc x hx mu hmu nu hnu]]
  · rw [C97_rectangles hL, C97_rectangles hL,
      planeMean_congr fun x hx mu hmu nu hnu => by
        rw [hc x hx mu hmu nu hnu, hc _ (neighbor_lt hL x hmu) mu hmu nu hnu, hc _ (neighbor_lt hL x hnu) mu hmu nu hnu],
      planeMean_congr (f := fun x mu nu => (Real.cos (curl L (angles O') x mu nu + curl L (angles O') (neighbor L x mu) mu nu) +
        Real.cos (curl L (angles O') x mu nu + curl L (angles O') (neighbor L x nu) mu nu)) / 2) fun x hx mu hmu nu hnu => by
        rw [hc x hx mu hmu nu hnu, hc _ (neighbor_lt hL x hmu) mu hmu nu hnu, hc _ (neighbor_lt hL x hnu) mu hmu nu hnu]]
  · have hS : ∀ x < volume L, ∀ mu < L.ND, ∀ nu < L.ND, obtain_S L O' x mu nu = obtain_S L O x mu nu :=
      fun x hx mu hmu nu hnu => congrArg mod_2pi (hc x hx mu hmu nu hnu)
    have hC : Convertible L O' ↔ Convertible L O := by
      unfold Convertible
      refine forall_congr' fun x => forall_congr' fun hx => forall_congr' fun mu => forall_congr' fun hmu =>
        forall_congr' fun nu => forall_congr' fun hnu => ?_
      rw [face_eq, face_eq, hc x hx mu hmu nu (by omega)]
    unfold U1_topological
    by_cases hg : Convertible L O ∧ 4 ≤ L.ND
    · rw [if_pos hg, if_pos ⟨hC.2 hg.1, hg.2⟩]
      have e1 : current L (dirac L (obtain_S L O')) = current L (dirac L (obtain_S L O)) := by
        unfold current
        refine forN_congr (fun mu _ s => ?_) _
        congr 1
        exact forN_congr (fun i hi s => by rw [dirac_congr hL hS mu hi]) _
      have e2 : dirac_sheet L O' = dirac_sheet L O := by
        unfold dirac_sheet
        refine forN_congr (fun i hi s => ?_) _
        congr 1
        exact forN_congr (fun mu hmu s => forN_congr (fun nu hnu s => by rw [hS i hi mu hmu nu (by omega)]) _) _
      have e3 : non_Qtop L O' = non_Qtop L O := by
        unfold non_Qtop
        congr 1
        refine forN_congr (fun i hi s => ?_) _
        obtain ⟨-, h4⟩ := hg
        simp only [face_eq]
        rw [hc i hi 0 (by omega) 1 (by omega), hc i hi 2 (by omega) 3 (by omega), hc i hi 0 (by omega) 2 (by omega),
          hc i hi 3 (by omega) 1 (by omega), hc i hi 0 (by omega) 3 (by omega), hc i hi 1 (by omega) 2 (by omega)]
      rw [e1, e2, e3]
    · rw [if_neg hg, if_neg (fun h => hg ⟨hC.1 h.1, h.2⟩)]

/-! ## Windings -/

theorem truncZ_nonneg {x : ℝ} (h : 0 ≤ x) : truncZ x = ⌊x⌋ := if_pos h

theorem truncZ_neg (x : ℝ) : truncZ (-x) = -truncZ x := by
  unfold truncZ
  rcases lt_trichotomy x 0 with h | h | h
  · rw [if_pos (by linarith), if_neg (by linarith), Int.floor_neg]
  · subst h; simp
  · rw [if_neg (by linarith), if_pos h.le, Int.ceil_neg]

theorem mod_2pi_neg (x : ℝ) : mod_2pi (-x) = -mod_2pi x := by
  unfold mod_2pi
  rw [truncZ_neg, Int.cast_neg, neg_div, truncZ_neg]

/-- What is counted for an angle that is not negative. -/
theorem mod_2pi_nonneg {x : ℝ} (h : 0 ≤ x) : mod_2pi x = ⌊(⌊x⌋ : ℝ) / (2 * Real.pi)⌋ := by
  unfold mod_2pi
  rw [truncZ_nonneg h, truncZ_nonneg]
  have h1 : (0 : ℝ) ≤ ⌊x⌋ := by exact_mod_cast Int.floor_nonneg.2 h
  have := Real.pi_pos
  positivity

/-- **C97**, windings: what is counted for an angle is odd in the angle and for an angle that is not negative it is the number
of whole turns, or one less. -/
theorem C97_windings_partial (x : ℝ) : mod_2pi (-x) = -mod_2pi x ∧
    (0 ≤ x → (mod_2pi x = ⌊x / (2 * Real.pi)⌋ ∨ mod_2pi x + 1 = ⌊x / (2 * Real.pi)⌋)) ∧ (|x| < 7 → mod_2pi x = 0) := by
  have hpi := Real.pi_gt_three
  have hpos : ∀ y : ℝ, 0 ≤ y → (mod_2pi y = ⌊y / (2 * Real.pi)⌋ ∨ mod_2pi y + 1 = ⌊y / (2 * Real.pi)⌋) ∧ (y < 7 → mod_2pi y = 0) := by
    intro y hy
    rw [mod_2pi_nonneg hy]
    have h1 := Int.floor_le y
    have h2 := Int.lt_floor_add_one y
    constructor
    · have h3 : ⌊(⌊y⌋ : ℝ) / (2 * Real.pi)⌋ ≤ ⌊y / (2 * Real.pi)⌋ := Int.floor_le_floor (by gcongr)
      have h4 : ⌊y / (2 * Real.pi)⌋ < ⌊(⌊y⌋ : ℝ) / (2 * Real.pi)⌋ + 2 := by
        rw [Int.floor_lt]
        push_cast
        have h5 := Int.lt_floor_add_one ((⌊y⌋ : ℝ) / (2 * Real.pi))
        have h6 : y / (2 * Real.pi) < (⌊y⌋ : ℝ) / (2 * Real.pi) + 1 := by
          rw [div_add_one (by positivity)]
          gcongr
          linarith
        linarith
      omega
    · intro h7
      have h8 : ⌊y⌋ ≤ 6 := by
        have : ⌊y⌋ < 7 := Int.floor_lt.2 (by exact_mod_cast h7)
        omega
      have h9 : (0 : ℝ) ≤ ⌊y⌋ := by exact_mod_cast Int.floor_nonneg.2 hy
      have h10 : ((⌊y⌋ : ℤ) : ℝ) ≤ 6 := by exact_mod_cast h8
      rw [Int.floor_eq_zero_iff]
      refine ⟨by positivity, ?_⟩
      rw [div_lt_one (by positivity)]
      linarith
  refine ⟨mod_2pi_neg x, fun h => (hpos x h).1, fun h => ?_⟩
  rcases le_total 0 x with h0 | h0
  · exact (hpos x h0).2 (by rwa [abs_of_nonneg h0] at h)
  · have := (hpos (-x) (by linarith)).2 (by rwa [abs_of_nonpos h0] at h)
    rw [mod_2pi_neg] at this
    omega

/-- **C97**, an angle of more than a whole turn that is not counted. -/
theorem C97_turn_missed : 2 * Real.pi < 13 / 2 ∧ mod_2pi (13 / 2) = 0 := by
  refine ⟨by have := Real.pi_lt_d2; linarith, (C97_windings_partial _).2.2 ?_⟩
  rw [abs_of_pos] <;> norm_num

/-- **C97**, the current of windings that are the curl of an integer on every link, so that there are no monopoles, vanishes
in four dimensions for the first and the last of the four components.  (For the others see `C97_false_monopoles`.) -/
theorem C97_no_current_partial {L : Latt} (hL : Valid L) (h4 : L.ND = 4) (n : ℕ → ℕ → ℤ) (i : ℕ) {mu : ℕ} (hmu : mu = 0 ∨ mu = 3) :
    dirac L (fun x rho sigma => n rho x + n sigma (neighbor L x rho) - n rho (neighbor L x sigma) - n sigma x) mu i = 0 := by
  have hc : ∀ a b : ℕ, a < 4 → b < 4 → neighbor L (neighbor L i a) b = neighbor L (neighbor L i b) a :=
    fun a b ha hb => (C02_commute hL (by omega) (by omega)).1
  have hn : ∀ a : ℕ, gen_shift L i a = neighbor L i a := fun _ => rfl
  unfold dirac
  rw [h4]
  rcases hmu with rfl | rfl
  · simp only [forN, hn]
    simp
    rw [hc 1 2 (by omega) (by omega), hc 1 3 (by omega) (by omega), hc 2 3 (by omega) (by omega)]
    ring
  · simp only [forN, hn]
    simp
    rw [hc 0 1 (by omega) (by omega), hc 0 2 (by omega) (by omega), hc 1 2 (by omega) (by omega)]
    ring

theorem forN_add_le (n : ℕ) (f : ℕ → ℤ) (hf : ∀ i < n, 0 ≤ f i) {i : ℕ} (hi : i < n) :
    f i ≤ forN n (fun j (s : ℤ) => s + f j) 0 := by
  rw [forN_sum, zero_add]
  exact single_le_sum (f := f) (fun j hj => hf j (mem_range.1 hj)) (mem_range.2 hi)

theorem forN_add_nonneg (n : ℕ) (f : ℕ → ℤ) (hf : ∀ i < n, 0 ≤ f i) : 0 ≤ forN n (fun j (s : ℤ) => s + f j) 0 := by
  rw [forN_sum, zero_add]
  exact sum_nonneg fun j hj => hf j (mem_range.1 hj)

theorem dirac_zero (L : Latt) (mu i : ℕ) : dirac L (fun _ _ _ => 0) mu i = 0 := by
  have key : ∀ n : ℕ, ∀ f : ℕ → ℤ → ℤ, (∀ j, f j 0 = 0) → forN n f 0 = 0 := by
    intro n f hf
    induction n with
    | zero => rfl
    | succ n ih => rw [forN, ih, hf]
  unfold dirac
  refine key _ _ fun nu => ?_
  split_ifs
  · exact key _ _ fun rho => key _ _ fun sigma => by split_ifs <;> simp
  · exact key _ _ fun rho => key _ _ fun sigma => by split_ifs <;> simp
  · rfl

/-- **C97**, fields without large angles: when every plaquette angle is below 7 in size no monopole and no sheet is counted. -/
theorem C97_small_angles_partial {L : Latt} (hL : Valid L) (h4 : 4 ≤ L.ND) {O : Fields}
    (h : ∀ x < volume L, ∀ mu < L.ND, ∀ nu < L.ND, |curl L (angles O) x mu nu| < 7) :
    U1_topological L O = some (0, 0, non_Qtop L O) := by
  have hS : ∀ x < volume L, ∀ mu < L.ND, ∀ nu < L.ND, obtain_S L O x mu nu = 0 := fun x hx mu hmu nu hnu =>
    (C97_windings_partial _).2.2 (h x hx mu hmu nu hnu)
  have hC : Convertible L O := fun x hx mu hmu nu hnu => (h x hx mu hmu nu (by omega)).trans (by norm_num)
  unfold U1_topological
  rw [if_pos ⟨hC, h4⟩]
  have e1 : current L (dirac L (obtain_S L O)) = 0 := by
    unfold current
    rw [forN_sum, zero_add]
    refine sum_eq_zero fun mu _ => ?_
    rw [forN_sum, zero_add]
    refine sum_eq_zero fun i hi => ?_
    rw [dirac_congr hL (S' := fun _ _ _ => 0) hS mu (mem_range.1 hi), dirac_zero, abs_zero]
  have e2 : dirac_sheet L O = 0 := by
    unfold dirac_sheet
    rw [forN_sum, zero_add]
    refine sum_eq_zero fun i hi => ?_
    have : ∀ mu < L.ND, ∀ s, forN mu (fun nu (s : ℤ) => s + |obtain_S L O i mu nu|) s = s := by
      intro mu hmu s
      rw [forN_sum, sum_eq_zero fun nu hnu => by rw [hS i (mem_range.1 hi) mu hmu nu (by have := mem_range.1 hnu; omega), abs_zero], add_zero]
    rw [forN_congr (g := fun _ s => s) (fun mu hmu s => this mu hmu s)]
    exact forN_inv (fun _ (s : ℤ) => s = 0) rfl fun _ _ s hs => hs
  rw [e1, e2]

/-- The lattice with four directions of extent 4. -/
def L4 : Latt := ⟨4, fun _ => 4⟩

theorem valid_L4 : Valid L4 := ⟨by decide, fun _ _ => by show 0 < 4; decide, by decide⟩

/-- Two whole turns on one link, nothing elsewhere. -/
noncomputable def twoTurns : Fields := fun mu x => if mu = 2 ∧ x = 0 then ((4 * Real.pi : ℝ) : ℂ) else 0

/-- The same in units of two turns. -/
def oneUnit (mu x : ℕ) : ℤ := if mu = 2 ∧ x = 0 then 1 else 0

/-- The curl of `oneUnit`. -/
def unitCurl (x rho sigma : ℕ) : ℤ :=
  oneUnit rho x + oneUnit sigma (neighbor L4 x rho) - oneUnit rho (neighbor L4 x sigma) - oneUnit sigma x

theorem unitCurl_small : ∀ x < volume L4, ∀ mu < 4, ∀ nu < 4, unitCurl x mu nu = 0 ∨ unitCurl x mu nu = 1 ∨ unitCurl x mu nu = -1 := by
  decide +kernel

theorem mod_two_turns : mod_2pi (4 * Real.pi) = 1 := by
  have h1 := Real.pi_gt_d2
  have h2 := Real.pi_lt_d2
  rw [mod_2pi_nonneg (by linarith), show ⌊4 * Real.pi⌋ = 12 by rw [Int.floor_eq_iff]; constructor <;> push_cast <;> linarith,
    Int.floor_eq_iff]
  push_cast
  constructor
  · rw [le_div_iff₀ (by linarith)]; linarith
  · rw [div_lt_iff₀ (by linarith)]; linarith

theorem curl_twoTurns (x mu nu : ℕ) : curl L4 (angles twoTurns) x mu nu = 4 * Real.pi * unitCurl x mu nu := by
  have e : ∀ mu x, angles twoTurns mu x = 4 * Real.pi * oneUnit mu x := by
    intro mu x
    unfold angles twoTurns oneUnit
    split_ifs
    · rw [ofReal_re]; simp
    · simp
  unfold curl unitCurl
  rw [e, e, e, e]
  push_cast
  ring

theorem windings_twoTurns : ∀ x < volume L4, ∀ mu < L4.ND, ∀ nu < L4.ND, obtain_S L4 twoTurns x mu nu = unitCurl x mu nu := by
  intro x hx mu hmu nu hnu
  unfold obtain_S
  rw [face_eq, curl_twoTurns]
  rcases unitCurl_small x hx mu hmu nu hnu with h | h | h <;> rw [h]
  · rw [Int.cast_zero, mul_zero]; exact (C97_windings_partial 0).2.2 (by norm_num)
  · rw [Int.cast_one, mul_one, mod_two_turns]
  · rw [Int.cast_neg, Int.cast_one, mul_neg, mul_one, mod_2pi_neg, mod_two_turns]

/-- **C97**, false monopoles: the field with two whole turns on a single link has the phase one on every link, like the field
that is zero everywhere, which has no monopoles and no sheet; but monopoles and a sheet are counted for it. -/
theorem C97_false_monopoles : (∀ mu x, exp (((angles twoTurns mu x : ℝ) : ℂ) * I) = 1) ∧
    U1_topological L4 (fun _ _ => 0) = some (0, 0, 0) ∧
    ∃ m s q, U1_topological L4 twoTurns = some (m, s, q) ∧ 0 < m ∧ 0 < s := by
  have hpi := Real.pi_pos
  have hlt := Real.pi_lt_d2
  refine ⟨fun mu x => ?_, ?_, ?_⟩
  · unfold angles twoTurns
    split_ifs
    · rw [ofReal_re, Complex.exp_eq_one_iff]
      exact ⟨2, by push_cast; ring⟩
    · simp
  · rw [C97_small_angles_partial valid_L4 (by decide) (fun x _ mu _ nu _ => by simp [curl, angles])]
    have : non_Qtop L4 (fun _ _ => 0) = 0 := by
      unfold non_Qtop
      rw [forN_sum, sum_eq_zero (fun i _ => by simp [noncompact_face])]
      simp
    rw [this]
  · have hC : Convertible L4 twoTurns := by
      intro x hx mu hmu nu hnu
      rw [face_eq, curl_twoTurns]
      rcases unitCurl_small x hx mu hmu nu (by have : mu < 4 := hmu; omega) with h | h | h <;> rw [h]
      · simp
      · rw [Int.cast_one, mul_one, abs_of_pos (by positivity)]; linarith
      · rw [Int.cast_neg, Int.cast_one, mul_neg, mul_one, abs_neg, abs_of_pos (by positivity)]; linarith
    refine ⟨_, _, _, by unfold U1_topological; rw [if_pos ⟨hC, by decide⟩], ?_, ?_⟩
    · refine lt_of_lt_of_le (b := |dirac L4 (obtain_S L4 twoTurns) 1 0|) ?_ ?_
      · rw [dirac_congr valid_L4 windings_twoTurns 1 (by decide)]
        decide +kernel
      · unfold current
        refine le_trans ?_ (forN_add_le L4.ND _ (fun mu _ => forN_add_nonneg _ _ fun i _ => abs_nonneg _) (show 1 < L4.ND by decide))
        exact forN_add_le (volume L4) (fun i => |dirac L4 (obtain_S L4 twoTurns) 1 i|) (fun i _ => abs_nonneg _) (show 0 < volume L4 by decide)
    · have e : dirac_sheet L4 twoTurns = ∑ i ∈ range (volume L4), ∑ mu ∈ range L4.ND, ∑ nu ∈ range mu, |obtain_S L4 twoTurns i mu nu| := by
        unfold dirac_sheet
        rw [forN_sum, zero_add]
        refine sum_congr rfl fun i _ => ?_
        rw [← zero_add (∑ mu ∈ range L4.ND, ∑ nu ∈ range mu, |obtain_S L4 twoTurns i mu nu|), ← forN_sum]
        exact congrArg (fun b => forN L4.ND b (0 : ℤ)) (funext fun mu => funext fun s => forN_sum mu _ s)
      rw [e]
      refine sum_pos' (fun i _ => sum_nonneg fun mu _ => sum_nonneg fun nu _ => abs_nonneg _) ⟨0, by decide, ?_⟩
      refine sum_pos' (fun mu _ => sum_nonneg fun nu _ => abs_nonneg _) ⟨2, by decide, ?_⟩
      refine sum_pos' (fun nu _ => abs_nonneg _) ⟨0, by decide, ?_⟩
      rw [windings_twoTurns 0 (by decide) 2 (by decide) 0 (by decide)]
      decide

/-- A field on the lattice with four directions of extent 4 and its gauge transform by a function that is one at the origin. -/
example : ∃ O O' : Fields, (∀ mu < L4.ND, ∀ x < volume L4, angles O' mu x = gauged L4 (fun x => if x = 0 then 1 else 0) (angles O) mu x) ∧
    angles O' 0 0 ≠ angles O 0 0 := by
  refine ⟨fun mu x => (mu : ℂ), fun mu x => ((gauged L4 (fun x => if x = 0 then 1 else 0) (fun mu _ => (mu : ℝ)) mu x : ℝ) : ℂ),
    fun mu _ x _ => by simp [angles, gauged], ?_⟩
  have : neighbor L4 0 0 = 1 := by decide
  simp [angles, gauged, this]

/-- **C97**, the four components of the current in four dimensions, with the forward difference of the windings written out;
the signs of the second and third are not those of a divergence (`C97_false_monopoles`). -/
theorem C97_components {L : Latt} (h4 : L.ND = 4) (S : ℕ → ℕ → ℕ → ℤ) (i : ℕ) (D : ℕ → ℕ → ℕ → ℤ)
    (hD : ∀ nu rho sigma, D nu rho sigma = S (neighbor L i nu) rho sigma - S i rho sigma) :
    dirac L S 0 i = D 1 3 2 - D 2 3 1 + D 3 2 1 ∧ dirac L S 1 i = -D 0 3 2 - D 2 3 0 + D 3 2 0 ∧
    dirac L S 2 i = -D 0 3 1 + D 1 3 0 + D 3 1 0 ∧ dirac L S 3 i = -D 0 2 1 + D 1 2 0 - D 2 1 0 := by
  have hn : ∀ a : ℕ, gen_shift L i a = neighbor L i a := fun _ => rfl
  unfold dirac
  rw [h4]
  simp only [hD]
  refine ⟨?_, ?_, ?_, ?_⟩ <;> (simp only [forN, hn]; norm_num; try ring)

end GLU.U1
