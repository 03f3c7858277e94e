import Verif.U1.Spec
import Verif.Field.TopoProps
import Mathlib.Analysis.Real.Pi.Bounds

/-!
# Lemmas for U(1) fields
-/

namespace GLU.U1

open Complex Finset GLU.Mat GLU.Geom GLU.Field

/-! ## Conjugate sites -/

theorem opposite_symm {L : Latt} {i b : ℕ} (h : Opposite L i b) : Opposite L b i :=
  fun mu hmu => by rw [add_comm]; exact h mu hmu

theorem opposite_unique {L : Latt} (hL : Valid L) {i b c : ℕ} (hb : b < volume L) (hc : c < volume L)
    (h1 : Opposite L i b) (h2 : Opposite L i c) : b = c := by
  refine GLU.Field.site_ext hL hb hc fun mu hmu => ?_
  have h3 := coord_lt L hL.pos L.ND b hmu
  have h4 := coord_lt L hL.pos L.ND c hmu
  have h5 : coord L L.ND b mu ≡ coord L L.ND c mu [MOD L.dims mu] := by
    have e1 := (Nat.modEq_zero_iff_dvd.2 (h1 mu hmu)).trans (Nat.modEq_zero_iff_dvd.2 (h2 mu hmu)).symm
    exact Nat.ModEq.add_left_cancel' _ e1
  exact Nat.ModEq.eq_of_lt_of_lt h5 h3 h4

theorem conjugate_spec {L : Latt} (hL : Valid L) (he : EvenDims L L.ND) (i : ℕ) :
    conjugate_site L i < volume L ∧ Opposite L i (conjugate_site L i) := by
  have key : ∀ mu < L.ND, temp2pi L (fun mu => -mom_pipi L i L.ND mu) L.ND mu =
      (((L.dims mu - coord L L.ND i mu) % L.dims mu : ℕ) : ℤ) := by
    intro mu hmu
    have hc := coord_lt L hL.pos L.ND i hmu
    obtain ⟨h, hh⟩ := he mu hmu
    have hpos := hL.pos mu hmu
    unfold temp2pi
    rw [if_pos (by omega)]
    simp only [mom_pipi_eq L hmu]
    rw [coord_eq L hmu] at hc ⊢
    generalize i / radix L.dims mu % L.dims mu = c at hc ⊢
    rw [hh] at hc ⊢
    rw [Nat.mul_div_cancel_left _ (by omega)]
    rcases Nat.eq_zero_or_pos c with rfl | h0
    · rw [Nat.sub_zero, Nat.mod_self]
      split_ifs <;> push_cast at * <;> omega
    · rw [Nat.mod_eq_of_lt (by omega)]
      split_ifs <;> push_cast at * <;> omega
  have hr : InRange L (temp2pi L (fun mu => -mom_pipi L i L.ND mu) L.ND) := by
    intro mu hmu
    rw [key mu hmu]
    have := Nat.mod_lt (L.dims mu - coord L L.ND i mu) (hL.pos mu hmu)
    omega
  refine ⟨gen_site_lt hL hr, fun mu hmu => ?_⟩
  have h1 : (coord L L.ND (conjugate_site L i) mu : ℤ) = _ := coord_gen_site hL hr hmu
  rw [key mu hmu] at h1
  have h2 : coord L L.ND (conjugate_site L i) mu = (L.dims mu - coord L L.ND i mu) % L.dims mu := by exact_mod_cast h1
  rw [h2]
  have hc := coord_lt L hL.pos L.ND i hmu
  rcases Nat.eq_zero_or_pos (coord L L.ND i mu) with h0 | h0
  · rw [h0, Nat.sub_zero, Nat.mod_self]; exact dvd_zero _
  · rw [Nat.mod_eq_of_lt (by omega), Nat.add_sub_cancel' hc.le]

/-- The site of largest momentum, all components `pi`. -/
def piSite (d : ℕ → ℕ) (n : ℕ) : ℕ := ∑ mu ∈ range n, d mu / 2 * radix d mu

theorem half_sites (d : ℕ → ℕ) (n : ℕ) (hd : ∀ mu < n, 0 < d mu) (he : ∀ mu < n, 2 ∣ d mu) :
    ∀ i < radix d n, ∀ b < radix d n, (∀ mu < n, d mu ∣ i / radix d mu % d mu + b / radix d mu % d mu) →
      i ≤ piSite d n ∨ b ≤ piSite d n := by
  induction n with
  | zero => intro i hi b _ _; left; simp [radix] at hi; omega
  | succ n ih =>
    intro i hi b hb h
    have hp := radix_pos (d := d) (n := n) (fun mu hmu => hd mu (by omega)) n le_rfl
    have ih := ih (fun mu hmu => hd mu (by omega)) (fun mu hmu => he mu (by omega)) (i % radix d n) (Nat.mod_lt _ hp)
      (b % radix d n) (Nat.mod_lt _ hp) (by
        intro mu hmu
        have e : ∀ a, a % radix d n / radix d mu % d mu = a / radix d mu % d mu := by
          intro a
          obtain ⟨e, he⟩ := dvd_radix d hmu
          have hq := radix_pos (d := d) (n := n) (fun mu hmu => hd mu (by omega)) mu hmu.le
          have key : ∀ q r, (radix d n * q + r) / radix d mu % d mu = r / radix d mu % d mu := by
            intro q r
            rw [he, Nat.mul_assoc, Nat.mul_assoc, Nat.mul_add_div hq, Nat.mul_add_mod]
          have := key (a / radix d n) (a % radix d n)
          rw [Nat.div_add_mod] at this
          exact this.symm
        rw [e, e]
        exact h mu (by omega))
    rw [radix_succ] at hi hb
    have hn := h n (by omega)
    have hci : i / radix d n < d n := Nat.div_lt_of_lt_mul hi
    have hcb : b / radix d n < d n := Nat.div_lt_of_lt_mul hb
    rw [Nat.mod_eq_of_lt hci, Nat.mod_eq_of_lt hcb] at hn
    have ei := Nat.div_add_mod i (radix d n)
    have eb := Nat.div_add_mod b (radix d n)
    have hri := Nat.mod_lt i hp
    have hrb := Nat.mod_lt b hp
    obtain ⟨g, hg⟩ := he n (by omega)
    have hdn := hd n (by omega)
    have ez : piSite d (n + 1) = piSite d n + g * radix d n := by
      unfold piSite; rw [sum_range_succ, hg, Nat.mul_div_cancel_left _ (by omega)]
    rw [ez]
    generalize i / radix d n = ci at *
    generalize b / radix d n = cb at *
    have key : ∀ c r : ℕ, c < g → r < radix d n → radix d n * c + r ≤ piSite d n + g * radix d n := by
      intro c r hc hr
      have : radix d n * (c + 1) ≤ radix d n * g := Nat.mul_le_mul_left _ hc
      nlinarith
    rcases Nat.lt_trichotomy ci g with h1 | h1 | h1
    · left; rw [← ei]; exact key _ _ h1 hri
    · have h2 : cb = g := by
        obtain ⟨k, hk⟩ := hn
        rw [hg] at hk hcb
        rcases k with _ | _ | k
        · omega
        · omega
        · have : 2 * g * 2 ≤ 2 * g * (k + 1 + 1) := Nat.mul_le_mul_left _ (by omega)
          omega
      rcases ih with h3 | h3
      · left; rw [← ei, h1]; nlinarith
      · right; rw [← eb, h2]; nlinarith
    · right
      rw [← eb]
      refine key _ _ ?_ hrb
      obtain ⟨k, hk⟩ := hn
      rw [hg] at hk hcb hci
      rcases k with _ | _ | k
      · omega
      · omega
      · have : 2 * g * 2 ≤ 2 * g * (k + 1 + 1) := Nat.mul_le_mul_left _ (by omega)
        omega

theorem zeropoint_eq {L : Latt} (h4 : L.ND = 4) (he : EvenDims L L.ND) : compute_zeropoint L = piSite L.dims L.ND := by
  unfold compute_zeropoint piSite
  rw [if_pos h4, h4]
  obtain ⟨a, ha⟩ := he 0 (by omega)
  obtain ⟨b, hb⟩ := he 1 (by omega)
  obtain ⟨c, hc⟩ := he 2 (by omega)
  obtain ⟨e, he⟩ := he 3 (by omega)
  simp only [sum_range_succ, sum_range_zero, radix, prod_range_succ, prod_range_zero, ha, hb, hc, he]
  have h2 : ∀ x : ℕ, 2 * x / 2 = x := fun x => by omega
  rw [h2, h2, h2, h2]
  have : 2 * a * (1 + 2 * b * (1 + 2 * c * (1 + 2 * e))) = 2 * (0 + a * 1 + b * (1 * (2 * a)) + c * (1 * (2 * a) * (2 * b)) + e * (1 * (2 * a) * (2 * b) * (2 * c))) := by
    ring
  rw [this, h2]

theorem half_lattice {L : Latt} (hL : Valid L) (h4 : L.ND = 4) (he : EvenDims L L.ND) {i b : ℕ} (hi : i < volume L)
    (hb : b < volume L) (h : Opposite L i b) : i ≤ compute_zeropoint L ∨ b ≤ compute_zeropoint L := by
  rw [zeropoint_eq h4 he]
  rw [volume_eq L hL.nd] at hi hb
  refine half_sites L.dims L.ND hL.pos he i hi b hb fun mu hmu => ?_
  have := h mu hmu
  rwa [coord_eq L hmu, coord_eq L hmu] at this

theorem zeropoint_lt {L : Latt} (hL : Valid L) (h4 : L.ND = 4) (he : EvenDims L L.ND) : compute_zeropoint L < volume L := by
  rw [zeropoint_eq h4 he, volume_eq L hL.nd]
  exact sum_lt_radix fun mu hmu => by
    have := hL.pos mu hmu
    omega

/-! ## Filling -/

/-- What the element of site `j` becomes, given the site of opposite momentum. -/
noncomputable def filled (f : Fields) (mu j c : ℕ) : ℂ :=
  if j = c then ((f mu j).re : ℂ) else if j < c then f mu j else star (f mu c)

theorem conj_invol {L : Latt} (hL : Valid L) (he : EvenDims L L.ND) {i : ℕ} (hi : i < volume L) :
    conjugate_site L (conjugate_site L i) = i := by
  obtain ⟨h1, h2⟩ := conjugate_spec hL he i
  obtain ⟨h3, h4⟩ := conjugate_spec hL he (conjugate_site L i)
  exact opposite_unique hL h3 hi h4 (opposite_symm h2)

theorem fillLoop_spec {L : Latt} (hL : Valid L) (he : EvenDims L L.ND) (f : Fields) :
    ∀ n ≤ volume L, ∃ g, fillLoop L f n = some g ∧ ∀ mu < L.ND, ∀ j < volume L,
      g mu j = if min j (conjugate_site L j) < n then filled f mu j (conjugate_site L j) else f mu j := by
  intro n
  induction n with
  | zero => intro _; exact ⟨f, rfl, fun mu _ j _ => by simp⟩
  | succ n ih =>
    intro hn
    obtain ⟨g, hg, hs⟩ := ih (by omega)
    have hn' : n < volume L := by omega
    obtain ⟨hb, -⟩ := conjugate_spec hL he n
    have hinv := conj_invol hL he hn'
    rw [fillLoop, hg, Option.bind_some]
    unfold fillStep
    by_cases h1 : n = conjugate_site L n
    · simp only []
      rw [if_pos h1, if_pos hn']
      refine ⟨_, rfl, fun mu hmu j hj => ?_⟩
      unfold store
      by_cases hjn : j = n
      · subst hjn
        rw [if_pos ⟨hmu, rfl⟩]
        beta_reduce
        rw [hs mu hmu j hj, ← h1, min_self, if_neg (lt_irrefl _), if_pos (Nat.lt_succ_self _)]
        unfold filled; rw [if_pos rfl]
      · rw [if_neg (by tauto), hs mu hmu j hj]
        have hjc : conjugate_site L j ≠ n := by
          intro hc
          apply hjn
          rw [← conj_invol hL he hj, hc, ← h1]
        exact if_congr (by omega) rfl rfl
    · simp only []
      rw [if_neg h1]
      by_cases h2 : conjugate_site L n < n
      · rw [if_pos h2]
        refine ⟨_, rfl, fun mu hmu j hj => ?_⟩
        rw [hs mu hmu j hj]
        refine if_congr ⟨fun h => by omega, fun h => ?_⟩ rfl rfl
        by_cases h3 : min j (conjugate_site L j) = n
        · rcases min_choice j (conjugate_site L j) with h4 | h4
          · rw [h4] at h3; subst h3; omega
          · rw [h4] at h3
            have : conjugate_site L n = j := by rw [← h3, conj_invol hL he hj]
            omega
        · omega
      · rw [if_neg h2, if_pos ⟨hn', hb⟩]
        refine ⟨_, rfl, fun mu hmu j hj => ?_⟩
        unfold store
        by_cases hjb : j = conjugate_site L n
        · subst hjb
          rw [if_pos ⟨hmu, rfl⟩]
          beta_reduce
          rw [hs mu hmu n hn', hinv, if_neg (by omega), if_pos (by omega)]
          unfold filled
          rw [if_neg (by omega), if_neg (by omega)]
        · rw [if_neg (by tauto), hs mu hmu j hj]
          have hjc : conjugate_site L j ≠ n := by
            intro hc
            apply hjb
            rw [← hc, conj_invol hL he hj]
          by_cases hjn : j = n
          · subst hjn
            rw [if_neg (by omega), if_pos (by omega)]
            unfold filled
            rw [if_neg h1, if_pos (by omega)]
          · exact if_congr (by omega) rfl rfl

theorem periodic_spec {L : Latt} (hL : Valid L) (h4 : L.ND = 4) (he : EvenDims L L.ND) (p : ℕ → ℝ) (rnd : Fields) :
    ∃ g, periodic_dft L p rnd = some g ∧ ∀ mu < L.ND, ∀ j < volume L,
      g mu j = filled (randomFields L p rnd) mu j (conjugate_site L j) := by
  obtain ⟨g, hg, hs⟩ := fillLoop_spec hL he (randomFields L p rnd) (compute_zeropoint L + 1) (by
    have := zeropoint_lt hL h4 he; omega)
  refine ⟨g, hg, fun mu hmu j hj => ?_⟩
  rw [hs mu hmu j hj, if_pos]
  obtain ⟨h1, h2⟩ := conjugate_spec hL he j
  have := half_lattice hL h4 he hj h1 h2
  omega

/-! ## The weights -/

theorem feynLoop_eq (L : Latt) (i : ℕ) : feynLoop L i =
    (∑ mu ∈ range L.ND, Real.cos ((coord L L.ND i mu : ℝ) * twiddle L mu), if NoSpatial L i then 1 else 0) := by
  have h := forN_inv (fun n (s : ℝ × ℕ) => s = (∑ mu ∈ range n, Real.cos ((coord L L.ND i mu : ℝ) * twiddle L mu),
      if ∀ mu < n, mu < L.ND - 1 → coord L L.ND i mu = 0 then 1 else 0)) (n := L.ND) (s := ((0, 1) : ℝ × ℕ))
    (body := fun mu (s : ℝ × ℕ) => (s.1 + Real.cos ((coord L L.ND i mu : ℝ) * twiddle L mu),
      if s.2 ≠ 0 ∧ mu < L.ND - 1 then (if 0 < coord L L.ND i mu then 0 else 1) else s.2)) (by simp) (by
    rintro n _ s rfl
    rw [Prod.mk.injEq]
    refine ⟨(sum_range_succ _ n).symm, ?_⟩
    dsimp only
    by_cases h1 : ∀ mu < n, mu < L.ND - 1 → coord L L.ND i mu = 0
    · rw [if_pos h1]
      by_cases h2 : n < L.ND - 1
      · rw [if_pos ⟨one_ne_zero, h2⟩]
        by_cases h3 : 0 < coord L L.ND i n
        · rw [if_pos h3, if_neg (fun h => by have := h n (by omega) h2; omega)]
        · rw [if_neg h3, if_pos fun mu hm hm' => by
            rcases Nat.lt_succ_iff_lt_or_eq.1 hm with h4 | h4
            · exact h1 mu h4 hm'
            · subst h4; omega]
      · rw [if_neg (by tauto), if_pos fun mu hm hm' => by
            rcases Nat.lt_succ_iff_lt_or_eq.1 hm with h4 | h4
            · exact h1 mu h4 hm'
            · omega]
    · rw [if_neg h1, if_neg (by simp), if_neg fun h => h1 fun mu hm => h mu (by omega)])
  unfold feynLoop
  refine h.trans ?_
  rw [Prod.mk.injEq]
  exact ⟨rfl, if_congr ⟨fun h mu hmu => h mu (by omega) hmu, fun h mu _ hmu => h mu hmu⟩ rfl rfl⟩

theorem latticeSq_eq (L : Latt) (i : ℕ) :
    latticeSq L i = 2 * ((L.ND : ℝ) - ∑ mu ∈ range L.ND, Real.cos ((coord L L.ND i mu : ℝ) * twiddle L mu)) := by
  have e : ∀ mu ∈ range L.ND, (2 * Real.sin (Real.pi * (coord L L.ND i mu : ℝ) / (L.dims mu : ℝ))) ^ 2 =
      2 - 2 * Real.cos ((coord L L.ND i mu : ℝ) * twiddle L mu) := by
    intro mu _
    have h1 : (coord L L.ND i mu : ℝ) * twiddle L mu = 2 * (Real.pi * (coord L L.ND i mu : ℝ) / (L.dims mu : ℝ)) := by
      unfold twiddle; ring
    rw [h1, Real.cos_two_mul]
    have := Real.sin_sq_add_cos_sq (Real.pi * (coord L L.ND i mu : ℝ) / (L.dims mu : ℝ))
    linarith
  unfold latticeSq
  rw [sum_congr rfl e, sum_sub_distrib, ← mul_sum]
  simp
  ring

theorem latticeSq_pos {L : Latt} (hL : Valid L) {i : ℕ} (h : ¬ NoSpatial L i) : 0 < latticeSq L i := by
  unfold NoSpatial at h
  push Not at h
  obtain ⟨mu, hmu, h0⟩ := h
  have hlt := coord_lt L hL.pos L.ND i (mu := mu) (by omega)
  refine sum_pos' (fun nu _ => sq_nonneg _) ⟨mu, mem_range.2 (by omega), ?_⟩
  have h1 : 0 < Real.sin (Real.pi * (coord L L.ND i mu : ℝ) / (L.dims mu : ℝ)) := by
    have hp : (0 : ℝ) < coord L L.ND i mu := by exact_mod_cast Nat.pos_of_ne_zero h0
    have hq : (0 : ℝ) < L.dims mu := by exact_mod_cast hL.pos mu (by omega)
    have hr : (coord L L.ND i mu : ℝ) < L.dims mu := by exact_mod_cast hlt
    refine Real.sin_pos_of_pos_of_lt_pi (by have := Real.pi_pos; positivity) ?_
    rw [div_lt_iff₀ hq]
    exact mul_lt_mul_of_pos_left hr Real.pi_pos
  positivity

theorem psq_eq {L : Latt} (hL : Valid L) (i : ℕ) :
    psq L i = if NoSpatial L i then 0 else 1 / Real.sqrt (latticeSq L i) := by
  unfold psq gen_p_sq_feyn
  rw [feynLoop_eq]
  dsimp only
  by_cases h : NoSpatial L i
  · rw [if_pos h, if_pos h, if_pos rfl]
  · have hp := latticeSq_pos hL h
    have he := latticeSq_eq L i
    rw [if_neg h, if_neg h, if_neg (by omega), if_neg (fun hc => by rw [hc] at he; simp at he; linarith), he]

/-! ## The angles and the links -/

theorem u1ify_eq {NC : ℕ} {L : Latt} (alpha charge : ℝ) (f : Fields) (lat : Gauge) {mu : ℕ} (hmu : mu < L.ND) {x : ℕ}
    (hx : x < volume L) :
    (u1ify NC L alpha charge f lat).1 mu x = (((small_plan L (-1) (f mu) x).re * (1 / Real.sqrt (volume L)) : ℝ) : ℂ) ∧
    (u1ify NC L alpha charge f lat).2 (x, mu) =
      mapN (NC * NC) (fun _ z => z * ((Real.cos (((u1ify NC L alpha charge f lat).1 mu x).re * elementary alpha * charge) : ℂ) +
        I * (Real.sin (((u1ify NC L alpha charge f lat).1 mu x).re * elementary alpha * charge) : ℂ))) (lat (x, mu)) := by
  set rv : ℝ := 1 / Real.sqrt (volume L) with hrv
  have h := forN_inv (fun n (s : Fields × Gauge) => ∀ mu < L.ND, ∀ x,
      s.1 mu x = (if x * L.ND + mu < n then (((small_plan L (-1) (f mu) x).re * rv : ℝ) : ℂ) else small_plan L (-1) (f mu) x) ∧
      s.2 (x, mu) = if x * L.ND + mu < n then
        mapN (NC * NC) (fun _ z => z * ((Real.cos ((small_plan L (-1) (f mu) x).re * rv * elementary alpha * charge) : ℂ) +
        I * (Real.sin ((small_plan L (-1) (f mu) x).re * rv * elementary alpha * charge) : ℂ))) (lat (x, mu)) else lat (x, mu))
    (n := volume L * L.ND) (s := ((fun mu => small_plan L (-1) (f mu), lat) : Fields × Gauge))
    (body := fun i (s : Fields × Gauge) =>
      let idx := i / L.ND
      let mu := i % L.ND
      let a := (s.1 mu idx).re * rv
      let th := a * elementary alpha * charge
      let U1 : ℂ := Real.cos th + I * Real.sin th
      (Function.update s.1 mu (Function.update (s.1 mu) idx (a : ℂ)),
        Function.update s.2 (idx, mu) (mapN (NC * NC) (fun j z => z * U1) (s.2 (idx, mu)))))
    (by intro mu _ x; simp) (by
      intro n hn s hs mu hmu x
      dsimp only
      have hN : n % L.ND < L.ND := Nat.mod_lt _ (by omega)
      have hdm := Nat.div_add_mod n L.ND
      by_cases hc : x = n / L.ND ∧ mu = n % L.ND
      · obtain ⟨rfl, rfl⟩ := hc
        have e : n / L.ND * L.ND + n % L.ND = n := by rw [mul_comm]; exact hdm
        obtain ⟨h1, h2⟩ := hs _ hN (n / L.ND)
        rw [e, if_neg (lt_irrefl _)] at h1 h2
        rw [Function.update_self, Function.update_self, Function.update_self, h1, h2, e, if_pos (Nat.lt_succ_self _),
          if_pos (Nat.lt_succ_self _)]
        exact ⟨rfl, rfl⟩
      · have hne : x * L.ND + mu ≠ n := by
          intro he
          apply hc
          rw [← he]
          constructor
          · rw [Nat.add_comm, Nat.add_mul_div_right _ _ (by omega), Nat.div_eq_of_lt hmu, Nat.zero_add]
          · rw [Nat.add_comm, Nat.add_mul_mod_self_right, Nat.mod_eq_of_lt hmu]
        have hiff : x * L.ND + mu < n + 1 ↔ x * L.ND + mu < n := by omega
        obtain ⟨h1, h2⟩ := hs _ hmu x
        rw [if_congr hiff rfl rfl, if_congr hiff rfl rfl, ← h1, ← h2]
        constructor
        · by_cases hm : mu = n % L.ND
          · subst hm
            rw [Function.update_self, Function.update_of_ne (by tauto)]
          · rw [Function.update_of_ne hm]
        · rw [Function.update_of_ne (by simp only [ne_eq, Prod.mk.injEq]; tauto)]) mu hmu x
  have hlt : x * L.ND + mu < volume L * L.ND := by
    have : (x + 1) * L.ND ≤ volume L * L.ND := Nat.mul_le_mul_right _ hx
    rw [Nat.add_mul] at this
    omega
  rw [if_pos hlt, if_pos hlt] at h
  have h1 : (u1ify NC L alpha charge f lat).1 mu x = (((small_plan L (-1) (f mu) x).re * rv : ℝ) : ℂ) := h.1
  refine ⟨h1, ?_⟩
  rw [h1, ofReal_re]
  exact h.2

/-! ## Sums over momenta -/

theorem phase_opposite {L : Latt} (hL : Valid L) {k c : ℕ} (h : Opposite L k c) (x : ℕ) :
    exp (((2 * Real.pi * phase L c x : ℝ) : ℂ) * I) = exp (((-1 * (2 * Real.pi * phase L k x) : ℝ) : ℂ) * I) := by
  have e : ∃ n : ℤ, phase L c x = -phase L k x + n := by
    unfold phase
    have hm : ∀ mu ∈ range L.ND, ∃ n : ℤ, (coord L L.ND c mu : ℝ) * (coord L L.ND x mu : ℝ) / (L.dims mu : ℝ) =
        -((coord L L.ND k mu : ℝ) * (coord L L.ND x mu : ℝ) / (L.dims mu : ℝ)) + n := by
      intro mu hmu
      rw [mem_range] at hmu
      obtain ⟨q, hq⟩ := h mu hmu
      have hp : (L.dims mu : ℝ) ≠ 0 := by exact_mod_cast (hL.pos mu hmu).ne'
      have hq' : (coord L L.ND k mu : ℝ) + coord L L.ND c mu = L.dims mu * q := by exact_mod_cast hq
      refine ⟨((q * coord L L.ND x mu : ℕ) : ℤ), ?_⟩
      push_cast
      field_simp
      linear_combination (coord L L.ND x mu : ℝ) * hq'
    choose! n hn using hm
    refine ⟨∑ mu ∈ range L.ND, n mu, ?_⟩
    rw [sum_congr rfl hn, sum_add_distrib, sum_neg_distrib]
    push_cast
    rfl
  obtain ⟨n, hn⟩ := e
  rw [Complex.exp_eq_exp_iff_exists_int]
  refine ⟨n, ?_⟩
  rw [hn]
  push_cast
  ring

/-- The transform of a field with opposite momenta conjugate is real. -/
theorem transform_real {L : Latt} (hL : Valid L) (c : ℕ → ℕ) (hc : ∀ k < volume L, c k < volume L ∧ Opposite L k (c k))
    (g : ℕ → ℂ) (hg : ∀ k < volume L, g (c k) = star (g k)) (x : ℕ) : (small_plan L (-1) g x).im = 0 := by
  rw [← Complex.conj_eq_iff_im, small_plan_eq hL, map_sum]
  have hinv : ∀ k < volume L, c (c k) = k := fun k hk =>
    opposite_unique hL (hc _ (hc k hk).1).1 hk (hc _ (hc k hk).1).2 (opposite_symm (hc k hk).2)
  refine sum_nbij' c c (fun k hk => mem_range.2 (hc k (mem_range.1 hk)).1) (fun k hk => mem_range.2 (hc k (mem_range.1 hk)).1)
    (fun k hk => hinv k (mem_range.1 hk)) (fun k hk => hinv k (mem_range.1 hk)) fun k hk => ?_
  rw [mem_range] at hk
  rw [map_mul, hg k hk, ← exp_conj, map_mul, conj_ofReal, conj_I]
  congr 1
  have h1 := phase_opposite hL (opposite_symm (hc k hk).2) x
  rw [← h1]
  congr 1
  push_cast
  ring

/-- A sum over a time slice of a wave with a spatial momentum. -/
theorem slice_wave {L : Latt} (hL : Valid L) {k : ℕ} (hk : ¬ NoSpatial L k) (t : ℕ) :
    ∑ x ∈ range (volume L), (if coord L L.ND x (L.ND - 1) = t then exp (((-1 * (2 * Real.pi * phase L k x) : ℝ) : ℂ) * I) else 0) = 0 := by
  have hnd := hL.nd
  have e : ∀ x ∈ range (volume L), (if coord L L.ND x (L.ND - 1) = t then
      exp (((-1 * (2 * Real.pi * phase L k x) : ℝ) : ℂ) * I) else 0) =
      ∏ mu ∈ range L.ND, (fun mu c => if mu = L.ND - 1 ∧ c ≠ t then 0 else
        exp (((2 * Real.pi * ((c : ℝ) * ((-(coord L L.ND k mu : ℤ) : ℤ) : ℝ) / (L.dims mu : ℝ)) : ℝ) : ℂ) * I)) mu (coord L L.ND x mu) := by
    intro x _
    by_cases h : coord L L.ND x (L.ND - 1) = t
    · rw [if_pos h]
      have e2 : ∀ mu ∈ range L.ND, (fun mu c => if mu = L.ND - 1 ∧ c ≠ t then (0 : ℂ) else
        exp (((2 * Real.pi * ((c : ℝ) * ((-(coord L L.ND k mu : ℤ) : ℤ) : ℝ) / (L.dims mu : ℝ)) : ℝ) : ℂ) * I)) mu (coord L L.ND x mu) =
          exp (((2 * Real.pi * ((coord L L.ND x mu : ℝ) * ((-(coord L L.ND k mu : ℤ) : ℤ) : ℝ) / (L.dims mu : ℝ)) : ℝ) : ℂ) * I) := by
        intro mu _
        dsimp only
        rw [if_neg]
        rintro ⟨rfl, h2⟩
        exact h2 h
      rw [prod_congr rfl e2, ← Complex.exp_sum]
      congr 1
      rw [← sum_mul]
      congr 1
      unfold phase
      rw [← Complex.ofReal_sum]
      congr 1
      rw [mul_sum, mul_sum]
      refine sum_congr rfl fun mu _ => ?_
      push_cast
      ring
    · rw [if_neg h]
      symm
      refine prod_eq_zero (mem_range.2 (show L.ND - 1 < L.ND by omega)) ?_
      dsimp only
      rw [if_pos ⟨rfl, h⟩]
  rw [sum_congr rfl e]
  refine (sum_coords hL (fun mu c => if mu = L.ND - 1 ∧ c ≠ t then 0 else
        exp (((2 * Real.pi * ((c : ℝ) * ((-(coord L L.ND k mu : ℤ) : ℤ) : ℝ) / (L.dims mu : ℝ)) : ℝ) : ℂ) * I))).trans ?_
  unfold NoSpatial at hk
  push Not at hk
  obtain ⟨mu, hmu, h0⟩ := hk
  refine prod_eq_zero (mem_range.2 (show mu < L.ND by omega)) ?_
  have e3 : ∀ c ∈ range (L.dims mu), (if mu = L.ND - 1 ∧ c ≠ t then (0 : ℂ) else
        exp (((2 * Real.pi * ((c : ℝ) * ((-(coord L L.ND k mu : ℤ) : ℤ) : ℝ) / (L.dims mu : ℝ)) : ℝ) : ℂ) * I)) =
      exp (((2 * Real.pi * ((c : ℝ) * ((-(coord L L.ND k mu : ℤ) : ℤ) : ℝ) / (L.dims mu : ℝ)) : ℝ) : ℂ) * I) := by
    intro c _
    rw [if_neg (by omega)]
  rw [sum_congr rfl e3, sum_roots (hL.pos mu (by omega)), if_neg]
  intro hd
  rw [dvd_neg] at hd
  have hlt := coord_lt L hL.pos L.ND k (mu := mu) (by omega)
  have := Nat.le_of_dvd (by omega) (Int.natCast_dvd_natCast.1 hd)
  omega

/-- The transform of a field without purely temporal momenta adds up to zero on every time slice. -/
theorem slice_zero {L : Latt} (hL : Valid L) (g : ℕ → ℂ) (hg : ∀ k < volume L, NoSpatial L k → g k = 0) (t : ℕ) :
    ∑ x ∈ range (volume L), (if coord L L.ND x (L.ND - 1) = t then small_plan L (-1) g x else 0) = 0 := by
  have e : ∀ x ∈ range (volume L), (if coord L L.ND x (L.ND - 1) = t then small_plan L (-1) g x else 0) =
      ∑ k ∈ range (volume L), g k * (if coord L L.ND x (L.ND - 1) = t then exp (((-1 * (2 * Real.pi * phase L k x) : ℝ) : ℂ) * I) else 0) := by
    intro x _
    split_ifs with h
    · exact small_plan_eq hL _ _ _
    · simp
  rw [sum_congr rfl e, sum_comm]
  refine sum_eq_zero fun k hk => ?_
  rw [← mul_sum]
  by_cases h : NoSpatial L k
  · rw [hg k (mem_range.1 hk) h, zero_mul]
  · rw [slice_wave hL h, mul_zero]

end GLU.U1
