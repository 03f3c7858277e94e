import Verif.Field.CloverProps
import Mathlib.Analysis.Real.Pi.Bounds

/-!
# Symmetries, threads and the measurement of the charge (C76, continued)
-/

namespace GLU.Field

open Complex GLU.Mat GLU.Geom GLU.Sched Matrix Finset

/-! ## Symmetries of the lattice -/

/-- What a symmetry does to the four directions: a permutation, and which ones it reverses. -/
structure AxisMap where
  perm : Equiv.Perm (Fin 4)
  flips : Fin 4 → Bool

/-- The image of a step. -/
def AxisMap.step (A : AxisMap) (s : Step) : Step :=
  if h : s.1 < 4 then (A.perm ⟨s.1, h⟩, s.2 ^^ A.flips ⟨s.1, h⟩) else s

/-- The sign a direction gets. -/
def AxisMap.sgn (A : AxisMap) (mu : Fin 4) : ℝ := if A.flips mu then -1 else 1

/-- The determinant of the matrix of the symmetry. -/
def AxisMap.det (A : AxisMap) : ℝ := (Equiv.Perm.sign A.perm : ℝ) * ∏ mu, A.sgn mu

/-- `R` is a one-to-one map of the sites of the lattice that takes neighbours to neighbours as the axis map says. -/
structure Symmetry (L : Latt) (A : AxisMap) (R : ℕ → ℕ) : Prop where
  lt : ∀ i < volume L, R i < volume L
  inj : ∀ i < volume L, ∀ j < volume L, R i = R j → i = j
  hop : ∀ i < volume L, ∀ s : Step, s.1 < 4 → hop L (R i) (A.step s) = R (hop L i s)

/-- `lat'` is the field `lat` seen through the symmetry: a link is the link (or, backwards, its conjugate) it is moved
to. -/
def Moved (NC : ℕ) (L : Latt) (A : AxisMap) (R : ℕ → ℕ) (lat lat' : Gauge) : Prop :=
  ∀ i < volume L, ∀ mu < 4, link NC lat' i mu = hopLink NC L lat (R i) (A.step (mu, true))

theorem AxisMap.step_lt (A : AxisMap) {s : Step} (h : s.1 < 4) : (A.step s).1 < 4 := by
  unfold AxisMap.step
  rw [dif_pos h]
  exact (A.perm ⟨s.1, h⟩).2

theorem AxisMap.step_rev (A : AxisMap) (s : Step) : A.step (rev s) = rev (A.step s) := by
  unfold AxisMap.step rev
  by_cases h : s.1 < 4
  · simp [h]
  · simp [h]

theorem map_rect (A : AxisMap) (a : Step) (m : ℕ) (b : Step) (n : ℕ) :
    (rect a m b n).map A.step = rect (A.step a) m (A.step b) n := by
  simp [rect, AxisMap.step_rev]

theorem hopLink_moved {NC : ℕ} {L : Latt} (hL : Valid L) (h4 : L.ND = 4) {A : AxisMap} {R : ℕ → ℕ} (hR : Symmetry L A R)
    {lat lat' : Gauge} (h : Moved NC L A R lat lat') {i : ℕ} (hi : i < volume L) {s : Step} (hs : s.1 < 4) :
    hopLink NC L lat' i s = hopLink NC L lat (R i) (A.step s) := by
  obtain ⟨mu, b⟩ := s
  cases b with
  | true => exact h i hi mu hs
  | false =>
    have hb := back_lt hL i (mu := mu) (by rw [h4]; exact hs)
    have e : hopLink NC L lat' i (mu, false) = (link NC lat' (back L i mu) mu)ᴴ := rfl
    rw [e, h _ hb mu hs]
    have e2 : R (back L i mu) = hop L (R i) (A.step (mu, false)) := (hR.hop i hi (mu, false) hs).symm
    have e3 : A.step (mu, true) = rev (A.step (mu, false)) := by rw [← AxisMap.step_rev]; rfl
    rw [e2, e3, hopLink_rev hL lat (hR.lt i hi) (by rw [h4]; exact A.step_lt hs), conjTranspose_conjTranspose]

theorem along_moved {NC : ℕ} {L : Latt} (hL : Valid L) (h4 : L.ND = 4) {A : AxisMap} {R : ℕ → ℕ} (hR : Symmetry L A R)
    {lat lat' : Gauge} (h : Moved NC L A R lat lat') {p : List Step} (hp : InDirs L p) {i : ℕ} (hi : i < volume L) :
    along NC L lat' i p = along NC L lat (R i) (p.map A.step) := by
  induction p generalizing i with
  | nil => rfl
  | cons s p ih =>
    have hs := hp s List.mem_cons_self
    have hs4 : s.1 < 4 := by omega
    rw [List.map_cons, along, along, hopLink_moved hL h4 hR h hi hs4,
      ih (fun t ht => hp t (List.mem_cons_of_mem _ ht)) (hop_lt hL i hs), hR.hop i hi s hs4]

theorem leafSum_moved {NC : ℕ} {L : Latt} (hL : Valid L) (h4 : L.ND = 4) {A : AxisMap} {R : ℕ → ℕ} (hR : Symmetry L A R)
    {df : FmunuDef} (hdf : df = .plaquette → ∀ mu, A.flips mu = false)
    {lat lat' : Gauge} (h : Moved NC L A R lat lat') {i : ℕ} (hi : i < volume L) (mu nu : Fin 4) :
    leafSum NC L df lat' i mu nu = if (A.flips mu ^^ A.flips nu) = true
      then (leafSum NC L df lat (R i) (A.perm mu) (A.perm nu))ᴴ
      else leafSum NC L df lat (R i) (A.perm mu) (A.perm nu) := by
  have hd : ∀ a : Fin 4, (a : ℕ) < L.ND := fun a => by rw [h4]; exact a.2
  have hst : ∀ (a : Fin 4) b, A.step ((a : ℕ), b) = ((A.perm a : ℕ), b ^^ A.flips a) := by
    intro a b
    unfold AxisMap.step
    simp
  have key : ∀ (a b : Fin 4) x y m n, along NC L lat' i (rect ((a : ℕ), x) m ((b : ℕ), y) n) =
      along NC L lat (R i) (rect ((A.perm a : ℕ), x ^^ A.flips a) m ((A.perm b : ℕ), y ^^ A.flips b) n) := by
    intro a b x y m n
    rw [along_moved hL h4 hR h (rect_inDirs (hd a) (hd b) m n) hi, map_rect, hst, hst]
  have hRi := hR.lt i hi
  have sw : ∀ (a b : Fin 4) x y m n, (along NC L lat (R i) (rect ((a : ℕ), x) m ((b : ℕ), y) n))ᴴ =
      along NC L lat (R i) (rect ((b : ℕ), y) n ((a : ℕ), x) m) := fun a b x y m n =>
    (along_rect_swap hL lat hRi (a := ((a : ℕ), x)) (b := ((b : ℕ), y)) (hd a) (hd b) m n).symm
  cases df with
  | plaquette =>
    have hf := hdf rfl
    simp only [hf, Bool.xor_false, Bool.false_eq_true, if_false]
    unfold leafSum loops
    simp only [List.map_cons, List.map_nil, key, hf, Bool.xor_false]
  | _ =>
    cases h1 : A.flips mu <;> cases h2 : A.flips nu <;>
    · simp only [Bool.xor_false, Bool.xor_true, Bool.not_true, Bool.not_false, Bool.false_eq_true, if_false, if_true]
      unfold leafSum loops shapes leaves
      simp only [List.map_cons, List.map_nil, List.flatMap_cons, List.flatMap_nil, List.sum_cons, List.sum_nil,
        List.cons_append, List.nil_append, key, h1, h2, Bool.xor_false, Bool.xor_true, Bool.not_true, Bool.not_false,
        conjTranspose_add, conjTranspose_smul, conjTranspose_zero, Complex.star_def, Complex.conj_ofReal, sw]
      try abel

theorem Fmunu_moved {NC : ℕ} {L : Latt} (hL : Valid L) (h4 : L.ND = 4) {A : AxisMap} {R : ℕ → ℕ} (hR : Symmetry L A R)
    {df : FmunuDef} (hdf : df = .plaquette → ∀ mu, A.flips mu = false)
    {lat lat' : Gauge} (h : Moved NC L A R lat lat') {i : ℕ} (hi : i < volume L) (mu nu : Fin 4) :
    Fmunu NC L df lat' i mu nu = ((A.sgn mu * A.sgn nu : ℝ) : ℂ) • Fmunu NC L df lat (R i) (A.perm mu) (A.perm nu) := by
  unfold Fmunu
  rw [leafSum_moved hL h4 hR hdf h hi mu nu]
  unfold AxisMap.sgn
  cases A.flips mu <;> cases A.flips nu <;> simp [lieHerm_star]

theorem planeAction_moved {NC : ℕ} {L : Latt} (hL : Valid L) (h4 : L.ND = 4) {A : AxisMap} {R : ℕ → ℕ} (hR : Symmetry L A R)
    {df : FmunuDef} (hdf : df = .plaquette → ∀ mu, A.flips mu = false)
    {lat lat' : Gauge} (h : Moved NC L A R lat lat') {i : ℕ} (hi : i < volume L) (mu nu : Fin 4) :
    planeAction NC L df lat' i mu nu = planeAction NC L df lat (R i) (A.perm mu) (A.perm nu) := by
  cases df with
  | plaquette =>
    have hl := leafSum_moved hL h4 hR hdf h hi mu nu
    simp only [hdf rfl, Bool.xor_false, Bool.false_eq_true, if_false] at hl
    unfold leafSum loops at hl
    simp only [List.map_cons, List.map_nil, List.sum_cons, List.sum_nil, ofReal_one, one_smul, add_zero] at hl
    simp only [planeAction, hl]
  | _ =>
    simp only [planeAction]
    rw [Fmunu_moved hL h4 hR hdf h hi mu nu, Matrix.smul_mul, Matrix.mul_smul, smul_smul, Matrix.trace_smul, smul_eq_mul]
    have : ((A.sgn mu * A.sgn nu : ℝ) : ℂ) * ((A.sgn mu * A.sgn nu : ℝ) : ℂ) = 1 := by
      unfold AxisMap.sgn
      split <;> split <;> simp
    rw [this, one_mul]

theorem Fmunu_self {NC : ℕ} {L : Latt} (hL : Valid L) (df : FmunuDef) (lat : Gauge) {i mu : ℕ}
    (hi : i < volume L) (hmu : mu < L.ND) : Fmunu NC L df lat i mu mu = 0 := by
  have := Fmunu_swap (NC := NC) hL df lat hi hmu hmu
  have h2 : (2 : ℂ) • Fmunu NC L df lat i mu mu = 0 := by
    rw [two_smul]
    nth_rewrite 2 [this]
    exact add_neg_cancel _
  exact (smul_eq_zero.1 h2).resolve_left (by norm_num)

theorem planeAction_self {NC : ℕ} {L : Latt} (hL : Valid L) (df : FmunuDef) {lat : Gauge} (hU : SUField NC L lat) {i mu : ℕ}
    (hi : i < volume L) (hmu : mu < L.ND) : planeAction NC L df lat i mu mu = 0 := by
  cases df with
  | plaquette =>
    have h := C02_inverse hL hi hmu
    have hm := su_mul_star (hU i hi mu hmu)
    have hm2 := su_mul_star (hU _ (neighbor_lt hL i hmu) mu hmu)
    simp only [planeAction]
    have h2 := C02_inverse hL (neighbor_lt hL i hmu) hmu
    path_simp
    rw [h2.1, h.1]
    unfold link
    rw [cancel_left hm2, hm]
    simp
  | _ =>
    simp only [planeAction]
    rw [Fmunu_self hL _ lat hi hmu]
    simp

theorem planes_half (f : ℕ → ℕ → ℝ) (hs : ∀ a < 4, ∀ b < 4, f a b = f b a) (h0 : ∀ a < 4, f a a = 0) :
    ∑ mu ∈ range 4, ∑ nu ∈ range mu, f mu nu = (1 / 2) * ∑ a : Fin 4, ∑ b : Fin 4, f a b := by
  rw [six_planes f hs]
  simp only [Fin.sum_univ_four]
  have f2 : ((2 : Fin 4) : ℕ) = 2 := rfl
  have f3 : ((3 : Fin 4) : ℕ) = 3 := rfl
  simp only [Fin.val_zero, Fin.val_one, f2, f3]
  rw [h0 0 (by norm_num), h0 1 (by norm_num), h0 2 (by norm_num), h0 3 (by norm_num), hs 0 (by norm_num) 3 (by norm_num),
    hs 1 (by norm_num) 3 (by norm_num), hs 2 (by norm_num) 3 (by norm_num), hs 0 (by norm_num) 2 (by norm_num),
    hs 1 (by norm_num) 0 (by norm_num), hs 2 (by norm_num) 1 (by norm_num)]
  ring

/-- **C76**, site by site: under a symmetry of the lattice the action moves with the site and the charge gets the
determinant of the symmetry as a factor. -/
theorem C76_symmetry_site {NC : ℕ} {L : Latt} (hL : Valid L) (h4 : L.ND = 4) {A : AxisMap} {R : ℕ → ℕ} (hR : Symmetry L A R)
    {df : FmunuDef} (hdf : df = .plaquette → ∀ mu, A.flips mu = false) {lat lat' : Gauge} (hU : SUField NC L lat)
    (hU' : SUField NC L lat') (h : Moved NC L A R lat lat') {i : ℕ} (hi : i < volume L) :
    siteAction NC L df lat' i = siteAction NC L df lat (R i) ∧
    siteCharge NC L df lat' i = A.det * siteCharge NC L df lat (R i) := by
  have hRi := hR.lt i hi
  constructor
  · unfold siteAction
    congr 1
    rw [planes_half _ (fun a ha b hb => planeAction_swap hL df lat' hi (by omega) (by omega))
        (fun a ha => planeAction_self hL df hU' hi (by omega)),
      planes_half _ (fun a ha b hb => planeAction_swap hL df lat hRi (by omega) (by omega))
        (fun a ha => planeAction_self hL df hU hRi (by omega))]
    congr 1
    simp only [planeAction_moved hL h4 hR hdf h hi]
    rw [Equiv.sum_comp A.perm (fun a : Fin 4 => ∑ b : Fin 4, planeAction NC L df lat (R i) a (A.perm b))]
    exact sum_congr rfl fun a _ => Equiv.sum_comp A.perm (fun b : Fin 4 => planeAction NC L df lat (R i) a b)
  · unfold siteCharge
    rw [← mul_assoc, mul_comm A.det, mul_assoc (scale df)]
    congr 1
    rw [mul_sum]
    rw [← Equiv.sum_comp (Equiv.mulLeft A.perm) (fun s : Equiv.Perm (Fin 4) => A.det * (((Equiv.Perm.sign s : ℤ) : ℝ) *
      (Matrix.trace (Fmunu NC L df lat (R i) (s 0) (s 1) * Fmunu NC L df lat (R i) (s 2) (s 3))).re))]
    refine sum_congr rfl fun s _ => ?_
    simp only [Fmunu_moved hL h4 hR hdf h hi, Equiv.coe_mulLeft, Equiv.Perm.mul_apply, Equiv.Perm.sign_mul]
    rw [Matrix.smul_mul, Matrix.mul_smul, smul_smul, Matrix.trace_smul, smul_eq_mul, ← ofReal_mul, Complex.re_ofReal_mul]
    have hp : ∏ mu, A.sgn mu = A.sgn (s 0) * A.sgn (s 1) * (A.sgn (s 2) * A.sgn (s 3)) := by
      rw [← Equiv.prod_comp s, Fin.prod_univ_four]
      ring
    have hsq : ((Equiv.Perm.sign A.perm : ℤ) : ℝ) * ((Equiv.Perm.sign A.perm : ℤ) : ℝ) = 1 := by
      rcases Int.units_eq_one_or (Equiv.Perm.sign A.perm) with e | e <;> rw [e] <;> norm_num
    unfold AxisMap.det
    rw [hp]
    push_cast
    linear_combination (-(A.sgn (s 0) * A.sgn (s 1) * (A.sgn (s 2) * A.sgn (s 3)) * ((Equiv.Perm.sign s : ℤ) : ℝ) *
      (Matrix.trace (Fmunu NC L df lat (R i) (A.perm (s 0)) (A.perm (s 1)) *
        Fmunu NC L df lat (R i) (A.perm (s 2)) (A.perm (s 3)))).re)) * hsq

theorem sum_symmetry {L : Latt} {A : AxisMap} {R : ℕ → ℕ} (hR : Symmetry L A R) (f : ℕ → ℝ) :
    ∑ i ∈ range (volume L), f (R i) = ∑ i ∈ range (volume L), f i := by
  have hinj : Set.InjOn R (range (volume L)) := fun i hi j hj e =>
    hR.inj i (mem_range.1 hi) j (mem_range.1 hj) e
  have himg : (range (volume L)).image R = range (volume L) := by
    refine Finset.eq_of_subset_of_card_le ?_ (by rw [card_image_of_injOn hinj])
    intro x hx
    obtain ⟨i, hi, rfl⟩ := mem_image.1 hx
    exact mem_range.2 (hR.lt i (mem_range.1 hi))
  rw [← sum_image (f := f) hinj, himg]

/-- **C76**: under every symmetry of the lattice the measured action is unchanged, and the measured charge is
multiplied with the determinant of the symmetry: it is unchanged by translations and rotations and changes sign under a
reflection. The plaquette definition is only covered for symmetries without reversed directions. -/
theorem C76_symmetry_partial {NC : ℕ} (hN : NC = 2 ∨ NC = 3) {L : Latt} (hL : Valid L) (h4 : L.ND = 4) {A : AxisMap} {R : ℕ → ℕ}
    (hR : Symmetry L A R) {df : FmunuDef} (hdf : df = .plaquette → ∀ mu, A.flips mu = false) {lat lat' : Gauge}
    (hU : SUField NC L lat) (hU' : SUField NC L lat') (h : Moved NC L A R lat lat') :
    ∃ GG Q, compute_Gmunu NC L df lat = some (GG, Q) ∧ compute_Gmunu NC L df lat' = some (GG, A.det * Q) := by
  refine ⟨_, _, C76_value_partial hN hL h4 df hU, ?_⟩
  rw [C76_value_partial hN hL h4 df hU']
  have e1 : ∑ i ∈ range (volume L), siteAction NC L df lat' i = _ :=
    sum_congr rfl fun i hi => (C76_symmetry_site hL h4 hR hdf hU hU' h (mem_range.1 hi)).1
  have e2 : ∑ i ∈ range (volume L), siteCharge NC L df lat' i = _ :=
    sum_congr rfl fun i hi => (C76_symmetry_site hL h4 hR hdf hU hU' h (mem_range.1 hi)).2
  rw [e1, e2, sum_symmetry hR (fun i => siteAction NC L df lat i), ← mul_sum,
    sum_symmetry hR (fun i => siteCharge NC L df lat i)]
  congr 2
  ring

/-! ### Examples of symmetries -/

/-- Reversal of direction `r`. -/
def mirrorMap (r : Fin 4) : AxisMap := ⟨1, fun mu => decide (mu = r)⟩

/-- The site with coordinate `r` reversed. -/
def mirror (L : Latt) (r i : ℕ) : ℕ :=
  gen_site L (Function.update (fun mu => (coord L L.ND i mu : ℤ)) r ((-1 - (coord L L.ND i r : ℤ)) % L.dims r))

theorem mirror_lt {L : Latt} (hL : Valid L) {r : ℕ} (hr : r < L.ND) (i : ℕ) : mirror L r i < volume L :=
  gen_site_lt hL (inRange_update (coord_inRange hL _ _) _ (hL.pos r hr))

theorem coord_mirror {L : Latt} (hL : Valid L) {r : ℕ} (hr : r < L.ND) (i : ℕ) {nu : ℕ} (hnu : nu < L.ND) :
    (coord L L.ND (mirror L r i) nu : ℤ) =
      if nu = r then (-1 - (coord L L.ND i r : ℤ)) % L.dims r else coord L L.ND i nu := by
  unfold mirror
  rw [coord_gen_site hL (inRange_update (coord_inRange hL _ _) _ (hL.pos r hr)) hnu, Function.update_apply]

theorem mirror_mirror {L : Latt} (hL : Valid L) {r : ℕ} (hr : r < L.ND) {i : ℕ} (hi : i < volume L) :
    mirror L r (mirror L r i) = i := by
  refine site_ext hL (mirror_lt hL hr _) hi fun nu hnu => ?_
  have h := coord_mirror hL hr (mirror L r i) hnu
  rw [coord_mirror hL hr i hr, if_pos rfl, coord_mirror hL hr i hnu] at h
  have hc := coord_inRange hL L.ND i r hr
  split at h
  · next e =>
    subst e
    rw [Int.sub_emod, Int.emod_emod, ← Int.sub_emod, sub_sub_cancel, Int.emod_eq_of_lt hc.1 hc.2] at h
    dsimp only at h
    exact_mod_cast h
  · exact_mod_cast h

theorem mirror_symmetry {L : Latt} (hL : Valid L) (h4 : L.ND = 4) (r : Fin 4) : Symmetry L (mirrorMap r) (mirror L r) := by
  have hd : ∀ a : Fin 4, (a : ℕ) < L.ND := fun a => by rw [h4]; exact a.2
  refine ⟨fun i _ => mirror_lt hL (hd r) i, fun i hi j hj e => ?_, ?_⟩
  · rw [← mirror_mirror hL (hd r) hi, e, mirror_mirror hL (hd r) hj]
  · intro i hi s hs
    obtain ⟨mu, b⟩ := s
    have hmu : mu < L.ND := by rw [h4]; exact hs
    have hst : (mirrorMap r).step (mu, b) = (mu, b ^^ decide (mu = r)) := by
      unfold AxisMap.step mirrorMap
      rw [dif_pos hs]
      simp [Fin.ext_iff]
    rw [hst]
    refine site_ext hL (hop_lt hL _ hmu) (mirror_lt hL (hd r) _) fun nu hnu => ?_
    have hm := coord_mirror hL (hd r) (hop L i (mu, b)) hnu
    have e : (coord L L.ND (hop L (mirror L r i) (mu, b ^^ decide (mu = r))) nu : ℤ) = coord L L.ND (mirror L r (hop L i (mu, b))) nu := by
      rw [hm]
      by_cases hr : mu = r
      · subst hr
        cases b <;> simp only [hop, Bool.false_xor, Bool.true_xor, decide_true, Bool.not_true, Bool.false_eq_true, if_true, if_false]
        · rw [coord_neighbor hL _ hmu hnu, coord_mirror hL (hd r) i (hd r), if_pos rfl, coord_back hL _ hmu hmu, if_pos rfl,
            coord_mirror hL (hd r) i hnu, coord_back hL _ hmu hnu]
          split
          · rw [Int.emod_add_emod, Int.sub_emod (-1) (_ % _), Int.emod_emod, ← Int.sub_emod]
            congr 1; ring
          · rfl
        · rw [coord_back hL _ hmu hnu, coord_mirror hL (hd r) i (hd r), if_pos rfl, coord_neighbor hL _ hmu hmu, if_pos rfl,
            coord_mirror hL (hd r) i hnu, coord_neighbor hL _ hmu hnu]
          split
          · rw [Int.sub_emod (_ % _), Int.emod_emod, ← Int.sub_emod, Int.sub_emod (-1) (_ % _), Int.emod_emod, ← Int.sub_emod]
            congr 1; ring
          · rfl
      · have hdr : decide (mu = (r : ℕ)) = false := by simpa using hr
        rw [hdr, Bool.xor_false]
        cases b <;> simp only [hop, Bool.false_eq_true, if_true, if_false]
        · rw [coord_back hL _ hmu hnu, coord_mirror hL (hd r) i hmu, if_neg hr, coord_back hL _ hmu (hd r),
            if_neg (Ne.symm hr), coord_mirror hL (hd r) i hnu, coord_back hL _ hmu hnu]
          split <;> split <;> first | rfl | omega
        · rw [coord_neighbor hL _ hmu hnu, coord_mirror hL (hd r) i hmu, if_neg hr, coord_neighbor hL _ hmu (hd r),
            if_neg (Ne.symm hr), coord_mirror hL (hd r) i hnu, coord_neighbor hL _ hmu hnu]
          split <;> split <;> first | rfl | omega
    exact_mod_cast e

theorem mirror_det (r : Fin 4) : (mirrorMap r).det = -1 := by
  unfold AxisMap.det AxisMap.sgn mirrorMap
  simp [Finset.prod_ite_eq']

/-- A reflection changes the sign of the charge: the symmetry of `C76_symmetry_partial` exists on every lattice, for every
direction, and has determinant -1. -/
theorem C76_reflection_partial {NC : ℕ} (hN : NC = 2 ∨ NC = 3) {L : Latt} (hL : Valid L) (h4 : L.ND = 4) (r : Fin 4)
    {df : FmunuDef} (hdf : df ≠ .plaquette) {lat lat' : Gauge} (hU : SUField NC L lat) (hU' : SUField NC L lat')
    (h : Moved NC L (mirrorMap r) (mirror L r) lat lat') :
    ∃ GG Q, compute_Gmunu NC L df lat = some (GG, Q) ∧ compute_Gmunu NC L df lat' = some (GG, -Q) := by
  obtain ⟨GG, Q, h1, h2⟩ := C76_symmetry_partial hN hL h4 (mirror_symmetry hL h4 r) (fun e => absurd e hdf) hU hU' h
  refine ⟨GG, Q, h1, ?_⟩
  rw [h2, mirror_det, neg_one_mul]

/-- A shift by one site is a symmetry with determinant 1. -/
theorem shift_symmetry {L : Latt} (hL : Valid L) (h4 : L.ND = 4) {mu : ℕ} (hmu : mu < 4) :
    Symmetry L ⟨1, fun _ => false⟩ (fun i => neighbor L i mu) ∧ (⟨1, fun _ => false⟩ : AxisMap).det = 1 := by
  have hmu' : mu < L.ND := by omega
  refine ⟨⟨fun i _ => neighbor_lt hL i hmu', fun i hi j hj e => ?_, ?_⟩, ?_⟩
  · rw [← (C02_inverse hL hi hmu').1, e, (C02_inverse hL hj hmu').1]
  · intro i hi s hs
    have : (⟨1, fun _ => false⟩ : AxisMap).step s = s := by
      unfold AxisMap.step
      rw [dif_pos hs]
      simp
    rw [this]
    exact hop_comm hL (s := (mu, true)) hmu' (by omega)
  · simp [AxisMap.det, AxisMap.sgn]

/-- **C76**: a shift of the configuration by one site in any direction changes neither action nor charge. -/
theorem C76_translation_partial {NC : ℕ} (hN : NC = 2 ∨ NC = 3) {L : Latt} (hL : Valid L) (h4 : L.ND = 4) {mu : ℕ} (hmu : mu < 4)
    (df : FmunuDef) {lat : Gauge} (hU : SUField NC L lat) :
    compute_Gmunu NC L df (fun l => lat (neighbor L l.1 mu, l.2)) = compute_Gmunu NC L df lat := by
  obtain ⟨hs, hd⟩ := shift_symmetry hL h4 hmu
  obtain ⟨GG, Q, h1, h2⟩ := C76_symmetry_partial hN hL h4 hs (df := df) (fun _ _ => rfl) hU
    (lat' := fun l => lat (neighbor L l.1 mu, l.2))
    (fun i _ nu hnu => hU _ (neighbor_lt hL i (by omega)) nu hnu) (by
      intro i hi nu hnu
      have : (⟨1, fun _ => false⟩ : AxisMap).step (nu, true) = (nu, true) := by
        unfold AxisMap.step
        rw [dif_pos hnu]
        simp
      rw [this]
      rfl)
  rw [h1, h2, hd, one_mul]

/-! ### The moved field exists -/

/-- The row-major array of a matrix. -/
noncomputable def arrOf {NC : ℕ} (A : Matrix (Fin NC) (Fin NC) ℂ) : Arr ℂ := fun n =>
  if h : n / NC < NC ∧ n % NC < NC then A ⟨n / NC, h.1⟩ ⟨n % NC, h.2⟩ else 0

theorem toM_arrOf {NC : ℕ} (A : Matrix (Fin NC) (Fin NC) ℂ) : toM NC (arrOf A) = A := by
  ext i j
  have hN : 0 < NC := by have := i.2; omega
  have h1 : ((j : ℕ) + NC * i) / NC = i := by
    rw [Nat.add_mul_div_left _ _ hN, Nat.div_eq_of_lt j.2, zero_add]
  have h2 : ((j : ℕ) + NC * i) % NC = j := by rw [Nat.add_mul_mod_self_left, Nat.mod_eq_of_lt j.2]
  rw [toM_apply, arrOf]
  rw [dif_pos (by rw [h1, h2]; exact ⟨i.2, j.2⟩)]
  congr 1
  · exact Fin.ext h1
  · exact Fin.ext h2

/-- The hypotheses of `C76_symmetry_partial` are met by every field: it can be moved by every symmetry. -/
theorem moved_exists {NC : ℕ} {L : Latt} (hL : Valid L) (h4 : L.ND = 4) {A : AxisMap} {R : ℕ → ℕ} (hR : Symmetry L A R)
    {lat : Gauge} (hU : SUField NC L lat) : ∃ lat', SUField NC L lat' ∧ Moved NC L A R lat lat' := by
  refine ⟨fun l => arrOf (hopLink NC L lat (R l.1) (A.step (l.2, true))), fun i hi mu hmu => ?_, fun i _ mu _ => ?_⟩
  · show IsSU NC (arrOf _)
    rw [IsSU, toM_arrOf]
    exact hopLink_mem hL hU (hR.lt i hi) (by rw [h4]; exact A.step_lt (by show mu < 4; omega))
  · exact toM_arrOf _

/-- In particular the charge changes sign under reflections: a configuration and its mirror image exist with opposite
charges. -/
example {L : Latt} (hL : Valid L) (h4 : L.ND = 4) {lat : Gauge} (hU : SUField 3 L lat) :
    ∃ lat' GG Q, SUField 3 L lat' ∧ compute_Gmunu 3 L .standard lat = some (GG, Q) ∧
      compute_Gmunu 3 L .standard lat' = some (GG, -Q) := by
  obtain ⟨lat', h1, h2⟩ := moved_exists hL h4 (mirror_symmetry hL h4 0) hU
  obtain ⟨GG, Q, h3⟩ := C76_reflection_partial (df := .standard) (Or.inr rfl) hL h4 0 (by simp) hU h1 h2
  exact ⟨lat', GG, Q, h1, h3⟩

end GLU.Field
