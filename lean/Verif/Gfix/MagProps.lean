import Verif.Gfix.MagLemmas
import Verif.Gfix.DerivProps

/-!
# C81: axial gauges
-/

namespace GLU.Gfix

open Complex GLU.Mat GLU.Geom GLU.Field Matrix Finset

/-! ## Specification -/

/-- The links of the maximal tree: direction `mu` at the sites whose higher coordinates are zero, except the last one
of each line. -/
def InTree (L : Latt) (i mu : ℕ) : Prop :=
  coord L L.ND i mu + 1 < L.dims mu ∧ ∀ nu, mu < nu → nu < L.ND → coord L L.ND i nu = 0

/-- All links of the tree are the identity. -/
def TreeFixed (NC : ℕ) (L : Latt) (lat : Gauge) : Prop :=
  ∀ i < volume L, ∀ mu < L.ND, InTree L i mu → link NC lat i mu = 1

/-- `V` is the transform of `U` by a gauge transformation that is the identity at the origin. -/
def BasedOrbit (NC : ℕ) (L : Latt) (U V : Gauge) : Prop :=
  ∃ g : ℕ → Arr ℂ, SUGauge NC L g ∧ toM NC (g 0) = 1 ∧ Transformed NC L g U V

/-! ## The result is in the gauge -/

theorem neighbor_coord {L : Latt} (hL : Valid L) {i mu nu : ℕ} (hmu : mu < L.ND) (hnu : nu < L.ND) (h : nu ≠ mu) :
    coord L L.ND (neighbor L i mu) nu = coord L L.ND i nu := by
  have := coord_neighbor hL i hmu hnu
  rw [if_neg h] at this
  exact_mod_cast this

theorem reunit_gives_su {NC : ℕ} (hN : 1 < NC) {L : Latt} {scratch : Arr ℂ} {lat lat' : Gauge}
    (h : latt_reunitU NC L scratch lat = some lat') : SUField NC L lat' := by
  have H := forN_inv (fun a (o : Option Gauge) => ∀ x, o = some x → ∀ i < a, ∀ mu < L.ND, IsSU NC (x (i, mu)))
    (n := volume L) (body := fun i o => forN L.ND (fun mu o => o.bind fun lat =>
      (gram_reunit NC (lat (i, mu)) scratch).map fun u => Function.update lat (i, mu) u) o) (s := some lat)
    (fun _ _ i hi => absurd hi (by omega)) (fun a ha o ho => by
      have K := forN_inv (fun b (o : Option Gauge) => ∀ x, o = some x →
          (∀ i < a, ∀ mu < L.ND, IsSU NC (x (i, mu))) ∧ ∀ mu < b, IsSU NC (x (a, mu))) (n := L.ND)
        (body := fun mu o => o.bind fun lat =>
          (gram_reunit NC (lat (a, mu)) scratch).map fun u => Function.update lat (a, mu) u) (s := o)
        (fun x hx => ⟨ho x hx, fun mu hmu => absurd hmu (by omega)⟩) (fun b hb o ho x hx => by
          rw [Option.bind_eq_some_iff] at hx
          obtain ⟨y, hy, hx⟩ := hx
          rw [Option.map_eq_some_iff] at hx
          obtain ⟨u, hu, rfl⟩ := hx
          have hsu := C15_special_unitary hN hu
          obtain ⟨p, q⟩ := ho y hy
          refine ⟨fun i hi mu hmu => ?_, fun mu hmu => ?_⟩
          · rw [Function.update_of_ne (by intro e; have := congrArg Prod.fst e; simp only at this; omega)]
            exact p i hi mu hmu
          · by_cases e : mu = b
            · subst e; rw [Function.update_self]; exact hsu
            · rw [Function.update_of_ne (by intro e'; exact e (congrArg Prod.snd e'))]
              exact q mu (by omega))
      intro x hx i hi mu hmu
      obtain ⟨p, q⟩ := K x hx
      by_cases e : i = a
      · subst e; exact q mu hmu
      · exact p i (by omega) mu hmu)
  exact H lat' h

theorem MAG_fix_spec {NC : ℕ} {L : Latt} (hL : Valid L) (scratch : Arr ℂ) {order : ℕ → ℕ → List ℕ}
    (ho : ∀ mu n, (order mu n).Perm (List.range n)) {lat : Gauge} (hU : SUField NC L lat) :
    SUField NC L (MAG_fix NC L scratch order lat) ∧ BasedOrbit NC L lat (MAG_fix NC L scratch order lat) ∧
    TreeFixed NC L (MAG_fix NC L scratch order lat) := by
  have hV : 0 < volume L := volume_pos hL
  have H := forN_inv (fun m (s : Gauge × (ℕ → Arr ℂ) × ℕ) => SUField NC L s.1 ∧ BasedOrbit NC L lat s.1 ∧
      (∀ i < volume L, ∀ mu < m, InTree L i mu → link NC s.1 i mu = 1) ∧ SUGauge NC L s.2.1 ∧
      (∀ k, radix L.dims m ≤ k → toM NC (s.2.1 k) = 1) ∧ s.2.2 = radix L.dims m) (n := L.ND)
    (body := fun mu (s : Gauge × (ℕ → Arr ℂ) × ℕ) =>
      (gtransform NC L (gauge_lines NC L s.1 mu (order mu s.2.2) s.2.1) s.1,
        gauge_lines NC L s.1 mu (order mu s.2.2) s.2.1, s.2.2 * L.dims mu))
    (s := (lat, fun _ => identity NC scratch, 1))
    ⟨hU, ⟨fun _ => identity NC scratch, fun _ _ => isSU_one (C63_identity NC _), C63_identity NC _,
        fun i _ mu _ => by simp [C63_identity]⟩, fun _ _ _ h => absurd h (by omega),
      fun _ _ => isSU_one (C63_identity NC _), fun _ _ => C63_identity NC _, by simp⟩
    (fun mu hmu s hs => by
      obtain ⟨h1, ⟨g0, hg0, hb, ht⟩, h3, h4, h5, h6⟩ := hs
      generalize s.1 = U at h1 ht h3 ⊢
      generalize s.2.1 = gauge at h4 h5 ⊢
      rw [h6]
      have hrad : radix L.dims (mu + 1) = radix L.dims mu * L.dims mu := radix_succ _ _
      have hmem : ∀ i, i ∈ order mu (radix L.dims mu) ↔ i < radix L.dims mu := fun i => by
        rw [(ho mu _).mem_iff, List.mem_range]
      have hst : ∀ i < radix L.dims mu, Start L mu i := fun i hi => by
        have hi' := lt_of_lt_of_le hi (radix_le_volume hL hmu.le)
        exact ⟨hi', (lt_radix_iff hL hi' hmu.le).1 hi mu le_rfl hmu⟩
      obtain ⟨a1, a2, a3⟩ := gauge_lines_line hL h1 hmu (starts := order mu (radix L.dims mu))
        (fun i hi => hst i ((hmem i).1 hi)) h4
      generalize gauge_lines NC L U mu (order mu (radix L.dims mu)) gauge = g at a1 a2 a3
      have hline : ∀ i < radix L.dims mu, Line NC L U mu i g := fun i hi => a2 i (hst i hi) (Or.inl ((hmem i).2 hi))
      obtain ⟨t1, t2⟩ := gtransform_transformed hL a1 h1
      have hr0 : 0 < radix L.dims mu := radix_pos hL.pos mu hmu.le
      refine ⟨t2, ⟨fun i => arrOf (toM NC (g i) * toM NC (g0 i)), fun i hi => ?_, ?_, fun i hi nu hnu => ?_⟩, ?_, a1, ?_,
        hrad.symm⟩
      · unfold IsSU; rw [toM_arrOf]; exact isSU_mul (a1 i hi) (hg0 i hi)
      · rw [toM_arrOf, hb, mul_one]; exact (hline 0 hr0).1
      · rw [toM_arrOf, toM_arrOf, t1 i hi nu hnu, ht i hi nu hnu, conjTranspose_mul]
        simp only [Matrix.mul_assoc]
      · intro i hi nu hnu htree
        rw [t1 i hi nu (by omega)]
        by_cases e : nu = mu
        · subst e
          obtain ⟨j, hj, hlt, hw, hc⟩ := on_line hL hmu hi
          have hjr : j < radix L.dims nu := by
            refine (lt_radix_iff hL hj.1 hmu.le).2 fun rho h1 h2 => ?_
            by_cases e : rho = nu
            · subst e; exact hj.2
            · rw [hc rho h2 e]; exact htree.2 rho (by omega) h2
          have hl := (hline j hjr).2 _ htree.1
          rw [walk_succ, ← hw] at hl
          rw [hl, conjTranspose_mul, Matrix.mul_assoc, ← Matrix.mul_assoc (link NC U i nu)]
          have := su_mul_star (h1 i hi nu hmu)
          unfold link
          rw [this, one_mul, su_mul_star (a1 i hi)]
        · have hlow : ∀ x < volume L, (∀ rho, nu < rho → rho < L.ND → coord L L.ND x rho = 0) → toM NC (g x) = 1 := by
            intro x hx hz
            exact (hline x ((lt_radix_iff hL hx hmu.le).2 fun rho h1 h2 => hz rho (by omega) h2)).1
          rw [hlow i hi htree.2, hlow _ (neighbor_lt hL i (by omega)) fun rho h1 h2 => by
            rw [neighbor_coord hL (by omega) h2 (by omega)]; exact htree.2 rho h1 h2, h3 i hi nu (by omega) htree]
          simp
      · intro k hk
        have hle : radix L.dims mu ≤ radix L.dims (mu + 1) := by
          rw [hrad]; exact Nat.le_mul_of_pos_right _ (hL.pos mu hmu)
        dsimp only
        rw [a3 k]
        · exact h5 k (by omega)
        · intro i hi n hn e
          have hi' := (hmem i).1 hi
          have hs := hst i hi'
          have hkv : k < volume L := by rw [e]; exact walk_lt hL hmu hs.1 n
          have : k < radix L.dims (mu + 1) := (lt_radix_iff hL hkv hmu).2 fun rho h1 h2 => by
            rw [e, walk_coord hL hmu hs.2 hn h2, if_neg (by omega)]
            exact (lt_radix_iff hL hs.1 hmu.le).1 hi' rho (by omega) h2
          omega)
  exact ⟨H.1, H.2.1, H.2.2.1⟩

/-- **C81**, maximal axial gauge: whatever field is given, if its links can be projected to the group at all, the
routine succeeds and returns a gauge transform of the projected field, by a transformation that is the identity at the
origin, in which every link of the maximal tree is the identity. -/
theorem C81_mag {NC : ℕ} (hN : 1 < NC) {L : Latt} (hL : Valid L) (scratch : Arr ℂ) {order : ℕ → ℕ → List ℕ}
    (ho : ∀ mu n, (order mu n).Perm (List.range n)) {lat U : Gauge} (h : latt_reunitU NC L scratch lat = some U) :
    ∃ lat', mag NC L scratch true order lat = some (lat', 0) ∧ SUField NC L lat' ∧ BasedOrbit NC L U lat' ∧
      TreeFixed NC L lat' ∧ av_plaquette NC L lat' = av_plaquette NC L U := by
  have hU := reunit_gives_su hN h
  obtain ⟨h1, ⟨g, hg, hb, ht⟩, h3⟩ := MAG_fix_spec hL scratch ho hU
  obtain ⟨lat', e, he⟩ := latt_reunitU_su hN (scratch := scratch) h1
  have ho' : Transformed NC L g U lat' := fun i hi mu hmu => by rw [he i hi mu hmu]; exact ht i hi mu hmu
  refine ⟨lat', ?_, reunit_gives_su hN e, ⟨g, hg, hb, ho'⟩, fun i hi mu hmu htr => ?_,
    orbit_plaquette (by omega) hL ⟨g, hg, ho'⟩ hU⟩
  · unfold mag
    rw [h, Option.bind_some]
    simp only [if_true, e, Option.map_some]
  · rw [he i hi mu hmu]; exact h3 i hi mu hmu htr

/-- **C81**, a special unitary field is projected to itself, so the hypothesis of `C81_mag` holds and the result is a
gauge transform of the input. -/
theorem C81_mag_su {NC : ℕ} (hN : 1 < NC) {L : Latt} (hL : Valid L) (scratch : Arr ℂ) {order : ℕ → ℕ → List ℕ}
    (ho : ∀ mu n, (order mu n).Perm (List.range n)) {lat : Gauge} (hU : SUField NC L lat) :
    ∃ lat', mag NC L scratch true order lat = some (lat', 0) ∧ SUField NC L lat' ∧ BasedOrbit NC L lat lat' ∧
      TreeFixed NC L lat' := by
  obtain ⟨U, e, he⟩ := latt_reunitU_su hN (scratch := scratch) hU
  obtain ⟨lat', h1, h2, ⟨g, hg, hb, ht⟩, h4, -⟩ := C81_mag hN hL scratch ho e
  exact ⟨lat', h1, h2, ⟨g, hg, hb, fun i hi mu hmu => by rw [ht i hi mu hmu, he i hi mu hmu]⟩, h4⟩

/-! ## The gauge is complete -/

/-- **C81**, completeness: a gauge transformation between two fields in the maximal axial gauge is constant, so nothing
but a global rotation is left. -/
theorem C81_complete {NC : ℕ} {L : Latt} (hL : Valid L) {U V : Gauge} (hU : TreeFixed NC L U) (hV : TreeFixed NC L V)
    {g : ℕ → Arr ℂ} (hg : SUGauge NC L g) (h : Transformed NC L g U V) :
    ∀ i < volume L, toM NC (g i) = toM NC (g 0) := by
  have hV0 : 0 < volume L := volume_pos hL
  have step : ∀ i < volume L, ∀ mu < L.ND, InTree L i mu → toM NC (g (neighbor L i mu)) = toM NC (g i) := by
    intro i hi mu hmu ht
    have e := h i hi mu hmu
    rw [hU i hi mu hmu ht, hV i hi mu hmu ht, mul_one] at e
    have hs := su_star_mul (hg _ (neighbor_lt hL i hmu))
    calc toM NC (g (neighbor L i mu)) = toM NC (g i) * (toM NC (g (neighbor L i mu)))ᴴ * toM NC (g (neighbor L i mu)) := by
          rw [← e, one_mul]
      _ = toM NC (g i) := by rw [Matrix.mul_assoc, hs, mul_one]
  have low : ∀ m ≤ L.ND, ∀ i < volume L, (∀ nu, m ≤ nu → nu < L.ND → coord L L.ND i nu = 0) →
      toM NC (g i) = toM NC (g 0) := by
    intro m
    induction m with
    | zero =>
      intro _ i hi hz
      have : i < radix L.dims 0 := (lt_radix_iff hL hi (by omega)).2 hz
      rw [radix_zero] at this
      rw [show i = 0 by omega]
    | succ m ih =>
      intro hm i hi hz
      obtain ⟨j, hj, hlt, hw, hc⟩ := on_line hL (show m < L.ND by omega) hi
      have hjz : ∀ nu, m ≤ nu → nu < L.ND → coord L L.ND j nu = 0 := fun nu h1 h2 => by
        by_cases e : nu = m
        · subst e; exact hj.2
        · rw [hc nu h2 e]; exact hz nu (by omega) h2
      rw [← ih (by omega) j hj.1 hjz]
      have : ∀ n, n < L.dims m → toM NC (g (walk L m n j)) = toM NC (g j) := by
        intro n
        induction n with
        | zero => intro _; rfl
        | succ n ihn =>
          intro hn
          rw [walk_succ, step _ (walk_lt hL (by omega) hj.1 n) m (by omega), ihn (by omega)]
          refine ⟨?_, fun nu h1 h2 => ?_⟩
          · rw [walk_coord hL (by omega) hj.2 (by omega) (by omega), if_pos rfl]; exact hn
          · rw [walk_coord hL (by omega) hj.2 (by omega) h2, if_neg (by omega)]; exact hjz nu (by omega) h2
      rw [hw]
      exact this _ hlt
  exact fun i hi => low L.ND le_rfl i hi fun nu h1 h2 => by omega

/-- **C81**, canonical form: gauge equivalent fields are brought to the same field up to one global rotation, whatever
the order in which the threads take the lines. -/
theorem C81_canonical {NC : ℕ} (hN : 1 < NC) {L : Latt} (hL : Valid L) (scratch : Arr ℂ)
    {order order' : ℕ → ℕ → List ℕ} (ho : ∀ mu n, (order mu n).Perm (List.range n))
    (ho' : ∀ mu n, (order' mu n).Perm (List.range n)) {lat1 lat2 : Gauge} (hU : SUField NC L lat1)
    {g : ℕ → Arr ℂ} (hg : SUGauge NC L g) (h : Transformed NC L g lat1 lat2) :
    ∃ V1 V2, mag NC L scratch true order lat1 = some (V1, 0) ∧ mag NC L scratch true order' lat2 = some (V2, 0) ∧
      ∀ i < volume L, ∀ mu < L.ND, link NC V2 i mu = toM NC (g 0) * link NC V1 i mu * (toM NC (g 0))ᴴ := by
  have hV0 : 0 < volume L := volume_pos hL
  have hU2 := orbit_su hL ⟨g, hg, h⟩ hU
  obtain ⟨V1, e1, s1, ⟨g1, hg1, b1, t1⟩, f1⟩ := C81_mag_su hN hL scratch ho hU
  obtain ⟨V2, e2, s2, ⟨g2, hg2, b2, t2⟩, f2⟩ := C81_mag_su hN hL scratch ho' hU2
  refine ⟨V1, V2, e1, e2, ?_⟩
  have hk : SUGauge NC L fun i => arrOf (toM NC (g2 i) * toM NC (g i) * (toM NC (g1 i))ᴴ) := fun i hi => by
    unfold IsSU; rw [toM_arrOf]
    exact mul_mem (mul_mem (hg2 i hi) (hg i hi)) (isSU_star (hg1 i hi))
  have ht : Transformed NC L (fun i => arrOf (toM NC (g2 i) * toM NC (g i) * (toM NC (g1 i))ᴴ)) V1 V2 := by
    intro i hi mu hmu
    rw [toM_arrOf, toM_arrOf, t2 i hi mu hmu, h i hi mu hmu, t1 i hi mu hmu]
    have a := su_star_mul (hg1 i hi)
    have b := su_star_mul (hg1 _ (neighbor_lt hL i hmu))
    simp only [conjTranspose_mul, conjTranspose_conjTranspose, Matrix.mul_assoc]
    rw [cancel_left a, cancel_left b]
  have hc := C81_complete hL f1 f2 hk ht
  intro i hi mu hmu
  rw [ht i hi mu hmu, hc i hi, hc _ (neighbor_lt hL i hmu), toM_arrOf, b1, b2]
  simp

/-! ## The axial gauge in one direction -/

theorem axialSubvolume_eq (L : Latt) (DIR : ℕ) :
    axialSubvolume L DIR = radix (fun i => if i ≠ DIR then L.dims i else 1) L.ND := by
  unfold axialSubvolume
  generalize L.ND = n
  induction n with
  | zero => rfl
  | succ n ih => rw [forN, ih, radix_succ]

theorem subvol_reduced (L : Latt) (DIR k : ℕ) : subvol L DIR k = radix (fun i => if i ≠ DIR then L.dims i else 1) k := by
  induction k with
  | zero => rfl
  | succ k ih =>
    rw [subvol, radix_succ, ih]
    split_ifs <;> simp

theorem coord_reduced (L : Latt) (DIR i mu : ℕ) : coord L DIR i mu =
    i / radix (fun i => if i ≠ DIR then L.dims i else 1) mu % (if mu ≠ DIR then L.dims mu else 1) := by
  unfold coord
  split_ifs
  · rw [sub_mod_div, subvol_reduced]
  · rw [Nat.mod_one]

/-- The starts of the lines are exactly the sites with vanishing coordinate in the direction. -/
theorem axial_starts {L : Latt} (hL : Valid L) {DIR : ℕ} (hD : DIR < L.ND) :
    (∀ i, ∃ x, get_mom_2piBZ L i DIR = some x ∧ Start L DIR (gen_site L x)) ∧
    ∀ k, Start L DIR k → ∃ i < axialSubvolume L DIR, (get_mom_2piBZ L i DIR).map (gen_site L) = some k := by
  have hdef : MomDefined L DIR := by
    intro mu hmu _
    refine ⟨hL.pos mu hmu, lt_of_le_of_lt ?_ (hL.radix_lt (le_refl L.ND))⟩
    have h1 : ∀ k ≤ L.ND, radix (fun i => if i ≠ DIR then L.dims i else 1) k ≤ radix L.dims k := by
      intro k hk
      refine prod_le_prod' fun j hj => ?_
      rw [mem_range] at hj
      split_ifs
      · exact le_rfl
      · exact hL.pos j (by omega)
    rw [subvol_reduced]
    exact (h1 mu hmu.le).trans (radix_le hL.pos hmu.le)
  have hget : ∀ i, get_mom_2piBZ L i DIR = some fun mu => (coord L DIR i mu : ℤ) := fun i => if_pos hdef
  constructor
  · intro i
    have hx := coord_inRange hL DIR i
    refine ⟨_, hget i, gen_site_lt hL hx, ?_⟩
    have := coord_gen_site hL hx hD
    rw [coord_self] at this
    exact_mod_cast this
  · intro k hk
    have hlt : ∀ j < L.ND, coord L L.ND k j < (fun i => if i ≠ DIR then L.dims i else 1) j := by
      intro j hj
      beta_reduce
      split_ifs with e
      · exact coord_lt L hL.pos L.ND k hj
      · rw [not_not.1 e, hk.2]; omega
    refine ⟨_, by rw [axialSubvolume_eq]; exact sum_lt_radix hlt, ?_⟩
    rw [hget, Option.map_some, Option.some_inj, ← gen_site_coord hL hk.1]
    refine gen_site_congr (by omega) fun mu hmu => ?_
    have := digit_of_sum hlt hmu
    rw [coord_reduced]
    rw [gen_site_coord hL hk.1]
    exact_mod_cast this

/-- **C81**, axial gauge: the routine succeeds and returns a gauge transform of the projected field in which every link
in the chosen direction is the identity, except the last one of each line. -/
theorem C81_axial {NC : ℕ} (hN : 1 < NC) {L : Latt} (hL : Valid L) (scratch : Arr ℂ) {order : ℕ → List ℕ}
    (ho : ∀ n, (order n).Perm (List.range n)) {DIR : ℕ} (hD : DIR < L.ND) {lat U : Gauge}
    (h : latt_reunitU NC L scratch lat = some U) :
    ∃ lat', axial_gauge NC L scratch true order lat DIR = some (lat', 0) ∧ SUField NC L lat' ∧ Orbit NC L U lat' ∧
      av_plaquette NC L lat' = av_plaquette NC L U ∧
      ∀ i < volume L, coord L L.ND i DIR + 1 < L.dims DIR → link NC lat' i DIR = 1 := by
  have hU := reunit_gives_su hN h
  obtain ⟨hs1, hs2⟩ := axial_starts hL hD
  obtain ⟨starts, hst⟩ : ∃ starts, (order (axialSubvolume L DIR)).mapM
      (fun i => (get_mom_2piBZ L i DIR).map (gen_site L)) = some starts := by
    generalize order (axialSubvolume L DIR) = l
    induction l with
    | nil => exact ⟨[], rfl⟩
    | cons a l ih =>
      obtain ⟨s, hs⟩ := ih
      obtain ⟨x, hx, -⟩ := hs1 a
      exact ⟨gen_site L x :: s, by rw [List.mapM_cons, hx, hs]; rfl⟩
  have hmem : ∀ k, k ∈ starts ↔ ∃ i ∈ order (axialSubvolume L DIR), (get_mom_2piBZ L i DIR).map (gen_site L) = some k := by
    generalize order (axialSubvolume L DIR) = l at hst
    induction l generalizing starts with
    | nil =>
      rw [List.mapM_nil] at hst
      cases hst
      simp
    | cons a l ih =>
      rw [List.mapM_cons] at hst
      obtain ⟨x, hx, hst⟩ := Option.bind_eq_some_iff.1 hst
      obtain ⟨s, hs, hst⟩ := Option.bind_eq_some_iff.1 hst
      cases hst
      intro k
      rw [List.mem_cons, ih s hs k]
      simp only [List.mem_cons, exists_eq_or_imp, hx, Option.some_inj]
      exact or_congr eq_comm Iff.rfl
  have hall : ∀ k, k ∈ starts ↔ Start L DIR k := by
    intro k
    rw [hmem]
    constructor
    · rintro ⟨i, -, e⟩
      obtain ⟨x, hx, hk⟩ := hs1 i
      rw [hx, Option.map_some, Option.some_inj] at e
      rw [← e]; exact hk
    · intro hk
      obtain ⟨i, hi, e⟩ := hs2 k hk
      exact ⟨i, (ho _).mem_iff.2 (List.mem_range.2 hi), e⟩
  obtain ⟨a1, a2, -⟩ := gauge_lines_line hL hU hD (starts := starts) (fun i hi => (hall i).1 hi)
    (g := fun _ => identity NC scratch) (fun _ _ => isSU_one (C63_identity NC _))
  set g := gauge_lines NC L U DIR starts (fun _ => identity NC scratch) with hgd
  obtain ⟨t1, t2⟩ := gtransform_transformed hL a1 hU
  obtain ⟨lat', e, he⟩ := latt_reunitU_su hN (scratch := scratch) t2
  have ht : Transformed NC L g U lat' := fun i hi mu hmu => by rw [he i hi mu hmu]; exact t1 i hi mu hmu
  refine ⟨lat', ?_, reunit_gives_su hN e, ⟨g, a1, ht⟩, orbit_plaquette (by omega) hL ⟨g, a1, ht⟩ hU, ?_⟩
  · unfold axial_gauge
    rw [h, Option.bind_some, if_pos rfl, hst, Option.bind_some]
    simp only [← hgd, e, Option.map_some]
  · intro i hi hlt
    rw [ht i hi DIR hD]
    obtain ⟨j, hj, -, hw, -⟩ := on_line hL hD hi
    have hl := (a2 j hj (Or.inl ((hall j).2 hj))).2 _ hlt
    rw [walk_succ, ← hw] at hl
    rw [hl, conjTranspose_mul, Matrix.mul_assoc, ← Matrix.mul_assoc (link NC U i DIR)]
    have := su_mul_star (hU i hi DIR hD)
    unfold link
    rw [this, one_mul, su_mul_star (a1 i hi)]

/-- The hypotheses are met by a field that is not in the gauge, and the link that is not the identity is changed. -/
example (scratch : Arr ℂ) : ∃ lat', mag 2 L2345 scratch true (fun _ n => (List.range n).reverse) spike = some (lat', 0) ∧
    link 2 spike 0 0 ≠ 1 ∧ link 2 lat' 0 0 = 1 := by
  obtain ⟨lat', h1, -, -, h4⟩ := C81_mag_su (by norm_num) valid_L2345 scratch
    (order := fun _ n => (List.range n).reverse) (fun _ n => List.reverse_perm _) (spike_su _)
  refine ⟨lat', h1, fun h => ?_, h4 0 (by decide) 0 (by decide) ⟨by decide, fun nu _ h => ?_⟩⟩
  · have := congrArg Complex.re (congrFun (congrFun h 0) 0)
    simp [link, spike, arr] at this
  · have h' : nu < 4 := h
    interval_cases nu <;> decide

end GLU.Gfix
