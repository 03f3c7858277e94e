import Verif.Gfix.Residual
import Verif.Gfix.DerivProps
import Verif.Gfix.OrProps
import Verif.Smear.GivensFixed
import Verif.Smear.GivensCases

/-!
# C85: residual gauge fixing

After Coulomb gauge fixing one gauge rotation per time slice remains.  `residual_fix` chooses them.
-/

namespace GLU.Gfix

open Complex Matrix Finset GLU.Mat GLU.Geom GLU.Field

/-! ## The model in matrices -/

/-- The average of the temporal links of a time slice (specification). -/
noncomputable def sliceAverage (NC : ℕ) (L : Latt) (lat : Gauge) (t : ℕ) : Matrix (Fin NC) (Fin NC) ℂ :=
  ((1 / (lcu L : ℝ) : ℝ) : ℂ) • ∑ i ∈ range (lcu L), link NC lat (lcu L * t + i) (L.ND - 1)

theorem temporalAverage_toM (NC : ℕ) (L : Latt) (scratch : Arr ℂ) (lat : Gauge) (t : ℕ) :
    toM NC (temporalAverage NC L scratch lat t) = sliceAverage NC L lat t := by
  have key := forN_inv (fun n (s : Arr ℂ) => toM NC s = ∑ i ∈ range n, link NC lat (lcu L * t + i) (L.ND - 1))
    (n := lcu L) (body := fun i sum => a_plus_b NC sum (lat (i + lcu L * t, L.ND - 1))) (s := zero_mat NC scratch)
    (by rw [C63_zero_mat, sum_range_zero])
    (fun i _ s hs => by
      rw [C63_a_plus_b, hs, sum_range_succ, Nat.add_comm i]
      rfl)
  unfold sliceAverage
  rw [← key]
  ext i j
  unfold temporalAverage
  simp only [toM_apply, mapN_apply, Matrix.smul_apply, smul_eq_mul]
  rw [if_pos, mul_comm]
  exact index_lt i.2 j.2

theorem gauges_spec {NC : ℕ} {L : Latt} (hN : 1 < NC) (scratch : Arr ℂ) (lat : Gauge) (n : ℕ) {g : ℕ → Arr ℂ}
    (h : forN n (fun t o => o.bind fun gauge =>
      (Smear.givens_reunit NC (temporalAverage NC L scratch lat t) scratch).map fun sum =>
        Function.update gauge (t + 1) (multab_suNC NC (gauge t) sum (gauge (t + 1))))
      (some fun _ => identity NC scratch) = some g) :
    (∀ t, IsSU NC (g t)) ∧ toM NC (g 0) = 1 ∧
      ∀ t < n, ∃ W, Smear.givens_reunit NC (temporalAverage NC L scratch lat t) scratch = some W ∧
        toM NC (g (t + 1)) = toM NC (g t) * toM NC W := by
  induction n generalizing g with
  | zero =>
    rw [forN] at h
    obtain rfl := Option.some.inj h
    refine ⟨fun t => ?_, C63_identity NC scratch, fun t ht => absurd ht (by omega)⟩
    unfold IsSU
    rw [C63_identity]
    exact one_mem _
  | succ n ih =>
    rw [forN] at h
    obtain ⟨g', hg', h⟩ := Option.bind_eq_some_iff.1 h
    obtain ⟨W, hW, rfl⟩ := Option.map_eq_some_iff.1 h
    obtain ⟨h1, h2, h3⟩ := ih hg'
    have hsu := (Smear.C84_projection hN hW).1
    obtain ⟨e1, e2⟩ := C11_multab_suNC (h1 n) hsu (g' (n + 1))
    refine ⟨fun t => ?_, ?_, fun t ht => ?_⟩
    · rw [Function.update_apply]
      split
      · exact e2
      · exact h1 t
    · rw [Function.update_of_ne (by omega)]; exact h2
    · rcases Nat.lt_succ_iff_lt_or_eq.1 ht with ht | rfl
      · rw [Function.update_of_ne (by omega), Function.update_of_ne (by omega)]
        exact h3 t ht
      · rw [Function.update_self, Function.update_of_ne (by omega)]
        exact ⟨W, hW, e1⟩

theorem site_other {NC : ℕ} {L : Latt} {scratch : Arr ℂ} {g : ℕ → Arr ℂ} {i j mu : ℕ} {lat : Gauge} (h : j ≠ i) :
    residual_site NC L scratch g i lat (j, mu) = lat (j, mu) := by
  have ne : ∀ nu, (j, mu) ≠ (i, nu) := fun nu e => h (congrArg Prod.fst e)
  unfold residual_site
  exact forN_inv (fun _ (s : Gauge) => s (j, mu) = lat (j, mu)) (Function.update_of_ne (ne _) _ _)
    (fun nu _ s hs => by rw [Function.update_of_ne (ne _)]; exact hs)

theorem site_self {NC : ℕ} {L : Latt} (hL : Valid L) {scratch : Arr ℂ} {g : ℕ → Arr ℂ} {i mu : ℕ} {lat : Gauge} (hmu : mu < L.ND) :
    residual_site NC L scratch g i lat (i, mu) = multab_suNC NC (g (i / lcu L)) (multab_dag_suNC NC (lat (i, mu))
      (g (if mu = L.ND - 1 then if i / lcu L = L.dims (L.ND - 1) - 1 then 0 else i / lcu L + 1 else i / lcu L)) scratch)
      (lat (i, mu)) := by
  have hnd := hL.nd
  have ne : ∀ a b : ℕ, a ≠ b → (i, a) ≠ (i, b) := fun a b h e => h (congrArg Prod.snd e)
  unfold residual_site
  by_cases h : mu = L.ND - 1
  · subst h
    rw [if_pos rfl]
    exact forN_inv (fun _ (s : Gauge) => s (i, L.ND - 1) = _) (Function.update_self _ _ _)
      (fun nu hnu s hs => by rw [Function.update_of_ne (ne _ _ (by omega))]; exact hs)
  · rw [if_neg h]
    have key := forN_inv (fun n (s : Gauge) => s (i, mu) = if mu < n then
        multab_suNC NC (g (i / lcu L)) (multab_dag_suNC NC (lat (i, mu)) (g (i / lcu L)) scratch) (lat (i, mu))
        else lat (i, mu)) (n := L.ND - 1) (body := fun nu lat => Function.update lat (i, nu)
          (multab_suNC NC (g (i / lcu L)) (multab_dag_suNC NC (lat (i, nu)) (g (i / lcu L)) scratch) (lat (i, nu))))
      (s := Function.update lat (i, L.ND - 1) (multab_suNC NC (g (i / lcu L)) (multab_dag_suNC NC (lat (i, L.ND - 1))
        (g (if i / lcu L = L.dims (L.ND - 1) - 1 then 0 else i / lcu L + 1)) scratch) (lat (i, L.ND - 1))))
      (by rw [Function.update_of_ne (ne _ _ h), if_neg (by omega)])
      (fun nu hnu s hs => by
        by_cases e : mu = nu
        · subst e
          rw [Function.update_self, hs, if_neg (by omega), if_pos (by omega)]
        · rw [Function.update_of_ne (ne _ _ e), hs]
          exact if_congr (by omega) rfl rfl)
    rw [if_pos (show mu < L.ND - 1 by omega)] at key
    exact key

theorem fold_site {NC : ℕ} {L : Latt} {scratch : Arr ℂ} {g : ℕ → Arr ℂ} {mu : ℕ} (order : List ℕ) (ho : order.Nodup) (lat : Gauge)
    (j : ℕ) :
    order.foldl (fun lat i => residual_site NC L scratch g i lat) lat (j, mu) =
      if j ∈ order then order.foldl (fun lat i => residual_site NC L scratch g i lat) lat (j, mu) else lat (j, mu) := by
  induction order generalizing lat with
  | nil => simp
  | cons a l ih =>
    rw [List.foldl_cons]
    split
    · rfl
    · next hj =>
      rw [List.mem_cons, not_or] at hj
      rw [ih (List.nodup_cons.1 ho).2, if_neg hj.2, site_other hj.1]

theorem fold_self {NC : ℕ} {L : Latt} (hL : Valid L) {scratch : Arr ℂ} {g : ℕ → Arr ℂ} {mu : ℕ} (hmu : mu < L.ND) (order : List ℕ)
    (ho : order.Nodup) (lat : Gauge) {j : ℕ} (hj : j ∈ order) :
    order.foldl (fun lat i => residual_site NC L scratch g i lat) lat (j, mu) =
      residual_site NC L scratch g j lat (j, mu) := by
  induction order generalizing lat with
  | nil => simp at hj
  | cons a l ih =>
    rw [List.foldl_cons]
    rw [List.nodup_cons] at ho
    by_cases e : j = a
    · subst e
      rw [fold_site l ho.2, if_neg ho.1]
    · rw [ih ho.2 _ ((List.mem_cons.1 hj).resolve_left e), site_self hL hmu, site_self hL hmu, site_other e]

/-- The time slice of the forward neighbour. -/
theorem neighbor_slice {L : Latt} (hL : Valid L) {i mu : ℕ} (hi : i < volume L) (hmu : mu < L.ND) :
    neighbor L i mu / lcu L =
      if mu = L.ND - 1 then if i / lcu L = L.dims (L.ND - 1) - 1 then 0 else i / lcu L + 1 else i / lcu L := by
  split
  · next h =>
    subst h
    obtain ⟨h1, h2, h3⟩ := slice_div hL hi
    have e : neighbor L i (L.ND - 1) / lcu L = (i / lcu L + 1) % L.dims (L.ND - 1) := by
      have := (slice_neighbor hL h1 h3).2
      conv_lhs => rw [h2, this, Nat.mul_add_div (lcu_pos hL), Nat.div_eq_of_lt h3, Nat.add_zero]
    rw [e]
    split
    · next h =>
      have : i / lcu L + 1 = L.dims (L.ND - 1) := by omega
      rw [this, Nat.mod_self]
    · next h =>
      generalize i / lcu L = t at *
      exact Nat.mod_eq_of_lt (by omega)
  · exact slice_keep hL hi (by omega)

/-! ## Theorems -/

/-- **C85**, what is done to the field, for every order of the parallel loop: a gauge transformation by special unitary matrices
that depend on the time only, the unit matrix at time zero, each the one before times the projection of the averaged temporal
link.  The return value is success. -/
theorem C85_transform {NC : ℕ} (hN : 1 < NC) {L : Latt} (hL : Valid L) {scratch : Arr ℂ} {lat lat' : Gauge} {order : List ℕ}
    {r : ℤ} (hU : SUField NC L lat) (ho : order.Perm (List.range (volume L)))
    (h : residual_fix NC L scratch true true order lat = some (lat', r)) :
    r = 0 ∧ ∃ g : ℕ → Arr ℂ, (∀ t, IsSU NC (g t)) ∧ toM NC (g 0) = 1 ∧
      (∀ t, t + 1 < L.dims (L.ND - 1) → ∃ S W, toM NC S = sliceAverage NC L lat t ∧
        Smear.givens_reunit NC S scratch = some W ∧ toM NC (g (t + 1)) = toM NC (g t) * toM NC W) ∧
      ∀ i < volume L, ∀ mu < L.ND,
        link NC lat' i mu = toM NC (g (i / lcu L)) * link NC lat i mu * (toM NC (g (neighbor L i mu / lcu L)))ᴴ := by
  unfold residual_fix at h
  rw [if_pos rfl, if_pos rfl] at h
  obtain ⟨g, hg, e⟩ := Option.map_eq_some_iff.1 h
  obtain ⟨e1, e2⟩ := Prod.mk.inj e
  obtain ⟨h1, h2, h3⟩ := gauges_spec hN scratch lat _ hg
  refine ⟨e2.symm, g, h1, h2, fun t ht => ?_, fun i hi mu hmu => ?_⟩
  · obtain ⟨W, hW, hg⟩ := h3 t (by omega)
    exact ⟨_, W, temporalAverage_toM NC L scratch lat t, hW, hg⟩
  · have hm : i ∈ order := ho.mem_iff.2 (List.mem_range.2 hi)
    unfold link
    rw [← e1, fold_self hL hmu order (ho.nodup_iff.2 List.nodup_range) lat hm, site_self hL hmu, neighbor_slice hL hi hmu]
    obtain ⟨a1, a2⟩ := C11_multab_dag_suNC (hU i hi mu hmu) (h1 (if mu = L.ND - 1 then
      if i / lcu L = L.dims (L.ND - 1) - 1 then 0 else i / lcu L + 1 else i / lcu L)) scratch
    rw [(C11_multab_suNC (h1 (i / lcu L)) a2 _).1, a1, Matrix.mul_assoc]

/-- **C85**: the result is on the gauge orbit, the links stay special unitary, and closed loops and the average plaquette do not
change. -/
theorem C85_orbit {NC : ℕ} (hN : 1 < NC) {L : Latt} (hL : Valid L) {scratch : Arr ℂ} {lat lat' : Gauge} {order : List ℕ}
    {r : ℤ} (hU : SUField NC L lat) (ho : order.Perm (List.range (volume L)))
    (h : residual_fix NC L scratch true true order lat = some (lat', r)) :
    Orbit NC L lat lat' ∧ SUField NC L lat' ∧ av_plaquette NC L lat' = av_plaquette NC L lat ∧
      ∀ p i, InDirs L p → i < volume L → pathEnd L i p = i → (along NC L lat' i p).trace = (along NC L lat i p).trace := by
  obtain ⟨-, g, h1, -, -, h4⟩ := C85_transform hN hL hU ho h
  have horb : Orbit NC L lat lat' := ⟨fun i => g (i / lcu L), fun i _ => h1 _, h4⟩
  exact ⟨horb, orbit_su hL horb hU, orbit_plaquette (by omega) hL horb hU, fun p i hp hi hc => orbit_loop hL horb hp hi hc⟩

/-- The divergence of the spatial links is rotated by the matrix of the time slice. -/
theorem divergence_slice {NC : ℕ} {L : Latt} (hL : Valid L) {lat lat' : Gauge} {g : ℕ → Arr ℂ} (hg : ∀ t, IsSU NC (g t))
    (h : ∀ i < volume L, ∀ mu < L.ND,
      link NC lat' i mu = toM NC (g (i / lcu L)) * link NC lat i mu * (toM NC (g (neighbor L i mu / lcu L)))ᴴ)
    {i : ℕ} (hi : i < volume L) :
    divergence NC L lat' i (L.ND - 1) =
      toM NC (g (i / lcu L)) * divergence NC L lat i (L.ND - 1) * (toM NC (g (i / lcu L)))ᴴ := by
  have hnd := hL.nd
  unfold divergence
  rw [Finset.mul_sum, Finset.sum_mul]
  refine sum_congr rfl fun mu hmu => ?_
  rw [mem_range] at hmu
  have hb := back_lt hL i (show mu < L.ND by omega)
  have eb : back L i mu / lcu L = i / lcu L := by
    rw [← slice_keep hL hb hmu, (C02_inverse hL hi (by omega)).2]
  rw [h _ hb _ (by omega), h _ hi _ (by omega), (C02_inverse hL hi (show mu < L.ND by omega)).2, eb, slice_keep hL hi hmu,
    lieHerm_conj (su_star_mul (hg _)) (su_mul_star (hg _)), lieHerm_conj (su_star_mul (hg _)) (su_mul_star (hg _)),
    Matrix.mul_sub, Matrix.sub_mul]

/-- **C85**: Coulomb gauge is kept.  On every site the divergence of the spatial links is turned by the matrix of the slice, so
its size and the real trace of every spatial link are the same as before, and it vanishes where it vanished. -/
theorem C85_coulomb {NC : ℕ} (hN : 1 < NC) {L : Latt} (hL : Valid L) {scratch : Arr ℂ} {lat lat' : Gauge} {order : List ℕ}
    {r : ℤ} (hU : SUField NC L lat) (ho : order.Perm (List.range (volume L)))
    (h : residual_fix NC L scratch true true order lat = some (lat', r)) {i : ℕ} (hi : i < volume L) :
    (∀ mu < L.ND - 1, (link NC lat' i mu).trace = (link NC lat i mu).trace) ∧
    (divergence NC L lat' i (L.ND - 1) * divergence NC L lat' i (L.ND - 1)).trace =
      (divergence NC L lat i (L.ND - 1) * divergence NC L lat i (L.ND - 1)).trace ∧
    (divergence NC L lat' i (L.ND - 1) = 0 ↔ divergence NC L lat i (L.ND - 1) = 0) := by
  obtain ⟨-, g, h1, -, -, h4⟩ := C85_transform hN hL hU ho h
  have hd := divergence_slice hL h1 h4 hi
  have s1 := su_star_mul (h1 (i / lcu L))
  have s2 := su_mul_star (h1 (i / lcu L))
  have hnd := hL.nd
  refine ⟨fun mu hmu => ?_, ?_, ?_⟩
  · rw [h4 i hi mu (by omega), slice_keep hL hi hmu]
    exact trace_conj s1
  · rw [hd]
    generalize toM NC (g (i / lcu L)) = G at *
    generalize divergence NC L lat i (L.ND - 1) = D at *
    have : G * D * Gᴴ * (G * D * Gᴴ) = G * (D * D) * Gᴴ := by
      calc _ = G * D * (Gᴴ * G) * D * Gᴴ := by simp only [Matrix.mul_assoc]
        _ = _ := by rw [s1]; simp only [Matrix.mul_assoc, Matrix.one_mul]
    rw [this]
    exact trace_conj s1
  · rw [hd]
    generalize toM NC (g (i / lcu L)) = G at *
    generalize divergence NC L lat i (L.ND - 1) = D at *
    refine ⟨fun e => ?_, fun e => by rw [e, Matrix.mul_zero, Matrix.zero_mul]⟩
    have : Gᴴ * (G * D * Gᴴ) * G = D := by
      calc _ = (Gᴴ * G) * D * (Gᴴ * G) := by simp only [Matrix.mul_assoc]
        _ = _ := by rw [s1, Matrix.one_mul, Matrix.mul_one]
    rw [← this, e, Matrix.mul_zero, Matrix.zero_mul]

/-- The average temporal link of the slice `t` after a transformation by matrices of the time slices. -/
theorem average_slice {NC : ℕ} {L : Latt} (hL : Valid L) {lat lat' : Gauge} {g : ℕ → Arr ℂ}
    (h : ∀ i < volume L, ∀ mu < L.ND,
      link NC lat' i mu = toM NC (g (i / lcu L)) * link NC lat i mu * (toM NC (g (neighbor L i mu / lcu L)))ᴴ)
    {t : ℕ} (ht : t + 1 < L.dims (L.ND - 1)) :
    sliceAverage NC L lat' t = toM NC (g t) * sliceAverage NC L lat t * (toM NC (g (t + 1)))ᴴ := by
  have hnd := hL.nd
  unfold sliceAverage
  rw [Matrix.mul_smul, Matrix.smul_mul, Finset.mul_sum, Finset.sum_mul]
  congr 1
  refine sum_congr rfl fun i hi => ?_
  rw [mem_range] at hi
  have hm := slice_mem (L := L) (show t < L.dims (L.ND - 1) by omega) hi
  have hv := mem_range.1 (mem_filter.1 hm).1
  have hd := (mem_filter.1 hm).2
  rw [h _ hv _ (by omega), neighbor_slice hL hv (by omega), if_pos rfl, hd, if_neg (by omega)]

/-- **C85**, what is gained: in every time slice but the last the averaged temporal link becomes `g M W† g†` where `M` was the
average and `W` its projection; its real trace is the overlap of `M` and `W`, at least the overlap of `M` with its
Gram-Schmidt orthonormalisation. -/
theorem C85_gain {NC : ℕ} (hN : 1 < NC) {L : Latt} (hL : Valid L) {scratch : Arr ℂ} {lat lat' : Gauge} {order : List ℕ}
    {r : ℤ} (hU : SUField NC L lat) (ho : order.Perm (List.range (volume L)))
    (h : residual_fix NC L scratch true true order lat = some (lat', r)) {t : ℕ} (ht : t + 1 < L.dims (L.ND - 1)) :
    ∃ S W G, toM NC S = sliceAverage NC L lat t ∧ Smear.givens_reunit NC S scratch = some W ∧
      gram_reunit NC S scratch = some G ∧
      (sliceAverage NC L lat' t).trace.re = Smear.overlap (sliceAverage NC L lat t) (toM NC W) ∧
      Smear.overlap (sliceAverage NC L lat t) (toM NC G) ≤ (sliceAverage NC L lat' t).trace.re := by
  obtain ⟨-, g, h1, -, h3, h4⟩ := C85_transform hN hL hU ho h
  obtain ⟨S, W, hS, hW, hg⟩ := h3 t ht
  obtain ⟨-, G, hG, hle, -⟩ := Smear.C84_projection hN hW
  have e : (sliceAverage NC L lat' t).trace.re = Smear.overlap (sliceAverage NC L lat t) (toM NC W) := by
    unfold Smear.overlap
    rw [average_slice hL h4 ht, hg, conjTranspose_mul, ← Matrix.mul_assoc, Matrix.mul_assoc (toM NC (g t)),
      trace_conj (su_star_mul (h1 t))]
  exact ⟨S, W, G, hS, hW, hG, e, by rw [e, ← hS]; exact hle⟩

/-- **C85**, two colours: no choice of matrices on the time slices gives a larger trace of the averaged temporal link of any slice
but the last. -/
theorem C85_best_two {L : Latt} (hL : Valid L) {scratch : Arr ℂ} {lat lat' lat'' : Gauge} {order : List ℕ} {r : ℤ}
    (hU : SUField 2 L lat) (ho : order.Perm (List.range (volume L)))
    (h : residual_fix 2 L scratch true true order lat = some (lat', r)) {g : ℕ → Arr ℂ} (hg : ∀ t, IsSU 2 (g t))
    (hg' : ∀ i < volume L, ∀ mu < L.ND,
      link 2 lat'' i mu = toM 2 (g (i / lcu L)) * link 2 lat i mu * (toM 2 (g (neighbor L i mu / lcu L)))ᴴ)
    {t : ℕ} (ht : t + 1 < L.dims (L.ND - 1)) :
    (sliceAverage 2 L lat'' t).trace.re ≤ (sliceAverage 2 L lat' t).trace.re := by
  obtain ⟨S, W, G, hS, hW, -, e, -⟩ := C85_gain (by norm_num) hL hU ho h ht
  have hV : (toM 2 (g t))ᴴ * toM 2 (g (t + 1)) ∈ specialUnitaryGroup (Fin 2) ℂ := isSU_mul (isSU_star (hg t)) (hg (t + 1))
  rw [e, ← hS]
  refine le_trans (le_of_eq ?_) (Smear.C84_two_colours hW hV).1
  unfold Smear.overlap
  rw [average_slice hL hg' ht, ← hS, conjTranspose_mul, conjTranspose_conjTranspose, ← Matrix.mul_assoc, trace_mul_comm,
    ← Matrix.mul_assoc, trace_mul_comm, ← Matrix.mul_assoc]

/-- **C85**: the convergence measure of Coulomb gauge does not change, and the field is a critical point of the Coulomb functional
if and only if it was. -/
theorem C85_critical {NC : ℕ} (hN : 1 < NC) {L : Latt} (hL : Valid L) {scratch : Arr ℂ} {lat lat' : Gauge} {order : List ℕ}
    {r : ℤ} (hU : SUField NC L lat) (ho : order.Perm (List.range (volume L)))
    (h : residual_fix NC L scratch true true order lat = some (lat', r)) :
    theta_test_lin NC L scratch lat' (L.ND - 1) = theta_test_lin NC L scratch lat (L.ND - 1) ∧
      (Critical NC L lat' (L.ND - 1) ↔ Critical NC L lat (L.ND - 1)) := by
  have hU' := (C85_orbit hN hL hU ho h).2.1
  have e : theta_test_lin NC L scratch lat' (L.ND - 1) = theta_test_lin NC L scratch lat (L.ND - 1) := by
    rw [C80_theta hN hL scratch hU (by omega), C80_theta hN hL scratch hU' (by omega)]
    congr 2
    exact sum_congr rfl fun i hi => by rw [(C85_coulomb hN hL hU ho h (mem_range.1 hi)).2.1]
  exact ⟨e, by rw [← (C80_zero hN hL scratch hU (by omega)).2.1, ← (C80_zero hN hL scratch hU' (by omega)).2.1, e]⟩

/-- **C85**, when it runs: memory is there and the projection of every averaged temporal link but the last is defined. -/
theorem C85_defined {NC : ℕ} {L : Latt} (scratch : Arr ℂ) (lat : Gauge) (order : List ℕ)
    (h : ∀ t, t + 1 < L.dims (L.ND - 1) → ∀ S, toM NC S = sliceAverage NC L lat t →
      ∃ W, Smear.givens_reunit NC S scratch = some W) :
    ∃ lat', residual_fix NC L scratch true true order lat = some (lat', 0) := by
  have key : ∀ n, n + 1 ≤ L.dims (L.ND - 1) ∨ n = 0 → ∃ g, forN n (fun t o => o.bind fun gauge =>
      (Smear.givens_reunit NC (temporalAverage NC L scratch lat t) scratch).map fun sum =>
        Function.update gauge (t + 1) (multab_suNC NC (gauge t) sum (gauge (t + 1))))
      (some fun _ => identity NC scratch) = some g := by
    intro n
    induction n with
    | zero => intro _; exact ⟨_, rfl⟩
    | succ n ih =>
      intro hn
      obtain ⟨g, hg⟩ := ih (by omega)
      obtain ⟨W, hW⟩ := h n (by omega) _ (temporalAverage_toM NC L scratch lat n)
      rw [forN, hg, Option.bind_some, hW]
      exact ⟨_, rfl⟩
  obtain ⟨g, hg⟩ := key (L.dims (L.ND - 1) - 1) (by omega)
  unfold residual_fix residual_gauges
  rw [if_pos rfl, if_pos rfl, hg]
  exact ⟨_, rfl⟩

/-- **C85**, fields with slice averages that are positive multiples of special unitary matrices: the fix is defined, the averages
become multiples of the unit matrix, and if they were already the links do not change. -/
theorem C85_aligned {NC : ℕ} (hN : 1 < NC) {L : Latt} (hL : Valid L) {scratch : Arr ℂ} {lat : Gauge} {order : List ℕ}
    (hU : SUField NC L lat) (ho : order.Perm (List.range (volume L))) {c : ℕ → ℝ} {V : ℕ → Arr ℂ} (hc : ∀ t, 0 < c t)
    (hV : ∀ t, IsSU NC (V t)) (hav : ∀ t, t + 1 < L.dims (L.ND - 1) → sliceAverage NC L lat t = (c t : ℂ) • toM NC (V t)) :
    ∃ lat', residual_fix NC L scratch true true order lat = some (lat', 0) ∧
      (∀ t, t + 1 < L.dims (L.ND - 1) → sliceAverage NC L lat' t = (c t : ℂ) • 1) ∧
      ((∀ t, toM NC (V t) = 1) → ∀ i < volume L, ∀ mu < L.ND, link NC lat' i mu = link NC lat i mu) := by
  obtain ⟨lat', hr⟩ := C85_defined (NC := NC) (L := L) scratch lat order (fun t ht S hS => by
    obtain ⟨W, hW, -⟩ := Smear.C84_fixes hN scratch (hV t) (hc t) (hS.trans (hav t ht))
    exact ⟨W, hW⟩)
  obtain ⟨-, g, h1, h2, h3, h4⟩ := C85_transform hN hL hU ho hr
  have step : ∀ t, t + 1 < L.dims (L.ND - 1) → toM NC (g (t + 1)) = toM NC (g t) * toM NC (V t) := by
    intro t ht
    obtain ⟨S, W, hS, hW, e⟩ := h3 t ht
    obtain ⟨W', hW', e'⟩ := Smear.C84_fixes hN scratch (hV t) (hc t) (hS.trans (hav t ht))
    rw [hW] at hW'
    rw [e, Option.some.inj hW', e']
  refine ⟨lat', hr, fun t ht => ?_, fun h1' i hi mu hmu => ?_⟩
  · rw [average_slice hL h4 ht, hav t ht, step t ht, conjTranspose_mul, Matrix.mul_smul, Matrix.smul_mul,
      ← Matrix.mul_assoc, Matrix.mul_assoc (toM NC (g t)) (toM NC (V t)), su_mul_star (hV t), Matrix.mul_one,
      su_mul_star (h1 t)]
  · have all : ∀ t, t < L.dims (L.ND - 1) → toM NC (g t) = 1 := by
      intro t
      induction t with
      | zero => intro _; exact h2
      | succ t ih => intro ht; rw [step t ht, ih (by omega), h1' t, Matrix.one_mul]
    rw [h4 i hi mu hmu, all _ (slice_div hL hi).1, all _ (slice_div hL (neighbor_lt hL i hmu)).1, Matrix.one_mul,
      conjTranspose_one, Matrix.mul_one]

/-- **C85**: if the temporal links do not depend on the position in space, all those but the ones of the last slice become the
unit matrix. -/
theorem C85_temporal {NC : ℕ} (hN : 1 < NC) {L : Latt} (hL : Valid L) {scratch : Arr ℂ} {lat : Gauge} {order : List ℕ}
    (hU : SUField NC L lat) (ho : order.Perm (List.range (volume L)))
    (hs : ∀ i < volume L, link NC lat i (L.ND - 1) = link NC lat (lcu L * (i / lcu L)) (L.ND - 1)) :
    ∃ lat', residual_fix NC L scratch true true order lat = some (lat', 0) ∧
      ∀ i < volume L, i / lcu L + 1 < L.dims (L.ND - 1) → link NC lat' i (L.ND - 1) = 1 := by
  have hp := lcu_pos hL
  have hnd := hL.nd
  have hav : ∀ t, t + 1 < L.dims (L.ND - 1) → sliceAverage NC L lat t = ((1 : ℝ) : ℂ) • link NC lat (lcu L * t) (L.ND - 1) := by
    intro t ht
    unfold sliceAverage
    rw [sum_congr rfl (fun i hi => by
      have hm := slice_mem (L := L) (show t < L.dims (L.ND - 1) by omega) (mem_range.1 hi)
      rw [hs _ (mem_range.1 (mem_filter.1 hm).1), (mem_filter.1 hm).2]), sum_const, card_range, ← Nat.cast_smul_eq_nsmul ℂ,
      smul_smul]
    congr 1
    have : (lcu L : ℂ) ≠ 0 := by exact_mod_cast hp.ne'
    push_cast
    field_simp
  have hin : ∀ t, t + 1 < L.dims (L.ND - 1) → lcu L * t < volume L := fun t ht => by
    have hm := slice_mem (L := L) (show t < L.dims (L.ND - 1) by omega) hp
    exact mem_range.1 (mem_filter.1 hm).1
  obtain ⟨lat', hr⟩ := C85_defined (NC := NC) (L := L) scratch lat order (fun t ht S hS => by
    obtain ⟨W, hW, -⟩ := Smear.C84_fixes hN scratch (hU _ (hin t ht) (L.ND - 1) (by omega)) one_pos (hS.trans (hav t ht))
    exact ⟨W, hW⟩)
  obtain ⟨-, g, h1, h2, h3, h4⟩ := C85_transform hN hL hU ho hr
  refine ⟨lat', hr, fun i hi ht => ?_⟩
  have hv := hU _ (hin _ ht) (L.ND - 1) (by omega)
  obtain ⟨S, W, hS, hW, e⟩ := h3 _ ht
  obtain ⟨W', hW', e'⟩ := Smear.C84_fixes hN scratch hv one_pos (hS.trans (hav _ ht))
  rw [hW] at hW'
  have e2 : toM NC W = link NC lat i (L.ND - 1) := by
    rw [Option.some.inj hW', e', hs i hi]; rfl
  rw [h4 i hi _ (by omega), neighbor_slice hL hi (by omega), if_pos rfl, if_neg (by omega), e, conjTranspose_mul, e2,
    ← Matrix.mul_assoc, Matrix.mul_assoc (toM NC _) (link NC lat i _)]
  have : link NC lat i (L.ND - 1) * (link NC lat i (L.ND - 1))ᴴ = 1 := su_mul_star (hU i hi _ (by omega))
  rw [this, Matrix.mul_one, su_mul_star (h1 _)]

/-! ## What fails -/

/-- A two-colour field with temporal links `1` on even and `-1` on odd sites. -/
noncomputable def staggered : Gauge := fun l => if l.1 % 2 = 1 ∧ l.2 = 3 then arr [-1, 0, 0, -1] else arr [1, 0, 0, 1]

theorem staggered_toM (i mu : ℕ) : link 2 staggered i mu = if i % 2 = 1 ∧ mu = 3 then -1 else 1 := by
  unfold link staggered
  dsimp only
  split
  · ext a b; fin_cases a <;> fin_cases b <;> simp [toM, arr]
  · ext a b; fin_cases a <;> fin_cases b <;> simp [toM, arr]

theorem neg_one_su : (-1 : Matrix (Fin 2) (Fin 2) ℂ) ∈ specialUnitaryGroup (Fin 2) ℂ := by
  rw [mem_specialUnitaryGroup_iff]
  refine ⟨mem_unitaryGroup_iff.2 (by simp), ?_⟩
  rw [det_neg, det_one]
  norm_num

/-- C85 is not defined for every field: there is a field of special unitary matrices for which the fix divides by zero. -/
theorem C85_undefined_fails : SUField 2 L2345 staggered ∧
    ∀ scratch order, residual_fix 2 L2345 scratch true true order staggered = none := by
  refine ⟨fun i _ mu _ => ?_, fun scratch order => ?_⟩
  · show link 2 staggered i mu ∈ _
    rw [staggered_toM]
    split
    · exact neg_one_su
    · exact one_mem _
  · have hz : sliceAverage 2 L2345 staggered 0 = 0 := by
      unfold sliceAverage
      have e : ∀ i, link 2 staggered (lcu L2345 * 0 + i) (L2345.ND - 1) = ((if i % 2 = 1 then -1 else 1 : ℤ) : ℂ) • 1 := by
        intro i
        rw [staggered_toM, Nat.mul_zero, Nat.zero_add]
        by_cases h : i % 2 = 1
        · rw [if_pos ⟨h, rfl⟩, if_pos h]; simp
        · rw [if_neg (fun c => h c.1), if_neg h]; simp
      rw [sum_congr rfl (fun i _ => e i), ← sum_smul, ← Int.cast_sum]
      have : ∑ i ∈ range (lcu L2345), (if i % 2 = 1 then -1 else 1 : ℤ) = 0 := by decide +kernel
      rw [this]
      simp
    rcases h : residual_fix 2 L2345 scratch true true order staggered with _ | r
    · rfl
    exfalso
    unfold residual_fix at h
    rw [if_pos rfl, if_pos rfl] at h
    obtain ⟨g, hg, -⟩ := Option.map_eq_some_iff.1 h
    obtain ⟨-, -, h3⟩ := gauges_spec (by norm_num) scratch staggered _ hg
    obtain ⟨W, hW, -⟩ := h3 0 (by decide)
    have hT := temporalAverage_toM 2 L2345 scratch staggered 0
    rw [hz] at hT
    have z : ∀ V : Matrix (Fin 2) (Fin 2) ℂ, Smear.overlap 0 V = 0 := fun V => by simp [Smear.overlap]
    have a1 := (Smear.C84_two_colours hW (one_mem (specialUnitaryGroup (Fin 2) ℂ))).2 (by rw [hT, z, z])
    have a2 := (Smear.C84_two_colours hW neg_one_su).2 (by rw [hT, z, z])
    have := congrFun (congrFun (a1.trans a2.symm) 0) 0
    norm_num at this

/-- C85: the caller cannot see that nothing was done.  If the table of matrices cannot be allocated the field is left alone and
the routine returns a failure, but the wrapper returns success; it also does so if the Coulomb fixing before it failed.  If one
of the matrices cannot be allocated the behaviour is undefined. -/
theorem C85_silent_fails (NC : ℕ) (L : Latt) (scratch : Arr ℂ) (order : List ℕ) (lat : Gauge) (status : ℤ) :
    residual_fix NC L scratch false true order lat = some (lat, -1) ∧
    wrap_coulomb_residual NC L scratch false true order (lat, status) = some (lat, 0) ∧
    residual_fix NC L scratch true false order lat = none := ⟨rfl, rfl, rfl⟩

/-- The hypotheses of C85 are met: a field of unit matrices on the `2 x 3 x 4 x 5` lattice. -/
example : ∃ lat', residual_fix 3 L2345 (fun _ => 0) true true (List.range (volume L2345)) (fun _ => identity 3 (fun _ => 0)) =
    some (lat', 0) ∧ ∀ i < volume L2345, i / lcu L2345 + 1 < L2345.dims (L2345.ND - 1) → link 3 lat' i (L2345.ND - 1) = 1 := by
  refine C85_temporal (by norm_num) valid_L2345 (fun i _ mu _ => ?_) (List.Perm.refl _) (fun i _ => rfl)
  unfold IsSU
  rw [C63_identity]
  exact one_mem _

end GLU.Gfix
