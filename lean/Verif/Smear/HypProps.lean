import Verif.Smear.HypMat

/-! # Properties of hypercubic smearing (C89) -/

namespace GLU.Smear

open GLU.Geom GLU.Sched GLU.Mat GLU.Field Complex Matrix

variable {M : Type}

/-! ## The iteration -/

theorem HYsmearND_iter (L : Latt) (D : Dress M) (dirs n : ℕ) (s : St M Unit) :
    HYsmearND L D dirs n s = forN n (fun _ s => sweep L dirs (hypLink L D dirs) s) s := by
  unfold HYsmearND
  split
  · next h => subst h; rfl
  · rfl

/-- **C89**, order: the buffered, slice by slice routine performs `smiters` simultaneous updates of all links in the first
`directions` directions, each link from the links before the iteration, whatever is in the buffers. -/
theorem C89_simultaneous {L : Latt} (hL : Valid L) (D : Dress M) {directions : ℕ} (hd : directions ≤ L.ND) (smiters : ℕ)
    (s : St M Unit) :
    (HYsmearND L D directions smiters s).lat =
      ((simultaneous L directions (hypLink L D directions))^[smiters] (s.lat, s.z)).1 := by
  rw [HYsmearND_iter]
  have key : ∀ n, ((forN n (fun _ s => sweep L directions (hypLink L D directions) s) s).lat,
      (forN n (fun _ s => sweep L directions (hypLink L D directions) s) s).z) =
      (simultaneous L directions (hypLink L D directions))^[n] (s.lat, s.z) := by
    intro n
    induction n with
    | zero => rfl
    | succ n ih => rw [forN_succ, sweep_eq hL hd (hyp_reads hL D hd), ih, Function.iterate_succ_apply']
  exact congrArg Prod.fst (key smiters)

/-- **C89**, hypercubes: the smeared link of direction `mu` at `x` depends on links of the hypercubes attached to the link
only: sites whose coordinate differs from that of `x` by at most one in every smeared direction, by `0` or `+1` in direction
`mu`, and not at all in the other directions. -/
theorem C89_hypercube {L : Latt} (hL : Valid L) (D : Dress M) {directions : ℕ} (hd : directions ≤ L.ND) {lat lat' : Loc → M}
    {x mu : ℕ} (hx : x < volume L) (hmu : mu < directions)
    (h : ∀ y < volume L, (∀ d < L.ND,
        if d = mu then coord L L.ND y d = coord L L.ND x d ∨ coord L L.ND y d = (coord L L.ND x d + 1) % L.dims d
        else if d < directions then coord L L.ND y d = coord L L.ND x d ∨ coord L L.ND y d = (coord L L.ND x d + 1) % L.dims d ∨
          (coord L L.ND y d + 1) % L.dims d = coord L L.ND x d
        else coord L L.ND y d = coord L L.ND x d) →
      ∀ nu < directions, lat (y, nu) = lat' (y, nu)) :
    hypLink L D directions lat () x mu = hypLink L D directions lat' () x mu := by
  unfold hypLink
  rw [rec_congr hL D hd (lat := lat) (lat' := lat') _ [] hmu hx]
  intro y hy hc
  refine h y hy fun d hdd => ?_
  have := hc d hdd
  simp only [List.not_mem_nil, false_or] at this
  split
  · next e => rw [if_pos e] at this; exact this
  · next e =>
    rw [if_neg e] at this
    split
    · next f => rw [if_neg (by omega)] at this; exact this
    · next f => rw [if_pos (by omega)] at this; exact this

/-! ## The fast and the spatial routine -/

theorem mul_frame {NC : ℕ} (h3 : NC ≠ 3) (h2 : NC ≠ 2) (b c a : Arr ℂ) {x : ℕ} (hx : NC * NC ≤ x) :
    multab_dag_suNC NC b c a x = a x := by
  rw [multab_dag_suNC, if_neg h3, if_neg h2, multab_dag, if_neg h3, if_neg h2]
  split
  · next he =>
    refine forN_inv (fun _ (r : Arr ℂ) => r x = a x) rfl fun i hi r hr => ?_
    refine forN_inv (fun _ (r : Arr ℂ) => r x = a x) hr fun h hh r hr => ?_
    have e1 := index_lt hi (show 2 * h < NC by omega)
    have e2 := index_lt hi (show 2 * h + 1 < NC by omega)
    dsimp only
    rw [Function.update_of_ne (by omega), Function.update_of_ne (by omega), hr]
  · refine forN_inv (fun _ (r : Arr ℂ) => r x = a x) rfl fun i hi r hr => ?_
    refine forN_inv (fun _ (r : Arr ℂ) => r x = a x) hr fun j hj r hr => ?_
    have := index_lt hi hj
    dsimp only
    rw [Function.update_of_ne (by omega), hr]

theorem arr_beyond (l : List ℂ) {x : ℕ} (h : l.length ≤ x) : arr l x = 0 := by
  simp [arr, List.getElem?_eq_none h]

theorem opsO_zeroAdd (NC : ℕ) (proj : ℕ → Arr ℂ → Arr ℂ → Option (Arr ℂ)) : ZeroAdd (dressO NC proj) := by
  intro a b l
  show lift2 (ops NC).a_plus_b (some (zero_mat NC scratch)) (lift2 (ops NC).multab_dag a b) = lift2 (ops NC).multab_dag a b
  cases a with
  | none => rfl
  | some a =>
    cases b with
    | none => rfl
    | some b =>
      show some (a_plus_b NC (zero_mat NC scratch) (multab_dag_suNC NC a b scratch)) = some (multab_dag_suNC NC a b scratch)
      congr 1
      funext x
      by_cases h3 : NC = 3
      · subst h3
        rw [multab_dag_suNC, if_pos rfl, a_plus_b, if_pos rfl, zero_mat, if_pos rfl, multab_dag_suNC3]
        by_cases hx : x < 9
        · interval_cases x <;> simp [a_plus_b3, zero_mat3, arr]
        · rw [a_plus_b3, arr_beyond _ (by simp; omega), arr_beyond _ (by simp; omega)]
      by_cases h2 : NC = 2
      · subst h2
        rw [multab_dag_suNC, if_neg (by omega), if_pos rfl, a_plus_b, if_neg (by omega), if_pos rfl, zero_mat,
          if_neg (by omega), if_pos rfl, multab_dag_suNC2]
        by_cases hx : x < 4
        · interval_cases x <;> simp [a_plus_b2, zero_mat2, arr]
        · rw [a_plus_b2, arr_beyond _ (by simp; omega), arr_beyond _ (by simp; omega)]
      rw [a_plus_b, if_neg h3, if_neg h2, zero_mat, if_neg h3, if_neg h2, mapN_apply, mapN_apply]
      by_cases hx : x < NC * NC
      · rw [if_pos hx, if_pos hx, zero_add]
      · rw [if_neg hx, if_neg hx, mul_frame h3 h2 a b scratch (by omega)]

theorem fast_link (L : Latt) {D : Dress M} (hz : ZeroAdd D) (j1 j2 : ℕ → ℕ → M) (f : (Loc → M) × (Loc → Unit)) :
    simultaneous L 4 (fastLink L D fun x => get_lv2 L D f.1 (fun x => get_lv1 L D 4 3 f.1 x (j1 x)) x (j2 x)) f =
      simultaneous L 4 (hypLink L D 4) f := by
  unfold simultaneous
  refine Prod.ext (funext fun l => ?_) (funext fun l => rfl)
  dsimp only
  split
  · next h => exact (rec_four L hz f.1 l.1 j1 j2 h.2).symm
  · rfl

/-- **C89**, fast routine: in four dimensions the routine that keeps all dressed links in memory gives the links of the
recursive routine, whatever is in its buffers. -/
theorem C89_fast {L : Latt} (hL : Valid L) (h4 : L.ND = 4) {D : Dress M} (hz : ZeroAdd D) (j1 j2 : ℕ → ℕ → ℕ → M) (smiters : ℕ)
    (s s' : St M Unit) (hs : s'.lat = s.lat) :
    ∃ r, HYPSLsmear4D_expensive L D j1 j2 smiters s = some r ∧ r.lat = (HYsmearND L D 4 smiters s').lat := by
  have hown : ∀ (lat : Loc → M) (j1 j2 : ℕ → ℕ → M), ReadsIn L 4 (Adjacent (extent L)) (fastLink L D fun x =>
      get_lv2 L D lat (fun x => get_lv1 L D 4 3 lat x (j1 x)) x (j2 x)) := by
    intro lat j1 j2 a b z x mu hx hmu h
    exact own_fastLink L D _ a b x mu (h x hx mu (by omega) (Or.inl rfl))
  have key : ∀ n, (forN n (fun n s => fastSweep L D (j1 n) (j2 n) s) s).lat =
      ((simultaneous L 4 (hypLink L D 4))^[n] (s.lat, s.z)).1 := by
    intro n
    induction n with
    | zero => rfl
    | succ n ih =>
      rw [forN_succ, fastSweep_eq hL]
      generalize forN n (fun n s => fastSweep L D (j1 n) (j2 n) s) s = t at ih ⊢
      have h1 := congrArg Prod.fst (sweep_eq hL (show 4 ≤ L.ND by omega) (hown t.lat (j1 n) (j2 n)) t)
      have h2 := congrArg Prod.fst (fast_link L hz (j1 n) (j2 n) (t.lat, t.z))
      have e : (t.lat, t.z) = (simultaneous L 4 (hypLink L D 4))^[n] (s.lat, s.z) := Prod.ext ih (funext fun _ => rfl)
      rw [Function.iterate_succ_apply', ← e, ← h2]
      exact h1
  have e : (s'.lat, s'.z) = (s.lat, s.z) := Prod.ext hs (funext fun _ => rfl)
  rw [C89_simultaneous hL D (by omega), e, ← key]
  unfold HYPSLsmear4D_expensive
  rw [if_neg (by omega)]
  by_cases hn : smiters < 1
  · rw [if_pos hn]
    have : smiters = 0 := by omega
    subst this
    exact ⟨s, rfl, rfl⟩
  · rw [if_neg hn]
    exact ⟨_, rfl, rfl⟩

/-- **C89**, spatial routine: in four dimensions it gives the links of the recursive routine in the three spatial directions. -/
theorem C89_spatial {L : Latt} (hL : Valid L) (h4 : L.ND = 4) {D : Dress M} (hz : ZeroAdd D) (junk : ℕ → ℕ → ℕ → M) (smiters : ℕ)
    (s : (Loc → M) × (Loc → M)) (s' : St M Unit) (hs : s'.lat = s.1) :
    ∃ r, HYPSLsmear3D L D junk smiters s = some r ∧ r.1 = (HYsmearND L D 3 smiters s').lat := by
  have hrd : ReadsSlice L (hypLink L D 3) := by
    have := hyp_reads_slice hL D
    rw [h4] at this
    exact this
  have slices : ∀ (s : (Loc → M) × (Loc → M)) (st : St M Unit), st.lat = s.1 → ∀ n ≤ extent L,
      (forN n (fun t s => spatialStep L D (junk t) t s) s).1 = (forN n (slice3D L (hypLink L D 3)) st).lat := by
    intro s st h n
    induction n with
    | zero => exact fun _ => h.symm
    | succ n ih =>
      intro hn
      rw [forN_succ, forN_succ]
      exact spatialStep_eq hL h4 hz (junk n) (by omega) _ _ (ih (by omega)).symm
  have key : ∀ n, (forN n (fun _ s => forN (extent L) (fun t s => spatialStep L D (junk t) t s) s) s).1 =
      ((simultaneous L 3 (hypLink L D 3))^[n] (s'.lat, s'.z)).1 := by
    intro n
    induction n with
    | zero => exact hs.symm
    | succ n ih =>
      rw [forN_succ]
      generalize forN n (fun _ s => forN (extent L) (fun t s => spatialStep L D (junk t) t s) s) s = t at ih ⊢
      have h1 := congrArg Prod.fst (sweep3D_eq hL (upd := hypLink L D 3) (by rw [h4] at *; exact hrd)
        ⟨t.1, fun _ => (), t.2, t.2, t.2⟩)
      rw [slices t ⟨t.1, fun _ => (), t.2, t.2, t.2⟩ rfl _ le_rfl]
      rw [h4] at h1
      have e : (t.1, fun _ => ()) = (simultaneous L 3 (hypLink L D 3))^[n] (s'.lat, s'.z) := Prod.ext ih (funext fun _ => rfl)
      rw [Function.iterate_succ_apply', ← e]
      exact h1
  rw [C89_simultaneous hL D (by omega), ← key]
  unfold HYPSLsmear3D
  by_cases hn : smiters = 0
  · rw [if_pos hn]
    subst hn
    exact ⟨s, rfl, rfl⟩
  · rw [if_neg hn, if_neg (by omega)]
    exact ⟨_, rfl, rfl⟩

end GLU.Smear
