import Verif.Smear.ImproveLemmas
import Verif.Smear.ImprovedProps
import Verif.Field.ChargeProps

/-! # Properties of the improved staples (C90) -/

namespace GLU.Smear

open GLU.Geom GLU.Sched GLU.Mat GLU.Field Complex Matrix

variable {NC : ℕ} {L : Latt} {lat : Gauge}

/-- **C90**, paths: the paths below are the staples of the elementary squares and of the rectangles of sides one and two through
the link, each of them once. -/
theorem C90_paths {dir mu : ℕ} (hmu : mu < dir) :
    ((squareWords dir mu).Nodup ∧ ∀ w, w ∈ squareWords dir mu ↔ SquareStaple dir mu w) ∧
    ((rectWords dir mu).Nodup ∧ ∀ w, w ∈ rectWords dir mu ↔ RectStaple dir mu w) :=
  ⟨⟨squareWords_nodup dir mu, fun w => (squareStaple_iff hmu w).symm⟩,
    ⟨rectWords_nodup dir mu, fun w => (rectStaple_iff hmu w).symm⟩⟩

theorem improve_toM (loop : Bool) (w : ℝ × ℝ × ℝ) (i mu dir : ℕ) (stap : Arr ℂ) :
    toM NC (all_staples_improve NC L lat loop w i mu dir stap) =
      (w.1 : ℂ) • toM NC (improveSums NC L lat loop i mu dir).c0 + (w.2.1 : ℂ) • toM NC (improveSums NC L lat loop i mu dir).c1 +
      if loop then (w.2.2 : ℂ) • toM NC (improveSums NC L lat loop i mu dir).c2 else 0 := by
  ext x y
  have := index_lt x.2 y.2
  cases loop <;> simp [all_staples_improve, toM_apply, this]

/-- **C90**: without `SYMANZIK_ONE_LOOP`, two and three colours, the improved staple is the weighted sum of all square and all
rectangle staples of the link.  Missing: more colours, where `multab_dagdag_suNC` is wrong (C11). -/
theorem C90_staples_partial (hL : Valid L) (hN : NC = 2 ∨ NC = 3) (hU : SUField NC L lat) (w : ℝ × ℝ × ℝ) {i mu dir : ℕ}
    (hd : dir ≤ L.ND) (hi : i < volume L) (hmu : mu < L.ND) (stap : Arr ℂ) :
    toM NC (all_staples_improve NC L lat false w i mu dir stap) =
      (w.1 : ℂ) • ((squareWords dir mu).map (along NC L lat i)).sum + (w.2.1 : ℂ) • ((rectWords dir mu).map (along NC L lat i)).sum := by
  obtain ⟨h0, h1, _⟩ := sums_words hL hN hU false hd hi hmu
  rw [improve_toM, h0, h1]
  simp [pathSum]

/-! ## One loop -/

/-- Paths of all parallelogram staples. -/
def paraWords (dir mu : ℕ) : List (List Step) :=
  (others dir mu).flatMap fun nu => ((List.range dir).filter fun rho => rho ≠ mu ∧ rho ≠ nu).flatMap fun rho =>
    [[(nu, true), (rho, true), (mu, true), (nu, false), (rho, false)],
     [(nu, false), (rho, false), (mu, true), (nu, true), (rho, true)],
     [(nu, true), (rho, false), (mu, true), (nu, false), (rho, true)],
     [(nu, false), (rho, true), (mu, true), (nu, true), (rho, false)]]

theorem mem_paraWords {dir mu : ℕ} {w : List Step} : w ∈ paraWords dir mu ↔ ∃ a b : Step, a.1 < dir ∧ b.1 < dir ∧ a.1 ≠ mu ∧
    b.1 ≠ mu ∧ b.1 ≠ a.1 ∧ w = [a, b, (mu, true), rev a, rev b] := by
  simp only [paraWords, List.mem_flatMap, mem_others, List.mem_filter, List.mem_range, decide_eq_true_eq]
  constructor
  · rintro ⟨nu, ⟨h1, h2⟩, rho, ⟨h3, h4, h5⟩, h⟩
    simp only [List.mem_cons, List.not_mem_nil, or_false] at h
    rcases h with rfl | rfl | rfl | rfl
    · exact ⟨(nu, true), (rho, true), h1, h3, h2, h4, h5, rfl⟩
    · exact ⟨(nu, false), (rho, false), h1, h3, h2, h4, h5, rfl⟩
    · exact ⟨(nu, true), (rho, false), h1, h3, h2, h4, h5, rfl⟩
    · exact ⟨(nu, false), (rho, true), h1, h3, h2, h4, h5, rfl⟩
  · rintro ⟨⟨nu, s⟩, ⟨rho, t⟩, h1, h3, h2, h4, h5, rfl⟩
    refine ⟨nu, ⟨h1, h2⟩, rho, ⟨h3, h4, h5⟩, ?_⟩
    cases s <;> cases t <;> simp [rev]

theorem paraStaple_iff {dir mu : ℕ} (hmu : mu < dir) (w : List Step) : ParaStaple dir mu w ↔ w ∈ paraWords dir mu := by
  rw [mem_paraWords]
  constructor
  · rintro ⟨⟨a, s⟩, ⟨b, t⟩, ⟨c, u⟩, ha, hb, hc, hab, hac, hbc, h⟩
    obtain ⟨n, hn, e⟩ := List.isRotated_iff_mod.1 h.symm
    simp only [para, List.length_cons, List.length_nil] at hn
    have hw : w = ((para (a, s) (b, t) (c, u)).rotate n).dropLast := by rw [e, List.dropLast_concat]
    have hl : ((para (a, s) (b, t) (c, u)).rotate n).getLast? = some (mu, false) := by rw [e, List.getLast?_concat]
    have : n = 0 ∨ n = 1 ∨ n = 2 ∨ n = 3 ∨ n = 4 ∨ n = 5 ∨ n = 6 := by omega
    simp only at ha hb hc hab hac hbc
    rcases this with rfl | rfl | rfl | rfl | rfl | rfl | rfl <;>
      simp [para, rev, List.rotate] at hw hl <;> obtain ⟨rfl, rfl⟩ := hl <;> subst hw
    · exact ⟨(a, s), (b, t), ha, hb, hac, hbc, hab.symm, rfl⟩
    · exact ⟨(b, t), (c, u), hb, hc, hab.symm, hac.symm, hbc.symm, rfl⟩
    · exact ⟨(c, u), (a, !s), hc, ha, hbc.symm, hab, hac, by simp [rev]⟩
    · exact ⟨(a, !s), (b, !t), ha, hb, hac, hbc, hab.symm, by simp [rev]⟩
    · exact ⟨(b, !t), (c, !u), hb, hc, hab.symm, hac.symm, hbc.symm, by simp [rev]⟩
    · exact ⟨(c, !u), (a, s), hc, ha, hbc.symm, hab, hac, by simp [rev]⟩
    · exact ⟨(a, s), (b, t), ha, hb, hac, hbc, hab.symm, rfl⟩
  · rintro ⟨a, b, ha, hb, h1, h2, h3, rfl⟩
    exact ⟨a, b, (mu, true), ha, hb, hmu, h3.symm, h1, h2, ⟨0, rfl⟩⟩

theorem paraWords_nodup (dir mu : ℕ) : (paraWords dir mu).Nodup := by
  unfold paraWords
  rw [List.nodup_flatMap]
  refine ⟨fun nu h => ?_, ?_⟩
  · rw [List.nodup_flatMap]
    refine ⟨fun rho _ => by simp, ?_⟩
    refine (List.nodup_range.filter _).imp fun {a b} h => ?_
    simp [Function.onFun, List.disjoint_left, h]
  · refine (others_nodup dir mu).imp fun {a b} h => ?_
    intro w h1 h2
    simp only [List.mem_flatMap] at h1 h2
    obtain ⟨r, _, h1⟩ := h1
    obtain ⟨r', _, h2⟩ := h2
    simp only [List.mem_cons, List.not_mem_nil, or_false] at h1 h2
    rcases h1 with rfl | rfl | rfl | rfl <;> simp [h] at h2

/-- **C90**, one loop: with `SYMANZIK_ONE_LOOP` the parallelograms added are those with both sides taken forwards or both
backwards.  Missing: the other half, see `C90_one_loop_fails`. -/
theorem C90_one_loop_partial (hL : Valid L) (hN : NC = 2 ∨ NC = 3) (hU : SUField NC L lat) (w : ℝ × ℝ × ℝ) {i mu dir : ℕ}
    (hd : dir ≤ L.ND) (hi : i < volume L) (hmu : mu < dir) (stap : Arr ℂ) :
    toM NC (all_staples_improve NC L lat true w i mu dir stap) =
      (w.1 : ℂ) • ((squareWords dir mu).map (along NC L lat i)).sum + (w.2.1 : ℂ) • ((rectWords dir mu).map (along NC L lat i)).sum +
      (w.2.2 : ℂ) • ((loopWords dir mu).map (along NC L lat i)).sum ∧
    (loopWords dir mu).Sublist (paraWords dir mu) ∧
    (paraWords dir mu).Nodup ∧ (∀ w, w ∈ paraWords dir mu ↔ ParaStaple dir mu w) := by
  obtain ⟨h0, h1, h2⟩ := sums_words hL hN hU true hd hi (show mu < L.ND by omega)
  refine ⟨?_, ?_, paraWords_nodup dir mu, fun w => (paraStaple_iff hmu w).symm⟩
  · rw [improve_toM, h0, h1, h2 rfl]
    simp [pathSum]
  · unfold loopWords paraWords
    refine List.Sublist.flatMap_right _ fun nu _ => List.Sublist.flatMap_right _ fun rho _ => ?_
    exact List.Sublist.cons_cons _ (List.Sublist.cons_cons _ (List.nil_sublist _))

theorem loop_half : ∀ mu : Fin 4, (loopWords 4 mu).length = 12 ∧ (paraWords 4 mu).length = 24 := by decide

/-- **C90** (negation): with `SYMANZIK_ONE_LOOP` in four dimensions the parallelograms with one side forwards and one backwards
are left out: on unit links the sum of the code is that of twelve parallelograms, that of all is twenty-four. -/
theorem C90_one_loop_fails (hL : Valid L) (h4 : L.ND = 4) (hN : NC = 2 ∨ NC = 3)
    (h1 : ∀ i < volume L, ∀ mu < L.ND, link NC lat i mu = 1) {w : ℝ × ℝ × ℝ} (hw : w.2.2 ≠ 0) {i mu : ℕ}
    (hi : i < volume L) (hmu : mu < 4) (stap : Arr ℂ) :
    toM NC (all_staples_improve NC L lat true w i mu 4 stap) ≠
      (w.1 : ℂ) • ((squareWords 4 mu).map (along NC L lat i)).sum + (w.2.1 : ℂ) • ((rectWords 4 mu).map (along NC L lat i)).sum +
      (w.2.2 : ℂ) • ((paraWords 4 mu).map (along NC L lat i)).sum := by
  have hU : SUField NC L lat := fun i hi mu hmu => by
    have := h1 i hi mu hmu
    unfold link at this
    rw [IsSU, this]
    exact one_mem _
  obtain ⟨e, hs, _, hp⟩ := C90_one_loop_partial hL hN hU w (by omega) hi hmu stap
  rw [e]
  intro h
  have h := add_left_cancel h
  have one : ∀ v ∈ paraWords 4 mu, along NC L lat i v = 1 := by
    intro v hv
    refine along_trivial hL h1 ?_ hi
    obtain ⟨a, b, ha, hb, _, _, _, rfl⟩ := mem_paraWords.1 hv
    intro s hs
    simp only [List.mem_cons, List.not_mem_nil, or_false] at hs
    rcases hs with rfl | rfl | rfl | rfl | rfl <;> (try simp only [rev]) <;> omega
  have s1 : ((paraWords 4 mu).map (along NC L lat i)).sum = (24 : ℂ) • (1 : Matrix (Fin NC) (Fin NC) ℂ) := by
    rw [List.map_congr_left one, List.map_const', List.sum_replicate, (loop_half ⟨mu, hmu⟩).2, ← Nat.cast_smul_eq_nsmul ℂ]
    norm_num
  have s2 : ((loopWords 4 mu).map (along NC L lat i)).sum = (12 : ℂ) • (1 : Matrix (Fin NC) (Fin NC) ℂ) := by
    rw [List.map_congr_left fun v hv => one v (hs.subset hv), List.map_const', List.sum_replicate, (loop_half ⟨mu, hmu⟩).1,
      ← Nat.cast_smul_eq_nsmul ℂ]
    norm_num
  rw [s1, s2] at h
  have hc : (w.2.2 : ℂ) ≠ 0 := by exact_mod_cast hw
  have := congrFun (congrFun (smul_right_injective _ hc h) ⟨0, by omega⟩) ⟨0, by omega⟩
  norm_num [Matrix.smul_apply] at this

/-! ## Gauge transformations -/

theorem staple_end (hL : Valid L) {w r : List Step} {mu : ℕ} (hmu : mu < L.ND) (hr : (w ++ [(mu, false)]) ~r r) (hd : InDirs L r)
    {i : ℕ} (hi : i < volume L) (hc : pathEnd L i r = i) : InDirs L w ∧ pathEnd L i w = neighbor L i mu := by
  have hd' : InDirs L (w ++ [(mu, false)]) := fun s hs => hd s (hr.perm.mem_iff.1 hs)
  have hw : InDirs L w := fun s hs => hd' s (List.mem_append_left _ hs)
  refine ⟨hw, ?_⟩
  have e := pathEnd_perm hL hr.perm hd' i
  rw [hc, pathEnd_append] at e
  simp only [pathEnd, hop, Bool.false_eq_true, if_false] at e
  conv_rhs => rw [← e]
  rw [(C02_inverse hL (pathEnd_lt hL hw hi) hmu).2]

theorem para_closed (hL : Valid L) {a b c : Step} (ha : a.1 < L.ND) (hb : b.1 < L.ND) (hc : c.1 < L.ND) {i : ℕ} (hi : i < volume L) :
    InDirs L (para a b c) ∧ pathEnd L i (para a b c) = i := by
  have hd : InDirs L (para a b c) := by
    intro s hs
    simp only [para, List.mem_cons, List.not_mem_nil, or_false] at hs
    rcases hs with rfl | rfl | rfl | rfl | rfl | rfl <;> assumption
  refine ⟨hd, ?_⟩
  have hp : (para a b c).Perm [a, rev a, b, rev b, c, rev c] := by
    unfold para
    refine List.Perm.cons _ ?_
    refine (List.perm_middle (l₁ := [b, c]) (a := rev a)).trans (List.Perm.cons _ (List.Perm.cons _ ?_))
    exact List.Perm.swap _ _ _
  rw [pathEnd_perm hL hp hd]
  simp only [pathEnd]
  rw [hop_rev hL hi ha, hop_rev hL hi hb, hop_rev hL hi hc]

theorem pathSum_gauge (hL : Valid L) {g : ℕ → Arr ℂ} (hg : SUGauge NC L g) {lat' : Gauge} (h : Transformed NC L g lat lat')
    {i j : ℕ} (hi : i < volume L) (ws : List (List Step)) (hw : ∀ w ∈ ws, InDirs L w ∧ pathEnd L i w = j) :
    pathSum NC L lat' i ws = toM NC (g i) * pathSum NC L lat i ws * (toM NC (g j))ᴴ := by
  induction ws with
  | nil => simp [pathSum]
  | cons w ws ih =>
    have := hw w (by simp)
    have ih := ih fun v hv => hw v (List.mem_cons_of_mem _ hv)
    have e := along_transformed hL hg h this.1 hi
    rw [this.2] at e
    unfold pathSum at ih ⊢
    rw [List.map_cons, List.sum_cons, List.map_cons, List.sum_cons, ih, e, Matrix.mul_add, Matrix.add_mul]

/-- **C90**, gauge covariance: the improved staple transforms as the link. -/
theorem C90_gauge (hL : Valid L) (hN : NC = 2 ∨ NC = 3) (hU : SUField NC L lat) {g : ℕ → Arr ℂ} (hg : SUGauge NC L g) {lat' : Gauge}
    (hU' : SUField NC L lat') (h : Transformed NC L g lat lat') (loop : Bool) (w : ℝ × ℝ × ℝ) {i mu dir : ℕ}
    (hd : dir ≤ L.ND) (hi : i < volume L) (hmu : mu < dir) (stap stap' : Arr ℂ) :
    toM NC (all_staples_improve NC L lat' loop w i mu dir stap') =
      toM NC (g i) * toM NC (all_staples_improve NC L lat loop w i mu dir stap) * (toM NC (g (neighbor L i mu)))ᴴ := by
  have hm : mu < L.ND := by omega
  obtain ⟨h0, h1, h2⟩ := sums_words hL hN hU loop hd hi hm
  obtain ⟨h0', h1', h2'⟩ := sums_words hL hN hU' loop hd hi hm
  have q0 := pathSum_gauge hL hg h hi (j := neighbor L i mu) (squareWords dir mu) fun v hv => by
    obtain ⟨a, b, ha, hb, _, hr⟩ := (squareStaple_iff hmu v).2 hv
    exact staple_end hL hm hr (rect_inDirs (by omega) (by omega) 1 1) hi (rect_closed hL (by omega) (by omega) 1 1 hi)
  have q1 := pathSum_gauge hL hg h hi (j := neighbor L i mu) (rectWords dir mu) fun v hv => by
    obtain ⟨a, b, ha, hb, _, hr⟩ := (rectStaple_iff hmu v).2 hv
    exact staple_end hL hm hr (rect_inDirs (by omega) (by omega) 2 1) hi (rect_closed hL (by omega) (by omega) 2 1 hi)
  have q2 := pathSum_gauge hL hg h hi (j := neighbor L i mu) (loopWords dir mu) fun v hv => by
    have hs := (C90_one_loop_partial hL hN hU (1, 1, 1) hd hi hmu scratch).2.1.subset hv
    obtain ⟨a, b, c, ha, hb, hc, _, _, _, hr⟩ := (paraStaple_iff hmu v).2 hs
    have := para_closed hL (a := a) (b := b) (c := c) (by omega) (by omega) (by omega) hi
    exact staple_end hL hm hr this.1 hi this.2
  rw [improve_toM, improve_toM, h0, h1, h0', h1', q0, q1]
  cases loop
  · simp [Matrix.mul_add, Matrix.add_mul]
  · rw [h2 rfl, h2' rfl, q2]
    simp [Matrix.mul_add, Matrix.add_mul]

/-! ## Time slices -/

/-- The slice of `y` is `d` steps from that of `x`. -/
def Shifted (L : Latt) (x y : ℕ) (d : ℤ) : Prop := y < volume L ∧ (extent L : ℤ) ∣ (time L y : ℤ) - time L x - d

theorem shifted_self {x : ℕ} (hx : x < volume L) : Shifted L x x 0 := ⟨hx, by simp⟩

theorem shifted_neighbor (hL : Valid L) {x y : ℕ} {d : ℤ} (h : Shifted L x y d) {mu : ℕ} (hmu : mu < L.ND) :
    Shifted L x (neighbor L y mu) (d + if mu = L.ND - 1 then 1 else 0) := by
  refine ⟨neighbor_lt hL y hmu, ?_⟩
  have e := time_neighbor hL h.1 hmu
  split at e
  · rw [e]
    push_cast
    obtain ⟨k, hk⟩ := h.2
    refine ⟨k - ((time L y : ℤ) + 1) / extent L, ?_⟩
    rename_i hm
    rw [Int.emod_def, mul_sub, ← hk, if_pos hm]
    ring
  · rw [e]
    simpa [*] using h.2

theorem shifted_back (hL : Valid L) {x y : ℕ} {d : ℤ} (h : Shifted L x y d) {mu : ℕ} (hmu : mu < L.ND) :
    Shifted L x (back L y mu) (d - if mu = L.ND - 1 then 1 else 0) := by
  refine ⟨back_lt hL y hmu, ?_⟩
  have e := time_back hL h.1 hmu
  split at e
  · have h2 := h.2
    rw [← e] at h2
    push_cast at h2
    obtain ⟨k, hk⟩ := h2
    refine ⟨k + ((time L (back L y mu) : ℤ) + 1) / extent L, ?_⟩
    rw [Int.emod_def] at hk
    rename_i hm
    rw [mul_add, ← hk, if_pos hm]
    ring
  · rw [e]
    simpa [*] using h.2

theorem adjacent_of_shifted (hL : Valid L) {x y : ℕ} {d : ℤ} (hx : x < volume L) (h : Shifted L x y d) (h1 : -2 ≤ d) (h2 : d ≤ 2) :
    Adjacent2 (extent L) (time L y) (time L x) := by
  have a := (site_split hL hx).1
  have b := (site_split hL h.1).1
  obtain ⟨k, hk⟩ := h.2
  have : d = -2 ∨ d = -1 ∨ d = 0 ∨ d = 1 ∨ d = 2 := by omega
  unfold Adjacent2 Adjacent
  have e : ∀ m n : ℕ, m < extent L → (extent L : ℤ) ∣ (m : ℤ) - n → m = n % extent L := by
    intro m n hm hd
    have h3 : (n : ℤ) ≡ m [ZMOD extent L] := Int.modEq_iff_dvd.2 hd
    have h4 := (Int.natCast_modEq_iff.1 h3).symm
    rw [← Nat.mod_eq_of_lt hm]
    exact h4
  rcases this with rfl | rfl | rfl | rfl | rfl
  · right; right
    exact (e _ _ a ⟨-k, by push_cast; rw [mul_neg, ← hk]; ring⟩).symm
  · left; right; right
    exact (e _ _ a ⟨-k, by push_cast; rw [mul_neg, ← hk]; ring⟩).symm
  · left; left
    have := e _ (time L x) b ⟨k, by rw [← hk]; ring⟩
    rw [this, Nat.mod_eq_of_lt a]
  · left; right; left
    exact e _ _ b ⟨k, by push_cast; rw [← hk]; ring⟩
  · right; left
    exact e _ _ b ⟨k, by push_cast; rw [← hk]; ring⟩

/-- The improved staple reads no further than two slices away. -/
theorem improve_reads (hL : Valid L) (loop : Bool) (w : ℝ × ℝ × ℝ) {lat' : Gauge} {i mu : ℕ} (hi : i < volume L) (hmu : mu < L.ND)
    (h : ∀ y < volume L, ∀ nu < L.ND, Adjacent2 (extent L) (time L y) (time L i) → lat (y, nu) = lat' (y, nu)) (stap : Arr ℂ) :
    all_staples_improve NC L lat loop w i mu L.ND stap = all_staples_improve NC L lat' loop w i mu L.ND stap := by
  have q : ∀ {y : ℕ} {d : ℤ}, Shifted L i y d → -2 ≤ d → d ≤ 2 → ∀ nu < L.ND, lat (y, nu) = lat' (y, nu) :=
    fun hy h1 h2 nu hnu => h _ hy.1 nu hnu (adjacent_of_shifted hL hi hy h1 h2)
  have s0 := shifted_self hi
  have n := fun {y : ℕ} {d : ℤ} (hy : Shifted L i y d) (nu : ℕ) (hnu : nu < L.ND) => shifted_neighbor hL hy hnu
  have b := fun {y : ℕ} {d : ℤ} (hy : Shifted L i y d) (nu : ℕ) (hnu : nu < L.ND) => shifted_back hL hy hnu
  have one : ∀ nu < L.ND, nu ≠ mu → ∀ c, oneLoop NC L lat i mu L.ND nu c = oneLoop NC L lat' i mu L.ND nu c := by
    intro nu hnu hne c
    unfold oneLoop
    refine forN_congr (fun rho hr s => ?_) c
    by_cases hc : rho ≠ mu ∧ rho ≠ nu
    · rw [if_pos hc, if_pos hc]
      dsimp only
      rw [q s0 (by omega) (by omega) nu hnu, q (n s0 nu hnu) (by split_ifs <;> omega) (by split_ifs <;> omega) rho hr,
        q (n (n s0 nu hnu) rho hr) (by split_ifs <;> omega) (by split_ifs <;> omega) mu hmu,
        q (n (n s0 mu hmu) rho hr) (by split_ifs <;> omega) (by split_ifs <;> omega) nu hnu,
        q (n s0 mu hmu) (by split_ifs <;> omega) (by split_ifs <;> omega) rho hr,
        q (b s0 nu hnu) (by split_ifs <;> omega) (by split_ifs <;> omega) nu hnu,
        q (b (b s0 nu hnu) rho hr) (by split_ifs <;> omega) (by split_ifs <;> omega) rho hr,
        q (b (b s0 nu hnu) rho hr) (by split_ifs <;> omega) (by split_ifs <;> omega) mu hmu,
        q (n (b (b s0 nu hnu) rho hr) mu hmu) (by split_ifs <;> omega) (by split_ifs <;> omega) nu hnu,
        q (n (n (b (b s0 nu hnu) rho hr) mu hmu) nu hnu) (by split_ifs <;> omega) (by split_ifs <;> omega) rho hr]
    · rw [if_neg hc, if_neg hc]
  have sums : improveSums NC L lat loop i mu L.ND = improveSums NC L lat' loop i mu L.ND := by
    unfold improveSums
    refine forN_congr (fun nu hnu s => ?_) _
    unfold improveDir
    by_cases hc : nu = mu
    · rw [if_pos hc, if_pos hc]
    · rw [if_neg hc, if_neg hc]
      dsimp only
      rw [one nu hnu hc, q s0 (by omega) (by omega) nu hnu,
        q (n s0 nu hnu) (by split_ifs <;> omega) (by split_ifs <;> omega) mu hmu,
        q (n s0 mu hmu) (by split_ifs <;> omega) (by split_ifs <;> omega) nu hnu,
        q (b s0 nu hnu) (by split_ifs <;> omega) (by split_ifs <;> omega) nu hnu,
        q (b s0 nu hnu) (by split_ifs <;> omega) (by split_ifs <;> omega) mu hmu,
        q (n (b s0 nu hnu) mu hmu) (by split_ifs <;> omega) (by split_ifs <;> omega) nu hnu,
        q (n s0 nu hnu) (by split_ifs <;> omega) (by split_ifs <;> omega) nu hnu,
        q (n (n s0 nu hnu) nu hnu) (by split_ifs <;> omega) (by split_ifs <;> omega) mu hmu,
        q (n (n s0 mu hmu) nu hnu) (by split_ifs <;> omega) (by split_ifs <;> omega) nu hnu,
        q (b (b s0 nu hnu) nu hnu) (by split_ifs <;> omega) (by split_ifs <;> omega) nu hnu,
        q (b (b s0 nu hnu) nu hnu) (by split_ifs <;> omega) (by split_ifs <;> omega) mu hmu,
        q (n (b (b s0 nu hnu) nu hnu) mu hmu) (by split_ifs <;> omega) (by split_ifs <;> omega) nu hnu,
        q (n (n (b (b s0 nu hnu) nu hnu) mu hmu) nu hnu) (by split_ifs <;> omega) (by split_ifs <;> omega) nu hnu,
        q (n (n s0 nu hnu) mu hmu) (by split_ifs <;> omega) (by split_ifs <;> omega) mu hmu,
        q (n (n s0 mu hmu) mu hmu) (by split_ifs <;> omega) (by split_ifs <;> omega) nu hnu,
        q (n (b s0 nu hnu) mu hmu) (by split_ifs <;> omega) (by split_ifs <;> omega) mu hmu,
        q (n (n (b s0 nu hnu) mu hmu) mu hmu) (by split_ifs <;> omega) (by split_ifs <;> omega) nu hnu,
        q (n s0 mu hmu) (by split_ifs <;> omega) (by split_ifs <;> omega) mu hmu,
        q (b s0 mu hmu) (by split_ifs <;> omega) (by split_ifs <;> omega) nu hnu,
        q (b s0 mu hmu) (by split_ifs <;> omega) (by split_ifs <;> omega) mu hmu,
        q (n (b s0 mu hmu) nu hnu) (by split_ifs <;> omega) (by split_ifs <;> omega) mu hmu,
        q (n (n (b s0 mu hmu) nu hnu) mu hmu) (by split_ifs <;> omega) (by split_ifs <;> omega) mu hmu,
        q (b (b s0 mu hmu) nu hnu) (by split_ifs <;> omega) (by split_ifs <;> omega) nu hnu,
        q (b (b s0 mu hmu) nu hnu) (by split_ifs <;> omega) (by split_ifs <;> omega) mu hmu,
        q (n (b (b s0 mu hmu) nu hnu) mu hmu) (by split_ifs <;> omega) (by split_ifs <;> omega) mu hmu,
        q (n (n (b (b s0 mu hmu) nu hnu) mu hmu) mu hmu) (by split_ifs <;> omega) (by split_ifs <;> omega) nu hnu]
  unfold all_staples_improve
  rw [sums]

/-- **C90**, range: any update of a link by its improved staple reads no further than two slices away, which is what the buffers
of the improved sweep rely on (C65). -/
theorem C90_reads {Z : Type} (hL : Valid L) (loop : Bool) (w : ℝ × ℝ × ℝ) (upd : Z → Arr ℂ → Arr ℂ → Z × Arr ℂ) (stap : Arr ℂ) :
    Reads L (Adjacent2 (extent L)) fun (lat : Gauge) (z : Z) x mu =>
      upd z (all_staples_improve NC L lat loop w x mu L.ND stap) (lat (x, mu)) := by
  intro lat lat' z x mu hx hmu h
  dsimp only
  rw [improve_reads hL loop w hx hmu h, h x hx mu hmu (Or.inl (Or.inl rfl))]

/-- **C90**, the improved flow: with the improved staple in the buffered sweep of the flow every link is updated from the links
before the step. -/
theorem C90_sweep {Z : Type} (hL : Valid L) (h2 : 2 ≤ extent L) (loop : Bool) (w : ℝ × ℝ × ℝ)
    (upd : Z → Arr ℂ → Arr ℂ → Z × Arr ℂ) (stap : Arr ℂ) (s : St (Arr ℂ) Z) :
    ∃ s', sweep2 L (lcu L) (fun (lat : Gauge) (z : Z) x mu =>
        upd z (all_staples_improve NC L lat loop w x mu L.ND stap) (lat (x, mu))) s = some s' ∧
      ∀ x < volume L, ∀ mu < L.ND, s'.lat (x, mu) =
        (upd (s.z (x, mu)) (all_staples_improve NC L s.lat loop w x mu L.ND stap) (s.lat (x, mu))).2 := by
  obtain ⟨s', h, e⟩ := C65_flow hL h2 (C90_reads (NC := NC) hL loop w upd stap) s
  refine ⟨s', h, fun x hx mu hmu => ?_⟩
  have := congrFun (congrArg Prod.fst e) (x, mu)
  simpa only [simultaneous, hx, hmu, and_self, if_true] using this

/-! ## Weights

For slowly varying fields a rectangle counts four times as much as a square, and there are twice as many of them, so that the
action keeps its continuum limit if the weight of the squares and eight times that of the rectangles add up to one. -/

/-- **C90**, weights of `SYMANZIK` and `IWASAKI`. -/
theorem C90_weights_partial (eps : ℝ) :
    (symanzik eps).1 + 8 * (symanzik eps).2 = 1 ∧ (iwasaki eps).1 + 8 * (iwasaki eps).2 = 1 ∧
    symanzik 1 = (1, 0) ∧ iwasaki 1 = (1, 0) ∧ dbw2 1 = (1, 0) := by
  refine ⟨?_, ?_, ?_, ?_, ?_⟩ <;> simp only [symanzik, iwasaki, dbw2, Prod.mk.injEq]
  · ring
  · ring
  all_goals constructor <;> norm_num

/-- **C90**, weights (negation): those of `DBW2` do not add up to one, unless the improvement is switched off altogether. -/
theorem C90_weights_fails {eps : ℝ} (h : eps ≠ 1) : (dbw2 eps).1 + 8 * (dbw2 eps).2 ≠ 1 := by
  intro e
  simp only [dbw2] at e
  apply h
  linarith

/-! ## Examples -/

/-- A field of special unitary links that differ: diagonal phases on the links in direction 1 out of even sites. -/
noncomputable def phaseField : Gauge := fun x =>
  arrOf (if x.1 % 2 = 0 ∧ x.2 = 1 then !![I, 0; 0, -I] else (1 : Matrix (Fin 2) (Fin 2) ℂ))

theorem phaseField_su : SUField 2 L2345 phaseField := by
  intro i _ mu _
  have e : (!![I, 0; 0, -I] : Matrix (Fin 2) (Fin 2) ℂ) ∈ Matrix.specialUnitaryGroup (Fin 2) ℂ := by
    rw [Matrix.mem_specialUnitaryGroup_iff, Matrix.mem_unitaryGroup_iff]
    constructor
    · ext a b
      fin_cases a <;> fin_cases b <;> simp [Matrix.mul_apply, Matrix.star_apply]
    · simp [Matrix.det_fin_two]
  unfold IsSU phaseField
  rw [toM_arrOf]
  split
  · exact e
  · exact one_mem _

/-- The staples of a field that is not constant. -/
example : toM 2 (all_staples_improve 2 L2345 phaseField false (5 / 3, -1 / 12, 0) 7 3 4 scratch) =
    (((5 / 3 : ℝ)) : ℂ) • ((squareWords 4 3).map (along 2 L2345 phaseField 7)).sum +
      ((-1 / 12 : ℝ) : ℂ) • ((rectWords 4 3).map (along 2 L2345 phaseField 7)).sum :=
  C90_staples_partial valid_L2345 (Or.inl rfl) phaseField_su (5 / 3, -1 / 12, 0) (by decide) (by decide) (by decide) scratch

/-- Six squares and eighteen rectangles for each link in four dimensions. -/
example : (squareWords 4 3).length = 6 ∧ (rectWords 4 3).length = 18 ∧ (squareWords 3 1).length = 4 := by decide

example : [(0, true), (3, true), (3, true), (0, false), (3, false)] ∈ rectWords 4 3 := by decide

/-- The missing parallelograms on a field of unit links. -/
example := C90_one_loop_fails (NC := 3) (lat := fun _ => arrOf (1 : Matrix (Fin 3) (Fin 3) ℂ)) valid_L2345 rfl (Or.inr rfl)
  (fun _ _ _ _ => (toM_arrOf _ : toM 3 (arrOf (1 : Matrix (Fin 3) (Fin 3) ℂ)) = 1)) (w := (1, 1, 1)) one_ne_zero
  (i := 7) (mu := 3) (by decide) (by decide) scratch

example : 2 ≤ extent L2345 := by decide

end GLU.Smear
