import Verif.Draught.Improved
import Verif.Geom.Props
import Mathlib.Tactic.IntervalCases
import Mathlib.Algebra.BigOperators.Group.List.Basic
import Mathlib.Algebra.Group.Action.Defs

/-! # Lemmas about the draughtboard for rectangle actions -/

namespace GLU.Draught

open GLU.Geom Finset

variable {L : Latt}

/-- The site with the given coordinates. -/
def siteAt (L : Latt) (x : ℕ → ℕ) : ℕ := ∑ mu ∈ range L.ND, (x mu % L.dims mu) * radix L.dims mu

theorem siteAt_lt (hL : Valid L) (x : ℕ → ℕ) : siteAt L x < volume L := by
  rw [volume_eq L hL.nd]
  exact sum_lt_radix fun mu hmu => Nat.mod_lt _ (hL.pos mu hmu)

theorem coord_siteAt (hL : Valid L) (x : ℕ → ℕ) {mu : ℕ} (hmu : mu < L.ND) : coord L L.ND (siteAt L x) mu = x mu % L.dims mu := by
  rw [coord_eq L hmu, siteAt, digit_of_sum (x := fun nu => x nu % L.dims nu) (fun nu hnu => Nat.mod_lt _ (hL.pos nu hnu)) hmu]

theorem siteAt_congr {x y : ℕ → ℕ} (h : ∀ mu < L.ND, x mu % L.dims mu = y mu % L.dims mu) : siteAt L x = siteAt L y :=
  sum_congr rfl fun mu hmu => by rw [h mu (mem_range.1 hmu)]

theorem siteAt_coord (hL : Valid L) {i : ℕ} (hi : i < volume L) : siteAt L (coord L L.ND i) = i :=
  site_ext hL (siteAt_lt hL _) hi fun mu hmu => by
    rw [coord_siteAt hL _ hmu, Nat.mod_eq_of_lt (coord_lt L hL.pos _ _ hmu)]

theorem siteAt_zero : siteAt L (fun _ => 0) = 0 := by simp [siteAt]

theorem siteAt_add {x y : ℕ → ℕ} (h : ∀ mu < L.ND, x mu = 0 ∨ y mu = 0) :
    siteAt L x + siteAt L y = siteAt L fun mu => x mu + y mu := by
  unfold siteAt
  rw [← sum_add_distrib]
  refine sum_congr rfl fun mu hmu => ?_
  rcases h mu (mem_range.1 hmu) with h | h <;> simp [h]

theorem spacing_siteAt (hL : Valid L) {sep : ℕ → ℤ} {s : ℕ → ℕ} (h : ∀ mu < L.ND, sep mu = s mu ∧ s mu < 2 ^ 31) (x : ℕ → ℕ) :
    compute_spacing L sep (siteAt L x) L.ND = siteAt L fun mu => x mu + s mu := by
  obtain ⟨h1, h2⟩ := C04_translation_partial hL (Or.inl rfl : SliceDims L L.ND) sep (siteAt L x) fun mu hmu => by
    have := h mu hmu
    omega
  refine site_ext hL ?_ (siteAt_lt hL _) fun mu hmu => ?_
  · rw [volume_eq L hL.nd]; exact h1
  · have := h2 mu hmu
    rw [coord_siteAt hL _ hmu, (h mu hmu).1] at this
    rw [coord_siteAt hL _ hmu, ← Nat.mod_add_mod]
    exact_mod_cast this

theorem spacing_zero (hL : Valid L) {sep : ℕ → ℤ} {s : ℕ → ℕ} (h : ∀ mu < L.ND, sep mu = s mu ∧ s mu < 2 ^ 31) :
    compute_spacing L sep 0 L.ND = siteAt L s := by
  have := spacing_siteAt hL h fun _ => 0
  rw [siteAt_zero] at this
  simpa using this

/-- The site with coordinates `a` in direction `mu`, `b` in direction `orth`. -/
def plane (L : Latt) (mu orth a b : ℕ) : ℕ := siteAt L fun nu => if nu = orth then b else if nu = mu then a else 0

theorem plane_knight (hL : Valid L) {mu orth : ℕ} (h : mu ≠ orth) (a b : ℕ) :
    compute_spacing L (knightmove mu orth) (plane L mu orth a b) L.ND = plane L mu orth (a + 1) (b + 2) := by
  unfold plane
  rw [spacing_siteAt hL (s := fun nu => if nu = orth then 2 else if nu = mu then 1 else 0)]
  · congr 1; funext nu; split_ifs <;> simp
  · intro nu _
    unfold knightmove
    constructor <;> split_ifs <;> norm_num

theorem plane_shift (hL : Valid L) {mu orth : ℕ} (h : mu ≠ orth) (a b : ℕ) :
    compute_spacing L (shift_mu mu) (plane L mu orth a b) L.ND = plane L mu orth (a + 2) b := by
  unfold plane
  rw [spacing_siteAt hL (s := fun nu => if nu = mu then 2 else 0)]
  · congr 1; funext nu; split_ifs with h1 h2 <;> simp_all
  · intro nu _
    unfold shift_mu
    constructor <;> split_ifs <;> norm_num

/-- Start of a leaf in direction `mu`. -/
def startMu (phase : ℕ) : ℕ := if phase = 1 ∨ phase = 2 then 1 else 0

/-- Start of a leaf in direction `orth`. -/
def startOrth (phase : ℕ) : ℕ := if phase = 1 ∨ phase = 3 then 1 else 0

theorem plane_start (hL : Valid L) {mu orth : ℕ} (phase : ℕ) :
    compute_spacing L (offset mu orth phase) 0 L.ND = plane L mu orth (startMu phase) (startOrth phase) := by
  unfold plane
  rw [spacing_zero hL]
  intro nu _
  unfold offset startMu startOrth
  constructor
  · split <;> simp <;> (try split_ifs) <;> simp_all
  · split_ifs <;> norm_num

theorem leafInner_eq (hL : Valid L) {mu orth : ℕ} (h : mu ≠ orth) (a b : ℕ) (l : List ℕ) (n : ℕ) :
    leafInner L mu n (plane L mu orth a b, l) =
      (plane L mu orth (a + 2 * n) b, l ++ (List.range n).map fun i => plane L mu orth (a + 2 * (i + 1)) b) := by
  induction n with
  | zero => simp [leafInner]
  | succ n ih =>
    rw [leafInner, ih]
    dsimp only
    rw [plane_shift hL h, List.range_succ, List.map_append, ← List.append_assoc]
    rfl

theorem leafOuter_eq (hL : Valid L) {mu orth : ℕ} (h : mu ≠ orth) (hm : 1 ≤ multiplier L mu) (phase n : ℕ) :
    leafOuter L mu orth phase (n + 1) =
      (plane L mu orth (startMu phase + n * (4 * multiplier L mu - 1) + 2 * (2 * multiplier L mu - 1)) (startOrth phase + 2 * n),
       (List.range (n + 1)).flatMap fun o => (List.range (2 * multiplier L mu)).map fun i =>
        plane L mu orth (startMu phase + o * (4 * multiplier L mu - 1) + 2 * i) (startOrth phase + 2 * o)) := by
  have row : ∀ a b, plane L mu orth a b :: (List.range (2 * multiplier L mu - 1)).map (fun i => plane L mu orth (a + 2 * (i + 1)) b) =
      (List.range (2 * multiplier L mu)).map fun i => plane L mu orth (a + 2 * i) b := by
    intro a b
    obtain ⟨k, hk⟩ : ∃ k, 2 * multiplier L mu = k + 1 := ⟨2 * multiplier L mu - 1, by omega⟩
    rw [hk, Nat.add_sub_cancel, List.range_succ_eq_map, List.map_cons, List.map_map]
    rfl
  induction n with
  | zero =>
    rw [leafOuter, leafOuter]
    dsimp only
    rw [if_pos rfl, plane_start hL, leafInner_eq hL h]
    simp [← row]
  | succ n ih =>
    rw [leafOuter, ih]
    dsimp only
    rw [if_neg (by omega), plane_knight hL h, leafInner_eq hL h, List.range_succ (n := n + 1), List.flatMap_append, List.append_assoc]
    have e : startMu phase + n * (4 * multiplier L mu - 1) + 2 * (2 * multiplier L mu - 1) + 1 =
        startMu phase + (n + 1) * (4 * multiplier L mu - 1) := by
      have := Nat.succ_mul n (4 * multiplier L mu - 1)
      rw [Nat.succ_eq_add_one] at this
      rw [this]; omega
    rw [e]
    refine Prod.ext rfl ?_
    dsimp only
    congr 1
    rw [List.flatMap_singleton]
    rw [← row]
    rfl

theorem leaf_eq (hL : Valid L) {mu orth : ℕ} (h : mu ≠ orth) (hm : 1 ≤ multiplier L mu) (ho : 1 ≤ multiplier L orth) (phase : ℕ) :
    leaf L mu orth phase = (List.range (2 * multiplier L orth)).flatMap fun o => (List.range (2 * multiplier L mu)).map fun i =>
        plane L mu orth (startMu phase + o * (4 * multiplier L mu - 1) + 2 * i) (startOrth phase + 2 * o) := by
  unfold leaf
  obtain ⟨k, hk⟩ : ∃ k, 2 * multiplier L orth = k + 1 := ⟨2 * multiplier L orth - 1, by omega⟩
  rw [hk, leafOuter_eq hL h hm]

theorem leaf_length (hL : Valid L) {mu orth : ℕ} (h : mu ≠ orth) (hm : 1 ≤ multiplier L mu) (ho : 1 ≤ multiplier L orth) (phase : ℕ) :
    (leaf L mu orth phase).length = 4 * multiplier L orth * multiplier L mu := by
  rw [leaf_eq hL h hm ho]
  simp [List.length_flatMap]
  ring

/-- The four directions of direction `mu`. -/
theorem dirs_of {mu : ℕ} (hmu : mu < 4) : (orthDir mu < 4 ∧ otherDir mu (orthDir mu) 0 < 4 ∧ otherDir mu (orthDir mu) 1 < 4) ∧
    mu ≠ orthDir mu ∧ otherDir mu (orthDir mu) 0 ≠ mu ∧ otherDir mu (orthDir mu) 0 ≠ orthDir mu ∧
    otherDir mu (orthDir mu) 1 ≠ mu ∧ otherDir mu (orthDir mu) 1 ≠ orthDir mu ∧
    otherDir mu (orthDir mu) 0 ≠ otherDir mu (orthDir mu) 1 := by
  interval_cases mu <;> decide

/-- Product of all multipliers. -/
def allMult (L : Latt) : ℕ := multiplier L 0 * multiplier L 1 * multiplier L 2 * multiplier L 3

theorem mult_dirs {mu : ℕ} (hmu : mu < 4) : multiplier L (otherDir mu (orthDir mu) 1) * multiplier L (otherDir mu (orthDir mu) 0) *
    multiplier L (orthDir mu) * multiplier L mu = allMult L := by
  unfold allMult
  interval_cases mu <;> simp only [orthDir, otherDir] <;> norm_num <;> (try left) <;> ring

theorem squareWritten_length (hL : Valid L) (hm : ∀ mu < 4, 1 ≤ multiplier L mu) {mu : ℕ} (hmu : mu < 4) (phase : ℕ) :
    (squareWritten L mu phase).length = 64 * allMult L := by
  obtain ⟨⟨h1, h2, h3⟩, h4, _⟩ := dirs_of hmu
  unfold squareWritten
  simp only [List.length_flatMap, List.length_map, leaf_length hL h4 (hm _ hmu) (hm _ h1), List.map_const', List.sum_replicate,
    List.length_range, smul_eq_mul]
  rw [← mult_dirs hmu]
  ring

theorem volume_four (hL : Valid L) (h4 : L.ND = 4) : volume L = L.dims 0 * L.dims 1 * L.dims 2 * L.dims 3 := by
  rw [volume_eq L hL.nd, h4]
  simp [radix, prod_range_succ]

theorem allMult_le (hL : Valid L) (h4 : L.ND = 4) : 64 * allMult L ≤ volume L / 4 := by
  rw [volume_four hL h4, Nat.le_div_iff_mul_le (by norm_num)]
  unfold allMult multiplier
  have h : ∀ mu, 4 * (L.dims mu / 4) ≤ L.dims mu := fun mu => Nat.mul_div_le _ _
  calc 64 * (L.dims 0 / 4 * (L.dims 1 / 4) * (L.dims 2 / 4) * (L.dims 3 / 4)) * 4
      = (4 * (L.dims 0 / 4)) * (4 * (L.dims 1 / 4)) * (4 * (L.dims 2 / 4)) * (4 * (L.dims 3 / 4)) := by ring
    _ ≤ _ := Nat.mul_le_mul (Nat.mul_le_mul (Nat.mul_le_mul (h 0) (h 1)) (h 2)) (h 3)

theorem body_eq (hL : Valid L) (h4 : L.ND = 4) (sort : List ℕ → List ℕ) :
    improved_body sort L = open Classical in if ∀ mu < 4, 1 ≤ multiplier L mu then
      .ok (fun _ => volume L / 4) fun idx => sort (squareWritten L (idx / 4) (idx % 4) ++
        List.replicate (volume L / 4 - (squareWritten L (idx / 4) (idx % 4)).length) 0) else .undefined := by
  unfold improved_body
  split_ifs with h1 h2 h2
  · exfalso
    simp only [List.any_eq_true, List.mem_range, Bool.or_eq_true, beq_iff_eq, decide_eq_true_eq] at h1
    obtain ⟨mu, hmu, h | ⟨phase, _, h | h⟩⟩ := h1
    · have a := h2 _ hmu
      have b := h2 _ (dirs_of hmu).1.1
      simp only [mul_eq_zero] at h
      omega
    · exact h (leaf_length hL (dirs_of hmu).2.1 (h2 _ hmu) (h2 _ (dirs_of hmu).1.1) phase)
    · rw [squareWritten_length hL h2 hmu] at h
      have := allMult_le hL h4
      omega
  · rfl
  · rfl
  · exfalso
    apply h2
    intro mu hmu
    by_contra hc
    apply h1
    have hz : multiplier L mu = 0 := by omega
    rw [List.any_eq_true]
    exact ⟨mu, by simpa using hmu, by simp [hz]⟩

/-! ## Every site is written to the list of its colour -/

/-- The colour of a site for links in direction `mu`: the list `phase` holds the sites with
`phase + (sum of the other coordinates) = 2 * (coordinate in direction mu)` modulo four. -/
def InPhase (L : Latt) (mu phase i : ℕ) : Prop :=
  (phase + coord L L.ND i (orthDir mu) + coord L L.ND i (otherDir mu (orthDir mu) 0) + coord L L.ND i (otherDir mu (orthDir mu) 1)) % 4 =
    2 * coord L L.ND i mu % 4

theorem mem_leaf (hL : Valid L) {mu orth : ℕ} (h : mu ≠ orth) (hdm : L.dims mu % 4 = 0) (hm : 1 ≤ multiplier L mu)
    (hdo : L.dims orth % 4 = 0) (ho : 1 ≤ multiplier L orth) {phase a b : ℕ} (hp : phase < 4)
    (ha : a < L.dims mu) (hb : b < L.dims orth) (hc : (phase + b) % 4 = 2 * a % 4) : plane L mu orth a b ∈ leaf L mu orth phase := by
  rw [leaf_eq hL h hm ho]
  have em : L.dims mu = 4 * multiplier L mu := by unfold multiplier; omega
  have eo : L.dims orth = 4 * multiplier L orth := by unfold multiplier; omega
  generalize multiplier L mu = m at *
  generalize multiplier L orth = n at *
  simp only [List.mem_flatMap, List.mem_map, List.mem_range]
  -- row and column
  have hs : startOrth phase ≤ b ∧ (b - startOrth phase) % 2 = 0 ∧ startMu phase ≤ 1 ∧
      (a + (b - startOrth phase) / 2 + startMu phase) % 2 = 0 := by
    unfold startOrth startMu
    interval_cases phase <;> simp <;> omega
  obtain ⟨s1, s2, s3, s4⟩ := hs
  refine ⟨(b - startOrth phase) / 2, by omega, (a + (b - startOrth phase) / 2 + 4 * m - startMu phase) % (4 * m) / 2, ?_, ?_⟩
  · have := Nat.mod_lt (a + (b - startOrth phase) / 2 + 4 * m - startMu phase) (show 0 < 4 * m by omega)
    omega
  · unfold plane
    refine siteAt_congr fun nu _ => ?_
    have e1 : startOrth phase + 2 * ((b - startOrth phase) / 2) = b := by omega
    rw [e1]
    by_cases h1 : nu = orth
    · rw [if_pos h1, if_pos h1]
    · rw [if_neg h1, if_neg h1]
      by_cases h2 : nu = mu
      · rw [if_pos h2, if_pos h2, h2, em]
        generalize (b - startOrth phase) / 2 = o at *
        generalize startMu phase = t at *
        have e2 : 2 * ((a + o + 4 * m - t) % (4 * m) / 2) = (a + o + 4 * m - t) % (4 * m) := by
          have : (a + o + 4 * m - t) % (4 * m) % 2 = 0 := by
            rw [show 4 * m = 2 * (2 * m) by ring, Nat.mod_mul_right_mod]
            omega
          omega
        rw [e2, Nat.add_mod_mod]
        have e3 : t + o * (4 * m - 1) + (a + o + 4 * m - t) = a + 4 * m * (o + 1) := by
          have : o * (4 * m - 1) + o = 4 * m * o := by
            obtain ⟨k, hk⟩ : ∃ k, 4 * m = k + 1 := ⟨4 * m - 1, by omega⟩
            rw [hk, Nat.add_sub_cancel]; ring
          rw [Nat.mul_succ]
          omega
        rw [e3, Nat.add_mul_mod_self_left]
      · rw [if_neg h2, if_neg h2]

theorem mem_written (hL : Valid L) (h4 : L.ND = 4) (hd : ∀ mu < 4, L.dims mu % 4 = 0) {mu phase i : ℕ} (hmu : mu < 4) (hp : phase < 4)
    (hi : i < volume L) (hc : InPhase L mu phase i) : i ∈ squareWritten L mu phase := by
  have hm : ∀ mu < 4, 1 ≤ multiplier L mu := fun mu h => by
    have := hd mu h
    have := hL.pos mu (by omega)
    unfold multiplier
    omega
  have e4 : ∀ mu < 4, 4 * multiplier L mu = L.dims mu := fun mu h => by
    have := hd mu h
    unfold multiplier
    omega
  unfold InPhase at hc
  obtain ⟨⟨h1, h2, h3⟩, n1, n2, n3, n4, n5, n6⟩ := dirs_of hmu
  unfold squareWritten
  dsimp only
  generalize orthDir mu = orth at *
  generalize otherDir mu orth 0 = d0 at *
  generalize otherDir mu orth 1 = d1 at *
  have c := fun nu (hnu : nu < 4) => coord_lt L hL.pos L.ND i (show nu < L.ND by omega)
  simp only [List.mem_flatMap, List.mem_map, List.mem_range]
  refine ⟨coord L L.ND i d1, by rw [e4 _ h3]; exact c _ h3, coord L L.ND i d0, by rw [e4 _ h2]; exact c _ h2,
    plane L mu orth (coord L L.ND i mu) (coord L L.ND i orth), ?_, ?_⟩
  · refine mem_leaf hL n1 (hd _ hmu) (hm _ hmu) (hd _ h1) (hm _ h1) (Nat.mod_lt _ (by norm_num)) (c _ hmu) (c _ h1) ?_
    omega
  · rw [spacing_zero hL (s := fun nu => if nu = d1 then coord L L.ND i d1 else if nu = d0 then coord L L.ND i d0 else 0)]
    · unfold plane
      rw [siteAt_add]
      · conv_rhs => rw [← siteAt_coord hL hi]
        refine siteAt_congr fun nu hnu => ?_
        congr 1
        have : nu = mu ∨ nu = orth ∨ nu = d0 ∨ nu = d1 := by omega
        rcases this with rfl | rfl | rfl | rfl <;> simp [*, Ne.symm] <;> grind
      · intro nu _
        split_ifs <;> simp_all
    · intro nu _
      have := c d0 h2
      have := c d1 h3
      have s : ∀ mu < 4, L.dims mu < 2 ^ 31 := fun mu h => by
        refine lt_of_le_of_lt (Finset.single_le_prod' (f := L.dims) ?_ (mem_range.2 (show mu < L.ND by omega))) hL.small
        exact fun nu hnu => hL.pos nu (mem_range.1 hnu)
      have := s d0 h2
      have := s d1 h3
      constructor
      · split_ifs <;> simp
      · split_ifs <;> omega

end GLU.Draught
