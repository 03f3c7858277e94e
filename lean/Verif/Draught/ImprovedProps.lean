import Verif.Draught.ImprovedLemmas
import Mathlib.Data.ZMod.Basic
import Mathlib.Tactic.Ring

/-! # Properties of the draughtboard for rectangle actions (C64) -/

namespace GLU.Draught

open GLU.Geom Finset

variable {L : Latt}

/-- **C64** (negation): a lattice with any extent that is a multiple of four, among them every lattice the colouring is made for,
is refused. -/
theorem C64_rejects (hL : Valid L) (sort : List ℕ → List ℕ) (h : ∃ mu < L.ND, L.dims mu % 4 = 0) :
    init_improved_cb sort L = .failure := by
  unfold init_improved_cb
  split_ifs with h1 h2
  · rfl
  · rfl
  · exfalso
    apply h2
    obtain ⟨mu, hmu, h⟩ := h
    have := hL.pos mu hmu
    rw [List.any_eq_true]
    exact ⟨mu, by simp; omega, by simp; omega⟩

/-- What the function does on every lattice: it fails outside four dimensions and if some extent is a multiple of four, its
behaviour is undefined if some extent is below four, and it succeeds otherwise. -/
theorem C64_outcome (hL : Valid L) (sort : List ℕ → List ℕ) :
    (init_improved_cb sort L = .failure ↔ L.ND ≠ 4 ∨ ∃ mu < 4, L.dims mu % 4 = 0) ∧
    (init_improved_cb sort L = .undefined ↔ L.ND = 4 ∧ (∀ mu < 4, L.dims mu % 4 ≠ 0) ∧ ∃ mu < 4, L.dims mu < 4) := by
  by_cases h4 : L.ND = 4
  · by_cases hd : ∃ mu < 4, L.dims mu % 4 = 0
    · rw [C64_rejects hL sort (by rw [h4]; exact hd)]
      refine ⟨by simp [hd], iff_of_false (by simp) fun h => ?_⟩
      obtain ⟨mu, hmu, e⟩ := hd
      exact h.2.1 mu hmu e
    · have e : init_improved_cb sort L = improved_body sort L := by
        unfold init_improved_cb
        rw [if_neg (by omega), if_neg]
        simp only [List.any_eq_true, List.mem_range, decide_eq_true_eq]
        rintro ⟨mu, hmu, h, _⟩
        exact hd ⟨mu, hmu, h⟩
      rw [e, body_eq hL h4]
      have m : ∀ mu, 1 ≤ multiplier L mu ↔ ¬ L.dims mu < 4 := fun mu => by unfold multiplier; omega
      push Not at hd
      split_ifs with h
      · refine ⟨iff_of_false (by simp) (by push Not; exact ⟨h4, hd⟩), iff_of_false (by simp) ?_⟩
        rintro ⟨_, _, mu, hmu, h5⟩
        exact (m mu).1 (h mu hmu) h5
      · refine ⟨iff_of_false (by simp) (by push Not; exact ⟨h4, hd⟩), iff_of_true rfl ⟨h4, hd, ?_⟩⟩
        by_contra hc
        push Not at hc
        exact h fun mu hmu => (m mu).2 (by have := hc mu hmu; omega)
  · have e : init_improved_cb sort L = .failure := by
      unfold init_improved_cb
      rw [if_pos h4]
    rw [e]
    exact ⟨by simp [h4], iff_of_false (by simp) (by simp [h4])⟩

theorem four_prod {a b c d : ℕ} (ha : 1 ≤ a) (hb : 1 ≤ b) (hc : 1 ≤ c) (hd : 1 ≤ d) :
    256 * (a * b * c * d) + 256 ≤ (4 * a + 1) * (4 * b + 1) * (4 * c + 1) * (4 * d + 1) := by
  obtain ⟨a, rfl⟩ := Nat.exists_eq_add_of_le ha
  obtain ⟨b, rfl⟩ := Nat.exists_eq_add_of_le hb
  obtain ⟨c, rfl⟩ := Nat.exists_eq_add_of_le hc
  obtain ⟨d, rfl⟩ := Nat.exists_eq_add_of_le hd
  ring_nf
  omega

/-- **C64** (negation): whenever the function succeeds, for every direction some site is in none of the four lists, so that its link
is never updated, and every list names the first site at least 64 times, so that its link is updated by several
iterations of the same parallel loop. -/
theorem C64_fails (hL : Valid L) {sort : List ℕ → List ℕ} (hs : ∀ l, (sort l).Perm l) {Ns : ℕ → ℕ} {sq : ℕ → List ℕ}
    (h : init_improved_cb sort L = .ok Ns sq) {mu : ℕ} (hmu : mu < 4) :
    (∃ i < volume L, ∀ phase < 4, i ∉ sq (phase + 4 * mu)) ∧ ∀ phase < 4, 64 ≤ (sq (phase + 4 * mu)).count 0 := by
  obtain ⟨o1, o2⟩ := C64_outcome hL sort
  have n1 : ¬ (L.ND ≠ 4 ∨ ∃ mu < 4, L.dims mu % 4 = 0) := fun c => by
    have := o1.2 c
    rw [h] at this
    cases this
  push Not at n1
  obtain ⟨h4, hd⟩ := n1
  have n2 : ∀ mu < 4, 4 ≤ L.dims mu := by
    by_contra c
    push Not at c
    have := o2.2 ⟨h4, hd, c⟩
    rw [h] at this
    cases this
  have hm : ∀ mu < 4, 1 ≤ multiplier L mu := fun mu hmu => by have := n2 mu hmu; unfold multiplier; omega
  have e : init_improved_cb sort L = improved_body sort L := by
    unfold init_improved_cb
    rw [if_neg (by omega), if_neg]
    simp only [List.any_eq_true, List.mem_range, decide_eq_true_eq]
    rintro ⟨mu, hmu, h, _⟩
    exact hd mu hmu h
  rw [e, body_eq hL h4, if_pos hm] at h
  injection h with h1 h2
  have V : 256 * allMult L + 256 ≤ volume L := by
    have g : ∀ mu < 4, 4 * multiplier L mu + 1 ≤ L.dims mu := fun mu hmu => by
      have := hd mu hmu
      unfold multiplier
      omega
    rw [volume_four hL h4]
    exact (four_prod (hm 0 (by norm_num)) (hm 1 (by norm_num)) (hm 2 (by norm_num)) (hm 3 (by norm_num))).trans
      (Nat.mul_le_mul (Nat.mul_le_mul (Nat.mul_le_mul (g 0 (by norm_num)) (g 1 (by norm_num))) (g 2 (by norm_num))) (g 3 (by norm_num)))
  have sqe : ∀ phase < 4, (sq (phase + 4 * mu)).Perm
      (squareWritten L mu phase ++ List.replicate (volume L / 4 - 64 * allMult L) 0) := by
    intro phase hp
    rw [← h2]
    dsimp only
    rw [show (phase + 4 * mu) / 4 = mu by omega, show (phase + 4 * mu) % 4 = phase by omega, squareWritten_length hL hm hmu]
    exact hs _
  constructor
  · -- fewer entries than sites
    by_contra hc
    push Not at hc
    let all := 0 :: (squareWritten L mu 0 ++ squareWritten L mu 1 ++ squareWritten L mu 2 ++ squareWritten L mu 3)
    have sub : ∀ i ∈ List.range (volume L), i ∈ all := by
      intro i hi
      obtain ⟨phase, hp, hi⟩ := hc i (List.mem_range.1 hi)
      have := (sqe phase hp).mem_iff.1 hi
      rw [List.mem_append, List.mem_replicate] at this
      rcases this with h | ⟨_, rfl⟩
      · simp only [all, List.mem_cons, List.mem_append]
        interval_cases phase <;> simp [h]
      · exact List.mem_cons_self
    have := (List.nodup_range.subperm sub).length_le
    simp only [all, List.length_range, List.length_cons, List.length_append, squareWritten_length hL hm hmu] at this
    omega
  · intro phase hp
    rw [(sqe phase hp).count_eq, List.count_append, List.count_replicate_self]
    omega

/-- Such lattices exist: all extents five. -/
def L5555 : Latt := ⟨4, fun _ => 5⟩

theorem valid_L5555 : Valid L5555 := ⟨by decide, fun _ _ => (by decide : 0 < 5), by decide⟩

example : ∃ Ns sq, init_improved_cb id L5555 = .ok Ns sq := by
  obtain ⟨h1, h2⟩ := C64_outcome valid_L5555 id
  rcases h : init_improved_cb id L5555 with ⟨Ns, sq⟩ | _ | _
  · exact ⟨Ns, sq, rfl⟩
  · exact absurd (h1.1 h) (by decide)
  · exact absurd (h2.1 h) (by decide)

/-! ## The colouring itself -/

/-- Colour of a site for links in direction `mu`, modulo four. -/
def colour (L : Latt) (mu i : ℕ) : ZMod 4 :=
  2 * (coord L L.ND i mu : ZMod 4) - coord L L.ND i (orthDir mu) - coord L L.ND i (otherDir mu (orthDir mu) 0) -
    coord L L.ND i (otherDir mu (orthDir mu) 1)

theorem inPhase_iff {mu phase i : ℕ} : InPhase L mu phase i ↔ (phase : ZMod 4) = colour L mu i := by
  unfold InPhase colour
  rw [← Nat.ModEq, ← ZMod.natCast_eq_natCast_iff]
  push_cast
  constructor <;> intro h
  · rw [← h]; ring
  · rw [h]; ring

theorem four_disjoint {l : ℕ → List ℕ} (nd : (l 0 ++ l 1 ++ l 2 ++ l 3).Nodup) {p q i : ℕ} (hp : p < 4) (hq : q < 4)
    (h1 : i ∈ l p) (h2 : i ∈ l q) : p = q := by
  have c := List.nodup_iff_count_le_one.1 nd i
  simp only [List.count_append] at c
  have a := List.count_pos_iff.2 h1
  have b := List.count_pos_iff.2 h2
  interval_cases p <;> interval_cases q <;> first | rfl | omega

/-- **C64** on lattices whose extents are multiples of four, with the check at the start of the function taken out: for every direction
the four lists hold every site exactly once, in order of colour, and have the recorded length.  Missing: the function as it is
refuses these lattices (`C64_rejects`). -/
theorem C64_colouring_partial (hL : Valid L) (h4 : L.ND = 4) (hd : ∀ mu < 4, L.dims mu % 4 = 0) {sort : List ℕ → List ℕ}
    (hs : ∀ l, (sort l).Perm l) : ∃ Ns sq, improved_body sort L = .ok Ns sq ∧ ∀ mu < 4,
      (sq (4 * mu) ++ sq (1 + 4 * mu) ++ sq (2 + 4 * mu) ++ sq (3 + 4 * mu)).Perm (List.range (volume L)) ∧
      ∀ phase < 4, Ns (phase + 4 * mu) = (sq (phase + 4 * mu)).length ∧
        ∀ i, i ∈ sq (phase + 4 * mu) ↔ i < volume L ∧ (phase : ZMod 4) = colour L mu i := by
  have hm : ∀ mu < 4, 1 ≤ multiplier L mu := fun mu h => by
    have := hd mu h
    have := hL.pos mu (by omega)
    unfold multiplier
    omega
  have V : volume L = 256 * allMult L := by
    have g : ∀ mu < 4, L.dims mu = 4 * multiplier L mu := fun mu hmu => by
      have := hd mu hmu
      unfold multiplier
      omega
    rw [volume_four hL h4, g 0 (by norm_num), g 1 (by norm_num), g 2 (by norm_num), g 3 (by norm_num)]
    unfold allMult
    ring
  rw [body_eq hL h4, if_pos hm]
  refine ⟨_, _, rfl, fun mu hmu => ?_⟩
  have sqe : ∀ phase < 4, (sort (squareWritten L ((phase + 4 * mu) / 4) ((phase + 4 * mu) % 4) ++
      List.replicate (volume L / 4 - (squareWritten L ((phase + 4 * mu) / 4) ((phase + 4 * mu) % 4)).length) 0)).Perm
      (squareWritten L mu phase) := by
    intro phase hp
    refine (hs _).trans ?_
    rw [show (phase + 4 * mu) / 4 = mu by omega, show (phase + 4 * mu) % 4 = phase by omega, squareWritten_length hL hm hmu,
      show volume L / 4 - 64 * allMult L = 0 by omega, List.replicate_zero, List.append_nil]
  have s0 := sqe 0 (by norm_num)
  rw [Nat.zero_add] at s0
  have ph : ∀ i, ∃ phase : ℕ, phase < 4 ∧ (phase : ZMod 4) = colour L mu i := fun i =>
    ⟨(colour L mu i).val, ZMod.val_lt _, ZMod.natCast_rightInverse _⟩
  have len := squareWritten_length hL hm hmu
  have P : (squareWritten L mu 0 ++ squareWritten L mu 1 ++ squareWritten L mu 2 ++ squareWritten L mu 3).Perm
      (List.range (volume L)) := by
    refine (List.Subperm.perm_of_length_le (List.nodup_range.subperm fun i hi => ?_) ?_).symm
    · obtain ⟨phase, hp, hc⟩ := ph i
      have := mem_written hL h4 hd hmu hp (List.mem_range.1 hi) (inPhase_iff.2 hc)
      simp only [List.mem_append]
      interval_cases phase <;> simp [this]
    · simp only [List.length_append, len, List.length_range]
      omega
  refine ⟨(((s0.append (sqe 1 (by norm_num))).append (sqe 2 (by norm_num))).append (sqe 3 (by norm_num))).trans P, ?_⟩
  intro phase hp
  refine ⟨?_, fun i => ?_⟩
  · rw [(sqe phase hp).length_eq, len]
    omega
  · rw [(sqe phase hp).mem_iff]
    have nd := P.nodup_iff.2 List.nodup_range
    have mem := fun i => P.mem_iff (a := i)
    simp only [List.mem_append, List.mem_range] at mem
    constructor
    · intro hi
      have hv : i < volume L := by
        rw [← mem]
        interval_cases phase <;> simp [hi]
      refine ⟨hv, ?_⟩
      obtain ⟨q, hq, hc⟩ := ph i
      have h' := mem_written hL h4 hd hmu hq hv (inPhase_iff.2 hc)
      suffices q = phase by rw [← this]; exact hc
      exact four_disjoint nd hq hp h' hi
    · rintro ⟨hv, hc⟩
      exact mem_written hL h4 hd hmu hp hv (inPhase_iff.2 hc)

/-- A lattice the colouring is made for. -/
def L4484 : Latt := ⟨4, fun mu => if mu = 2 then 8 else 4⟩

theorem valid_L4484 : Valid L4484 := ⟨by decide, fun mu _ => by show 0 < if mu = 2 then 8 else 4; split <;> omega, by decide⟩

example : (∀ mu < 4, L4484.dims mu % 4 = 0) ∧ L4484.ND = 4 ∧ init_improved_cb id L4484 = .failure :=
  ⟨by decide, rfl, C64_rejects valid_L4484 id ⟨0, by decide, by decide⟩⟩

/-! ## Colours of neighbours -/

theorem cast_emod {a : ℤ} {d : ℕ} (h : d % 4 = 0) : ((a % d : ℤ) : ZMod 4) = (a : ZMod 4) := by
  obtain ⟨k, hk⟩ := Nat.dvd_of_mod_eq_zero h
  rw [Int.emod_def, hk]
  push_cast
  rw [show (4 : ZMod 4) = 0 from rfl]
  ring

theorem coord_neighbor_cast (hL : Valid L) (h4 : L.ND = 4) (hd : ∀ mu < 4, L.dims mu % 4 = 0) (i : ℕ) {mu nu : ℕ} (hmu : mu < 4)
    (hnu : nu < 4) : (coord L L.ND (neighbor L i mu) nu : ZMod 4) = coord L L.ND i nu + if nu = mu then 1 else 0 := by
  have e := congrArg (Int.cast (R := ZMod 4)) (coord_neighbor hL i (show mu < L.ND by omega) (show nu < L.ND by omega))
  rw [Int.cast_natCast] at e
  rw [e]
  split_ifs with h
  · rw [cast_emod (hd _ hmu), h]; push_cast; rfl
  · simp

theorem coord_back_cast (hL : Valid L) (h4 : L.ND = 4) (hd : ∀ mu < 4, L.dims mu % 4 = 0) (i : ℕ) {mu nu : ℕ} (hmu : mu < 4)
    (hnu : nu < 4) : (coord L L.ND (back L i mu) nu : ZMod 4) = coord L L.ND i nu - if nu = mu then 1 else 0 := by
  have e := congrArg (Int.cast (R := ZMod 4)) (coord_back hL i (show mu < L.ND by omega) (show nu < L.ND by omega))
  rw [Int.cast_natCast] at e
  rw [e]
  split_ifs with h
  · rw [cast_emod (hd _ hmu), h]; push_cast; rfl
  · simp

theorem colour_neighbor (hL : Valid L) (h4 : L.ND = 4) (hd : ∀ mu < 4, L.dims mu % 4 = 0) (i : ℕ) {mu nu : ℕ} (hmu : mu < 4)
    (hnu : nu < 4) : colour L mu (neighbor L i nu) = colour L mu i + if nu = mu then 2 else -1 := by
  obtain ⟨⟨h1, h2, h3⟩, n1, n2, n3, n5, n6, n7⟩ := dirs_of hmu
  unfold colour
  rw [coord_neighbor_cast hL h4 hd i hnu hmu, coord_neighbor_cast hL h4 hd i hnu h1, coord_neighbor_cast hL h4 hd i hnu h2,
    coord_neighbor_cast hL h4 hd i hnu h3]
  generalize orthDir mu = orth at *
  generalize otherDir mu orth 0 = d0 at *
  generalize otherDir mu orth 1 = d1 at *
  have : nu = mu ∨ nu = orth ∨ nu = d0 ∨ nu = d1 := by omega
  rcases this with rfl | rfl | rfl | rfl <;> simp [*, Ne.symm, n1.symm] <;> (try simp [Ne.symm n2, Ne.symm n3, Ne.symm n5, Ne.symm n6, Ne.symm n7]) <;> ring

theorem colour_back (hL : Valid L) (h4 : L.ND = 4) (hd : ∀ mu < 4, L.dims mu % 4 = 0) (i : ℕ) {mu nu : ℕ} (hmu : mu < 4)
    (hnu : nu < 4) : colour L mu (back L i nu) = colour L mu i - if nu = mu then 2 else -1 := by
  obtain ⟨⟨h1, h2, h3⟩, n1, n2, n3, n5, n6, n7⟩ := dirs_of hmu
  unfold colour
  rw [coord_back_cast hL h4 hd i hnu hmu, coord_back_cast hL h4 hd i hnu h1, coord_back_cast hL h4 hd i hnu h2,
    coord_back_cast hL h4 hd i hnu h3]
  generalize orthDir mu = orth at *
  generalize otherDir mu orth 0 = d0 at *
  generalize otherDir mu orth 1 = d1 at *
  have : nu = mu ∨ nu = orth ∨ nu = d0 ∨ nu = d1 := by omega
  rcases this with rfl | rfl | rfl | rfl <;> simp [*, Ne.symm, n1.symm] <;> (try simp [Ne.symm n2, Ne.symm n3, Ne.symm n5, Ne.symm n6, Ne.symm n7]) <;> ring

end GLU.Draught
