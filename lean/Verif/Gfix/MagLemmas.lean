import Verif.Gfix.Mag
import Verif.Gfix.OrSweep

/-!
# Axial gauges: lemmas
-/

namespace GLU.Gfix

open Complex GLU.Mat GLU.Geom GLU.Field Matrix Finset

/-- `n` steps in direction `mu`. -/
def walk (L : Latt) (mu n i : ℕ) : ℕ := (fun k => neighbor L k mu)^[n] i

theorem walk_succ (L : Latt) (mu n i : ℕ) : walk L mu (n + 1) i = neighbor L (walk L mu n i) mu :=
  Function.iterate_succ_apply' _ _ _

theorem walk_lt {L : Latt} (hL : Valid L) {mu i : ℕ} (hmu : mu < L.ND) (hi : i < volume L) (n : ℕ) :
    walk L mu n i < volume L := by
  cases n with
  | zero => exact hi
  | succ n => rw [walk_succ]; exact neighbor_lt hL _ hmu

theorem walk_coord {L : Latt} (hL : Valid L) {mu i n : ℕ} (hmu : mu < L.ND) (h0 : coord L L.ND i mu = 0)
    (hn : n < L.dims mu) {nu : ℕ} (hnu : nu < L.ND) :
    coord L L.ND (walk L mu n i) nu = if nu = mu then n else coord L L.ND i nu := by
  have h := coord_iterate hL hmu (i := i) n nu hnu
  rw [h0] at h
  unfold walk
  split_ifs with e
  · rw [if_pos e] at h
    have h' : ((0 : ℕ) + (n : ℤ)) % L.dims mu = n := by
      rw [Int.emod_eq_of_lt] <;> push_cast <;> omega
    rw [h'] at h
    exact_mod_cast h
  · rw [if_neg e] at h
    exact_mod_cast h

/-- A start of a line in direction `mu`. -/
def Start (L : Latt) (mu i : ℕ) : Prop := i < volume L ∧ coord L L.ND i mu = 0

theorem walk_inj {L : Latt} (hL : Valid L) {mu i j m n : ℕ} (hmu : mu < L.ND) (hi : Start L mu i) (hj : Start L mu j)
    (hm : m < L.dims mu) (hn : n < L.dims mu) (h : walk L mu m i = walk L mu n j) : i = j ∧ m = n := by
  have hc : ∀ nu < L.ND, _ := fun nu hnu => congrArg (fun x => coord L L.ND x nu) h
  refine ⟨site_ext hL hi.1 hj.1 fun nu hnu => ?_, ?_⟩
  · have := hc nu hnu
    rw [walk_coord hL hmu hi.2 hm hnu, walk_coord hL hmu hj.2 hn hnu] at this
    by_cases e : nu = mu
    · subst e; rw [hi.2, hj.2]
    · rwa [if_neg e, if_neg e] at this
  · have := hc mu hmu
    rwa [walk_coord hL hmu hi.2 hm hmu, walk_coord hL hmu hj.2 hn hmu, if_pos rfl, if_pos rfl] at this

/-- The matrices along one line: the identity at the start, then the product of the links passed. -/
def Line (NC : ℕ) (L : Latt) (lat : Gauge) (mu i : ℕ) (g : ℕ → Arr ℂ) : Prop :=
  toM NC (g i) = 1 ∧ ∀ n, n + 1 < L.dims mu →
    toM NC (g (walk L mu (n + 1) i)) = toM NC (g (walk L mu n i)) * link NC lat (walk L mu n i) mu

theorem isSU_one {NC : ℕ} {a : Arr ℂ} (h : toM NC a = 1) : IsSU NC a := by
  unfold IsSU; rw [h]; exact one_mem _

theorem gauge_set_line {NC : ℕ} {L : Latt} (hL : Valid L) {lat : Gauge} (hU : SUField NC L lat) {mu i : ℕ}
    (hmu : mu < L.ND) (hi : Start L mu i) {g : ℕ → Arr ℂ} (hg : SUGauge NC L g) :
    SUGauge NC L (gauge_set NC L lat mu i g) ∧ Line NC L lat mu i (gauge_set NC L lat mu i g) ∧
    ∀ k, (∀ n < L.dims mu, k ≠ walk L mu n i) → gauge_set NC L lat mu i g k = g k := by
  have hpos := hL.pos mu hmu
  have H := forN_inv (fun m (s : (ℕ → Arr ℂ) × ℕ × ℕ) => s.2.1 = walk L mu m i ∧ s.2.2 = walk L mu (m + 1) i ∧
      SUGauge NC L s.1 ∧ toM NC (s.1 i) = 1 ∧ (∀ n, n < m →
        toM NC (s.1 (walk L mu (n + 1) i)) = toM NC (s.1 (walk L mu n i)) * link NC lat (walk L mu n i) mu) ∧
      ∀ k, (∀ n ≤ m, k ≠ walk L mu n i) → s.1 k = g k) (n := L.dims mu - 1)
    (body := fun _ (s : (ℕ → Arr ℂ) × ℕ × ℕ) =>
      (Function.update s.1 s.2.2 (multab_suNC NC (s.1 s.2.1) (lat (s.2.1, mu)) (s.1 s.2.2)), s.2.2,
        neighbor L s.2.2 mu))
    (s := (Function.update g i (identity NC (g i)), i, neighbor L i mu))
    ⟨rfl, rfl, fun k hk => by
        dsimp only
        by_cases e : k = i
        · subst e; rw [Function.update_self]; exact isSU_one (C63_identity NC _)
        · rw [Function.update_of_ne e]; exact hg k hk,
      by simp only [Function.update_self]; exact C63_identity NC _, by omega,
      fun k hk => Function.update_of_ne (hk 0 le_rfl) _ _⟩
    (fun m hm s hs => by
      obtain ⟨h1, h2, h3, h4, h5, h6⟩ := hs
      have hw := walk_lt hL hmu hi.1
      have hmul := C11_multab_suNC (h3 _ (hw m)) (hU _ (hw m) mu hmu) (s.1 (walk L mu (m + 1) i))
      have hne : ∀ n ≤ m, walk L mu n i ≠ walk L mu (m + 1) i := fun n hn e => by
        have := (walk_inj hL hmu hi hi (by omega) (by omega) e).2
        omega
      simp only [h1, h2]
      refine ⟨trivial, (walk_succ L mu (m + 1) i).symm, ?_, ?_, ?_, ?_⟩
      · intro k hk
        by_cases e : k = walk L mu (m + 1) i
        · subst e; rw [Function.update_self]; exact hmul.2
        · rw [Function.update_of_ne e]; exact h3 k hk
      · rw [Function.update_of_ne (show i ≠ _ from hne 0 (by omega))]; exact h4
      · intro n hn
        rw [Function.update_of_ne (hne n (by omega))]
        by_cases e : n = m
        · subst e; rw [Function.update_self]; exact hmul.1
        · rw [Function.update_of_ne (hne (n + 1) (by omega))]
          exact h5 n (by omega)
      · intro k hk
        rw [Function.update_of_ne (hk (m + 1) le_rfl)]
        exact h6 k fun n hn => hk n (by omega))
  obtain ⟨-, -, h3, h4, h5, h6⟩ := H
  exact ⟨h3, ⟨h4, fun n hn => h5 n (by omega)⟩, fun k hk => h6 k fun n hn => hk n (by omega)⟩

theorem gauge_lines_line {NC : ℕ} {L : Latt} (hL : Valid L) {lat : Gauge} (hU : SUField NC L lat) {mu : ℕ}
    (hmu : mu < L.ND) {starts : List ℕ} (hs : ∀ i ∈ starts, Start L mu i) {g : ℕ → Arr ℂ} (hg : SUGauge NC L g) :
    SUGauge NC L (gauge_lines NC L lat mu starts g) ∧
    (∀ i, Start L mu i → (i ∈ starts ∨ Line NC L lat mu i g) → Line NC L lat mu i (gauge_lines NC L lat mu starts g)) ∧
    ∀ k, (∀ i ∈ starts, ∀ n < L.dims mu, k ≠ walk L mu n i) → gauge_lines NC L lat mu starts g k = g k := by
  unfold gauge_lines
  induction starts generalizing g with
  | nil => exact ⟨hg, fun i _ h => h.resolve_left (by simp), fun k _ => rfl⟩
  | cons j l ih =>
    have hj := hs j (by simp)
    obtain ⟨a1, a2, a3⟩ := gauge_set_line hL hU hmu hj hg
    obtain ⟨b1, b2, b3⟩ := ih (fun i hi => hs i (by simp [hi])) a1
    rw [List.foldl_cons]
    refine ⟨b1, fun i hi h => b2 i hi ?_, fun k hk => ?_⟩
    · by_cases e : i = j
      · subst e; exact Or.inr a2
      · rcases h with h | h
        · rw [List.mem_cons] at h
          exact Or.inl (h.resolve_left e)
        · right
          have hne : ∀ n < L.dims mu, gauge_set NC L lat mu j g (walk L mu n i) = g (walk L mu n i) := fun n hn =>
            a3 _ fun m hm e' => e (walk_inj hL hmu hi hj hn hm e').1
          have hpos := hL.pos mu hmu
          refine ⟨?_, fun n hn => ?_⟩
          · have := hne 0 hpos
            rw [show walk L mu 0 i = i from rfl] at this
            rw [this]; exact h.1
          · rw [hne n (by omega), hne (n + 1) hn]; exact h.2 n hn
    · rw [b3 k fun i hi => hk i (by simp [hi]), a3 k (hk j (by simp))]

/-- Every site lies on one line. -/
theorem on_line {L : Latt} (hL : Valid L) {mu k : ℕ} (hmu : mu < L.ND) (hk : k < volume L) :
    ∃ i, Start L mu i ∧ coord L L.ND k mu < L.dims mu ∧ k = walk L mu (coord L L.ND k mu) i ∧
      ∀ nu < L.ND, nu ≠ mu → coord L L.ND i nu = coord L L.ND k nu := by
  have hr : ∀ nu < L.ND, coord L L.ND k nu < L.dims nu := fun nu hnu => coord_lt L hL.pos L.ND k hnu
  have hx : InRange L (fun nu => ((if nu = mu then 0 else coord L L.ND k nu : ℕ) : ℤ)) := by
    intro nu hnu
    have := hr nu hnu
    dsimp only
    split_ifs with e
    · constructor
      · simp
      · push_cast
        have := hL.pos nu hnu
        exact_mod_cast this
    · constructor
      · positivity
      · exact_mod_cast this
  have hc : ∀ nu < L.ND, coord L L.ND (gen_site L fun nu => ((if nu = mu then 0 else coord L L.ND k nu : ℕ) : ℤ)) nu =
      if nu = mu then 0 else coord L L.ND k nu := fun nu hnu => by
    have := coord_gen_site hL hx hnu
    exact_mod_cast this
  have hs : Start L mu (gen_site L fun nu => ((if nu = mu then 0 else coord L L.ND k nu : ℕ) : ℤ)) :=
    ⟨gen_site_lt hL hx, by rw [hc mu hmu, if_pos rfl]⟩
  refine ⟨_, hs, hr mu hmu, ?_, fun nu hnu hne => by rw [hc nu hnu, if_neg hne]⟩
  refine site_ext hL hk (walk_lt hL hmu hs.1 _) fun nu hnu => ?_
  rw [walk_coord hL hmu hs.2 (hr mu hmu) hnu]
  split_ifs with e
  · rw [e]
  · rw [hc nu hnu, if_neg e]

theorem lt_radix_iff {L : Latt} (hL : Valid L) {k m : ℕ} (hk : k < volume L) (hm : m ≤ L.ND) :
    k < radix L.dims m ↔ ∀ nu, m ≤ nu → nu < L.ND → coord L L.ND k nu = 0 := by
  constructor
  · intro h nu h1 h2
    rw [coord_eq L h2, Nat.div_eq_of_lt, Nat.zero_mod]
    exact lt_of_lt_of_le h (radix_le (fun mu hmu => hL.pos mu (by omega)) h1)
  · intro h
    have e := digits_sum L.dims k L.ND
    rw [Nat.mod_eq_of_lt (by rw [volume_eq L hL.nd] at hk; exact hk)] at e
    have e' := digits_sum L.dims k m
    have : ∑ j ∈ range L.ND, (k / radix L.dims j % L.dims j) * radix L.dims j =
        ∑ j ∈ range m, (k / radix L.dims j % L.dims j) * radix L.dims j := by
      symm
      refine sum_subset (range_subset_range.2 hm) fun j hj hj' => ?_
      rw [mem_range] at hj hj'
      rw [← coord_eq L hj, h j (by omega) hj, zero_mul]
    rw [this, e'] at e
    rw [← e]
    exact Nat.mod_lt _ (radix_pos hL.pos m hm)

theorem radix_le_volume {L : Latt} (hL : Valid L) {m : ℕ} (hm : m ≤ L.ND) : radix L.dims m ≤ volume L := by
  rw [volume_eq L hL.nd]
  exact radix_le hL.pos hm

end GLU.Gfix
