import Verif.Draught.Model
import Verif.Geom.Props

namespace GLU.Draught

open GLU.Geom Finset

theorem evenSum_eq (dims n : ℕ → ℕ) (k : ℕ) :
    evenSum dims n k = ∑ mu ∈ range k, if dims mu % 2 = 0 then n mu else 0 := by
  induction k with
  | zero => rfl
  | succ k ih =>
    rw [evenSum, sum_range_succ, ih, Nat.and_one_is_mod]
    split <;> simp

theorem oddSum_eq (dims n : ℕ → ℕ) (k : ℕ) :
    oddSum dims n k = ∑ mu ∈ range k, if dims mu % 2 = 0 then 0 else n mu := by
  induction k with
  | zero => rfl
  | succ k ih =>
    rw [oddSum, sum_range_succ, ih, Nat.and_one_is_mod]
    split <;> simp

/-- Number of sites below `k` with colour `c` under `f`. -/
theorem countPass_eq (L : Latt) (DIR k c : ℕ) :
    countPass L DIR k c = ((List.range k).filter fun i => get_midx L i DIR 3 = c).length := by
  induction k with
  | zero => simp [countPass]
  | succ k ih =>
    rw [countPass, List.range_succ, List.filter_append, List.length_append]
    by_cases h : get_midx L k DIR 3 = c
    · subst h; simp [ih]
    · rw [Function.update_of_ne (Ne.symm h), ih]; simp [h]

/-- Pass 2 succeeds when the capacities are large enough, and lists the sites of
each colour in increasing order. -/
theorem fillPass_eq (L : Latt) (DIR nc : ℕ) (hnc : 0 < nc) (cap : ℕ → ℕ) (k : ℕ)
    (hcap : ∀ c < nc, ((List.range k).filter fun i => get_midx L i DIR nc = c).length ≤ cap c) :
    fillPass L DIR nc cap k =
      some fun c => (List.range k).filter fun i => get_midx L i DIR nc = c := by
  induction k with
  | zero => simp [fillPass]
  | succ k ih =>
    have hm : get_midx L k DIR nc < nc := Nat.mod_lt _ hnc
    rw [fillPass, ih]
    · simp only [Option.bind_some]
      rw [if_pos]
      · congr 1
        funext c
        rw [List.range_succ, List.filter_append]
        by_cases h : get_midx L k DIR nc = c
        · subst h; simp
        · rw [Function.update_of_ne (Ne.symm h)]; simp [h]
      · refine ⟨hm, ?_⟩
        have := hcap _ hm
        rw [List.range_succ, List.filter_append, List.length_append] at this
        simp at this
        simpa using this
    · intro c hc
      have := hcap c hc
      rw [List.range_succ, List.filter_append, List.length_append] at this
      omega

/-- The value whose remainder is the colour, as a function of the coordinates. -/
def colSum (L : Latt) (DIR : ℕ) (x : ℕ → ℕ) : ℕ :=
  evenSum L.dims x DIR % 2 + oddSum L.dims x DIR

theorem evenSum_congr (dims : ℕ → ℕ) {x y : ℕ → ℕ} {k : ℕ} (h : ∀ mu < k, x mu = y mu) :
    evenSum dims x k = evenSum dims y k := by
  rw [evenSum_eq, evenSum_eq]
  exact sum_congr rfl fun mu hmu => by rw [h mu (mem_range.1 hmu)]

theorem oddSum_congr (dims : ℕ → ℕ) {x y : ℕ → ℕ} {k : ℕ} (h : ∀ mu < k, x mu = y mu) :
    oddSum dims x k = oddSum dims y k := by
  rw [oddSum_eq, oddSum_eq]
  exact sum_congr rfl fun mu hmu => by rw [h mu (mem_range.1 hmu)]

theorem sum_update_aux (c : ℕ → Prop) [DecidablePred c] (x : ℕ → ℕ) {k mu : ℕ} (v : ℕ) (hmu : mu < k) :
    (∑ nu ∈ range k, if c nu then Function.update x mu v nu else 0) + (if c mu then x mu else 0) =
      (∑ nu ∈ range k, if c nu then x nu else 0) + (if c mu then v else 0) := by
  have hm : mu ∈ range k := mem_range.2 hmu
  rw [← add_sum_erase _ _ hm, ← add_sum_erase (range k) (fun nu => if c nu then x nu else 0) hm]
  have : ∑ nu ∈ (range k).erase mu, (if c nu then Function.update x mu v nu else 0)
      = ∑ nu ∈ (range k).erase mu, if c nu then x nu else 0 :=
    sum_congr rfl fun nu hnu => by rw [Function.update_of_ne (ne_of_mem_erase hnu)]
  rw [this, Function.update_self]
  omega

theorem evenSum_update (dims x : ℕ → ℕ) {k mu : ℕ} (v : ℕ) (hmu : mu < k) :
    evenSum dims (Function.update x mu v) k + (if dims mu % 2 = 0 then x mu else 0) =
      evenSum dims x k + (if dims mu % 2 = 0 then v else 0) := by
  rw [evenSum_eq, evenSum_eq]
  exact sum_update_aux (fun nu => dims nu % 2 = 0) x v hmu

theorem oddSum_update (dims x : ℕ → ℕ) {k mu : ℕ} (v : ℕ) (hmu : mu < k) :
    oddSum dims (Function.update x mu v) k + (if dims mu % 2 = 0 then 0 else x mu) =
      oddSum dims x k + (if dims mu % 2 = 0 then 0 else v) := by
  rw [oddSum_eq, oddSum_eq]
  have := sum_update_aux (fun nu => ¬ dims nu % 2 = 0) x v hmu
  simpa only [ite_not] using this

/-- A larger value can be lowered to exactly 2 by lowering odd-extent coordinates. -/
theorem descend {L : Latt} {DIR : ℕ} (n : ℕ) : ∀ x : ℕ → ℕ, (∀ mu < DIR, x mu < L.dims mu) →
    colSum L DIR x = n + 2 → ∃ y : ℕ → ℕ, (∀ mu < DIR, y mu < L.dims mu) ∧ colSum L DIR y = 2 := by
  induction n with
  | zero => exact fun x hx h => ⟨x, hx, h⟩
  | succ n ih =>
    intro x hx h
    have hO : oddSum L.dims x DIR ≠ 0 := by unfold colSum at h; omega
    rw [oddSum_eq] at hO
    obtain ⟨mu, hmu, hne⟩ := exists_ne_zero_of_sum_ne_zero hO
    have hmu' := mem_range.1 hmu
    have hodd : ¬ L.dims mu % 2 = 0 := fun hh => hne (by simp [hh])
    simp only [hodd, if_false] at hne
    refine ih (Function.update x mu (x mu - 1)) ?_ ?_
    · intro nu hnu
      by_cases e : nu = mu
      · subst e; rw [Function.update_self]; have := hx nu hnu; omega
      · rw [Function.update_of_ne e]; exact hx nu hnu
    · have h1 := evenSum_update L.dims x (x mu - 1) hmu'
      have h2 := oddSum_update L.dims x (x mu - 1) hmu'
      simp only [hodd, if_false] at h1 h2
      unfold colSum at *
      omega

/-- The site with given coordinates among the first `DIR` directions. -/
theorem exists_site {L : Latt} {DIR : ℕ} (x : ℕ → ℕ) (hx : ∀ mu < DIR, x mu < L.dims mu) :
    ∃ i < radix L.dims DIR, ∀ mu < DIR, coord L DIR i mu = x mu := by
  refine ⟨∑ mu ∈ range DIR, x mu * radix L.dims mu, sum_lt_radix hx, fun mu hmu => ?_⟩
  rw [coord_eq L hmu, digit_of_sum hx hmu]

theorem get_midx_eq (L : Latt) (i DIR nc : ℕ) :
    get_midx L i DIR nc = colSum L DIR (coord L DIR i) % nc := rfl

theorem colSum_congr (L : Latt) {DIR : ℕ} {x y : ℕ → ℕ} (h : ∀ mu < DIR, x mu = y mu) :
    colSum L DIR x = colSum L DIR y := by
  unfold colSum; rw [evenSum_congr L.dims h, oddSum_congr L.dims h]

/-- When colour 2 does not occur, every value is 0 or 1. -/
theorem colSum_lt_two {L : Latt} (hL : Valid L) {DIR : ℕ} (hD : DIR ≤ L.ND)
    (h : countPass L DIR (radix L.dims DIR) 2 = 0) (i : ℕ) :
    colSum L DIR (coord L DIR i) < 2 := by
  by_contra hc
  obtain ⟨y, hy, hy2⟩ := descend (DIR := DIR) (colSum L DIR (coord L DIR i) - 2) (coord L DIR i)
    (fun mu hmu => coord_lt L hL.pos DIR i (by omega)) (by omega)
  obtain ⟨j, hj, hjc⟩ := exists_site y hy
  rw [countPass_eq, List.length_eq_zero_iff, List.filter_eq_nil_iff] at h
  refine h j (List.mem_range.2 hj) ?_
  rw [get_midx_eq, colSum_congr L hjc, hy2]
  rfl

/-- The colour lists of `init_cb`, and the exact condition for success. -/
theorem init_cb_eq {L : Latt} (hL : Valid L) {DIR : ℕ} (hD : DIR ≤ L.ND) :
    ∃ nc, (nc = 2 ∨ nc = 3) ∧
      (nc = 2 → ∀ i, colSum L DIR (coord L DIR i) < 2) ∧
      (nc = 3 → ∃ i < radix L.dims DIR, get_midx L i DIR 3 = 2) ∧
      ((∃ c < nc, ∀ i < radix L.dims DIR, get_midx L i DIR nc ≠ c) →
        init_cb L (radix L.dims DIR) DIR = .failure) ∧
      ((∀ c < nc, ∃ i < radix L.dims DIR, get_midx L i DIR nc = c) →
        init_cb L (radix L.dims DIR) DIR = .ok nc
          (fun c => ((List.range (radix L.dims DIR)).filter fun i => get_midx L i DIR nc = c).length)
          (fun c => (List.range (radix L.dims DIR)).filter fun i => get_midx L i DIR nc = c)) := by
  set V := radix L.dims DIR with hV
  set nc := if countPass L DIR V 2 = 0 then 2 else 3 with hncdef
  have hnc : nc = 2 ∨ nc = 3 := by rw [hncdef]; split <;> simp
  have hsame : ∀ i, get_midx L i DIR 3 = get_midx L i DIR nc := by
    intro i
    rw [hncdef]
    split
    · next h0 =>
      have := colSum_lt_two hL hD h0 i
      rw [get_midx_eq, get_midx_eq]; omega
    · rfl
  have hcount : ∀ c, countPass L DIR V c
      = ((List.range V).filter fun i => get_midx L i DIR nc = c).length := by
    intro c; rw [countPass_eq]; simp only [hsame]
  have hfill := fillPass_eq L DIR nc (by omega) (countPass L DIR V) V
    (fun c _ => le_of_eq (hcount c).symm)
  have hzero : ∀ c, countPass L DIR V c = 0 ↔ ∀ i < V, get_midx L i DIR nc ≠ c := by
    intro c
    rw [hcount, List.length_eq_zero_iff, List.filter_eq_nil_iff]
    simp
  refine ⟨nc, hnc, ?_, ?_, ?_, ?_⟩
  · intro h2 i
    refine colSum_lt_two hL hD ?_ i
    by_contra h0
    rw [hncdef, if_neg h0] at h2
    omega
  · intro h3
    by_contra hcon
    push Not at hcon
    have : countPass L DIR V 2 = 0 := by
      rw [countPass_eq, List.length_eq_zero_iff, List.filter_eq_nil_iff]
      intro i hi; simpa using hcon i (List.mem_range.1 hi)
    rw [hncdef, if_pos this] at h3
    omega
  · rintro ⟨c, hc, hne⟩
    unfold init_cb
    simp only [← hncdef]
    rw [if_pos]
    rw [List.any_eq_true]
    exact ⟨c, List.mem_range.2 hc, by rw [beq_iff_eq]; exact (hzero c).2 hne⟩
  · intro hall
    unfold init_cb
    simp only [← hncdef]
    rw [if_neg, hfill]
    rw [List.any_eq_true]
    rintro ⟨c, hc, h0⟩
    obtain ⟨i, hi, hic⟩ := hall c (List.mem_range.1 hc)
    exact (hzero c).1 (by simpa using h0) i hi hic

/-- Inversion: what a successful `init_cb` recorded. -/
theorem init_cb_ok {L : Latt} (hL : Valid L) {DIR : ℕ} (hD : DIR ≤ L.ND) {nc : ℕ} {Ns : ℕ → ℕ}
    {sq : ℕ → List ℕ} (h : init_cb L (radix L.dims DIR) DIR = .ok nc Ns sq) :
    (nc = 2 ∨ nc = 3) ∧ (nc = 2 → ∀ i, colSum L DIR (coord L DIR i) < 2) ∧
    (∀ c, Ns c = (sq c).length) ∧
    (∀ c, sq c = (List.range (radix L.dims DIR)).filter fun i => get_midx L i DIR nc = c) ∧
    ∀ c < nc, ∃ i < radix L.dims DIR, get_midx L i DIR nc = c := by
  obtain ⟨nc', hnc', h2, _, hf, ho⟩ := init_cb_eq hL hD
  by_cases hc : ∀ c < nc', ∃ i < radix L.dims DIR, get_midx L i DIR nc' = c
  · rw [ho hc] at h
    cases h
    exact ⟨hnc', h2, fun _ => rfl, fun _ => rfl, hc⟩
  · push Not at hc
    rw [hf hc] at h
    cases h

end GLU.Draught
