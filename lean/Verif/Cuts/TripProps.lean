import Verif.Cuts.TripModel
import Mathlib.Data.List.Nodup
import Mathlib.Data.List.Range
import Mathlib.Data.List.Flatten
import Mathlib.Tactic.Linarith
import Mathlib.Tactic.Ring
import Mathlib.Tactic.Positivity

/-!
# Momentum triplets (C61)
-/

namespace GLU.Cuts

/-! ### The momenta that are visited -/

/-- The momenta visited from `p` on. -/
inductive Visits (r : ℤ) : Mom → List Mom → Prop where
  | last {p} (h : next r p = none) : Visits r p [p]
  | more {p q l} (h : next r p = some q) (hl : Visits r q l) : Visits r p (p :: l)

/-- All momenta with `n` entries from `-r` to `r`. -/
def box (r n : ℕ) : List Mom :=
  match n with
  | 0 => [[]]
  | n + 1 => (box r n).flatMap fun xs => (List.range (2 * r + 1)).map fun k : ℕ => (-(r : ℤ) + (k : ℤ)) :: xs

theorem mem_box (r n : ℕ) (p : Mom) : p ∈ box r n ↔ p.length = n ∧ ∀ x ∈ p, -(r : ℤ) ≤ x ∧ x ≤ r := by
  induction n generalizing p with
  | zero =>
    simp only [box, List.mem_singleton, List.length_eq_zero_iff]
    constructor
    · rintro rfl; simp
    · exact fun h => h.1
  | succ n ih =>
    simp only [box, List.mem_flatMap, List.mem_map, List.mem_range]
    constructor
    · rintro ⟨xs, hxs, k, hk, rfl⟩
      obtain ⟨h1, h2⟩ := (ih xs).1 hxs
      refine ⟨by simp [h1], ?_⟩
      intro x hx
      rcases List.mem_cons.1 hx with rfl | hx
      · omega
      · exact h2 x hx
    · rintro ⟨h1, h2⟩
      obtain ⟨x, xs, rfl⟩ := List.exists_cons_of_length_eq_add_one h1
      refine ⟨xs, (ih xs).2 ⟨by simpa using h1, fun y hy => h2 y (List.mem_cons_of_mem _ hy)⟩,
        (x + r).toNat, ?_, ?_⟩
      · have := h2 x (List.mem_cons_self ..); omega
      · have := h2 x (List.mem_cons_self ..)
        congr 1
        omega

theorem nodup_box (r n : ℕ) : (box r n).Nodup := by
  induction n with
  | zero => simp [box]
  | succ n ih =>
    rw [box, List.nodup_flatMap]
    refine ⟨?_, ?_⟩
    · intro xs _
      refine List.Nodup.map ?_ List.nodup_range
      intro a b h
      simp only [List.cons.injEq] at h
      omega
    · refine List.Pairwise.imp ?_ ih
      intro xs ys hne z h1 h2
      simp only [List.mem_map] at h1 h2
      obtain ⟨a, -, rfl⟩ := h1
      obtain ⟨b, -, h⟩ := h2
      simp only [List.cons.injEq] at h
      exact hne h.2.symm

/-- From `x :: xs` the first entry runs up to `r`, then the rest moves on. -/
theorem visits_row (r : ℤ) (xs : Mom) (l : List Mom) (d : ℕ)
    (hl : match next r xs with
      | some q => Visits r (-r :: q) l
      | none => l = []) :
    Visits r ((r - d) :: xs) (((List.range (d + 1)).map fun k : ℕ => (r - d + (k : ℤ)) :: xs) ++ l) := by
  induction d with
  | zero =>
    simp only [Nat.zero_add, List.range_one, List.map_cons, List.map_nil, List.cons_append, List.nil_append,
      Nat.cast_zero, sub_zero, add_zero]
    have hn : next r (r :: xs) = (next r xs).map (-r :: ·) := by simp [next]
    cases h : next r xs with
    | none =>
      rw [h] at hl
      dsimp only at hl
      rw [hl]
      exact Visits.last (by rw [hn, h]; rfl)
    | some q =>
      rw [h] at hl
      dsimp only at hl
      exact Visits.more (by rw [hn, h]; rfl) hl
  | succ d ih =>
    rw [List.range_succ_eq_map, List.map_cons, List.cons_append, List.map_map]
    have e0 : r - ((d + 1 : ℕ) : ℤ) + ((0 : ℕ) : ℤ) = r - ((d + 1 : ℕ) : ℤ) := by push_cast; ring
    rw [e0]
    have e1 : (fun k : ℕ => (r - ((d + 1 : ℕ) : ℤ) + (k : ℤ)) :: xs) ∘ Nat.succ
        = fun k : ℕ => (r - (d : ℤ) + (k : ℤ)) :: xs := by
      funext k
      simp only [Function.comp_apply, List.cons.injEq, and_true]
      push_cast
      ring
    rw [e1]
    refine Visits.more ?_ ih
    rw [next, if_pos (by push_cast; linarith)]
    congr 2
    push_cast
    ring

theorem visits_flatMap (r : ℕ) (xs : Mom) (l : List Mom) (h : Visits r xs l) :
    Visits r (-(r : ℤ) :: xs) (l.flatMap fun xs => (List.range (2 * r + 1)).map fun k : ℕ => (-(r : ℤ) + (k : ℤ)) :: xs) := by
  have e : (r : ℤ) - ((2 * r : ℕ) : ℤ) = -(r : ℤ) := by push_cast; ring
  induction h with
  | @last p hp =>
    rw [List.flatMap_cons, List.flatMap_nil]
    have := visits_row r p [] (2 * r) (by rw [hp])
    rw [e] at this
    exact this
  | @more p q l hp hl ih =>
    rw [List.flatMap_cons]
    have := visits_row r p _ (2 * r) (by rw [hp]; exact ih)
    rw [e] at this
    exact this

/-- From the corner of the box all of the box is visited, every momentum once. -/
theorem visits_box (r n : ℕ) : Visits r (List.replicate n (-(r : ℤ))) (box r n) := by
  induction n with
  | zero => exact Visits.last rfl
  | succ n ih =>
    rw [List.replicate_succ, box]
    exact visits_flatMap r _ _ ih

theorem next_length {r : ℤ} : ∀ {p q : Mom}, next r p = some q → q.length = p.length := by
  intro p
  induction p with
  | nil => intro q h; simp [next] at h
  | cons x xs ih =>
    intro q h
    unfold next at h
    split at h
    · rw [← Option.some.inj h]; rfl
    · obtain ⟨z, hz, rfl⟩ := Option.map_eq_some_iff.1 h
      simp [ih hz]

/-! ### The search along the visited momenta -/

/-- The second momenta that are accepted. -/
def accepted (nn : ℕ) (p1 : Mom) (l : List Mom) : List (Mom × Mom) :=
  (l.filter fun p2 => square p2 = nn ∧ square (plus p1 p2) = nn).map fun p2 => (p1, p2)

/-- Writing a list into the array from a place on; nothing is written in the counting pass. -/
def fill (first : Bool) (tri : Triplets) (at_ : ℕ) (l : List (Mom × Mom)) : Triplets :=
  if first then tri else fun k => if at_ ≤ k then (match l[k - at_]? with
    | some x => some x
    | none => tri k) else tri k

theorem fill_nil (first : Bool) (tri : Triplets) (n : ℕ) : fill first tri n [] = tri := by
  unfold fill
  split
  · rfl
  · funext k
    simp

theorem fill_append (first : Bool) (tri : Triplets) (n : ℕ) (l l' : List (Mom × Mom)) :
    fill first (fill first tri n l) (n + l.length) l' = fill first tri n (l ++ l') := by
  cases first with
  | true => rfl
  | false =>
    unfold fill
    simp only [Bool.false_eq_true, if_false]
    funext k
    by_cases h1 : n + l.length ≤ k
    · rw [if_pos h1, if_pos (by omega), if_pos (by omega), List.getElem?_append_right (by omega)]
      rw [show k - n - l.length = k - (n + l.length) by omega, List.getElem?_eq_none (l := l) (by omega)]
    · rw [if_neg h1]
      by_cases h2 : n ≤ k
      · rw [if_pos h2, if_pos h2, List.getElem?_append_left (by omega)]
      · rw [if_neg h2, if_neg h2]

theorem fill_one (tri : Triplets) (n : ℕ) (x : Mom × Mom) :
    Function.update tri n (some x) = fill false tri n [x] := by
  unfold fill
  simp only [Bool.false_eq_true, if_false]
  funext k
  by_cases h : k = n
  · subst h; simp
  · rw [Function.update_of_ne h]
    by_cases h2 : n ≤ k
    · rw [if_pos h2, List.getElem?_eq_none (by simp only [List.length_singleton]; omega)]
    · rw [if_neg h2]

theorem recurse_p2_eq (r : ℤ) (nn : ℕ) (first : Bool) (p1 : Mom) (count : ℕ) (p2 : Mom) (l : List Mom)
    (h : Visits r p2 l) : ∀ (check : ℕ) (tri : Triplets) (calls : ℕ), l.length ≤ calls →
    recurse_p2 r nn first p1 count calls p2 check tri =
      some (check + (accepted nn p1 l).length, fill first tri (count + check) (accepted nn p1 l)) := by
  have hone : ∀ (p2 : Mom) (check : ℕ) (tri : Triplets),
      (if (decide (square p2 = nn ∧ square (plus p1 p2) = nn) && !first) = true
        then Function.update tri (count + check) (some (p1, p2)) else tri)
        = fill first tri (count + check) (accepted nn p1 [p2]) ∧
      (if decide (square p2 = nn ∧ square (plus p1 p2) = nn) = true then check + 1 else check)
        = check + (accepted nn p1 [p2]).length := by
    intro p2 check tri
    by_cases hh : square p2 = nn ∧ square (plus p1 p2) = nn
    · have : accepted nn p1 [p2] = [(p1, p2)] := by
        unfold accepted; rw [List.filter_cons_of_pos (by simpa using hh)]; rfl
      rw [this]
      refine ⟨?_, by rw [if_pos (by simpa using hh)]; rfl⟩
      cases first with
      | true => simp [fill]
      | false => rw [if_pos (by simpa using hh), fill_one]
    · have : accepted nn p1 [p2] = [] := by
        unfold accepted; rw [List.filter_cons_of_neg (by simpa using hh)]; rfl
      rw [this, fill_nil]
      refine ⟨?_, by rw [if_neg (by simpa using hh)]; rfl⟩
      rw [if_neg]
      simp only [Bool.and_eq_true, decide_eq_true_eq]
      exact fun h => hh h.1
  induction h with
  | @last p hp =>
    intro check tri calls hc
    obtain ⟨c, rfl⟩ : ∃ c, calls = c + 1 := ⟨calls - 1, by simp only [List.length_singleton] at hc; omega⟩
    rw [recurse_p2]
    rw [hp, (hone p check tri).1, (hone p check tri).2]
  | @more p q l hp hl ih =>
    intro check tri calls hc
    obtain ⟨c, rfl⟩ : ∃ c, calls = c + 1 := ⟨calls - 1, by simp only [List.length_cons] at hc; omega⟩
    have hsplit : accepted nn p1 (p :: l) = accepted nn p1 [p] ++ accepted nn p1 l := by
      unfold accepted
      rw [← List.map_append, ← List.filter_append]
      rfl
    rw [recurse_p2]
    rw [hp, (hone p check tri).1, (hone p check tri).2]
    dsimp only
    rw [ih _ _ c (by simp only [List.length_cons] at hc; omega), hsplit, List.length_append, ← fill_append,
      add_assoc, add_assoc]

/-- The pairs that are accepted along the visited first momenta. -/
def pairs (r nn n : ℕ) (l : List Mom) : List (Mom × Mom) :=
  (l.filter fun p1 => square p1 = nn).flatMap fun p1 => accepted nn p1 (box r n)

theorem recurse_p_eq (r nn n : ℕ) (first : Bool) (calls2 : ℕ) (h2 : (box r n).length ≤ calls2) (p1 : Mom)
    (l : List Mom) (h : Visits r p1 l) : p1.length = n → ∀ (count : ℕ) (tri : Triplets) (calls : ℕ),
    l.length ≤ calls → recurse_p r nn first calls2 calls p1 count tri =
      some (count + (pairs r nn n l).length, fill first tri count (pairs r nn n l)) := by
  have hone : ∀ (p1 : Mom), p1.length = n → ∀ (count : ℕ) (tri : Triplets),
      (if square p1 = nn then
        (recurse_p2 r nn first p1 count calls2 (List.replicate p1.length (-(r : ℤ))) 0 tri).map
          fun x => (count + x.1, x.2)
      else some (count, tri))
      = some (count + (pairs r nn n [p1]).length, fill first tri count (pairs r nn n [p1])) := by
    intro p1 hlen count tri
    by_cases hh : square p1 = nn
    · have : pairs r nn n [p1] = accepted nn p1 (box r n) := by
        unfold pairs; rw [List.filter_cons_of_pos (by simpa using hh)]; simp
      rw [this, if_pos hh, hlen, recurse_p2_eq r nn first p1 count _ _ (visits_box r n) 0 tri calls2 h2]
      simp
    · have : pairs r nn n [p1] = [] := by
        unfold pairs; rw [List.filter_cons_of_neg (by simpa using hh)]; rfl
      rw [this, if_neg hh, fill_nil]
      rfl
  induction h with
  | @last p hp =>
    intro hlen count tri calls hc
    obtain ⟨c, rfl⟩ : ∃ c, calls = c + 1 := ⟨calls - 1, by simp only [List.length_singleton] at hc; omega⟩
    rw [recurse_p]
    rw [hone p hlen, Option.bind_some, hp]
  | @more p q l hp hl ih =>
    intro hlen count tri calls hc
    obtain ⟨c, rfl⟩ : ∃ c, calls = c + 1 := ⟨calls - 1, by simp only [List.length_cons] at hc; omega⟩
    have hsplit : pairs r nn n (p :: l) = pairs r nn n [p] ++ pairs r nn n l := by
      unfold pairs
      rw [← List.flatMap_append, ← List.filter_append]
      rfl
    rw [recurse_p]
    rw [hone p hlen, Option.bind_some, hp]
    dsimp only
    rw [ih ((next_length hp).trans hlen) _ _ c (by simp only [List.length_cons] at hc; omega), hsplit,
      List.length_append, ← fill_append, add_assoc]

/-! ### The specification -/

/-- Two momenta of `n` entries whose squares and whose sum's square are all `nn`. -/
def IsTriplet (n nn : ℕ) (x : Mom × Mom) : Prop :=
  x.1.length = n ∧ x.2.length = n ∧ (x.1.map (· ^ 2)).sum = (nn : ℤ) ∧ (x.2.map (· ^ 2)).sum = (nn : ℤ) ∧
    ((List.zipWith (fun a b => (a + b) ^ 2) x.1 x.2)).sum = (nn : ℤ)

theorem square_eq (p : Mom) : square p = (p.map (· ^ 2)).sum := by
  unfold square; congr 1; exact List.map_congr_left fun x _ => by ring

theorem square_plus_eq (p q : Mom) : square (plus p q) = (List.zipWith (fun a b => (a + b) ^ 2) p q).sum := by
  unfold square plus
  rw [List.map_zipWith]
  congr 1
  congr 1
  funext a b
  ring

theorem sq_le_square (p : Mom) (x : ℤ) (h : x ∈ p) : x * x ≤ square p := by
  induction p with
  | nil => simp at h
  | cons y p ih =>
    have hnn : ∀ p : Mom, 0 ≤ square p := by
      intro p
      apply List.sum_nonneg
      intro z hz
      obtain ⟨w, -, rfl⟩ := List.mem_map.1 hz
      exact mul_self_nonneg w
    have e : square (y :: p) = y * y + square p := rfl
    rw [e]
    rcases List.mem_cons.1 h with rfl | h
    · have := hnn p; linarith
    · have := ih h; nlinarith [mul_self_nonneg y]

theorem in_box (n nn : ℕ) (p : Mom) (hl : p.length = n) (h : square p = nn) : p ∈ box (Nat.sqrt nn) n := by
  rw [mem_box]
  refine ⟨hl, fun x hx => ?_⟩
  have h1 := sq_le_square p x hx
  rw [h] at h1
  have h2 : x.natAbs ≤ Nat.sqrt nn := by
    rw [Nat.le_sqrt]
    have : ((x.natAbs * x.natAbs : ℕ) : ℤ) = x * x := by push_cast; exact Int.natAbs_mul_self' x ▸ by simp
    omega
  omega

theorem mem_pairs (n nn : ℕ) (x : Mom × Mom) :
    x ∈ pairs (Nat.sqrt nn) nn n (box (Nat.sqrt nn) n) ↔ IsTriplet n nn x := by
  obtain ⟨p1, p2⟩ := x
  unfold pairs accepted IsTriplet
  simp only [List.mem_flatMap, List.mem_filter, List.mem_map, decide_eq_true_eq, Prod.mk.injEq]
  rw [← square_eq, ← square_eq, ← square_plus_eq]
  constructor
  · rintro ⟨q1, ⟨hb1, hs1⟩, q2, ⟨hb2, hs2, hs3⟩, rfl, rfl⟩
    exact ⟨((mem_box _ _ _).1 hb1).1, ((mem_box _ _ _).1 hb2).1, hs1, hs2, hs3⟩
  · rintro ⟨h1, h2, h3, h4, h5⟩
    exact ⟨p1, ⟨in_box n nn p1 h1 h3, h3⟩, p2, ⟨in_box n nn p2 h2 h4, h4, h5⟩, rfl, rfl⟩

theorem nodup_pairs (n nn : ℕ) : (pairs (Nat.sqrt nn) nn n (box (Nat.sqrt nn) n)).Nodup := by
  unfold pairs
  rw [List.nodup_flatMap]
  refine ⟨?_, ?_⟩
  · intro p1 _
    unfold accepted
    exact List.Nodup.map (fun a b h => (Prod.mk.inj h).2) ((nodup_box _ _).filter _)
  · refine List.Pairwise.imp ?_ ((nodup_box _ _).filter _)
    intro a b hne z h1 h2
    unfold accepted at h1 h2
    simp only [List.mem_map] at h1 h2
    obtain ⟨_, -, rfl⟩ := h1
    obtain ⟨_, -, h⟩ := h2
    exact hne (Prod.mk.inj h).1.symm

theorem length_box (r n : ℕ) : (box r n).length = (2 * r + 1) ^ n := by
  induction n with
  | zero => rfl
  | succ n ih =>
    rw [box, List.length_flatMap]
    simp only [List.length_map, List.length_range, List.map_const', List.sum_replicate, ih, nsmul_eq_mul, Nat.cast_id]
    ring

/-- **C61.** For every number of dimensions and every squared momentum the search, started at the corner, finds exactly
the triplets, every one once: the counting pass returns their number, the filling pass puts them into consecutive
places and returns the same number. The number of nested calls at each level is `(2 r + 1) ^ ND`, where `r` is the
integer square root. -/
theorem C61_search (n nn : ℕ) : ∃ l : List (Mom × Mom), l.Nodup ∧ (∀ x, x ∈ l ↔ IsTriplet n nn x) ∧
    ∀ (count calls : ℕ) (tri : Triplets), (2 * Nat.sqrt nn + 1) ^ n ≤ calls →
      orbit (List.replicate n true) true calls nn count tri = some (count + l.length, tri) ∧
      ∃ tri', orbit (List.replicate n true) false calls nn count tri = some (count + l.length, tri') ∧
        (∀ k (hk : k < l.length), tri' (count + k) = some l[k]) ∧
        ∀ j, j < count ∨ count + l.length ≤ j → tri' j = tri j := by
  refine ⟨_, nodup_pairs n nn, fun x => mem_pairs n nn x, ?_⟩
  intro count calls tri hc
  rw [← length_box] at hc
  have hstart : startMom (Nat.sqrt nn) (List.replicate n true) = List.replicate n (-(Nat.sqrt nn : ℤ)) := by
    simp [startMom]
  have key := fun first => recurse_p_eq (Nat.sqrt nn) nn n first calls hc _ _ (visits_box (Nat.sqrt nn) n) (by simp)
    count tri calls hc
  unfold orbit
  rw [hstart, key, key]
  refine ⟨rfl, _, rfl, ?_, ?_⟩
  · intro k hk
    unfold fill
    simp only [Bool.false_eq_true, if_false]
    rw [if_pos (by omega), show count + k - count = k by omega, List.getElem?_eq_getElem hk]
  · intro j hj
    unfold fill
    simp only [Bool.false_eq_true, if_false]
    rcases hj with hj | hj
    · rw [if_neg (by omega)]
    · rw [if_pos (by omega), List.getElem?_eq_none (by omega)]

/-- **C61.** The three momenta of a triplet add up to zero. -/
theorem C61_conserved (p q : Mom) (h : p.length = q.length) :
    List.zipWith (· + ·) (plus p q) ((plus p q).map fun x => -x) = List.replicate p.length 0 := by
  unfold plus
  induction p generalizing q with
  | nil => simp
  | cons a p ih =>
    cases q with
    | nil => simp at h
    | cons b q =>
      simp only [List.zipWith_cons_cons, List.map_cons, add_neg_cancel, List.length_cons, List.replicate_succ]
      rw [ih q (by simpa using h)]

theorem triplet_even (p q : Mom) (h : p.length = q.length) :
    ∃ s : ℤ, (List.zipWith (fun a b => (a + b) ^ 2) p q).sum = (p.map (· ^ 2)).sum + (q.map (· ^ 2)).sum + 2 * s := by
  induction p generalizing q with
  | nil => cases q with
    | nil => exact ⟨0, by simp⟩
    | cons => simp at h
  | cons a p ih =>
    cases q with
    | nil => simp at h
    | cons b q =>
      obtain ⟨s, hs⟩ := ih q (by simpa using h)
      refine ⟨s + a * b, ?_⟩
      simp only [List.zipWith_cons_cons, List.map_cons, List.sum_cons, hs]
      ring

/-- **C61.** There are no triplets with odd squared momentum, so nothing is lost by the loop over even values. -/
theorem C61_odd (n nn : ℕ) (hodd : nn % 2 = 1) (x : Mom × Mom) : ¬ IsTriplet n nn x := by
  rintro ⟨h1, h2, h3, h4, h5⟩
  obtain ⟨s, hs⟩ := triplet_even x.1 x.2 (h1.trans h2.symm)
  rw [h3, h4, h5] at hs
  omega

/-- **C61.** The whole loop: the array holds the triplets of all squared momenta below the maximum one after the other
and nothing else, and the counting function gives the number for every even value. -/
theorem C61_all (n nnmax calls : ℕ) (tri : Triplets) (hc : (2 * Nat.sqrt nnmax + 1) ^ n ≤ calls) :
    ∃ f : ℕ → List (Mom × Mom), (∀ k, (f k).Nodup ∧ ∀ x, x ∈ f k ↔ IsTriplet n (2 * k) x) ∧
      (∃ c, get_trip (List.replicate n true) calls (passes nnmax) =
        some (c, ((List.range (passes nnmax)).map fun k => (f k).length).reverse)) ∧
      ∃ tri', get_triplet (List.replicate n true) calls tri (passes nnmax) =
          some (((List.range (passes nnmax)).flatMap f).length, tri') ∧
        (∀ j (hj : j < ((List.range (passes nnmax)).flatMap f).length),
          tri' j = some ((List.range (passes nnmax)).flatMap f)[j]) ∧
        ∀ j, ((List.range (passes nnmax)).flatMap f).length ≤ j → tri' j = tri j := by
  choose f hnd hmem hrun using fun k => C61_search n (2 * k)
  refine ⟨f, fun k => ⟨hnd k, hmem k⟩, ?_, ?_⟩
  · suffices ∀ m, m ≤ passes nnmax → ∃ c, get_trip (List.replicate n true) calls m =
        some (c, ((List.range m).map fun k => (f k).length).reverse) from this _ le_rfl
    intro m
    induction m with
    | zero => intro _; exact ⟨0, rfl⟩
    | succ m ih =>
      intro hm
      obtain ⟨c, hcc⟩ := ih (by omega)
      refine ⟨c + (f m).length, ?_⟩
      have hcalls : (2 * Nat.sqrt (2 * m) + 1) ^ n ≤ calls := by
        refine le_trans ?_ hc
        apply Nat.pow_le_pow_left
        have := Nat.sqrt_le_sqrt (show 2 * m ≤ nnmax by unfold passes at hm; omega)
        omega
      rw [get_trip, hcc, Option.bind_some, (hrun m c calls _ hcalls).1]
      simp only [Option.map_some, Option.some.injEq, Prod.mk.injEq, true_and]
      rw [List.range_succ, List.map_append, List.reverse_append]
      simp
  · suffices ∀ m, m ≤ passes nnmax → ∃ tri', get_triplet (List.replicate n true) calls tri m =
          some (((List.range m).flatMap f).length, tri') ∧
        (∀ j (hj : j < ((List.range m).flatMap f).length), tri' j = some ((List.range m).flatMap f)[j]) ∧
        ∀ j, ((List.range m).flatMap f).length ≤ j → tri' j = tri j
      from this _ le_rfl
    intro m
    induction m with
    | zero => intro _; exact ⟨tri, rfl, fun j hj => absurd hj (by simp), fun _ _ => rfl⟩
    | succ m ih =>
      intro hm
      obtain ⟨t, ht, htj, hto⟩ := ih (by omega)
      have hcalls : (2 * Nat.sqrt (2 * m) + 1) ^ n ≤ calls := by
        refine le_trans ?_ hc
        apply Nat.pow_le_pow_left
        have := Nat.sqrt_le_sqrt (show 2 * m ≤ nnmax by unfold passes at hm; omega)
        omega
      obtain ⟨-, t', h1, h2, h3⟩ := hrun m ((List.range m).flatMap f).length calls t hcalls
      have hfm : (List.range (m + 1)).flatMap f = (List.range m).flatMap f ++ f m := by
        rw [List.range_succ, List.flatMap_append]; simp
      refine ⟨t', ?_, ?_, ?_⟩
      · rw [get_triplet, ht, Option.bind_some, h1, hfm, List.length_append]
      · intro j hj
        simp only [hfm] at hj ⊢
        rw [List.length_append] at hj
        by_cases hlt : j < ((List.range m).flatMap f).length
        · rw [h3 j (Or.inl hlt), htj j hlt, List.getElem_append_left hlt]
        · obtain ⟨k, rfl⟩ : ∃ k, j = ((List.range m).flatMap f).length + k := ⟨_, (by omega :
            j = ((List.range m).flatMap f).length + (j - ((List.range m).flatMap f).length))⟩
          rw [h2 k (by omega), List.getElem_append_right (by omega)]
          congr 2
          omega
      · intro j hj
        rw [hfm, List.length_append] at hj
        rw [h3 j (Or.inr hj), hto j (by omega)]

/-- **C61.** The index stored for a momentum is a valid index of that momentum in the list exactly if the momentum is in
the list; otherwise it is -1. -/
theorem C61_position (p : Mom) (momentum : List Mom) :
    (p ∈ momentum → ∃ k : ℕ, get_posit p momentum = k ∧ momentum[k]? = some p) ∧
    (p ∉ momentum → get_posit p momentum = -1) := by
  constructor
  · intro h
    refine ⟨momentum.idxOf p, if_pos h, ?_⟩
    rw [List.getElem?_eq_getElem (List.idxOf_lt_length_of_mem h), List.getElem_idxOf]
  · intro h; exact if_neg h

/-- A triplet of squared momentum 2 in three dimensions. -/
example : IsTriplet 3 2 ([1, -1, 0], [0, 1, -1]) := by
  refine ⟨rfl, rfl, ?_, ?_, ?_⟩ <;> norm_num

theorem next_last {r : ℤ} (hr : 0 ≤ r) : ∀ {p q : Mom}, next r p = some q → 0 ≤ p.getLastD 0 → 0 ≤ q.getLastD 0 := by
  intro p
  induction p with
  | nil => intro q h; simp [next] at h
  | cons x xs ih =>
    intro q h h0
    unfold next at h
    split at h
    · rw [← Option.some.inj h]
      cases xs with
      | nil => simp at h0 ⊢; omega
      | cons y ys => simpa using h0
    · obtain ⟨z, hz, rfl⟩ := Option.map_eq_some_iff.1 h
      cases xs with
      | nil => simp [next] at hz
      | cons y ys =>
        have h1 := ih hz (by simpa using h0)
        have hl := next_length hz
        cases z with
        | nil => simp at hl
        | cons w ws => simpa using h1

theorem recurse_p2_first (r : ℤ) (nn : ℕ) (first : Bool) (p1 : Mom) (count : ℕ) :
    ∀ (calls : ℕ) (p2 : Mom) (check : ℕ) (tri : Triplets) (c : ℕ) (t : Triplets),
    recurse_p2 r nn first p1 count calls p2 check tri = some (c, t) →
    ∀ k x, t k = some x → tri k = some x ∨ x.1 = p1 := by
  intro calls
  induction calls with
  | zero => intro _ _ _ _ _ h; simp [recurse_p2] at h
  | succ n ih =>
    intro p2 check tri c t h k x hx
    have hstep : ∀ hit : Bool, (if (hit && !first) = true then
        Function.update tri (count + check) (some (p1, p2)) else tri) k = some x → tri k = some x ∨ x.1 = p1 := by
      intro hit h'
      split at h'
      · by_cases e : k = count + check
        · subst e
          rw [Function.update_self] at h'
          exact Or.inr (by rw [← Option.some.inj h'])
        · rw [Function.update_of_ne e] at h'
          exact Or.inl h'
      · exact Or.inl h'
    rw [recurse_p2] at h
    split at h
    · rcases ih _ _ _ _ _ h k x hx with h' | h'
      · exact hstep _ h'
      · exact Or.inr h'
    · rw [← (Prod.mk.inj (Option.some.inj h)).2] at hx
      exact hstep _ hx

theorem recurse_p_first (r : ℤ) (hr : 0 ≤ r) (nn : ℕ) (first : Bool) (calls2 : ℕ) :
    ∀ (calls : ℕ) (p1 : Mom) (count : ℕ) (tri : Triplets) (c : ℕ) (t : Triplets), 0 ≤ p1.getLastD 0 →
    recurse_p r nn first calls2 calls p1 count tri = some (c, t) →
    ∀ k x, t k = some x → tri k = some x ∨ 0 ≤ x.1.getLastD 0 := by
  intro calls
  induction calls with
  | zero => intro _ _ _ _ _ _ h; simp [recurse_p] at h
  | succ n ih =>
    intro p1 count tri c t h0 h k x hx
    rw [recurse_p] at h
    obtain ⟨y, hy, h⟩ := Option.bind_eq_some_iff.1 h
    have hstep : y.2 k = some x → tri k = some x ∨ 0 ≤ x.1.getLastD 0 := by
      intro h'
      split at hy
      · obtain ⟨z, hz, rfl⟩ := Option.map_eq_some_iff.1 hy
        rcases recurse_p2_first r nn first p1 count calls2 _ 0 tri z.1 z.2 hz k x h' with h' | h'
        · exact Or.inl h'
        · exact Or.inr (by rw [h']; exact h0)
      · rw [← Option.some.inj hy] at h'
        exact Or.inl h'
    split at h
    · rename_i q hq
      rcases ih _ _ _ _ _ (next_last hr hq h0) h k x hx with h' | h'
      · exact hstep h'
      · exact Or.inr h'
    · rw [Option.some.inj h] at hstep
      exact hstep hx

/-- **C61.** When the extent of the first direction is no multiple of the smallest extent, the search begins with zero
there and finds no triplet whose first momentum is negative in that direction, though there are such triplets. -/
theorem C61_ratio_fails :
    (∀ (w : List Bool) (calls nn count c : ℕ) (tri t : Triplets),
      orbit (w ++ [false]) false calls nn count tri = some (c, t) →
      ∀ k x, t k = some x → tri k = some x ∨ 0 ≤ x.1.getLastD 0) ∧
    IsTriplet 3 2 ([1, 0, -1], [-1, 1, 0]) ∧ ¬ 0 ≤ List.getLastD [1, 0, (-1 : ℤ)] 0 := by
  refine ⟨?_, ⟨rfl, rfl, by norm_num, by norm_num, by norm_num⟩, by decide⟩
  intro w calls nn count c tri t h
  refine recurse_p_first _ (by positivity) nn false calls calls _ count tri c t ?_ h
  simp [startMom]

end GLU.Cuts
