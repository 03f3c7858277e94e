import Verif.Cuts.CacheModel

/-!
# Cached momentum lists (C60)
-/

namespace GLU.Cuts
open GLU.IO

theorem lenOf_lenBytes {n : ℕ} (h : n < 2 ^ 32) : lenOf (lenBytes n) = n := by
  simp only [lenBytes, lenOf, BitVec.toNat_ofNat]
  omega

theorem length_lenBytes (n : ℕ) : (lenBytes n).length = 4 := rfl

theorem length_flatten {w : ℕ} {l : List Rec} (h : ∀ r ∈ l, r.length = w) : l.flatten.length = w * l.length := by
  induction l with
  | nil => simp
  | cons r l ih =>
    rw [List.flatten_cons, List.length_append, ih fun r hr => h r (List.mem_cons_of_mem _ hr),
      h r List.mem_cons_self, List.length_cons]
    ring

/-- What `fread` gets from the first `k` bytes of a file of records. -/
theorem fread_take {w : ℕ} (hw : 0 < w) {l : List Rec} (h : ∀ r ∈ l, r.length = w) :
    ∀ k, fread w l.length (l.flatten.take k) = l.take (k / w) := by
  induction l with
  | nil => intro k; simp [fread]
  | cons r l ih =>
    intro k
    have hr : r.length = w := h r List.mem_cons_self
    have hl := length_flatten fun r hr => h r (List.mem_cons_of_mem _ hr)
    rw [List.length_cons, fread, List.flatten_cons, List.length_take, List.length_append, hr]
    by_cases hk : w ≤ k
    · obtain ⟨k, rfl⟩ := Nat.exists_eq_add_of_le hk
      rw [if_pos (by omega), Nat.add_div_left _ hw, List.take_succ_cons, ← ih (fun r hr => h r (List.mem_cons_of_mem _ hr))]
      rw [List.take_append, hr, Nat.add_sub_cancel_left, List.take_of_length_le (l := r) (by omega),
        List.take_left' hr, List.drop_left' hr]
    · rw [if_neg (by omega), Nat.div_eq_of_lt (by omega), List.take_zero]

theorem fread_all {w : ℕ} (hw : 0 < w) {l : List Rec} (h : ∀ r ∈ l, r.length = w) :
    fread w l.length l.flatten = l := by
  have := fread_take hw h (w * l.length)
  rwa [List.take_of_length_le (by rw [length_flatten h]), Nat.mul_div_cancel_left _ hw, List.take_length] at this

theorem take_cacheBytes (l : List Rec) {k : ℕ} (hk : 4 ≤ k) :
    (cacheBytes l).take k = lenBytes l.length ++ l.flatten.take (k - 4) := by
  unfold cacheBytes
  rw [List.take_append, length_lenBytes, List.take_of_length_le (by rw [length_lenBytes]; exact hk)]

/-- **C60.** A file of which `k` bytes were written: refused if no complete record is in it, otherwise taken for the
whole list, and the entries behind the complete records were never set. -/
theorem C60_torn {w : ℕ} (hw : 0 < w) {l : List Rec} (h : ∀ r ∈ l, r.length = w) (hn : l.length < 2 ^ 31) (k : ℕ) :
    readCache w ((cacheBytes l).take k) =
      if k < 4 + w then none
      else if l = [] then none
      else some ((l.take ((k - 4) / w)).map some ++ List.replicate (l.length - (k - 4) / w) none) := by
  have hlen : (cacheBytes l).length = 4 + w * l.length := by
    rw [cacheBytes, List.length_append, length_lenBytes, length_flatten h]
  by_cases h4 : k < 4
  · rw [if_pos (by omega), readCache, if_pos (by rw [List.length_take]; omega)]
  · rw [take_cacheBytes l (by omega), readCache, if_neg (by rw [List.length_append, length_lenBytes]; omega)]
    rw [List.take_left' (length_lenBytes _), List.drop_left' (length_lenBytes _), lenOf_lenBytes (by omega)]
    dsimp only
    rw [fread_take hw h, List.length_take]
    by_cases hk : k < 4 + w
    · rw [if_pos hk, Nat.div_eq_of_lt (by omega), Nat.zero_min]
      rfl
    · have hpos : 0 < (k - 4) / w := Nat.div_pos (by omega) hw
      rw [if_neg hk]
      by_cases hl : l = []
      · subst hl; simp
      · have : 0 < l.length := List.length_pos_iff.2 hl
        rw [if_neg (by omega), if_neg hl]
        congr 3
        omega

/-- **C60.** A complete file gives back the list: the run that writes it and every later run return the same, for any
number of records and any size of a record. -/
theorem C60_partial {w : ℕ} (hw : 0 < w) {l : List Rec} (h : ∀ r ∈ l, r.length = w) (hn : l.length < 2 ^ 31)
    (h0 : l ≠ []) (l' : List Rec) (canWrite : Bool) :
    cachedList w l true none = .ok (some (l.map some), some (cacheBytes l)) ∧
    cachedList w l' canWrite (some (cacheBytes l)) = .ok (some (l.map some), some (cacheBytes l)) := by
  have hp : 0 < l.length := List.length_pos_iff.2 h0
  have hlen : (cacheBytes l).length = 4 + w * l.length := by
    rw [cacheBytes, List.length_append, length_lenBytes, length_flatten h]
  constructor
  · simp only [cachedList]
    rw [if_neg (by omega), if_pos trivial, rereadCache, if_neg (by omega)]
    dsimp only
    have : (cacheBytes l).drop 4 = l.flatten := List.drop_left' (length_lenBytes _)
    rw [this, fread_all hw h, if_neg (by omega)]
    simp
  · simp only [cachedList]
    have := C60_torn hw h hn (4 + w * l.length)
    rw [List.take_of_length_le (by omega)] at this
    have hge : w ≤ w * l.length := Nat.le_mul_of_pos_right _ hp
    rw [this, if_neg (by omega), if_neg h0, Nat.add_sub_cancel_left, Nat.mul_div_cancel_left _ hw]
    simp

/-- **C60.** If the write stopped before the first record was complete, later runs notice. -/
theorem C60_refused_partial {w : ℕ} (hw : 0 < w) {l : List Rec} (h : ∀ r ∈ l, r.length = w) (hn : l.length < 2 ^ 31)
    {k : ℕ} (hk : k < 4 + w) (l' : List Rec) (canWrite : Bool) :
    cachedList w l' canWrite (some ((cacheBytes l).take k)) = .ok (none, some ((cacheBytes l).take k)) := by
  simp only [cachedList]
  rw [C60_torn hw h hn, if_pos hk]

/-- **C60.** The claim is false for every later stop: for every list of at least two records there are crash points
after which the next run returns a list of the full length whose last entry was never set. -/
theorem C60_fails {w : ℕ} (hw : 0 < w) {l : List Rec} (h : ∀ r ∈ l, r.length = w) (hn : l.length < 2 ^ 31)
    {k : ℕ} (hk : 4 + w ≤ k) (hk' : k < 4 + w * l.length) :
    some ((cacheBytes l).take k) ∈ crashFiles l ∧
    ∃ r, cachedList w l true (some ((cacheBytes l).take k)) = .ok (some r, some ((cacheBytes l).take k)) ∧
      r.length = l.length ∧ r.getLast? = some none := by
  refine ⟨Or.inr ⟨k, rfl⟩, ?_⟩
  have h0 : l ≠ [] := by rintro rfl; simp at hk'; omega
  have hq : (k - 4) / w < l.length := Nat.div_lt_of_lt_mul (by omega)
  simp only [cachedList]
  rw [C60_torn hw h hn, if_neg (by omega), if_neg h0]
  refine ⟨_, rfl, ?_, ?_⟩
  · simp only [List.length_append, List.length_map, List.length_take, List.length_replicate]
    omega
  · obtain ⟨m, hm⟩ := Nat.exists_eq_add_of_lt hq
    rw [show l.length - (k - 4) / w = m + 1 by omega, List.replicate_succ', ← List.append_assoc, List.getLast?_concat]

/-- **C60.** There is such a crash point for every list with at least two records. -/
example {w : ℕ} (hw : 0 < w) {l : List Rec} (hl : 2 ≤ l.length) : 4 + w ≤ 4 + w ∧ 4 + w < 4 + w * l.length := by
  have : w * 2 ≤ w * l.length := Nat.mul_le_mul_left _ hl
  omega

/-- **C60.** No later run repairs the file: what the first later run got, all get. -/
theorem C60_stuck {w : ℕ} (f : List (BitVec 8)) (l : List Rec) (canWrite : Bool) :
    cachedList w l canWrite (some f) = .ok (readCache w f, some f) := rfl

/-- **C60.** An empty list leaves a file behind that no later run can read, whatever its cut finds. -/
theorem C60_empty_fails (w : ℕ) (l : List Rec) (canWrite : Bool) :
    cachedList w [] true none = .ok (none, some []) ∧ cachedList w l canWrite (some []) = .ok (none, some []) :=
  ⟨rfl, rfl⟩

/-- **C60.** Where the file cannot be created the list is written to a null stream. -/
theorem C60_dir_fails (w : ℕ) {l : List Rec} (h : l ≠ []) : cachedList w l false none = .ub := by
  have : l.length ≠ 0 := by simpa using h
  simp [cachedList, this]

/-- **C60.** The cached triplets of a single squared momentum are checked: the beginning of a file is refused, the whole
file gives the numbers back. -/
theorem C60_trip {l : List Rec} (h : ∀ r ∈ l, r.length = 4) (k : ℕ) (trip : List Rec) (canWrite : Bool) :
    read_trip l.length trip canWrite (some (l.flatten.take k)) =
      if k < 4 * l.length then .fail else .ok (l, some l.flatten) := by
  have hlen := length_flatten h
  simp only [read_trip]
  rw [fread_take (by norm_num) h, List.length_take]
  by_cases hk : k < 4 * l.length
  · rw [if_pos hk, if_neg (by omega)]
  · rw [if_neg hk, if_pos (by omega), List.take_of_length_le (by omega), List.take_of_length_le (by omega)]

theorem fread_append {w : ℕ} (hw : 0 < w) {l : List Rec} (h : ∀ r ∈ l, r.length = w) (rest : List (BitVec 8)) :
    fread w l.length (l.flatten ++ rest) = l := by
  induction l with
  | nil => rfl
  | cons r l ih =>
    have hr : r.length = w := h r List.mem_cons_self
    rw [List.length_cons, fread, if_pos (by simp; omega), List.flatten_cons, List.append_assoc, List.take_left' hr,
      List.drop_left' hr, ih fun r hr => h r (List.mem_cons_of_mem _ hr)]

/-- **C60.** So is the cache of triplets and projectors. -/
theorem C60_triplets {ND : ℕ} (hND : 0 < ND) {t p : List Rec} (ht : ∀ r ∈ t, r.length = 12)
    (hp : ∀ r ∈ p, r.length = 8 * ND ^ 3) (hc : p.length = t.length) (k : ℕ) :
    readTriplets ND t.length ((t.flatten ++ p.flatten).take k) =
      if k < (t.flatten ++ p.flatten).length then none else some (t, p) := by
  have h1 := length_flatten ht
  have h2 := length_flatten hp
  have hw : 0 < 8 * ND ^ 3 := by positivity
  rw [List.length_append, List.take_append]
  by_cases hk : k < 12 * t.length
  · have : k - t.flatten.length = 0 := by omega
    rw [if_pos (by omega), this, List.take_zero, List.append_nil, readTriplets, fread_take (by norm_num) ht]
    dsimp only
    rw [if_neg (by rw [List.length_take]; omega)]
  · rw [List.take_of_length_le (l := t.flatten) (by omega), readTriplets, fread_append (by norm_num) ht]
    dsimp only
    rw [if_pos rfl, List.drop_left' h1, ← hc, fread_take hw hp, List.length_take, h1]
    by_cases hk2 : k - 12 * t.length < 8 * ND ^ 3 * p.length
    · have := Nat.div_lt_of_lt_mul hk2
      rw [if_neg (by omega), if_pos (by omega)]
    · have : p.length ≤ (k - 12 * t.length) / (8 * ND ^ 3) := by
        rw [Nat.le_div_iff_mul_le hw, mul_comm]; omega
      rw [if_pos (by omega), if_neg (by omega), List.take_of_length_le this]

/-- A list of two records, a crash after the first, and what is used then. -/
example : cachedList 2 [[1, 2], [3, 4]] true (some ((cacheBytes [[1, 2], [3, 4]]).take 7))
    = .ok (some [some [1, 2], none], some ((cacheBytes [[1, 2], [3, 4]]).take 7)) := by decide +kernel

end GLU.Cuts
