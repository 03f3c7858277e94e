import Verif.IO.CheapReader

/-! # Properties of the low-memory reader (C111) -/

namespace GLU.IO

variable {P : Word}

/-- The words of the file after byte swapping, as the fast reader sees them with room for `n` of them. -/
def wordsAt (P : Word) (endian big : Bool) (n : ℕ) (file : List Byte) : ℕ → Option P.W := fun t =>
  (if t < n then some (ofMem P big ((file.drop (t * P.size)).take P.size)) else none).map fun w =>
    if endian != big then P.swap w else w

/-- What a site contributes: the two halves computed by the fast reader. -/
def joined (a b : Sums) : Sums := ⟨a.k, a.s29, a.s31, b.c29, b.c31⟩

theorem total_joined (f g : ℕ → Sums) (l : List ℕ) :
    total (fun i => joined (f i) (g i)) l = joined (total f l) (total g l) := by
  induction l with
  | nil => rfl
  | cons a l ih =>
    have : ∀ (f : ℕ → Sums), total f (a :: l) = (f a).add (total f l) := fun _ => rfl
    rw [this, this, this, ih]
    rfl

theorem utemp_eq (p q : ℕ → Option P.W) (LV b ND : ℕ) (h : ∀ t < ND * LV, p t = q (b + t)) :
    (List.range ND).mapM (r_utemp p LV 0) = (List.range ND).mapM (r_utemp q LV b) := by
  have key : ∀ l : List ℕ, (∀ mu ∈ l, mu < ND) → l.mapM (r_utemp p LV 0) = l.mapM (r_utemp q LV b) := by
    intro l
    induction l with
    | nil => intro _; rfl
    | cons mu l ih =>
      intro hl
      have e : r_utemp p LV 0 mu = r_utemp q LV b mu := by
        unfold r_utemp
        have hmu := hl mu (by simp)
        have key2 : ∀ m : List ℕ, (∀ j ∈ m, j < LV) →
            m.mapM (fun j => p (0 + mu * LV + j)) = m.mapM (fun j => q (b + mu * LV + j)) := by
          intro m
          induction m with
          | nil => intro _; rfl
          | cons j m ihm =>
            intro hm
            have hj := hm j (by simp)
            have : mu * LV + j < ND * LV := by
              calc mu * LV + j < mu * LV + LV := by omega
                _ = (mu + 1) * LV := by ring
                _ ≤ ND * LV := Nat.mul_le_mul_right _ hmu
            rw [List.mapM_cons, List.mapM_cons, ihm fun j' hj' => hm j' (by simp [hj'])]
            rw [show p (0 + mu * LV + j) = q (b + mu * LV + j) by
              rw [Nat.zero_add, h _ this, Nat.add_assoc]]
        exact key2 _ fun j hj => List.mem_range.1 hj
      rw [List.mapM_cons, List.mapM_cons, e, ih fun mu' h' => hl mu' (by simp [h'])]
  exact key _ fun mu hmu => List.mem_range.1 hmu

/-- One site of the low-memory reader does what the fast reader does for it. -/
theorem cheap_site_eq (A : Arith P) (X : W32 → W32) (endian big : Bool) (NC ND LV V : ℕ) (type : Store)
    (site : ℕ → Arr (P.W × P.W)) {i : ℕ} (hi : i < V) (h32 : i < 2 ^ 32) (file : List Byte)
    (hlen : (i + 1) * (ND * LV * P.size) ≤ file.length) :
    ∃ c, r_crc X P ND LV file i = some c ∧
      cheap_site A X endian big NC ND LV type site i (file.drop (i * (ND * LV * P.size))) =
        (r_site A X (wordsAt P endian big (ND * LV * V) file) NC ND LV type site i).map fun r => (joined r.1 c, r.2) := by
  have e2 : P.size * ND * LV = ND * LV * P.size := by ring
  have e1 : P.size * (i * ND * LV) = i * (ND * LV * P.size) := by ring
  have elen : (i + 1) * (ND * LV * P.size) = i * (ND * LV * P.size) + ND * LV * P.size := by ring
  have hl : ND * LV * P.size ≤ (file.drop (i * (ND * LV * P.size))).length := by
    rw [List.length_drop]; omega
  refine ⟨_, by rw [r_crc, e1, e2, C35_standard _ _ hl]; rfl, ?_⟩
  unfold cheap_site r_site
  rw [fread, if_pos hl, Option.bind_some, e2, C35_standard _ _ (by rw [List.length_take]; omega), Option.bind_some,
    List.take_take, Nat.min_self, Nat.mod_eq_of_lt h32]
  dsimp only
  rw [utemp_eq (q := wordsAt P endian big (ND * LV * V) file) (b := ND * LV * i)]
  · cases (List.range ND).mapM (r_utemp (wordsAt P endian big (ND * LV * V) file) LV (ND * LV * i)) with
    | none => rfl
    | some us =>
      rw [Option.bind_some, Option.bind_some, Option.map_map]
      rfl
  · intro t ht
    unfold wordsAt
    have : ND * LV * i + t < ND * LV * V := by
      calc ND * LV * i + t < ND * LV * i + ND * LV := by omega
        _ = ND * LV * (i + 1) := by ring
        _ ≤ ND * LV * V := Nat.mul_le_mul_left _ hi
    rw [if_pos ht, if_pos this, List.drop_drop]
    have e : i * (ND * LV * P.size) + t * P.size = (ND * LV * i + t) * P.size := by ring
    rw [e]

/-- The low-memory reader after `n` sites of a file that is long enough for them. -/
theorem cheap_sites_eq (A : Arith P) (X : W32 → W32) (endian big : Bool) (NC ND LV V : ℕ) (type : Store) (file : List Byte)
    (lat : Lat P) (hsite : ∀ i < V, ∃ r, r_site A X (wordsAt P endian big (ND * LV * V) file) NC ND LV type (lat i) i = some r)
    (h32 : V ≤ 2 ^ 32) (hlen : V * (ND * LV * P.size) ≤ file.length) (n : ℕ) (hn : n ≤ V) :
    cheap_sites A X endian big NC ND LV type file lat n =
      (fun i => if i < n then
          ((r_site A X (wordsAt P endian big (ND * LV * V) file) NC ND LV type (lat i) i).map (·.2)).getD (lat i) else lat i,
        some (file.drop (n * (ND * LV * P.size)),
          total (fun i => joined
            (((r_site A X (wordsAt P endian big (ND * LV * V) file) NC ND LV type (lat i) i).map (·.1)).getD Sums.zero)
            ((r_crc X P ND LV file i).getD Sums.zero)) (List.range n))) := by
  induction n with
  | zero => simp [cheap_sites, total]
  | succ n ih =>
    rw [cheap_sites, ih (by omega)]
    dsimp only
    rw [if_neg (by omega)]
    have hl : (n + 1) * (ND * LV * P.size) ≤ file.length :=
      le_trans (Nat.mul_le_mul_right _ hn) hlen
    obtain ⟨c, hc, hs⟩ := cheap_site_eq A X endian big NC ND LV V type (lat n) (i := n) (by omega) (by omega) file hl
    obtain ⟨r, hr⟩ := hsite n (by omega)
    rw [hs, hr, Option.map_some]
    dsimp only
    refine Prod.ext ?_ ?_
    · funext i
      dsimp only
      by_cases hi : i = n
      · subst hi
        rw [Function.update_self, if_pos (by omega), hr]; rfl
      · rw [Function.update_of_ne hi]
        by_cases hlt : i < n
        · rw [if_pos hlt, if_pos (by omega)]
        · rw [if_neg hlt, if_neg (by omega)]
    · dsimp only
      rw [List.drop_drop, List.range_succ, total_append]
      have e : n * (ND * LV * P.size) + ND * LV * P.size = (n + 1) * (ND * LV * P.size) := by ring
      rw [e]
      have : ∀ f : ℕ → Sums, total f [n] = f n := fun f => by simp [total, Sums.add_zero]
      rw [this, hr, hc]
      rfl

/-- **C111**, same result: a file that is long enough is read by both readers, whatever the schedule of the fast one; they give
the same links at every site and the same five checksums. -/
theorem C111_same (hP : P.Lawful) (A : Arith P) (X : W32 → W32) (endian big : Bool) (NC ND V : ℕ) (type : Store)
    (file : List Byte) (lat : Lat P) (s1 s2 : List (List ℕ)) (h1 : Covers V s1.flatten) (h2 : Covers V s2.flatten)
    (h32 : V ≤ 2 ^ 32) (hlen : ND * LOOP_VAR NC type * V * P.size ≤ file.length) :
    ∃ new s, lattice_reader A X endian big NC ND V type file lat s1 s2 = some (new, s) ∧
      lattice_reader_cheaper A X endian big NC ND V type file lat = (new, some s) := by
  obtain ⟨new, s, h⟩ := reader_total hP A X endian big NC ND V type file lat s1 s2 h1 h2 hlen
  refine ⟨new, s, h, ?_⟩
  set LV := LOOP_VAR NC type with hLV
  simp only [lattice_reader, ← hLV, fread, if_pos hlen, Option.bind_some] at h
  change (if (∀ i ∈ s1.flatten, (r_crc X P ND LV file i).isSome) ∧
      (∀ i ∈ s2.flatten, (r_site A X (wordsAt P endian big (ND * LV * V) file) NC ND LV type (lat i) i).isSome) then
      some (fun i => if i ∈ s2.flatten then
          ((r_site A X (wordsAt P endian big (ND * LV * V) file) NC ND LV type (lat i) i).map (·.2)).getD (lat i) else lat i,
        joined (reduceSums (fun i =>
          ((r_site A X (wordsAt P endian big (ND * LV * V) file) NC ND LV type (lat i) i).map (·.1)).getD Sums.zero) s2)
          (reduceSums (fun i => (r_crc X P ND LV file i).getD Sums.zero) s1)) else none) = some (new, s) at h
  split at h
  case isFalse => cases h
  rename_i hall
  have m2 : ∀ i, i ∈ s2.flatten ↔ i < V := fun i => by rw [h2.mem_iff, List.mem_range]
  have hsite : ∀ i < V, ∃ r, r_site A X (wordsAt P endian big (ND * LV * V) file) NC ND LV type (lat i) i = some r :=
    fun i hi => Option.isSome_iff_exists.1 (hall.2 i ((m2 i).2 hi))
  have hlen' : V * (ND * LV * P.size) ≤ file.length := by
    have : V * (ND * LV * P.size) = ND * LV * V * P.size := by ring
    omega
  have hc := cheap_sites_eq A X endian big NC ND LV V type file lat hsite h32 hlen' V le_rfl
  unfold lattice_reader_cheaper
  dsimp only
  rw [← hLV, hc]
  obtain ⟨rfl, rfl⟩ := Prod.mk.inj (Option.some.inj h)
  refine Prod.ext ?_ ?_
  · funext i
    simp only [m2]
  · dsimp only
    rw [Option.map_some, total_joined, reduceSums_eq, reduceSums_eq, total_perm _ h1, total_perm _ h2]

/-- **C111**, truncated files: both readers refuse a file that is too short.  The low-memory reader has by then replaced the links
of the sites that are complete in the file, by what it reads from a file for that many sites. -/
theorem C111_short (A : Arith P) (X : W32 → W32) (endian big : Bool) (NC ND V : ℕ) (type : Store) (file : List Byte)
    (lat : Lat P) (s1 s2 : List (List ℕ)) (hP : P.Lawful) (h32 : V ≤ 2 ^ 32)
    (hshort : file.length < ND * LOOP_VAR NC type * V * P.size) :
    lattice_reader A X endian big NC ND V type file lat s1 s2 = none ∧
      lattice_reader_cheaper A X endian big NC ND V type file lat =
        ((lattice_reader_cheaper A X endian big NC ND (file.length / (ND * LOOP_VAR NC type * P.size)) type file lat).1,
          none) := by
  refine ⟨C39_truncated A X endian big NC ND V type file lat s1 s2 hshort, ?_⟩
  set LV := LOOP_VAR NC type with hLV
  set B := ND * LV * P.size with hB
  have hV : V * B = ND * LV * V * P.size := by rw [hB]; ring
  have hBpos : 0 < B := by
    rcases Nat.eq_zero_or_pos B with h | h
    · rw [h, Nat.mul_zero] at hV; omega
    · exact h
  set n := file.length / B with hn
  have hnl : n * B ≤ file.length := Nat.div_mul_le_self _ _
  have hnu : file.length < (n + 1) * B := by
    have := Nat.lt_div_mul_add (a := file.length) hBpos
    calc file.length < n * B + B := this
      _ = (n + 1) * B := by ring
  have hnV : n < V := by
    by_contra hc
    have : V * B ≤ n * B := Nat.mul_le_mul_right _ (by omega)
    omega
  obtain ⟨new, s, h1, h2⟩ := C111_same hP A X endian big NC ND n type file lat [List.range n] [List.range n]
    (by simp [Covers]) (by simp [Covers]) (by omega)
    (by rw [← hLV]; calc ND * LV * n * P.size = n * B := by rw [hB]; ring
          _ ≤ _ := hnl)
  rw [h2]
  unfold lattice_reader_cheaper at h2 ⊢
  dsimp only at h2 ⊢
  rw [← hLV] at h2 ⊢
  have hf : ∀ m, m ≤ n → ∀ l f s, cheap_sites A X endian big NC ND LV type file lat m = (l, some (f, s)) →
      f = file.drop (m * B) := by
    intro m
    induction m with
    | zero =>
      intro _ l f s h
      simp only [cheap_sites, Prod.mk.injEq, Option.some.injEq] at h
      rw [← h.2.1]; simp
    | succ m ih =>
      intro hm l f s h
      rw [cheap_sites] at h
      rcases hc : cheap_sites A X endian big NC ND LV type file lat m with ⟨l', r'⟩
      rw [hc] at h
      rcases r' with _ | ⟨f', s'⟩
      · simp at h
      · dsimp only at h
        rcases hs : cheap_site A X endian big NC ND LV type (l' m) m f' with _ | ⟨s'', links⟩
        · rw [hs] at h; simp at h
        · rw [hs] at h
          simp only [Prod.mk.injEq, Option.some.injEq] at h
          rw [← h.2.1, ih (by omega) l' f' s' hc, List.drop_drop]
          congr 1
          rw [hB]; ring
  have hstep : cheap_sites A X endian big NC ND LV type file lat (n + 1) = (new, none) := by
    rw [cheap_sites]
    rcases hc : cheap_sites A X endian big NC ND LV type file lat n with ⟨l', r'⟩
    rw [hc] at h2
    rcases r' with _ | ⟨f', s'⟩
    · simp at h2
    · have e := hf n le_rfl l' f' s' hc
      dsimp only at h2 ⊢
      have hfail : cheap_site A X endian big NC ND LV type (l' n) n f' = none := by
        unfold cheap_site fread
        rw [if_neg]
        · rfl
        · rw [e, List.length_drop]
          have : (n + 1) * B = n * B + B := by ring
          omega
      rw [hfail]
      simp only [Prod.mk.injEq, and_true] at h2 ⊢
      exact h2.1
  have hrest : ∀ k, cheap_sites A X endian big NC ND LV type file lat (n + 1 + k) = (new, none) := by
    intro k
    induction k with
    | zero => exact hstep
    | succ k ih => rw [← Nat.add_assoc, cheap_sites, ih]
  obtain ⟨k, rfl⟩ : ∃ k, V = n + 1 + k := ⟨V - (n + 1), by omega⟩
  rw [hrest]
  rfl

/-- **C111**, round trip: a configuration of full matrices that was written by the program is given back bit for bit by the
low-memory reader. -/
theorem C111_round_trip (hP : P.Lawful) {A : Arith P} {NC : ℕ} (hA : A.Sized NC) (X : W32 → W32)
    (outBig bigW bigR : Bool) (ND V : ℕ) (h32 : V ≤ 2 ^ 32) (lat old : Lat P) (rest : List Byte)
    (order : List ℕ) (ho : Covers V order) :
    ∃ file new sums,
      write_binary_data A id outBig bigW ND (LOOP_VAR NC .ncxnc) V .ncxnc lat order = some file ∧
      lattice_reader_cheaper A X outBig bigR NC ND V .ncxnc (file ++ rest) old = (new, some sums) ∧
      ∀ i < V, ∀ mu < ND, ∀ j < NC * NC, new i mu j = lat i mu j := by
  obtain ⟨file, new, sums, h1, h2, h3⟩ := C39_full_matrix hP hA X outBig bigW bigR ND V lat old rest order ho
    [List.range V] [List.range V] (by simp [Covers]) (by simp [Covers])
  refine ⟨file, new, sums, h1, ?_, h3⟩
  have hlen : ND * LOOP_VAR NC .ncxnc * V * P.size ≤ (file ++ rest).length := by
    by_contra hc
    rw [C39_truncated A X outBig bigR NC ND V .ncxnc (file ++ rest) old _ _ (by omega)] at h2
    cases h2
  obtain ⟨new', s', g1, g2⟩ := C111_same hP A X outBig bigR NC ND V .ncxnc (file ++ rest) old
    [List.range V] [List.range V] (by simp [Covers]) (by simp [Covers]) h32 hlen
  rw [h2] at g1
  rw [g2]
  obtain ⟨rfl, rfl⟩ := Prod.mk.inj (Option.some.inj g1)
  rfl

/-! ## The BQCD checksum -/

theorem siteBlocks_flatten (size V : ℕ) (file : List Byte) (h : V * size ≤ file.length) :
    (siteBlocks size V file).flatten = file.take (V * size) := by
  unfold siteBlocks
  induction V with
  | zero => simp
  | succ n ih =>
    have e : (n + 1) * size = n * size + size := by ring
    rw [List.range_succ, List.map_append, List.flatten_append, ih (by omega), e, List.take_add]
    simp

/-- **C111**, BQCD (partial: single precision files with this header): the two readers compute the same checksum; for the first
file of a process with less than 2³² bytes it is the POSIX checksum of the data. -/
theorem C111_bqcd_partial (ck : CkState) (size V : ℕ) (file : List Byte) :
    fast_bqcd true .ildgBqcd ck size V file = some (cheap_bqcd ck size V file) ∧
    (V * size ≤ file.length → V * size < 2 ^ 32 →
      (cheap_bqcd CkState.init size V file).2 = cksumSpec (file.take (V * size))) := by
  refine ⟨rfl, fun h h32 => ?_⟩
  have e := siteBlocks_flatten size V file h
  have := C36_first_read_partial (siteBlocks size V file) (by rw [e, List.length_take]; omega)
  rw [e] at this
  exact congrArg Prod.fst this

/-- **C111** fails for double precision BQCD files: the fast reader computes the checksum through a pointer that is null or freed. -/
theorem C111_bqcd_double_fails (ck : CkState) (size V : ℕ) (hV : 0 < V) (file : List Byte) :
    fast_bqcd false .ildgBqcd ck size V file = none := by
  simp [fast_bqcd]; omega

/-- **C111** fails for a BQCD file read after another file by the low-memory reader: that reader adds every file to the checksum,
so that a good file gets a wrong checksum; the fast reader does not. -/
theorem C111_bqcd_history_fails : ∃ other file : List Byte,
    (cheap_bqcd (cheap_bqcd CkState.init 1 1 other).1 1 1 file).2 ≠ cksumSpec file ∧
    ∀ ck v, fast_bqcd true .nersc CkState.init 1 1 other = some (ck, v) → (cheap_bqcd ck 1 1 file).2 = cksumSpec file := by
  refine ⟨[1#8], [1#8], ?_, ?_⟩
  · have := C36_accumulates [[1#8]] [[1#8]]
    simp only [List.foldl_cons, List.foldl_nil] at this
    show (CKSUM_GET (CKSUM_ADD (CKSUM_ADD CkState.init [1#8]) [1#8])).1 ≠ _
    rw [this]
    decide +kernel
  · intro ck v h
    simp [fast_bqcd] at h
    rw [← h.1]
    exact (C111_bqcd_partial ck 1 1 [1#8]).2 (by decide) (by decide)

/-- **C111**, choice: except for BQCD files, the value returned to the caller is the same whatever the memory check answers, and
so are the links unless the file is too short, for which the value is the failure code. -/
theorem C111_choice (hP : P.Lawful) (head : Head) (a b : GLU.Utils.Speed) (A : Arith P) (X : W32 → W32) (endian big : Bool)
    (NC ND V : ℕ) (type : Store) (file : List Byte) (lat : Lat P) (s1 s2 : List (List ℕ)) (h1 : Covers V s1.flatten)
    (h2 : Covers V s2.flatten) (h32 : V ≤ 2 ^ 32) :
    (get_config head a A X endian big NC ND V type file lat s1 s2).2 =
      (get_config head b A X endian big NC ND V type file lat s1 s2).2 ∧
    (ND * LOOP_VAR NC type * V * P.size ≤ file.length →
      (get_config head a A X endian big NC ND V type file lat s1 s2).1 =
        (get_config head b A X endian big NC ND V type file lat s1 s2).1) ∧
    (file.length < ND * LOOP_VAR NC type * V * P.size →
      (get_config head a A X endian big NC ND V type file lat s1 s2).2 = 0xFFFFFFFF#32) := by
  by_cases hl : ND * LOOP_VAR NC type * V * P.size ≤ file.length
  · obtain ⟨new, s, e1, e2⟩ := C111_same hP A X endian big NC ND V type file lat s1 s2 h1 h2 h32 hl
    refine ⟨?_, fun _ => ?_, fun h => absurd h (by omega)⟩ <;>
      · unfold get_config
        rw [e1, e2]
        rcases a with _ | _ | _ <;> rcases b with _ | _ | _ <;> rfl
  · obtain ⟨e1, e2⟩ := C111_short A X endian big NC ND V type file lat s1 s2 hP h32 (by omega)
    refine ⟨?_, fun h => absurd h hl, fun _ => ?_⟩
    · unfold get_config
      rw [e1, e2]
      rcases a with _ | _ | _ <;> rcases b with _ | _ | _ <;> rfl
    · unfold get_config
      rw [e1, e2]
      rcases a with _ | _ | _ <;> rfl

/-- **C111**, what is left of a file that is too short: with memory for the whole file the links stay as they were, and with
little memory the sites the file is complete for have been replaced. -/
theorem C111_short_links (hP : P.Lawful) (head : Head) (a : GLU.Utils.Speed) (A : Arith P) (X : W32 → W32) (endian big : Bool)
    (NC ND V : ℕ) (type : Store) (file : List Byte) (lat : Lat P) (s1 s2 : List (List ℕ)) (h32 : V ≤ 2 ^ 32)
    (hshort : file.length < ND * LOOP_VAR NC type * V * P.size) :
    (get_config head a A X endian big NC ND V type file lat s1 s2).1 =
      if a = .FAST then lat else
        (lattice_reader_cheaper A X endian big NC ND (file.length / (ND * LOOP_VAR NC type * P.size)) type file lat).1 := by
  obtain ⟨e1, e2⟩ := C111_short A X endian big NC ND V type file lat s1 s2 hP h32 hshort
  unfold get_config
  rw [e1, e2]
  rcases a with _ | _ | _ <;> rfl

/-- A file of two sites in two dimensions, written on a little-endian machine and read on a big-endian one by both readers. -/
example (A : Arith dbl) (hA : A.Sized 3) (lat old : Lat dbl) :
    ∃ file new sums,
      write_binary_data A id true false 2 (LOOP_VAR 3 .ncxnc) 2 .ncxnc lat [1, 0] = some file ∧
      lattice_reader_cheaper A id true true 3 2 2 .ncxnc (file ++ [1#8]) old = (new, some sums) ∧
      ∀ i < 2, ∀ mu < 2, ∀ j < 3 * 3, new i mu j = lat i mu j :=
  C111_round_trip dbl_lawful hA id true false true 2 2 (by decide) lat old [1#8] [1, 0] (List.Perm.swap _ _ _)

/-- A file that ends inside the second site: refused, and the first site has been replaced. -/
example (A : Arith flt) (lat : Lat flt) (file : List Byte) (h : file.length = 200) :
    (lattice_reader_cheaper A id true true 3 2 2 .ncxnc file lat).2 = none ∧
      (lattice_reader_cheaper A id true true 3 2 2 .ncxnc file lat).1 =
        (lattice_reader_cheaper A id true true 3 2 1 .ncxnc file lat).1 := by
  have := (C111_short A id true true 3 2 2 .ncxnc file lat [] [] flt_lawful (by decide)
    (by rw [h]; decide)).2
  rw [this]
  refine ⟨rfl, ?_⟩
  rw [h]
  rfl

end GLU.IO
