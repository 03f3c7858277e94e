import Verif.IO.CfgLemmas

/-! # C37, C38, C39, C40: configuration files -/

namespace GLU.IO

variable {P : Word}

/-! ## Specification -/

/-- `OUTPUT_SMALL` stores `NC^2-1` reals per link. -/
def Arith.Sized (A : Arith P) (NC : ℕ) : Prop := ∀ link, (A.shorten link).length = NC * NC - 1

/-- The reals stored for a link, in order: real and imaginary parts of the first `NC-1` rows
(`GAUGE`), of the whole matrix (`NCxNC`), or the compressed form (`SMALL`). -/
def linkWords (A : Arith P) (NC : ℕ) (type : Store) (link : Arr (P.W × P.W)) : List P.W :=
  match type with
  | .small => A.shorten link
  | .gauge => (List.range ((NC - 1) * NC)).flatMap fun j => [(link j).1, (link j).2]
  | .ncxnc => (List.range (NC * NC)).flatMap fun j => [(link j).1, (link j).2]

/-- The reals stored for a site: direction by direction. -/
def siteWords (A : Arith P) (NC ND : ℕ) (type : Store) (site : ℕ → Arr (P.W × P.W)) : List P.W :=
  (List.range ND).flatMap fun mu => linkWords A NC type (site mu)

/-- The link data of a configuration file: site by site, each word in the byte order of the
file. -/
def fileSpec (A : Arith P) (outBig : Bool) (NC ND V : ℕ) (type : Store) (lat : Lat P) :
    List Byte :=
  (List.range V).flatMap fun i => (siteWords A NC ND type (lat i)).flatMap (image P outBig)

/-- All words of the configuration, in file order. -/
def allWords (A : Arith P) (NC ND V : ℕ) (type : Store) (lat : Lat P) : List P.W :=
  (List.range V).flatMap fun i => siteWords A NC ND type (lat i)

/-- Order in which the sites may be visited: every site once. -/
def Covers (V : ℕ) (l : List ℕ) : Prop := l.Perm (List.range V)

/-! ## The file -/

theorem grab_link_eq (A : Arith P) (NC : ℕ) (type : Store) (link : Arr (P.W × P.W)) :
    grab_link A (LOOP_VAR NC type) type link = linkWords A NC type link := by
  cases type with
  | small => rfl
  | gauge =>
    have : 2 * (NC - 1) * NC / 2 = (NC - 1) * NC := by rw [mul_assoc]; omega
    simp [grab_link, linkWords, LOOP_VAR, this]
  | ncxnc => simp [grab_link, linkWords, LOOP_VAR]

theorem grab_eq (A : Arith P) (NC ND : ℕ) (type : Store) (site : ℕ → Arr (P.W × P.W)) :
    grab_sitedata A ND (LOOP_VAR NC type) type site = siteWords A NC ND type site := by
  simp only [grab_sitedata, siteWords, grab_link_eq]

theorem linkWords_length {A : Arith P} {NC : ℕ} (hA : A.Sized NC) (type : Store)
    (link : Arr (P.W × P.W)) : (linkWords A NC type link).length = LOOP_VAR NC type := by
  cases type with
  | small => exact hA link
  | gauge =>
    rw [linkWords, flatMap_blocks 2 _ _ (fun _ _ => rfl), LOOP_VAR]; ring
  | ncxnc =>
    rw [linkWords, flatMap_blocks 2 _ _ (fun _ _ => rfl), LOOP_VAR]; ring

theorem siteWords_length {A : Arith P} {NC : ℕ} (hA : A.Sized NC) (ND : ℕ) (type : Store)
    (site : ℕ → Arr (P.W × P.W)) :
    (siteWords A NC ND type site).length = ND * LOOP_VAR NC type := by
  rw [siteWords, flatMap_blocks _ _ _ fun mu _ => linkWords_length hA type (site mu)]

theorem siteBytes_length (hP : P.Lawful) {A : Arith P} {NC : ℕ} (hA : A.Sized NC) (ND : ℕ)
    (type : Store) (site : ℕ → Arr (P.W × P.W)) (o : Bool) :
    ((siteWords A NC ND type site).flatMap (image P o)).length
      = ND * LOOP_VAR NC type * P.size := by
  have : ∀ L : List P.W, (L.flatMap (image P o)).length = L.length * P.size := by
    intro L
    induction L with
    | nil => simp
    | cons a L ih => rw [List.flatMap_cons, List.length_append, ih, image_length hP,
        List.length_cons]; ring
  rw [this, siteWords_length hA]

theorem copy_data_spec {A : Arith P} {NC : ℕ} (hA : A.Sized NC) (cast : P.W → P.W) (ND V : ℕ)
    (type : Store) (lat : Lat P) (order : List ℕ) (hord : ∀ i ∈ order, i < V) (b : Buf P.W)
    (hb : b.size = ND * LOOP_VAR NC type * V) :
    ∃ b', copy_data A cast ND (LOOP_VAR NC type) type lat order b = some b' ∧ b'.size = b.size ∧
      ∀ n < b.size, b'.get n = if n / (ND * LOOP_VAR NC type) ∈ order then
        ((siteWords A NC ND type (lat (n / (ND * LOOP_VAR NC type))))[
          n % (ND * LOOP_VAR NC type)]?).map cast else b.get n := by
  set K := ND * LOOP_VAR NC type with hK
  induction order generalizing b with
  | nil => exact ⟨b, rfl, rfl, fun n _ => by simp⟩
  | cons i is ih =>
    have hi : i < V := hord i (by simp)
    have hbase : LOOP_VAR NC type * (i * ND) = K * i := by rw [hK]; ring
    have hlen := siteWords_length hA ND type (lat i)
    have hle : K * i + K ≤ K * V := by
      calc K * i + K = K * (i + 1) := by ring
        _ ≤ K * V := Nat.mul_le_mul_left _ hi
    obtain ⟨b1, h1, h2, h3⟩ := put_spec cast (siteWords A NC ND type (lat i)) b (K * i)
      (by rw [hlen, hb, ← hK]; exact hle)
    obtain ⟨b2, g1, g2, g3⟩ := ih (fun j hj => hord j (by simp [hj])) b1 (by rw [h2, hb])
    refine ⟨b2, ?_, by rw [g2, h2], fun n hn => ?_⟩
    · rw [copy_data, grab_eq, hbase, h1, Option.bind_some, g1]
    · rw [g3 n (by rw [h2]; exact hn)]
      have hKpos : 0 < K := by
        rcases Nat.eq_zero_or_pos K with h | h
        · rw [hb, h] at hn; omega
        · exact h
      by_cases hmem : n / K ∈ is
      · rw [if_pos hmem, if_pos (by simp [hmem])]
      · rw [if_neg hmem, h3, hlen, ← hK]
        by_cases hin : K * i ≤ n ∧ n < K * i + K
        · have hq : n / K = i := by
            rw [Nat.div_eq_iff hKpos]; constructor
            · rw [mul_comm]; exact hin.1
            · rw [mul_comm]; omega
          have hr : n % K = n - K * i := by
            have := Nat.div_add_mod n K
            rw [hq] at this; omega
          rw [if_pos hin, if_pos (by rw [hq]; simp), hq, hr]
        · have hq : n / K ≠ i := by
            intro h
            apply hin
            have h1 := Nat.div_add_mod n K
            have h2 := Nat.mod_lt n hKpos
            rw [h] at h1
            omega
          rw [if_neg hin, if_neg (by simp [hq, hmem])]

theorem words_of_index {A : Arith P} {NC : ℕ} (hA : A.Sized NC) (ND V : ℕ) (type : Store)
    (lat : Lat P) (n : ℕ) (hn : n < ND * LOOP_VAR NC type * V) :
    (allWords A NC ND V type lat)[n]? =
      (siteWords A NC ND type (lat (n / (ND * LOOP_VAR NC type))))[
          n % (ND * LOOP_VAR NC type)]? ∧ n / (ND * LOOP_VAR NC type) < V := by
  set K := ND * LOOP_VAR NC type with hK
  have hKpos : 0 < K := by
    rcases Nat.eq_zero_or_pos K with h | h
    · rw [h] at hn; omega
    · exact h
  have hq : n / K < V := Nat.div_lt_of_lt_mul hn
  have hr := Nat.mod_lt n hKpos
  have e : n / K * K + n % K = n := Nat.div_add_mod' n K
  refine ⟨?_, hq⟩
  have := flatMap_getElem? K V (fun i => siteWords A NC ND type (lat i))
    (fun i _ => siteWords_length hA ND type (lat i)) (n / K) (n % K) hq hr
  rw [e] at this
  exact this

theorem allWords_length {A : Arith P} {NC : ℕ} (hA : A.Sized NC) (ND V : ℕ) (type : Store)
    (lat : Lat P) : (allWords A NC ND V type lat).length = ND * LOOP_VAR NC type * V := by
  rw [allWords, flatMap_blocks _ _ _ fun i _ => siteWords_length hA ND type (lat i)]; ring

theorem fileSpec_eq (A : Arith P) (o : Bool) (NC ND V : ℕ) (type : Store) (lat : Lat P) :
    fileSpec A o NC ND V type lat = (allWords A NC ND V type lat).flatMap (image P o) := by
  rw [fileSpec, allWords, List.flatMap_assoc]

theorem byteswap_spec (hP : P.Lawful) (outBig big : Bool) (b : Buf P.W) (L : List P.W)
    (hsz : b.size = L.length) (hget : ∀ n < L.length, b.get n = L[n]?) :
    byteswap_and_write outBig big b L.length = some (L.flatMap (image P outBig)) := by
  rw [byteswap_and_write, if_pos]
  · congr 1
    conv_rhs => rw [flatMap_list_range]
    apply List.flatMap_congr
    intro n hn
    have hn := List.mem_range.1 hn
    rw [hget n hn, List.getElem?_eq_getElem hn]
    exact mem_swap_for_output hP outBig big _
  · intro n hn
    refine ⟨by rw [hsz]; exact hn, ?_⟩
    rw [hget n hn, List.getElem?_eq_getElem hn]; rfl

/-- C39, writer: whatever the order in which threads copy the sites, the writer stays inside its
buffer, writes only words it has assigned, and produces the specified file. -/
theorem C39_writer (hP : P.Lawful) {A : Arith P} {NC : ℕ} (hA : A.Sized NC) (outBig big : Bool)
    (ND V : ℕ) (type : Store) (lat : Lat P) (order : List ℕ) (hord : Covers V order) :
    write_binary_data A id outBig big ND (LOOP_VAR NC type) V type lat order
      = some (fileSpec A outBig NC ND V type lat) := by
  obtain ⟨b, h1, h2, h3⟩ := copy_data_spec hA id ND V type lat order
    (fun i hi => List.mem_range.1 (hord.mem_iff.1 hi))
    (Buf.malloc P.W (ND * LOOP_VAR NC type * V)) rfl
  have hget : ∀ n < ND * LOOP_VAR NC type * V, b.get n = (allWords A NC ND V type lat)[n]? := by
    intro n hn
    obtain ⟨w1, w2⟩ := words_of_index hA ND V type lat n hn
    rw [h3 n hn, if_pos (hord.mem_iff.2 (List.mem_range.2 w2)), w1, Option.map_id, id]
  rw [write_binary_data, h1, Option.bind_some, fileSpec_eq, ← allWords_length hA]
  apply byteswap_spec hP
  · rw [allWords_length hA]; exact h2
  · rw [allWords_length hA]; exact hget

/-! ## C40 -/

/-- C40, partial: on a lattice with a single time slice the low-memory writer writes the same
file as the whole-lattice writer, for all orders of the sites. Missing: every other lattice, see
`C40_overruns`. -/
theorem C40_one_slice_partial (hP : P.Lawful) {A : Arith P} {NC : ℕ} (hA : A.Sized NC)
    (outBig big : Bool) (ND LCU : ℕ) (type : Store) (lat : Lat P) (order : ℕ → List ℕ)
    (hord : Covers LCU (order 0)) :
    write_binary_data_cheap A id outBig big ND (LOOP_VAR NC type) LCU 1 type lat order
      = some (fileSpec A outBig NC ND LCU type lat) := by
  have e : LCU * LOOP_VAR NC type * ND = ND * LOOP_VAR NC type * LCU := by ring
  have := C39_writer hP hA outBig big ND LCU type lat (order 0) hord
  rw [write_binary_data] at this
  rw [write_binary_data_cheap, cheap_slices, cheap_slices, Option.bind_some, e]
  cases h : copy_data A id ND (LOOP_VAR NC type) type lat (order 0)
      (Buf.malloc P.W (ND * LOOP_VAR NC type * LCU)) with
  | none => rw [h] at this; simp at this
  | some b =>
    rw [h, Option.bind_some] at this
    rw [Option.bind_some, this]
    rfl

/-- C40 fails: on every lattice with at least two time slices (and a non-empty site record) the
low-memory writer assigns outside its buffer, whatever the order of the sites. -/
theorem C40_overruns {A : Arith P} {NC : ℕ} (hA : A.Sized NC) (cast : P.W → P.W)
    (outBig big : Bool) (ND LCU T : ℕ) (type : Store) (lat : Lat P) (order : ℕ → List ℕ)
    (hT : 2 ≤ T) (hL : 0 < LCU) (hK : 0 < ND * LOOP_VAR NC type)
    (hord : ∀ t, t < T → (order t).Perm ((List.range LCU).map (LCU * t + ·))) :
    write_binary_data_cheap A cast outBig big ND (LOOP_VAR NC type) LCU T type lat order
      = none := by
  have size_put : ∀ (ws : List P.W) (b b' : Buf P.W) (v : ℕ), put cast b v ws = some b' →
      b'.size = b.size := by
    intro ws
    induction ws with
    | nil => intro b b' v h; cases h; rfl
    | cons w ws ih =>
      intro b b' v h
      simp only [put, Buf.set] at h
      split at h
      · rw [Option.bind_some] at h
        have := ih _ _ _ h
        exact this
      · cases h
  have size_copy : ∀ (l : List ℕ) (b b' : Buf P.W),
      copy_data A cast ND (LOOP_VAR NC type) type lat l b = some b' → b'.size = b.size := by
    intro l
    induction l with
    | nil => intro b b' h; cases h; rfl
    | cons i l ih =>
      intro b b' h
      rw [copy_data, Option.bind_eq_some_iff] at h
      obtain ⟨b1, h1, h2⟩ := h
      rw [ih _ _ h2, size_put _ _ _ _ h1]
  have over : ∀ (l : List ℕ) (b : Buf P.W) (i : ℕ), i ∈ l → b.size ≤ LOOP_VAR NC type * (i * ND) →
      copy_data A cast ND (LOOP_VAR NC type) type lat l b = none := by
    intro l
    induction l with
    | nil => intro b i hi; simp at hi
    | cons a l ih =>
      intro b i hi hb
      rw [copy_data]
      rcases List.mem_cons.1 hi with rfl | hi
      · have hl : (grab_sitedata A ND (LOOP_VAR NC type) type (lat i)).length
            = ND * LOOP_VAR NC type := by rw [grab_eq, siteWords_length hA]
        rw [put_none _ _ _ _ (by rw [hl]; omega) (by rintro h; rw [h, List.length_nil] at hl; omega)]
        rfl
      · cases hp : put cast b (LOOP_VAR NC type * (a * ND))
            (grab_sitedata A ND (LOOP_VAR NC type) type (lat a)) with
        | none => rfl
        | some b1 =>
          rw [Option.bind_some]
          exact ih _ i hi (by rw [size_put _ _ _ _ hp]; exact hb)
  have sz : ∀ t s, cheap_slices A cast outBig big ND (LOOP_VAR NC type) LCU type lat order t
      = some s → s.1.size = LCU * LOOP_VAR NC type * ND := by
    intro t
    induction t with
    | zero => intro s h; cases h; rfl
    | succ t ih =>
      intro s h
      rw [cheap_slices, Option.bind_eq_some_iff] at h
      obtain ⟨s0, h0, h⟩ := h
      rw [Option.bind_eq_some_iff] at h
      obtain ⟨u, hu, h⟩ := h
      rw [Option.map_eq_some_iff] at h
      obtain ⟨by', _, rfl⟩ := h
      rw [size_copy _ _ _ hu, ih _ h0]
  have step : ∀ t, 1 ≤ t → t < T →
      cheap_slices A cast outBig big ND (LOOP_VAR NC type) LCU type lat order (t + 1) = none := by
    intro t ht htT
    rw [cheap_slices]
    cases h : cheap_slices A cast outBig big ND (LOOP_VAR NC type) LCU type lat order t with
    | none => rfl
    | some s =>
      rw [Option.bind_some, over (order t) s.1 (LCU * t) _ _]
      · rfl
      · rw [(hord t htT).mem_iff]
        exact List.mem_map.2 ⟨0, List.mem_range.2 hL, by simp⟩
      · rw [sz _ _ h]
        calc LCU * LOOP_VAR NC type * ND = LOOP_VAR NC type * (LCU * 1 * ND) := by ring
          _ ≤ LOOP_VAR NC type * (LCU * t * ND) :=
            Nat.mul_le_mul_left _ (Nat.mul_le_mul_right _ (Nat.mul_le_mul_left _ ht))
  obtain ⟨t, rfl⟩ : ∃ t, T = t + 1 := ⟨T - 1, by omega⟩
  rw [write_binary_data_cheap, step t (by omega) (by omega)]
  rfl

/-! ## C37: the checksums are functions of the data alone -/

/-- The NERSC checksum: the sum, modulo 2^32, of the 32-bit pieces of all words. -/
def nerscSpec (L : List P.W) : W32 := (L.map P.res).foldr (· + ·) 0#32

/-- The MILC checksums: exclusive or over all words of the word's 32-bit value turned left by its
position in the file modulo 29 or 31. -/
def milcSpec (turn : W32 → ℕ → W32) (m : ℕ) (L : List P.W) : W32 :=
  (L.mapIdx fun n w => turn (P.res w) (n % m)).foldr (· ^^^ ·) 0#32

/-- The SciDAC checksums: exclusive or over all sites of the CRC-32 of the site's bytes turned
left by the site's number modulo 29 or 31. -/
def scidacSpec (turn : W32 → ℕ → W32) (m : ℕ) (sites : List (List Byte)) : W32 :=
  (sites.mapIdx fun i d => turn (crcSpec (messageLow d)) (i % m)).foldr (· ^^^ ·) 0#32

/-- The five checksums of a configuration. -/
def sumsSpec (turn : W32 → ℕ → W32) (A : Arith P) (outBig : Bool) (NC ND V : ℕ) (type : Store)
    (lat : Lat P) : Sums :=
  let L := allWords A NC ND V type lat
  let B := (List.range V).map fun i => (siteWords A NC ND type (lat i)).flatMap (image P outBig)
  ⟨nerscSpec L, milcSpec turn 29 L, milcSpec turn 31 L, scidacSpec turn 29 B, scidacSpec turn 31 B⟩

/-- On machines whose 32-bit shift by 32 leaves the word unchanged, the rotation of the code is
a rotation. -/
theorem rot_eq_rotateLeft (w : W32) (r : ℕ) (hr : r < 32) : rot id w r = w.rotateLeft r := by
  rw [BitVec.rotateLeft_def, Nat.mod_eq_of_lt hr, rot]
  by_cases h : r = 0
  · subst h
    have : w >>> 32 = 0#32 := by
      apply BitVec.eq_of_toNat_eq
      simp [Nat.shiftRight_eq_div_pow, Nat.div_eq_of_lt w.isLt]
    simp [this]
  · rw [if_neg h]

/-- The shift is defined exactly for ranks that are not zero, and then the parameter plays no
role. -/
theorem rotC_defined (X : W32 → W32) (w : W32) (r : ℕ) (hr : r < 32) :
    rotC w r = if r = 0 then none else some (rot X w r) := by
  unfold rotC rot
  by_cases h : r = 0
  · subst h; simp
  · rw [if_pos (by omega), if_neg h, if_neg h]

/-- C37 (limit): the first word of a file and every site whose number is a multiple of 29 are
shifted by 32, so the C standard does not define the checksum of any configuration. -/
theorem C37_undefined_shift (w : W32) (i : ℕ) : rotC w (29 * i % 29) = none := by
  rw [Nat.mul_mod_right]; rfl

theorem rank_next (m n : ℕ) (hm : 0 < m) :
    (if n % m < m - 1 then n % m + 1 else 0) = (n + 1) % m := by
  have := Nat.mod_lt n hm
  split
  · rcases Nat.lt_or_ge 1 m with h | h
    · conv_rhs => rw [Nat.add_mod, Nat.mod_eq_of_lt h]
      exact (Nat.mod_eq_of_lt (by omega)).symm
    · have : m = 1 := by omega
      subst this; omega
  · have h : n % m = m - 1 := by omega
    have h1 := Nat.div_add_mod n m
    have : n + 1 = m * (n / m + 1) := by rw [Nat.mul_add]; omega
    rw [this, Nat.mul_mod_right]

/-- Rotated exclusive or of words starting at position `n0`. -/
def xorFrom (X : W32 → W32) (m : ℕ) : ℕ → List P.W → W32
  | _, [] => 0#32
  | n, w :: L => rot X (P.res w) (n % m) ^^^ xorFrom X m (n + 1) L

theorem xorFrom_append (X : W32 → W32) (m n : ℕ) (L L' : List P.W) :
    xorFrom X m n (L ++ L') = xorFrom X m n L ^^^ xorFrom X m (n + L.length) L' := by
  induction L generalizing n with
  | nil => simp [xorFrom]
  | cons w L ih =>
    rw [List.cons_append, xorFrom, xorFrom, ih, BitVec.xor_assoc, List.length_cons,
      Nat.add_assoc, Nat.add_comm 1]

theorem milc_eq (X : W32 → W32) (m : ℕ) (L : List P.W) :
    milcSpec (rot X) m L = xorFrom X m 0 L := by
  have key : ∀ n, (L.mapIdx fun i w => rot X (P.res w) ((n + i) % m)).foldr (· ^^^ ·) 0#32
      = xorFrom X m n L := by
    induction L with
    | nil => intro n; rfl
    | cons w L ih =>
      intro n
      rw [List.mapIdx_cons, List.foldr_cons, xorFrom, ← ih (n + 1)]
      simp only [Nat.add_zero, Nat.add_assoc, Nat.add_comm 1]
  have := key 0
  simp only [Nat.zero_add] at this
  exact this

theorem nersc_append (L L' : List P.W) : nerscSpec (L ++ L') = nerscSpec L + nerscSpec L' := by
  induction L with
  | nil => simp [nerscSpec]
  | cons w L ih =>
    have : ∀ L : List P.W, nerscSpec (w :: L) = P.res w + nerscSpec L := fun _ => rfl
    rw [List.cons_append, this, this, ih, BitVec.add_assoc]

theorem w_loop_fold (X : W32 → W32) (L : List P.W) (k a b : W32) (n : ℕ) :
    L.foldl (w_loop X) (k, a, b, n % 29, n % 31)
      = (k + nerscSpec L, a ^^^ xorFrom X 29 n L, b ^^^ xorFrom X 31 n L,
          (n + L.length) % 29, (n + L.length) % 31) := by
  induction L generalizing k a b n with
  | nil => simp [nerscSpec, xorFrom]
  | cons w L ih =>
    have h1 := rank_next 29 n (by decide)
    have h2 := rank_next 31 n (by decide)
    norm_num at h1 h2
    have hw : w_loop X (k, a, b, n % 29, n % 31) w
        = (k + P.res w, a ^^^ rot X (P.res w) (n % 29), b ^^^ rot X (P.res w) (n % 31),
            (n + 1) % 29, (n + 1) % 31) := by
      simp only [w_loop, h1, h2]
    have hk : nerscSpec (w :: L) = P.res w + nerscSpec L := rfl
    rw [List.foldl_cons, hw, ih, hk, xorFrom, xorFrom, BitVec.add_assoc, BitVec.xor_assoc,
      BitVec.xor_assoc, List.length_cons, Nat.add_assoc n 1, Nat.add_comm 1]

/-- The sums of one site, from its words, its bytes and its number. -/
def siteSums (X : W32 → W32) (K i : ℕ) (L : List P.W) (B : List Byte) : Sums :=
  ⟨nerscSpec L, xorFrom X 29 (i * K) L, xorFrom X 31 (i * K) L,
    rot X (crcSpec (messageLow B)) (i % 29), rot X (crcSpec (messageLow B)) (i % 31)⟩

theorem total_siteSums (X : W32 → W32) (K V : ℕ) (L : ℕ → List P.W) (B : ℕ → List Byte)
    (hL : ∀ i < V, (L i).length = K) :
    total (fun i => siteSums X K i (L i) (B i)) (List.range V)
      = ⟨nerscSpec ((List.range V).flatMap L), milcSpec (rot X) 29 ((List.range V).flatMap L),
          milcSpec (rot X) 31 ((List.range V).flatMap L),
          scidacSpec (rot X) 29 ((List.range V).map B),
          scidacSpec (rot X) 31 ((List.range V).map B)⟩ := by
  have sc : ∀ (m : ℕ) (l : List (List Byte)) (d : List Byte),
      scidacSpec (rot X) m (l ++ [d])
        = scidacSpec (rot X) m l ^^^ rot X (crcSpec (messageLow d)) (l.length % m) := by
    intro m l d
    have fold : ∀ (l : List W32) (x : W32), (l ++ [x]).foldr (· ^^^ ·) 0#32
        = l.foldr (· ^^^ ·) 0#32 ^^^ x := by
      intro l x
      induction l with
      | nil => simp
      | cons a l ih => rw [List.cons_append, List.foldr_cons, ih, List.foldr_cons, BitVec.xor_assoc]
    rw [scidacSpec, List.mapIdx_append, List.mapIdx_cons, List.mapIdx_nil, fold]
    simp [scidacSpec]
  rw [milc_eq, milc_eq]
  induction V with
  | zero => rfl
  | succ V ih =>
    have hlen := flatMap_blocks K V L fun i hi => hL i (by omega)
    rw [List.range_succ, total_append, ih fun i hi => hL i (by omega), List.flatMap_append,
      List.map_append, nersc_append, xorFrom_append, xorFrom_append, hlen, Nat.zero_add]
    simp only [List.map_cons, List.map_nil, List.flatMap_cons, List.flatMap_nil, List.append_nil, sc]
    simp [total, Sums.add_zero, Sums.add, siteSums]
    simp [Sums.zero]

theorem w_site_eq (hP : P.Lawful) {A : Arith P} {NC : ℕ} (hA : A.Sized NC) (X : W32 → W32)
    (outBig big : Bool) (ND : ℕ) (type : Store) (lat : Lat P) (i : ℕ) :
    w_site A X outBig big ND (LOOP_VAR NC type) type lat i
      = some (siteSums X (ND * LOOP_VAR NC type) i (siteWords A NC ND type (lat i))
          ((siteWords A NC ND type (lat i)).flatMap (image P outBig))) := by
  have hraw : ((siteWords A NC ND type (lat i)).map (swap_for_output outBig big)).flatMap
      (mem P big) = (siteWords A NC ND type (lat i)).flatMap (image P outBig) := by
    rw [List.flatMap_map]
    apply List.flatMap_congr
    intro w _
    exact mem_swap_for_output hP outBig big w
  have hlen := siteBytes_length hP hA ND type (lat i) outBig
  simp only [w_site, grab_eq, hraw]
  rw [C35_standard _ _ (by rw [hlen]), ← hlen, List.take_length, w_loop_fold]
  simp [siteSums, mul_assoc]

/-- C37, partial: whatever sites each thread is given, in whatever order it takes them and in
whatever order the partial results are combined, the checksums computed by the writer are those
of the specification. Missing: the value `X` the machine gives to the undefined shift by 32 is
assumed to depend on the shifted word only (`C37_undefined_shift`). -/
theorem C37_schedule_independent_partial (hP : P.Lawful) {A : Arith P} {NC : ℕ} (hA : A.Sized NC)
    (X : W32 → W32) (outBig big : Bool) (ND V : ℕ) (type : Store) (lat : Lat P)
    (sched : List (List ℕ)) (hs : Covers V sched.flatten) :
    compute_checksum A X outBig big ND (LOOP_VAR NC type) type lat sched
      = some (sumsSpec (rot X) A outBig NC ND V type lat) := by
  simp only [compute_checksum, w_site_eq hP hA, Option.isSome_some, implies_true, if_true,
    Option.getD_some]
  rw [reduceSums_eq, total_perm _ hs,
    total_siteSums X _ V (fun i => siteWords A NC ND type (lat i)) _
      fun i _ => siteWords_length hA ND type (lat i)]
  rfl

end GLU.IO
