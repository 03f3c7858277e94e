import Verif.IO.ChkLemmas

/-! # C34, C35, C36: byte swapping and checksums of byte strings -/

namespace GLU.IO

/-! ## C34 -/

/-- C34: swapping `n` words of an array reverses the bytes of each of them, leaves the rest of
the array alone and never leaves the array when it has at least `n` words; swapping again
restores it. Here for 32-bit words. -/
theorem C34_bswap_32 (n : ℕ) (u : List W32) (hn : n ≤ u.length) :
    ∃ v, bswap_32 n u = some v ∧ v.length = u.length ∧
      (∀ i, i < n → (v.map (bytesOf 4))[i]? = (u.map fun w => (bytesOf 4 w).reverse)[i]?) ∧
      (∀ i, n ≤ i → v[i]? = u[i]?) ∧ bswap_32 n v = some u := by
  refine ⟨_, by rw [bswap_32, bswap_spec, if_pos hn], ?_, ?_, ?_, ?_⟩
  · simp; omega
  · intro i hi
    have hu : u[i]? = some (u[i]'(by omega)) := List.getElem?_eq_getElem _
    simp [List.getElem?_append, hn, hi, List.getElem?_take, bytes_swap32, hu]
  · intro i hi
    have : n + (i - n) = i := by omega
    simp [List.getElem?_append, hn, hi, List.getElem?_drop, this]
  · rw [bswap_32, bswap_spec, if_pos (by simp; omega)]
    rw [List.take_append_of_le_length (by simp [hn]), List.drop_append_of_le_length (by simp [hn])]
    simp [List.take_of_length_le, Function.comp_def, swap32_swap32]

/-- C34 for 64-bit words. -/
theorem C34_bswap_64 (n : ℕ) (u : List W64) (hn : n ≤ u.length) :
    ∃ v, bswap_64 n u = some v ∧ v.length = u.length ∧
      (∀ i, i < n → (v.map (bytesOf 8))[i]? = (u.map fun w => (bytesOf 8 w).reverse)[i]?) ∧
      (∀ i, n ≤ i → v[i]? = u[i]?) ∧ bswap_64 n v = some u := by
  refine ⟨_, by rw [bswap_64, bswap_spec, if_pos hn], ?_, ?_, ?_, ?_⟩
  · simp; omega
  · intro i hi
    have hu : u[i]? = some (u[i]'(by omega)) := List.getElem?_eq_getElem _
    simp [List.getElem?_append, hn, hi, List.getElem?_take, bytes_swap64, hu]
  · intro i hi
    have : n + (i - n) = i := by omega
    simp [List.getElem?_append, hn, hi, List.getElem?_drop, this]
  · rw [bswap_64, bswap_spec, if_pos (by simp; omega)]
    rw [List.take_append_of_le_length (by simp [hn]), List.drop_append_of_le_length (by simp [hn])]
    simp [List.take_of_length_le, Function.comp_def, swap64_swap64]

/-- C34 for 16-bit words. -/
theorem C34_bswap_16 (n : ℕ) (u : List (BitVec 16)) (hn : n ≤ u.length) :
    ∃ v, bswap_16 n u = some v ∧ v.length = u.length ∧
      (∀ i, i < n → (v.map (bytesOf 2))[i]? = (u.map fun w => (bytesOf 2 w).reverse)[i]?) ∧
      (∀ i, n ≤ i → v[i]? = u[i]?) ∧ bswap_16 n v = some u := by
  refine ⟨_, by rw [bswap_16, bswap_spec, if_pos hn], ?_, ?_, ?_, ?_⟩
  · simp; omega
  · intro i hi
    have hu : u[i]? = some (u[i]'(by omega)) := List.getElem?_eq_getElem _
    simp [List.getElem?_append, hn, hi, List.getElem?_take, bytes_swap16, hu]
  · intro i hi
    have : n + (i - n) = i := by omega
    simp [List.getElem?_append, hn, hi, List.getElem?_drop, this]
  · rw [bswap_16, bswap_spec, if_pos (by simp; omega)]
    rw [List.take_append_of_le_length (by simp [hn]), List.drop_append_of_le_length (by simp [hn])]
    simp [List.take_of_length_le, Function.comp_def, swap16_swap16]

/-- Asking for more words than the array holds leaves the array. -/
theorem C34_bounds (n : ℕ) (u : List W32) (hn : u.length < n) : bswap_32 n u = none := by
  rw [bswap_32, bswap_spec, if_neg (by omega)]

example : bswap_32 2 [0x01020304#32, 0xA0B0C0D0#32, 7#32]
    = some [0x04030201#32, 0xD0C0B0A0#32, 7#32] := by decide
example : bswap_64 1 [0x0102030405060708#64] = some [0x0807060504030201#64] := by decide
example : bytesOf 4 0x01020304#32 = [4#8, 3#8, 2#8, 1#8] := by decide

/-! ## C35 -/

theorem DO1_eq (r : W32) (b : Byte) (buf : List Byte) :
    DO1 (r, b :: buf) = some ((bitsLow b).foldl clockLow r, buf) := by
  simp only [DO1, table_byte]

theorem crc_tail_eq (n : ℕ) (r : W32) (buf : List Byte) (h : n ≤ buf.length) :
    crc_tail n (r, buf) = some ((messageLow (buf.take n)).foldl clockLow r, buf.drop n) := by
  induction n generalizing r buf with
  | zero => simp [crc_tail, messageLow]
  | succ n ih =>
    cases buf with
    | nil => simp at h
    | cons b buf =>
      simp only [List.length_cons, Nat.add_le_add_iff_right] at h
      rw [crc_tail, DO1_eq, Option.bind_some, ih _ _ h]
      simp [messageLow]

theorem crc_tail_add (m n : ℕ) (s : W32 × List Byte) :
    crc_tail (m + n) s = (crc_tail m s).bind (crc_tail n) := by
  induction m generalizing s with
  | zero => simp [crc_tail]
  | succ m ih =>
    rw [Nat.succ_add, crc_tail, crc_tail, Option.bind_assoc]
    congr 1; funext x; exact ih x

theorem DO8_eq (s : W32 × List Byte) : DO8 s = crc_tail 8 s := by
  have h2 : DO2 = crc_tail 2 := by
    funext s
    simp only [DO2, crc_tail]
    congr 1; funext x
    cases DO1 x <;> rfl
  have h4 : DO4 = crc_tail 4 := by
    funext s
    rw [DO4, h2, ← crc_tail_add]
  rw [DO8, h4, ← crc_tail_add]

theorem crc_while_eq (len : ℕ) (s : W32 × List Byte) :
    ((crc_while len s).bind fun r => crc_tail r.1 r.2) = crc_tail len s := by
  induction len using Nat.strong_induction_on generalizing s with
  | _ len ih =>
    rw [crc_while]
    split
    · rename_i h
      rw [Option.bind_assoc, DO8_eq]
      conv_rhs => rw [← Nat.add_sub_cancel' h, crc_tail_add]
      congr 1; funext x
      exact ih _ (by omega) x
    · rfl

/-- C35: on the first `len` bytes of a buffer the unrolled table-driven loop returns the
bit-by-bit CRC-32 of those bytes, and never reads past them. -/
theorem C35_standard (buf : List Byte) (len : ℕ) (h : len ≤ buf.length) :
    crc32 0#32 (some buf) len = some (crcSpec (messageLow (buf.take len))) := by
  have := crc_while_eq len (0#32 ^^^ 0xffffffff#32, buf)
  rw [crc_tail_eq _ _ _ h] at this
  simp only [crc32]
  cases hw : crc_while len (0#32 ^^^ 0xffffffff#32, buf) with
  | none => rw [hw] at this; simp at this
  | some r =>
    rw [hw, Option.bind_some] at this
    rw [Option.bind_some, this]
    simp only [Option.map_some, crcSpec, BitVec.zero_xor]
    congr 1
    rw [← BitVec.xor_allOnes]; rfl

/-- A length larger than the buffer is read outside it. -/
theorem C35_bounds (buf : List Byte) (len : ℕ) (h : buf.length < len) (r : W32) :
    crc32 r (some buf) len = none := by
  have key : ∀ n s, s.2.length < n → crc_tail n s = none := by
    intro n
    induction n with
    | zero => intro s hs; omega
    | succ n ih =>
      rintro ⟨r, buf⟩ hs
      cases buf with
      | nil => rfl
      | cons b buf =>
        simp only [List.length_cons] at hs
        rw [crc_tail, DO1_eq, Option.bind_some]
        exact ih _ (by simp only; omega)
  have := crc_while_eq len (r ^^^ 0xffffffff#32, buf)
  rw [key _ _ h] at this
  simp only [crc32]
  cases hw : crc_while len (r ^^^ 0xffffffff#32, buf) with
  | none => rfl
  | some s =>
    rw [hw, Option.bind_some] at this
    rw [Option.bind_some, this]; rfl

/-- C35: feeding a string in two calls, the second starting from the result of the first, is
the same as feeding it in one call; by induction any split gives the same value. -/
theorem C35_chunks (a b : List Byte) :
    (crc32 0#32 (some a) a.length).bind (fun c => crc32 c (some b) b.length)
      = crc32 0#32 (some (a ++ b)) (a ++ b).length := by
  have one : ∀ (r : W32) (d : List Byte), crc32 r (some d) d.length
      = some ((messageLow d).foldl clockLow (r ^^^ 0xffffffff#32) ^^^ 0xffffffff#32) := by
    intro r d
    have := crc_while_eq d.length (r ^^^ 0xffffffff#32, d)
    rw [crc_tail_eq _ _ _ (le_refl _)] at this
    simp only [crc32]
    cases hw : crc_while d.length (r ^^^ 0xffffffff#32, d) with
    | none => rw [hw] at this; simp at this
    | some r =>
      rw [hw, Option.bind_some] at this
      rw [Option.bind_some, this]
      simp
  simp only [one, Option.bind_some, messageLow, List.flatMap_append, List.foldl_append,
    BitVec.xor_assoc, BitVec.xor_self, BitVec.xor_zero]

/-- C35, detection: two byte strings of the same length whose message bits differ only inside a
window of at most 32 consecutive bits have different CRCs. -/
theorem C35_detects_bursts (d d' : List Byte) (p w w' s : List Bool)
    (hd : messageLow d = p ++ w ++ s) (hd' : messageLow d' = p ++ w' ++ s)
    (hl : w.length = w'.length) (h32 : w.length ≤ 32) (hne : w ≠ w') :
    crc32 0#32 (some d) d.length ≠ crc32 0#32 (some d') d'.length := by
  rw [C35_standard _ _ (le_refl _), C35_standard _ _ (le_refl _), List.take_length,
    List.take_length, hd, hd', crcSpec, crcSpec]
  intro h
  rw [Option.some.injEq, BitVec.not_inj] at h
  exact fold_burst p w w' s hl h32 hne _ h

theorem bitsLow_injective : Function.Injective bitsLow := by
  intro a b h
  apply BitVec.eq_of_getLsbD_eq
  intro i hi
  have := congrArg (fun l => l[i]?) h
  simpa [bitsLow, hi] using this

theorem messageLow_injective (a b : List Byte) (hl : a.length = b.length)
    (h : messageLow a = messageLow b) : a = b := by
  induction a generalizing b with
  | nil => cases b with
    | nil => rfl
    | cons _ _ => simp at hl
  | cons x a ih =>
    cases b with
    | nil => simp at hl
    | cons y b =>
      simp only [messageLow, List.flatMap_cons] at h
      have := List.append_inj h (by simp [bitsLow])
      rw [bitsLow_injective this.1, ih b (by simpa using hl) this.2]

theorem messageLow_length (a : List Byte) : (messageLow a).length = 8 * a.length := by
  induction a with
  | nil => rfl
  | cons x a ih =>
    have : messageLow (x :: a) = bitsLow x ++ messageLow a := by simp [messageLow]
    rw [this, List.length_append, ih]
    simp [bitsLow]; omega

/-- C35: changing one byte, or any bytes inside a window of four, changes the CRC. -/
theorem C35_detects_bytes (pre w w' post : List Byte) (hl : w.length = w'.length)
    (h4 : w.length ≤ 4) (hne : w ≠ w') :
    crc32 0#32 (some (pre ++ w ++ post)) (pre ++ w ++ post).length
      ≠ crc32 0#32 (some (pre ++ w' ++ post)) (pre ++ w' ++ post).length := by
  apply C35_detects_bursts _ _ (messageLow pre) (messageLow w) (messageLow w') (messageLow post)
  · simp [messageLow]
  · simp [messageLow]
  · rw [messageLow_length, messageLow_length, hl]
  · rw [messageLow_length]; omega
  · exact fun h => hne (messageLow_injective _ _ hl h)

/-- The published check value: the CRC-32 of `"123456789"`. -/
example : crcSpec (messageLow [0x31#8, 0x32#8, 0x33#8, 0x34#8, 0x35#8, 0x36#8, 0x37#8, 0x38#8,
    0x39#8]) = 0xCBF43926#32 := by decide +kernel
example : ([1#8] : List Byte).length = ([2#8] : List Byte).length ∧ ([1#8] : List Byte) ≠ [2#8] := by
  decide

/-! ## C36 -/

theorem ck_fold (d : List Byte) (r : W32) :
    d.foldl ck_byte r = (messageHigh d).foldl clockHigh r := by
  induction d generalizing r with
  | nil => rfl
  | cons b d ih =>
    have hb : (b.setWidth 32).setWidth 8 = b := by
      apply BitVec.eq_of_getLsbD_eq
      intro i hi
      simp only [BitVec.getLsbD_setWidth, hi, decide_true, Bool.true_and]
      rw [decide_eq_true (by omega : i < 32), Bool.true_and]
    have : messageHigh (b :: d) = bitsHigh b ++ messageHigh d := by simp [messageHigh]
    rw [List.foldl_cons, ih, this, List.foldl_append, ck_byte, tableH_byte, hb]

theorem ck_length_eq (i crc : W32) :
    ck_length crc i = (messageHigh (lengthOctets i.toNat)).foldl clockHigh crc := by
  induction hn : i.toNat using Nat.strong_induction_on generalizing i crc with
  | _ n ih =>
    subst hn
    rw [ck_length, lengthOctets]
    by_cases h : i = 0#32
    · subst h; simp [messageHigh]
    · have h0 : i.toNat ≠ 0 := fun h' => h (BitVec.eq_of_toNat_eq (by simpa using h'))
      rw [if_neg h, if_neg h0]
      have hs : (i >>> 8).toNat = i.toNat / 256 := by
        simp [BitVec.toNat_ushiftRight, Nat.shiftRight_eq_div_pow]
      rw [ih _ (by rw [hs]; omega) (i >>> 8) _ rfl, hs, tableH_byte]
      have : i.setWidth 8 = BitVec.ofNat 8 i.toNat := by
        apply BitVec.eq_of_toNat_eq; simp
      have hm : ∀ (b : Byte) (d : List Byte),
          messageHigh (b :: d) = bitsHigh b ++ messageHigh d := by simp [messageHigh]
      rw [hm, List.foldl_append, this]

/-- The state after a process has been given a sequence of blocks. -/
theorem ck_blocks (blocks : List (List Byte)) :
    (blocks.foldl CKSUM_ADD CkState.init).the_crc
        = (messageHigh blocks.flatten).foldl clockHigh 0#32 ∧
      (blocks.foldl CKSUM_ADD CkState.init).the_bytes
        = BitVec.ofNat 32 blocks.flatten.length := by
  induction blocks using List.reverseRecOn with
  | nil => exact ⟨rfl, rfl⟩
  | append_singleton bs b ih =>
    rw [List.foldl_append, List.foldl_cons, List.foldl_nil]
    simp only [CKSUM_ADD, ih.1, ih.2, ck_fold]
    constructor
    · simp [messageHigh]
    · apply BitVec.eq_of_toNat_eq; simp [BitVec.toNat_add]

/-- C36, partial: for the first configuration a process reads, whatever the number and sizes of
the blocks, the checksum is the POSIX cksum of the concatenated data. Missing: data of 2^32
bytes and more, and every configuration after the first (see `C36_second_read_fails` and
`C36_long_fails`). -/
theorem C36_first_read_partial (blocks : List (List Byte)) (h : blocks.flatten.length < 2 ^ 32) :
    CKSUM_GET (blocks.foldl CKSUM_ADD CkState.init)
      = (cksumSpec blocks.flatten, BitVec.ofNat 32 blocks.flatten.length) := by
  obtain ⟨h1, h2⟩ := ck_blocks blocks
  simp only [CKSUM_GET, h1, h2, ck_length_eq, cksumSpec, BitVec.toNat_ofNat, Nat.mod_eq_of_lt h]
  simp [messageHigh]

/-- What is returned in general: the checksum of everything the process has added so far, of
which only the length modulo 2^32 is kept. -/
theorem C36_accumulates (earlier later : List (List Byte)) :
    (CKSUM_GET (later.foldl CKSUM_ADD (earlier.foldl CKSUM_ADD CkState.init))).1
      = ~~~ ((messageHigh ((earlier ++ later).flatten
          ++ lengthOctets ((earlier ++ later).flatten.length % 2 ^ 32))).foldl clockHigh 0#32) := by
  rw [← List.foldl_append]
  obtain ⟨h1, h2⟩ := ck_blocks (earlier ++ later)
  simp only [CKSUM_GET, h1, h2, ck_length_eq, BitVec.toNat_ofNat]
  simp [messageHigh]

/-- The published value of `printf 123456789 | cksum`. -/
example : cksumSpec [0x31#8, 0x32#8, 0x33#8, 0x34#8, 0x35#8, 0x36#8, 0x37#8, 0x38#8, 0x39#8]
    = 930766865#32 := by decide +kernel

/-- C36 fails for the second configuration read in a process: reading the same one-byte data a
second time gives a different checksum, which is not its cksum. -/
theorem C36_second_read_fails : ∃ d : List Byte,
    (CKSUM_GET (CKSUM_ADD CkState.init d)).1 = cksumSpec d ∧
    (CKSUM_GET (CKSUM_ADD (CKSUM_ADD CkState.init d) d)).1 ≠ cksumSpec d := by
  refine ⟨[1#8], ?_, ?_⟩
  · have := C36_first_read_partial [[1#8]] (by decide)
    simp only [List.foldl_cons, List.foldl_nil] at this
    rw [this]; rfl
  · have := C36_accumulates [[1#8]] [[1#8]]
    simp only [List.foldl_cons, List.foldl_nil] at this
    rw [this]
    decide +kernel

/-- C36 fails for data of 2^32 bytes: the byte count wraps to zero and the length is left out
of the checksum. -/
theorem C36_long_fails : ∃ blocks : List (List Byte),
    (∀ b ∈ blocks, b.length < 2 ^ 32) ∧
    (CKSUM_GET (blocks.foldl CKSUM_ADD CkState.init)).1 ≠ cksumSpec blocks.flatten := by
  have hz : ∀ n, (messageHigh (List.replicate n 0#8)).foldl clockHigh 0#32 = 0#32 := by
    intro n
    induction n with
    | zero => rfl
    | succ n ih =>
      have hm : ∀ (b : Byte) (d : List Byte),
          messageHigh (b :: d) = bitsHigh b ++ messageHigh d := by simp [messageHigh]
      have h0 : (bitsHigh 0#8).foldl clockHigh 0#32 = 0#32 := by decide
      rw [List.replicate_succ, hm, List.foldl_append, h0, ih]
  refine ⟨List.replicate 65536 (List.replicate 65536 0#8), ?_, ?_⟩
  · intro b hb
    rw [List.eq_of_mem_replicate hb, List.length_replicate]; norm_num
  · have hf : (List.replicate 65536 (List.replicate 65536 0#8) : List (List Byte)).flatten
        = List.replicate 4294967296 0#8 := by
      rw [List.flatten_replicate_replicate]
    generalize (List.replicate 65536 (List.replicate 65536 0#8) : List (List Byte)) = blocks at hf ⊢
    have := C36_accumulates [] blocks
    rw [List.foldl_nil, List.nil_append] at this
    rw [this]
    generalize blocks.flatten = d at hf ⊢
    have hd : d.length = 4294967296 := by rw [hf, List.length_replicate]
    rw [cksumSpec, hd]
    have hz : (messageHigh d).foldl clockHigh 0#32 = 0#32 := by rw [hf]; exact hz _
    clear hf
    have hm : ∀ (a d : List Byte), messageHigh (a ++ d) = messageHigh a ++ messageHigh d := by
      simp [messageHigh]
    rw [hm, hm, List.foldl_append, List.foldl_append, hz]
    have e1 : lengthOctets (4294967296 % 2 ^ 32) = [] := by rw [lengthOctets]; norm_num
    have e2 : lengthOctets 4294967296 = [0#8, 0#8, 0#8, 0#8, 1#8] := by
      rw [lengthOctets, lengthOctets, lengthOctets, lengthOctets, lengthOctets, lengthOctets]
      norm_num
      decide
    rw [e1, e2]
    decide +kernel

end GLU.IO
