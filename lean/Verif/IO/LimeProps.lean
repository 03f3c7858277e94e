import Verif.IO.LimeModel
import Verif.IO.MilcHdrProps

/-! # C46: LIME records -/

namespace GLU.IO

theorem lime_padding_lt (n : ℕ) : lime_padding n < 8 := by
  unfold lime_padding; split <;> omega

theorem lime_padding_dvd (n : ℕ) : 8 ∣ n + lime_padding n := by
  unfold lime_padding; split <;> omega

theorem lime_padding_zero (n : ℕ) (h : 8 ∣ n) : lime_padding n = 0 := by
  unfold lime_padding; split <;> omega

theorem lime_prefix_eq (big : Bool) (n : ℕ) : lime_prefix big n
    = imageInt true limeMagic ++ ([0x00#8, 0x01#8, 0x80#8, 0x00#8] ++
      imageDbl true (BitVec.ofNat 64 n)) := by
  have h1 := memInt_swap true big limeMagic
  have h2 := memDbl_swap true big (BitVec.ofNat 64 n)
  have h3 : memShort big (if !big then SwapByteOrder_16 1#16 else 1#16) = [0x00#8, 0x01#8] := by
    cases big <;> decide
  rw [Bool.true_bne] at h1 h2
  rw [lime_prefix, h1, h2, h3]
  simp

theorem lime_prefix_length (big : Bool) (n : ℕ) : (lime_prefix big n).length = 16 := by
  simp [lime_prefix_eq, imageInt_length, imageDbl_length]

/-- The type field of a record of a given type. -/
def typeField (banf : List Byte) : List Byte := banf ++ List.replicate (128 - banf.length) 0#8

theorem typeField_length (banf : List Byte) (h : banf.length ≤ 128) :
    (typeField banf).length = 128 := by
  simp [typeField]; omega

/-- Every record is a multiple of eight bytes long, with less than eight bytes of padding after
the text: 144 bytes of header, the text, the padding. Any machine writes the same bytes. -/
theorem C46_aligned (big : Bool) (record banf : List Byte) (hb : banf.length ≤ 128) :
    ∃ pad : List Byte, pad.length < 8 ∧ (∀ b ∈ pad, b = 0#8) ∧
      ∃ header : List Byte, header.length = 144 ∧
        write_SCIDAC_binary big record record.length banf = .ok (header ++ record ++ pad) ∧
        write_SCIDAC_binary (!big) record record.length banf = .ok (header ++ record ++ pad) ∧
        8 ∣ (header ++ record ++ pad).length := by
  refine ⟨List.replicate (lime_padding record.length) 0#8, by simp [lime_padding_lt], by simp,
    lime_prefix big record.length ++ typeField banf, ?_, ?_, ?_, ?_⟩
  · simp [lime_prefix_length, typeField_length _ hb]
  · rw [write_SCIDAC_binary, if_neg (by omega)]; rfl
  · rw [write_SCIDAC_binary, if_neg (by omega), lime_prefix_eq, lime_prefix_eq]; rfl
  · have := lime_padding_dvd record.length
    simp only [List.length_append, lime_prefix_length, typeField_length _ hb,
      List.length_replicate]
    omega

/-- Neither of the two types at which the reader stops. -/
def NotBinary (banf : List Byte) : Prop :=
  typeIs (typeField banf) scidacBinary = false ∧ typeIs (typeField banf) ildgBinary = false

variable {σ : Type} (alloc : ℕ → Bool) (handle : σ → List Byte → List Byte → Out σ)

theorem header_parts (big big' : Bool) (n : ℕ) (hn : n < 2 ^ 64) (banf : List Byte)
    (hb : banf.length ≤ 128) (rest : List Byte) :
    let file := lime_prefix big n ++ typeField banf ++ rest
    ¬ file.length < 144 ∧ file.drop 144 = rest ∧ (file.take 144).drop 16 = typeField banf ∧
    (let m := ofMemInt big' ((file.take 144).take 4)
      if !big' then SwapByteOrder_32 m else m) = limeMagic ∧
    (let l := ofMemDbl big' (((file.take 144).drop 8).take 8)
      if !big' then SwapByteOrder_64 l else l).toNat = n := by
  have hp := lime_prefix_length big n
  have hf := typeField_length banf hb
  have hpf : (lime_prefix big n ++ typeField banf).length = 144 := by simp [hp, hf]
  refine ⟨by simp [hp, hf]; omega, List.drop_left' hpf, ?_, ?_, ?_⟩
  · rw [List.take_left' hpf, List.drop_left' hp]
  · rw [List.take_left' hpf, lime_prefix_eq, List.append_assoc,
      List.take_left' (imageInt_length true _)]
    simp only [ofMem_image, Bool.true_bne]
    cases big' <;> simp [flt_swap_swap]
  · have h8 : (imageInt true limeMagic ++ [0x00#8, 0x01#8, 0x80#8, 0x00#8]).length = 8 := by
      simp [imageInt_length]
    have : ((lime_prefix big n ++ typeField banf).drop 8).take 8
        = imageDbl true (BitVec.ofNat 64 n) := by
      rw [lime_prefix_eq, List.append_assoc, List.append_assoc,
        ← List.append_assoc (imageInt true limeMagic), List.drop_left' h8,
        List.take_left' (imageDbl_length true _)]
    rw [List.take_left' hpf, this]
    have ho : ofMemDbl big' (imageDbl true (BitVec.ofNat 64 n))
        = if true != big' then SwapByteOrder_64 (BitVec.ofNat 64 n) else BitVec.ofNat 64 n := by
      rw [← memDbl_swap true big', ofMemDbl_memDbl]
    have hv : (BitVec.ofNat 64 n).toNat = n := by
      rw [BitVec.toNat_ofNat, Nat.mod_eq_of_lt hn]
    simp only [ho, Bool.true_bne]
    cases big' <;> simp [dbl_swap_swap, hv]

/-- One record written on any machine is handed to `handle` with its type and its text, exactly,
and the file is left at the next record. -/
theorem parse_record (big big' : Bool) (record banf : List Byte) (hb : banf.length ≤ 128)
    (hn : record.length + 1 < 2 ^ 64) (hbin : NotBinary banf)
    (ha : alloc (record.length + 1) = true) (s : σ) (rest w : List Byte)
    (hw : write_SCIDAC_binary big record record.length banf = .ok w) :
    parse_SCIDAC_hdr alloc handle big' s (w ++ rest)
      = (handle s (typeField banf) record).bind fun s => .ok ⟨false, s, rest⟩ := by
  rw [write_SCIDAC_binary, if_neg (by omega)] at hw
  injection hw with hw
  subst hw
  have h := header_parts big big' record.length (by omega) banf hb
    (record ++ (List.replicate (lime_padding record.length) 0#8 ++ rest))
  have e : lime_prefix big record.length ++ typeField banf ++
      (record ++ (List.replicate (lime_padding record.length) 0#8 ++ rest))
      = lime_prefix big record.length ++ (banf ++ List.replicate (128 - banf.length) 0#8) ++
        record ++ List.replicate (lime_padding record.length) 0#8 ++ rest := by
    simp [typeField]
  simp only [e] at h
  obtain ⟨h1, h2, h3, h4, h5⟩ := h
  have hmod : (record.length + 1) % 2 ^ 64 = record.length + 1 := Nat.mod_eq_of_lt hn
  unfold parse_SCIDAC_hdr
  rw [if_neg h1]
  simp only [h2, h3, h4, h5, hbin.1, hbin.2, hmod, ha]
  simp only [ne_eq, not_true_eq_false, if_false, Bool.or_self, Bool.false_eq_true, Bool.not_true]
  rw [if_neg (by omega), if_neg (by simp), List.take_left, List.drop_left]
  cases handle s (typeField banf) record with
  | fail => rfl
  | ub => rfl
  | ok s' =>
    simp only [Out.bind]
    rw [if_neg (by simp), List.drop_left' (by simp)]

/-- The header of a binary record stops the reader, with the file at the data. -/
theorem parse_binary (big big' : Bool) (n : ℕ) (hn : n < 2 ^ 64) (h8 : 8 ∣ n) (banf : List Byte)
    (hbin : banf = scidacBinary ∨ banf = ildgBinary) (s : σ) (rest w : List Byte)
    (hw : write_SCIDAC_binary big [] n banf = .ok w) :
    parse_SCIDAC_hdr alloc handle big' s (w ++ rest) = .ok ⟨true, s, rest⟩ := by
  have hb : banf.length ≤ 128 := by rcases hbin with h | h <;> rw [h] <;> decide
  have ht : (typeIs (typeField banf) scidacBinary || typeIs (typeField banf) ildgBinary) = true := by
    rcases hbin with h | h <;> rw [h] <;> decide
  rw [write_SCIDAC_binary, if_neg (by omega), lime_padding_zero n h8] at hw
  injection hw with hw
  subst hw
  have h := header_parts big big' n hn banf hb rest
  have e : lime_prefix big n ++ typeField banf ++ rest
      = lime_prefix big n ++ (banf ++ List.replicate (128 - banf.length) 0#8) ++
        [] ++ List.replicate 0 0#8 ++ rest := by
    simp [typeField]
  simp only [e] at h
  obtain ⟨h1, h2, h3, h4, h5⟩ := h
  unfold parse_SCIDAC_hdr
  rw [if_neg h1]
  simp only [h2, h3, h4]
  rw [if_neg (by simp), if_pos ht]

/-- What the handler makes of a list of records, in order. -/
def fold : σ → List (List Byte × List Byte) → Out σ
  | s, [] => .ok s
  | s, (banf, record) :: l => (handle s (typeField banf) record).bind fun s => fold s l

/-- Records the theorems speak of. -/
def Writable (r : List Byte × List Byte) : Prop :=
  r.1.length ≤ 128 ∧ NotBinary r.1 ∧ r.2.length + 1 < 2 ^ 64 ∧ alloc (r.2.length + 1) = true

theorem header_loop_records (big big' : Bool) (l : List (List Byte × List Byte))
    (hl : ∀ r ∈ l, Writable alloc r) (fuel : ℕ) (s : σ) (rest w : List Byte)
    (hw : write_records big l = .ok w) :
    header_loop alloc handle big' (l.length + fuel) s (w ++ rest)
      = (fold handle s l).bind fun s => header_loop alloc handle big' fuel s rest := by
  induction l generalizing s w with
  | nil =>
    injection hw with hw
    subst hw
    simp [fold, Out.bind]
  | cons r l ih =>
    obtain ⟨banf, record⟩ := r
    obtain ⟨h1, h2, h3, h4⟩ := hl _ (List.mem_cons_self ..)
    rw [write_records] at hw
    cases hw1 : write_SCIDAC_binary big record record.length banf with
    | fail => rw [hw1] at hw; cases hw
    | ub => rw [hw1] at hw; cases hw
    | ok w1 =>
      rw [hw1] at hw
      simp only [Out.bind] at hw
      cases hw2 : write_records big l with
      | fail => rw [hw2] at hw; cases hw
      | ub => rw [hw2] at hw; cases hw
      | ok w2 =>
        rw [hw2] at hw
        injection hw with hw
        subst hw
        have hp := parse_record alloc handle big big' record banf h1 h3 h2 h4 s (w2 ++ rest) w1 hw1
        rw [show ((banf, record) :: l).length + fuel = (l.length + fuel) + 1 by simp; omega,
          header_loop, List.append_assoc, hp, fold]
        cases handle s (typeField banf) record with
        | fail => rfl
        | ub => rfl
        | ok s' =>
          simp only [Out.bind, Bool.false_eq_true, if_false]
          exact ih (fun r hr => hl r (List.mem_cons_of_mem _ hr)) s' w2 hw2

/-- A whole file as the program writes it: up to eleven records, the header of the binary record
declaring the length of the data, the data, further records. The reader hands every record before
the data to `handle`, in order and with its exact text, and stops at the first byte of the data;
skipping the declared number of bytes and reading on, it hands over the records after the data
and stops at the end of the file. -/
theorem C46_file_partial (big big' : Bool) (l l' : List (List Byte × List Byte))
    (hl : ∀ r ∈ l, Writable alloc r) (hl' : ∀ r ∈ l', Writable alloc r)
    (hlen : l.length ≤ 11) (hlen' : l'.length ≤ 12)
    (data banf : List Byte) (hbin : banf = scidacBinary ∨ banf = ildgBinary)
    (h8 : 8 ∣ data.length) (hn : data.length < 2 ^ 64) (w h w' : List Byte)
    (hw : write_records big l = .ok w)
    (hh : write_SCIDAC_binary big [] data.length banf = .ok h)
    (hw' : write_records big l' = .ok w') (s : σ) :
    get_header_data_SCIDAC alloc handle big' s (w ++ h ++ data ++ w')
      = ((fold handle s l).bind fun s => .ok (s, data ++ w')) ∧
    (∀ t : σ, get_header_data_SCIDAC alloc handle big' t ((data ++ w').drop data.length)
      = (fold handle t l').bind fun t => .ok (t, [])) := by
  constructor
  · obtain ⟨k, hk⟩ : ∃ k, 12 = l.length + (k + 1) := ⟨11 - l.length, by omega⟩
    rw [get_header_data_SCIDAC, hk, List.append_assoc, List.append_assoc,
      header_loop_records alloc handle big big' l hl (k + 1) s _ w hw]
    congr 1
    funext s'
    rw [header_loop, parse_binary alloc handle big big' data.length hn h8 banf hbin s' _ h hh]
    rfl
  · intro t
    obtain ⟨k, hk⟩ : ∃ k, 12 = l'.length + k := ⟨12 - l'.length, by omega⟩
    have hr := header_loop_records alloc handle big big' l' hl' k t [] w' hw'
    rw [List.append_nil, ← hk] at hr
    rw [List.drop_left, get_header_data_SCIDAC, hr]
    congr 1
    funext t'
    cases k <;> rfl

/-- Writing never fails for types that fit the header. -/
theorem write_records_ok (big : Bool) (l : List (List Byte × List Byte))
    (hl : ∀ r ∈ l, r.1.length ≤ 128) :
    ∃ w, write_records big l = .ok w ∧ 8 ∣ w.length := by
  induction l with
  | nil => exact ⟨[], rfl, by simp⟩
  | cons r l ih =>
    obtain ⟨banf, record⟩ := r
    obtain ⟨w, hw, h8⟩ := ih fun r hr => hl r (List.mem_cons_of_mem _ hr)
    obtain ⟨pad, -, -, header, -, h1, -, h2⟩ :=
      C46_aligned big record banf (hl _ (List.mem_cons_self ..))
    refine ⟨_, by rw [write_records, h1]; simp only [Out.bind]; rw [hw], ?_⟩
    rw [List.length_append]
    exact Nat.dvd_add h2 h8

/-- The lengths the program declares for the links are multiples of eight, in single and double
precision. -/
theorem C46_binary_length (volume ND NC : ℕ) (double : Bool) :
    8 ∣ (if double then 8 else 4) * volume * ND * (NC * NC) * 2 := by
  cases double
  · exact ⟨volume * ND * (NC * NC), by simp; ring⟩
  · exact ⟨volume * ND * (NC * NC) * 2, by simp; ring⟩

/-- The claim fails beyond twelve records: if twelve records precede the header of the links, the
reader reports success and leaves the file at that header instead of the data. -/
theorem C46_many_fails (big big' : Bool) (l : List (List Byte × List Byte))
    (hl : ∀ r ∈ l, Writable alloc r) (hlen : l.length = 12) (w rest : List Byte)
    (hw : write_records big l = .ok w) (s t : σ) (hf : fold handle s l = .ok t) :
    get_header_data_SCIDAC alloc handle big' s (w ++ rest) = .ok (t, rest) := by
  have := header_loop_records alloc handle big big' l hl 0 s rest w hw
  rw [hlen, hf] at this
  exact this

/-- A file that ends inside a header is taken for the end of the records: success, with nothing
left to read. -/
theorem C46_truncated (big' : Bool) (file : List Byte) (h : file.length < 144) (s : σ) :
    get_header_data_SCIDAC alloc handle big' s file = .ok (s, []) := by
  rw [get_header_data_SCIDAC, header_loop, parse_SCIDAC_hdr, if_pos h]
  rfl

/-- A declared length beyond the end of the file is refused, unless memory for it cannot be had:
the result of the allocation is not checked, so then (or for the length `2^64-1`) the behaviour
is undefined. -/
theorem C46_long_length (big big' : Bool) (n : ℕ) (hn : n < 2 ^ 64) (banf rest : List Byte)
    (hb : banf.length ≤ 128) (hbin : NotBinary banf) (hr : rest.length < n) (s : σ) :
    parse_SCIDAC_hdr alloc handle big' s (lime_prefix big n ++ typeField banf ++ rest)
      = if alloc ((n + 1) % 2 ^ 64) = true ∧ (n + 1 < 2 ^ 64 ∨ rest = []) then .fail else .ub := by
  obtain ⟨h1, h2, h3, h4, h5⟩ := header_parts big big' n hn banf hb rest
  unfold parse_SCIDAC_hdr
  rw [if_neg h1]
  simp only [h2, h3, h4, h5, hbin.1, hbin.2]
  simp only [ne_eq, not_true_eq_false, if_false, Bool.or_self, Bool.false_eq_true]
  cases ha : alloc ((n + 1) % 2 ^ 64) with
  | false => simp
  | true =>
    simp only [Bool.not_true, Bool.false_eq_true, if_false, true_and]
    by_cases hn1 : n + 1 < 2 ^ 64
    · rw [Nat.mod_eq_of_lt hn1, if_neg (by omega), if_pos hr, if_pos (Or.inl hn1)]
    · have : n + 1 = 2 ^ 64 := by omega
      rw [this, Nat.mod_self]
      by_cases hre : rest = []
      · subst hre
        simp only [List.length_nil] at hr ⊢
        rw [if_neg (by omega), if_pos hr, if_pos (Or.inr trivial)]
      · have : 0 < rest.length := List.length_pos_of_ne_nil hre
        rw [if_pos (by omega), if_neg (by simp [hre])]

/-- Non-vacuity: two records and 16 bytes of data, written on a little-endian and read on a
big-endian machine; the handler collects the texts. -/
example :
    let handle : List (List Byte) → List Byte → List Byte → Out (List (List Byte)) :=
      fun s _ text => .ok (s ++ [text])
    let r1 := (ascii (chars "scidac-file-xml"), ascii (chars "<title>"))
    let r2 := (ascii (chars "scidac-record-xml"), ascii (chars "<info>"))
    let data : List Byte := List.replicate 16 7#8
    ∃ w h, write_records false [r1, r2] = .ok w ∧
      write_SCIDAC_binary false [] 16 scidacBinary = .ok h ∧
      get_header_data_SCIDAC (fun _ => true) handle true [] (w ++ h ++ data ++ [])
        = .ok ([r1.2, r2.2], data) := by
  intro handle r1 r2 data
  obtain ⟨w, hw, -⟩ := write_records_ok false [r1, r2] (by decide)
  refine ⟨w, _, hw, rfl, ?_⟩
  have h := C46_file_partial (fun _ => true) handle false true [r1, r2] []
    (by
      intro r hr
      simp only [List.mem_cons, List.not_mem_nil, or_false] at hr
      rcases hr with rfl | rfl <;> exact ⟨by decide, ⟨by decide, by decide⟩, by decide, rfl⟩)
    (by simp) (by simp) (by simp) data scidacBinary (Or.inl rfl) ⟨2, rfl⟩ (by decide) w _ [] hw rfl
    rfl []
  rw [List.append_nil] at h
  rw [List.append_nil]
  exact h.1

end GLU.IO
