import Verif.Rng.Model
import Verif.IO.MilcHdrProps
import Verif.IO.XmlLemmas

/-!
# The state file of the random number generators

C48 and C51.
-/

namespace GLU.Rng

open GLU.IO

/-! ## Words in memory -/

/-- What the two kinds of words have in common. -/
structure Cell.Lawful {W : Type} (C : Cell W) : Prop where
  length : ∀ big w, (C.mem big w).length = C.size
  ofMem_mem : ∀ big w, C.ofMem big (C.mem big w) = w
  mem_swap : ∀ w, C.mem false (C.swap w) = C.mem true w
  swap_swap : ∀ w, C.swap (C.swap w) = w

theorem cell32_lawful : cell32.Lawful where
  length := fun big w => by
    have h := memInt_swap big big w
    rw [show (big != big) = false by cases big <;> rfl] at h
    rw [show cell32.mem big w = memInt big w from rfl]
    simp only [Bool.false_eq_true, if_false] at h
    rw [h, imageInt_length]
    rfl
  ofMem_mem := ofMemInt_memInt
  mem_swap := fun w => (memInt_swap true false w).trans (memInt_swap true true w).symm
  swap_swap := flt_swap_swap

theorem cell64_lawful : cell64.Lawful where
  length := fun big w => by
    have h := memDbl_swap big big w
    rw [show (big != big) = false by cases big <;> rfl] at h
    rw [show cell64.mem big w = memDbl big w from rfl]
    simp only [Bool.false_eq_true, if_false] at h
    rw [h, imageDbl_length]
    rfl
  ofMem_mem := ofMemDbl_memDbl
  mem_swap := fun w => (memDbl_swap true false w).trans (memDbl_swap true true w).symm
  swap_swap := dbl_swap_swap

section
variable {W : Type} {C : Cell W}

theorem fwrite_swapped_eq (hC : C.Lawful) (big : Bool) (l : List W) :
    fwrite_swapped C big l = l.flatMap (C.mem true) := by
  unfold fwrite_swapped
  congr 1
  funext w
  cases big
  · exact hC.mem_swap w
  · rfl

/-- The word a machine sees when it reads a big-endian file without swapping. -/
def seen (C : Cell W) (big : Bool) (w : W) : W := if !big then C.swap w else w

theorem ofMem_image_cell (hC : C.Lawful) (big : Bool) (w : W) :
    C.ofMem big (C.mem true w) = seen C big w := by
  cases big
  · rw [← hC.mem_swap, hC.ofMem_mem]; rfl
  · exact hC.ofMem_mem true w

theorem fread_cells_image (hC : C.Lawful) (big : Bool) (l : List W) (rest : List Byte) :
    fread_cells C big l.length (l.flatMap (C.mem true) ++ rest) = .ok (l.map (seen C big), rest) := by
  induction l with
  | nil => rfl
  | cons w l ih =>
    have hl : (C.mem true w).length = C.size := hC.length true w
    rw [List.length_cons, fread_cells, List.flatMap_cons, List.append_assoc,
      if_pos (by simp [hl]), List.take_left' hl, List.drop_left' hl, ih, ofMem_image_cell hC]
    rfl

theorem fread_tables_image (hC : C.Lawful) (big : Bool) (size : ℕ) (ts : List (List W))
    (h : ∀ t ∈ ts, t.length = size) (rest : List Byte) :
    fread_tables C big size ts.length ((ts.flatMap fun t => t.flatMap (C.mem true)) ++ rest) =
      .ok (ts.map (List.map (seen C big)), rest) := by
  induction ts with
  | nil => rfl
  | cons t ts ih =>
    have ht := h t (by simp)
    rw [List.length_cons, fread_tables, List.flatMap_cons, List.append_assoc, ← ht,
      fread_cells_image hC]
    simp only [Out.bind]
    rw [ht, ih fun t ht => h t (by simp [ht])]
    rfl

theorem unswap_seen (hC : C.Lawful) (big : Bool) (l : List W) :
    unswap C big (l.map (seen C big)) = l := by
  rw [unswap]
  cases big
  · rw [if_pos (by decide), List.map_map]
    conv_rhs => rw [← List.map_id l]
    exact List.map_congr_left fun w _ => hC.swap_swap w
  · rw [if_neg (by decide)]
    exact List.map_id l

theorem unswap_seen_tables (hC : C.Lawful) (big : Bool) (ts : List (List W)) :
    (ts.map (List.map (seen C big))).map (unswap C big) = ts := by
  rw [List.map_map]
  conv_rhs => rw [← List.map_id ts]
  apply List.map_congr_left
  intro t _
  exact unswap_seen hC big t

end

/-! ## Specification -/

/-- The shape of the state of `n` threads. -/
def Shape (k : Kind) (n : ℕ) : State → Prop
  | .kiss ts => k = .kiss ∧ ts.length = n ∧ ∀ t ∈ ts, t.length = 5
  | .mwc1038 ts i c => k = .mwc1038 ∧ ts.length = n ∧ (∀ t ∈ ts, t.length = 1038) ∧
      i.length = n ∧ c.length = n
  | .mwc4096 ts i c => k = .mwc4096 ∧ ts.length = n ∧ (∀ t ∈ ts, t.length = 4096) ∧
      i.length = n ∧ c.length = n
  | .xor1024 ts i => k = .xor1024 ∧ ts.length = n ∧ (∀ t ∈ ts, t.length = 16) ∧ i.length = n

/-! ## The tables -/

theorem read_MWC_written (size : ℕ) (big big' : Bool) (ts : List (List W32)) (i c : List W32)
    (h : ∀ t ∈ ts, t.length = size) (hi : i.length = ts.length) (hc : c.length = ts.length) :
    read_MWC size big' ts.length (ts.flatMap (fwrite_swapped cell32 big) ++ fwrite_swapped cell32 big i
      ++ fwrite_swapped cell32 big c) = .ok (ts, i, c) := by
  have e : fwrite_swapped cell32 big = fun l => l.flatMap (cell32.mem true) := by
    funext l
    exact fwrite_swapped_eq cell32_lawful big l
  rw [e, read_MWC, List.append_assoc, fread_tables_image cell32_lawful big' size ts h]
  simp only [Out.bind]
  rw [← hi, fread_cells_image cell32_lawful]
  simp only
  have := fread_cells_image cell32_lawful big' c []
  rw [List.append_nil] at this
  rw [hi, ← hc, this]
  simp only [unswap_seen cell32_lawful, unswap_seen_tables cell32_lawful]

theorem read_XOR_written (big big' : Bool) (ts : List (List W64)) (i : List W32)
    (h : ∀ t ∈ ts, t.length = 16) (hi : i.length = ts.length) :
    read_XOR big' ts.length (ts.flatMap (fwrite_swapped cell64 big) ++ fwrite_swapped cell32 big i)
      = .ok (.xor1024 ts i) := by
  have e : fwrite_swapped cell32 big = fun l => l.flatMap (cell32.mem true) := by
    funext l
    exact fwrite_swapped_eq cell32_lawful big l
  have e' : fwrite_swapped cell64 big = fun l => l.flatMap (cell64.mem true) := by
    funext l
    exact fwrite_swapped_eq cell64_lawful big l
  rw [e, e', read_XOR, fread_tables_image cell64_lawful big' 16 ts h]
  simp only [Out.bind]
  have := fread_cells_image cell32_lawful big' i []
  rw [List.append_nil] at this
  rw [← hi, this]
  simp only [unswap_seen cell32_lawful, unswap_seen_tables cell64_lawful]

theorem read_KISS_written (big big' : Bool) (ts : List (List W32)) (h : ∀ t ∈ ts, t.length = 5) :
    read_KISS big' ts.length (ts.flatMap (fwrite_swapped cell32 big)) =
      .ok (.kiss (ts.map (List.map (seen cell32 big')))) := by
  have e : fwrite_swapped cell32 big = fun l => l.flatMap (cell32.mem true) := by
    funext l
    exact fwrite_swapped_eq cell32_lawful big l
  have := fread_tables_image cell32_lawful big' 5 ts h []
  rw [List.append_nil] at this
  rw [e, read_KISS, this]
  rfl

/-! ## The header -/

theorem ascii_map_char (l : List Byte) : ascii (l.map fun b => Char.ofNat b.toNat) = l := by
  rw [ascii, List.map_map]
  conv_rhs => rw [← List.map_id l]
  apply List.map_congr_left
  intro b _
  have hb : b.toNat < 256 := b.isLt
  have hv : b.toNat.isValidChar := Or.inl (by omega)
  simp only [Function.comp, id]
  rw [Char.ofNat, dif_pos hv]
  apply BitVec.eq_of_toNat_eq
  show (BitVec.ofNat 8 _).toNat = _
  rw [BitVec.toNat_ofNat]
  have : (Char.ofNatAux b.toNat hv).toNat = b.toNat := by
    simp [Char.ofNatAux, Char.toNat]
  rw [this]
  exact Nat.mod_eq_of_lt hb

theorem map_char_ascii (s : Str) (h : ∀ c ∈ s, c.toNat < 256) :
    ((ascii s).map fun b => Char.ofNat b.toNat) = s := by
  rw [ascii, List.map_map]
  conv_rhs => rw [← List.map_id s]
  apply List.map_congr_left
  intro c hc
  simp only [Function.comp, id]
  rw [BitVec.toNat_ofNat, Nat.mod_eq_of_lt (h c hc), Char.ofNat_toNat]

theorem decimal_small (n : ℕ) : ∀ c ∈ decimal n, c.toNat < 256 := by
  intro c hc
  rw [decimal_eq, List.mem_map] at hc
  obtain ⟨d, hd, rfl⟩ := hc
  have := digs_lt 10 n (by omega) d hd
  exact (digitChar_ascii d (by omega)).1

/-- The header as fields. -/
def rngFields (k : Kind) (n : ℕ) : List (Str × Str) :=
  [(chars "NTHREADS", decimal n), (chars "RNG", k.name), (chars "RNG_TABLE", decimal k.size)]

theorem rngFields_wf (k : Kind) (n : ℕ) (hn : n < 2 ^ 32) :
    ∀ f ∈ rngFields k n, WellFormed f.1 f.2 := by
  intro f hf
  simp only [rngFields, List.mem_cons, List.not_mem_nil, or_false] at hf
  rcases hf with rfl | rfl | rfl
  · have h1 := decimal_length n (lt_trans hn (by norm_num))
    refine ⟨show ∀ c ∈ chars "NTHREADS", _ by decide, fun c hc => ⟨(decimal_plain n c hc).2.1, (decimal_plain n c hc).2.2⟩, ?_⟩
    simp only [List.length_cons, List.length_nil]
    omega
  · cases k <;> exact ⟨by decide, by decide, by decide⟩
  · have h1 := decimal_length k.size (by cases k <;> decide)
    refine ⟨show ∀ c ∈ chars "RNG_TABLE", _ by decide, fun c hc => ⟨(decimal_plain _ c hc).2.1, (decimal_plain _ c hc).2.2⟩, ?_⟩
    simp only [List.length_cons, List.length_nil]
    omega

theorem header_written (k : Kind) (big : Bool) (n : ℕ) (hn : n < 2 ^ 32) (s : State) :
    get_header ((write_par_rng_state k big n s).map fun b => Char.ofNat b.toNat) =
      .ok ((rngFields k n).map fun f => (f.1, ' ' :: f.2),
        (write_table big s).map fun b => Char.ofNat b.toNat) := by
  have hsmall : ∀ c ∈ beginLine ++ field (chars "NTHREADS") (decimal n) ++ field (chars "RNG") k.name ++
      field (chars "RNG_TABLE") (decimal k.size) ++ endLine, c.toNat < 256 := by
    intro c hc
    simp only [field, List.mem_append] at hc
    have hx : ∀ s : Str, (∀ c ∈ s, c.toNat < 256) → c ∈ s → c.toNat < 256 := fun s h hc => h c hc
    rcases hc with ((((hc | hc) | hc) | hc) | hc)
    · exact hx _ (by decide) hc
    · rcases hc with ((hc | hc) | hc) | hc
      · exact hx _ (by decide) hc
      · exact hx _ (by decide) hc
      · exact decimal_small n c hc
      · exact hx _ (by decide) hc
    · rcases hc with ((hc | hc) | hc) | hc
      · exact hx _ (by decide) hc
      · exact hx _ (by decide) hc
      · exact hx _ (by cases k <;> decide) hc
      · exact hx _ (by decide) hc
    · rcases hc with ((hc | hc) | hc) | hc
      · exact hx _ (by decide) hc
      · exact hx _ (by decide) hc
      · exact decimal_small _ c hc
      · exact hx _ (by decide) hc
    · exact hx _ (by decide) hc
  have hh := C44_well_formed (rngFields k n) (rngFields_wf k n hn) (by simp [rngFields])
    ((write_table big s).map fun b => Char.ofNat b.toNat)
  have hmap : ((write_par_rng_state k big n s).map fun b => Char.ofNat b.toNat) =
      beginLine ++ ((rngFields k n).flatMap fun f => field f.1 f.2) ++ endLine ++
        ((write_table big s).map fun b => Char.ofNat b.toNat) := by
    rw [write_par_rng_state, List.map_append, map_char_ascii _ hsmall]
    simp [rngFields, List.flatMap_cons, List.append_assoc]
  rw [hmap, hh]

theorem threads_written (k : Kind) (n n0 : ℕ) (hn : n < 2 ^ 32) :
    get_size_t (chars "NTHREADS") ((rngFields k n).map fun f => (f.1, ' ' :: f.2)) n0 = .ok n := by
  rw [get_size_t]
  simp only [rngFields, List.map_cons, get_string, if_true]
  rw [sscanf_decimal n (lt_trans hn (by norm_num))]
  rfl

theorem read_written (k : Kind) (big big' : Bool) (n n0 : ℕ) (hn : n < 2 ^ 32) (s : State) :
    read_par_rng_state k big' n n0 (some (write_par_rng_state k big n s)) =
      (read_table k big' n (write_table big s)).bind fun s => .ok (.state s) := by
  rw [read_par_rng_state]
  simp only [header_written k big n hn s, threads_written k n n0 hn]
  have h2 : get_string (chars "RNG") ((rngFields k n).map fun f => (f.1, ' ' :: f.2)) =
      some (' ' :: k.name) := by
    simp only [rngFields, List.map_cons, get_string]
    rw [if_neg (by decide), if_pos trivial]
  simp only [h2, ne_eq, not_true, if_false, ascii_map_char]

/-! ## C48 -/

/-- **C48.** For the multiply-with-carry and xorshift generators, for any number of threads, any
state, and whatever the byte order of the machines writing and reading: reading the written file
restores exactly the state that was written, so all later numbers agree. -/
theorem C48_round_trip_partial (k : Kind) (hk : k ≠ .kiss) (big big' : Bool) (n n0 : ℕ)
    (hn : n < 2 ^ 32) (s : State) (hs : Shape k n s) :
    read_par_rng_state k big' n n0 (some (write_par_rng_state k big n s)) = .ok (.state s) := by
  rw [read_written k big big' n n0 hn]
  cases s with
  | kiss ts => exact absurd hs.1 hk
  | mwc1038 ts i c =>
    obtain ⟨rfl, rfl, h, hi, hc⟩ := hs
    rw [read_table, write_table, read_MWC_written 1038 big big' ts i c h hi hc]
    rfl
  | mwc4096 ts i c =>
    obtain ⟨rfl, rfl, h, hi, hc⟩ := hs
    rw [read_table, write_table, read_MWC_written 4096 big big' ts i c h hi hc]
    rfl
  | xor1024 ts i =>
    obtain ⟨rfl, rfl, h, hi⟩ := hs
    rw [read_table, write_table, read_XOR_written big big' ts i h hi]
    rfl

/-- **C48, KISS.** The file is big endian and is read without swapping: it is restored on
big-endian machines only. -/
theorem C48_kiss_partial (big : Bool) (n n0 : ℕ) (hn : n < 2 ^ 32) (s : State) (hs : Shape .kiss n s) :
    read_par_rng_state .kiss true n n0 (some (write_par_rng_state .kiss big n s)) = .ok (.state s) := by
  rw [read_written .kiss big true n n0 hn]
  cases s with
  | kiss ts =>
    obtain ⟨-, rfl, h⟩ := hs
    rw [read_table, write_table, read_KISS_written big true ts h]
    have : ts.map (List.map (seen cell32 true)) = ts := by
      conv_rhs => rw [← List.map_id ts]
      apply List.map_congr_left
      intro t _
      exact List.map_id t
    rw [this]
    rfl
  | mwc1038 ts i c => exact absurd hs.1 (by decide)
  | mwc4096 ts i c => exact absurd hs.1 (by decide)
  | xor1024 ts i => exact absurd hs.1 (by decide)

/-- **C48 fails for KISS on a little-endian machine**: the restored state has every word with its
bytes reversed. -/
theorem C48_kiss_fails (big : Bool) (n n0 : ℕ) (hn : n < 2 ^ 32) (ts : List (List W32))
    (hs : Shape .kiss n (.kiss ts)) :
    read_par_rng_state .kiss false n n0 (some (write_par_rng_state .kiss big n (.kiss ts))) =
      .ok (.state (.kiss (ts.map (List.map SwapByteOrder_32)))) := by
  rw [read_written .kiss big false n n0 hn]
  obtain ⟨-, rfl, h⟩ := hs
  rw [read_table, write_table, read_KISS_written big false ts h]
  rfl

/-- The next number of the restored generator is then another one. -/
theorem C48_kiss_witness : (JKISS32 ⟨[1, 2, 3, 4, 5], 0, 0⟩).map (·.1) ≠
    (JKISS32 ⟨[1, 2, 3, 4, 5].map SwapByteOrder_32, 0, 0⟩).map (·.1) := by decide

/-- **C48 fails for another number of threads**: no error, a new sequence is started. -/
theorem C48_threads_fails (k : Kind) (big big' : Bool) (n m n0 : ℕ) (hn : n < 2 ^ 32) (hm : m ≠ n)
    (s : State) : read_par_rng_state k big' m n0 (some (write_par_rng_state k big n s)) = .ok .new := by
  rw [read_par_rng_state]
  simp only [header_written k big n hn s, threads_written k n n0 hn]
  rw [if_pos hm.symm]

/-! ## C51 -/

/-- Draws and initialisations, but no release. -/
def Call.isFree : Call → Bool
  | .free => true
  | _ => false

/-- Only the draws of a history. -/
def Call.isDraw : Call → Bool
  | .draw _ => true
  | _ => false

/-- **C51, seeded generators.** Once the generator was seeded, any further history of initialisation
calls and draws has the effect of the draws alone: it is never reseeded or replaced. -/
theorem C51_seeded_partial (k : Kind) (big : Bool) (n n0 : ℕ) (s : State) (cs : List Call)
    (h : ∀ c ∈ cs, c.isFree = false) :
    Machine.run k big n n0 ⟨true, some s⟩ cs =
      Machine.run k big n n0 ⟨true, some s⟩ (cs.filter Call.isDraw) := by
  induction cs generalizing s with
  | nil => rfl
  | cons c cs ih =>
    have ih := fun s => ih s fun c hc => h c (by simp [hc])
    cases c with
    | seed s' => exact ih s
    | restore f s' => exact ih s
    | draw f => exact ih (f s)
    | free => exact absurd (h .free (by simp)) (by decide)

/-- **C51 fails.** After restoring any state from a file, the next initialisation without a file
replaces it by a newly seeded one (the flag is not set when a file is read). -/
theorem C51_restored_fails (k : Kind) (hk : k ≠ .kiss) (big : Bool) (n n0 : ℕ) (hn : n < 2 ^ 32)
    (s t t' : State) (hs : Shape k n s) :
    Machine.run k big n n0 ⟨false, none⟩ [.restore (some (write_par_rng_state k big n s)) t] =
      .ok ⟨false, some s⟩ ∧
    Machine.run k big n n0 ⟨false, none⟩
      [.restore (some (write_par_rng_state k big n s)) t, .seed t'] = .ok ⟨true, some t'⟩ := by
  have h := C48_round_trip_partial k hk big big n n0 hn s hs
  constructor
  · simp only [Machine.run, Machine.call, Bool.false_eq_true, if_false, h, Out.bind]
  · simp only [Machine.run, Machine.call, Bool.false_eq_true, if_false, h, Out.bind]

/-- **C48 fails after seeding.** When anything has seeded the generator before (a random gauge
transformation of the start configuration does), the state file is not read at all. -/
theorem C48_seeded_fails (k : Kind) (big : Bool) (n n0 : ℕ) (file : Option (List Byte))
    (t t' : State) : Machine.run k big n n0 ⟨false, none⟩ [.seed t, .restore file t'] =
      .ok ⟨true, some t⟩ := rfl

/-- A missing or unreadable file starts a new sequence, which is then kept. -/
theorem C51_missing (k : Kind) (big : Bool) (n n0 : ℕ) (t t' : State) :
    Machine.run k big n n0 ⟨false, none⟩ [.restore none t, .seed t'] = .ok ⟨true, some t⟩ := rfl

example : Shape .mwc1038 2 (.mwc1038 [seed_table 1038 1, seed_table 1038 2] [5, 6] [7, 8]) :=
  ⟨rfl, rfl, by decide +kernel, rfl, rfl⟩

example : Shape .xor1024 1 (.xor1024 [List.replicate 16 3] [5]) := ⟨rfl, rfl, by decide, rfl⟩

end GLU.Rng
