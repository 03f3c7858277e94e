import Verif.IO.MilcHdrModel
import Verif.IO.LimeModel

/-!
# Random number generators: model

`src/Utils/par_KISS.c`, `par_MWC_1038.c`, `par_MWC_4096.c`, `par_XOR_1024.c`, `par_WELL_512.c` and
`par_rng.c`. Words are bit vectors; an access outside a table is `none` or `Out.ub`.

A build with `WELL_512_RNG` does not link: `par_rng.c:201` calls `par_Well_512_dbl`, which does not
exist. For that generator only the step is modelled.
-/

namespace GLU.Rng

open GLU.IO

/-- The state of one thread: table, index and carry (unused ones are zero). -/
structure Thread (W : Type) where
  table : List W
  idx : W32
  carry : W32

/-! ## One draw -/

/-- `JKISS32`, `par_KISS.c:30-44`; the conversions between `int` and `uint32_t` are those of two's
complement. -/
def JKISS32 (s : Thread W32) : Option (W32 × Thread W32) := do
  let x ← s.table[0]?
  let y ← s.table[1]?
  let z ← s.table[2]?
  let w ← s.table[3]?
  let c ← s.table[4]?
  let y := y ^^^ (y <<< 5)
  let y := y ^^^ (y >>> 7)
  let y := y ^^^ (y <<< 22)
  let t := z + w + c
  let z' := w
  let c' : W32 := if t.slt 0#32 then 1#32 else 0#32
  let w' := t &&& 2147483647#32
  let x' := x + 1411392427#32
  pure (x' + y + w', { s with table := ((((s.table.set 0 x').set 1 y).set 2 z').set 3 w').set 4 c' })

/-- `MWC_1038`, `par_MWC_1038.c:32-43`. -/
def MWC_1038 (s : Thread W32) : Option (W32 × Thread W32) := do
  let q ← s.table[s.idx.toNat]?
  let t : W64 := 611373678#64 * q.setWidth 64 + s.carry.setWidth 64
  let carry : W32 := (t >>> 32).setWidth 32
  let idx := s.idx - 1#32
  let out : W32 := t.setWidth 32
  if idx ≠ 0#32 then
    if idx.toNat < s.table.length then
      pure (out, ⟨s.table.set idx.toNat out, idx, carry⟩)
    else none
  else if 0 < s.table.length then pure (out, ⟨s.table.set 0 out, 1037#32, carry⟩)
  else none

/-- `par_MWC_4096`, `par_MWC_4096.c:31-46`. -/
def par_MWC_4096 (s : Thread W32) : Option (W32 × Thread W32) := do
  let idx := 4095#32
  let idx := (idx + 1#32) &&& 4095#32
  let q ← s.table[idx.toNat]?
  let t : W64 := 18782#64 * q.setWidth 64 + s.carry.setWidth 64
  let carry : W32 := (t >>> 32).setWidth 32
  let x : W32 := (t + carry.setWidth 64).setWidth 32
  let wrapped := x < carry
  let x := if wrapped then x + 1#32 else x
  let carry := if wrapped then carry + 1#32 else carry
  let out := 0xfffffffe#32 - x
  pure (out, ⟨s.table.set idx.toNat out, idx, carry⟩)

/-- `par_XOR_1024`, `par_XOR_1024.c:33-44`. -/
def par_XOR_1024 (s : Thread W64) : Option (W64 × Thread W64) := do
  let s0 ← s.table[s.idx.toNat]?
  let idx := (s.idx + 1#32) &&& 15#32
  let s1 ← s.table[idx.toNat]?
  let s1 := s1 ^^^ (s1 <<< 31)
  let s1 := s1 ^^^ (s1 >>> 11)
  let s0 := s0 ^^^ (s0 >>> 30)
  pure ((s0 ^^^ s1) * 1181783497276652981#64, { s with table := s.table.set idx.toNat (s0 ^^^ s1), idx })

/-- `par_WELL_512`, `par_WELL_512.c:30-48`. -/
def par_WELL_512 (s : Thread W32) : Option (W32 × Thread W32) := do
  let a ← s.table[s.idx.toNat]?
  let c ← s.table[((s.idx + 13#32) &&& 15#32).toNat]?
  let b := a ^^^ c ^^^ (a <<< 16) ^^^ (c <<< 15)
  let c ← s.table[((s.idx + 9#32) &&& 15#32).toNat]?
  let c := c ^^^ (c >>> 11)
  let a := b ^^^ c
  let table := s.table.set s.idx.toNat a
  let d := a ^^^ ((a <<< 5) &&& 0xDA442D24#32)
  let idx := (s.idx + 15#32) &&& 15#32
  let a ← table[idx.toNat]?
  let out := a ^^^ b ^^^ d ^^^ (a <<< 2) ^^^ (b <<< 18) ^^^ (c <<< 28)
  pure (out, { s with table := table.set idx.toNat out, idx })

/-- Successive draws. -/
def draws {W O : Type} (step : Thread W → Option (O × Thread W)) :
    ℕ → Thread W → Option (List O × Thread W)
  | 0, s => some ([], s)
  | n + 1, s => do
    let (x, s) ← step s
    let (l, s) ← draws step n s
    pure (x :: l, s)

/-! ## Seeding -/

/-- The linear congruence filling the tables, `par_MWC_1038.c:74-76` and the same in the other
files: from word `j` on, after the word `prev`. The arithmetic is in 64 bits, then truncated. -/
def lcong : ℕ → ℕ → W32 → List W32
  | 0, _, _ => []
  | n + 1, j, prev =>
    let w : W32 := (1812433253#64 * (prev ^^^ (prev >>> 30)).setWidth 64 + BitVec.ofNat 64 j).setWidth 32
    w :: lcong n (j + 1) w

/-- A seeded table of `size` words. -/
def seed_table (size : ℕ) (seed : W32) : List W32 := seed :: lcong (size - 1) 1 seed

/-- One thread of `GLU_set_par_MWC_1038_table`, `par_MWC_1038.c:64-84`. -/
def set_MWC_1038 (seed : W32) : Thread W32 :=
  let t := seed_table 1038 seed
  ⟨t, 1037#32, t.getLastD 0#32 % 61137367#32⟩

/-- One thread of `GLU_set_par_MWC_4096_table`, `par_MWC_4096.c:70-90`. -/
def set_MWC_4096 (seed : W32) : Thread W32 :=
  let t := seed_table 4096 seed
  ⟨t, 4095#32, t.getLastD 0#32 % 809430660#32⟩

/-- One thread of `GLU_set_par_KISS_table`, `par_KISS.c:56-69`. -/
def set_KISS (seed : W32) : Thread W32 := ⟨seed_table 5 seed, 0#32, 0#32⟩

/-- Two 32-bit words of a union as one of 64 bits, `par_XOR_1024.c:55-65`; which of them is the low half depends on the byte
order. -/
def word64 (big : Bool) (t0 t1 : W32) : W64 := if big then t0 ++ t1 else t1 ++ t0

/-- The loop of `GLU_set_par_XOR_1024_table`, `par_XOR_1024.c:66-71`: `n` more words from word `j` on, after the 32-bit word
`prev`. -/
def lcong64 (big : Bool) : ℕ → ℕ → W32 → List W64
  | 0, _, _ => []
  | n + 1, j, prev =>
    let t0 : W32 := (1812433253#64 * (prev ^^^ (prev >>> 30)).setWidth 64 + BitVec.ofNat 64 (2 * j)).setWidth 32
    let t1 : W32 := (1812433253#64 * (t0 ^^^ (t0 >>> 30)).setWidth 64 + BitVec.ofNat 64 (2 * j + 1)).setWidth 32
    word64 big t0 t1 :: lcong64 big n (j + 1) t1

/-- One thread of `GLU_set_par_XOR_1024_table`, `par_XOR_1024.c:46-76`. -/
def set_XOR_1024 (big : Bool) (seed : W32) : Thread W64 :=
  let t1 : W32 := (1812433253#64 * (seed ^^^ (seed >>> 30)).setWidth 64 + 1#64).setWidth 32
  ⟨word64 big seed t1 :: lcong64 big 15 1 t1, 15#32, 0#32⟩

/-! ## Uniform doubles -/

/-- Conversion of an unsigned integer to `double`: rounding to 53 significant bits, ties to even. -/
def toDouble (n : ℕ) : ℕ :=
  if n < 2 ^ 53 then n else
    let e := Nat.log2 n + 1 - 53
    let q := n / 2 ^ e
    let r := n % 2 ^ e
    if 2 ^ e < 2 * r ∨ (2 ^ e = 2 * r ∧ q % 2 = 1) then (q + 1) * 2 ^ e else q * 2 ^ e

/-- The generators with 32-bit output, without `FULL_DOUBLE`, `par_MWC_1038.c:106` and the same in
`par_KISS.c:89`, `par_MWC_4096.c:112`, `par_WELL_512.c:100`: the constant is exactly `2^-32`, and
multiplication by a power of two is exact. -/
def dbl32 (w : W32) : ℚ := (toDouble w.toNat : ℚ) / 2 ^ 32

/-- The number a normal `double` with the given bits stands for (sign, exponent, mantissa). -/
def ofBits (u : W64) : ℚ :=
  (if u.msb then -1 else 1) * (1 + ((u &&& 0xFFFFFFFFFFFFF#64).toNat : ℚ) / 2 ^ 52) *
    2 ^ ((((u >>> 52) &&& 0x7FF#64).toNat : ℤ) - 1023)

/-- The same with `FULL_DOUBLE`, `par_MWC_1038.c:92-104`: the top 52 bits of 64 become the mantissa
of a number between one and two, and one is subtracted (exactly, there is enough room). -/
def dblFull (hi lo : W32) : ℚ :=
  let u : W64 := (hi.setWidth 64 <<< 32) ||| lo.setWidth 64
  ofBits ((u >>> 12) ||| 0x3FF0000000000000#64) - 1

/-- `par_XOR_1024_dbl`, `par_XOR_1024.c:88-92`: the constant is exactly `2^-64`. -/
def dbl64 (w : W64) : ℚ := (toDouble w.toNat : ℚ) / 2 ^ 64

/-! ## The state file -/

/-- How words are laid out in memory and swapped. -/
structure Cell (W : Type) where
  size : ℕ
  mem : Bool → W → List Byte
  ofMem : Bool → List Byte → W
  swap : W → W

/-- 32-bit words. -/
def cell32 : Cell W32 := ⟨4, memInt, ofMemInt, SwapByteOrder_32⟩

/-- 64-bit words. -/
def cell64 : Cell W64 := ⟨8, memDbl, ofMemDbl, SwapByteOrder_64⟩

/-- `bswap` when the machine is little endian, `fwrite`, `bswap` back: `par_MWC_1038.c:145-156`. -/
def fwrite_swapped {W : Type} (C : Cell W) (big : Bool) (l : List W) : List Byte :=
  l.flatMap fun w => C.mem big (if !big then C.swap w else w)

/-- `fread( l , sizeof , n , file ) != n`. -/
def fread_cells {W : Type} (C : Cell W) (big : Bool) : ℕ → List Byte → Out (List W × List Byte)
  | 0, file => .ok ([], file)
  | n + 1, file =>
    if C.size ≤ file.length then
      (fread_cells C big n (file.drop C.size)).bind fun (l, rest) =>
        .ok (C.ofMem big (file.take C.size) :: l, rest)
    else .fail

/-- The reading loop over the threads, `par_MWC_1038.c:118-124`. -/
def fread_tables {W : Type} (C : Cell W) (big : Bool) (size : ℕ) :
    ℕ → List Byte → Out (List (List W) × List Byte)
  | 0, file => .ok ([], file)
  | n + 1, file =>
    (fread_cells C big size file).bind fun (t, file) =>
    (fread_tables C big size n file).bind fun (ts, rest) => .ok (t :: ts, rest)

/-- Swap after reading on a little-endian machine. -/
def unswap {W : Type} (C : Cell W) (big : Bool) (l : List W) : List W :=
  if !big then l.map C.swap else l

/-- The generator states of all threads. -/
inductive State
  | kiss (tables : List (List W32))
  | mwc1038 (tables : List (List W32)) (idx carry : List W32)
  | mwc4096 (tables : List (List W32)) (idx carry : List W32)
  | xor1024 (tables : List (List W64)) (idx : List W32)

/-- The generator the library is compiled with. -/
inductive Kind | kiss | mwc1038 | mwc4096 | xor1024
deriving DecidableEq

/-- `RNG_TABLE`, `GLU_definitions.h:690-705`. -/
def Kind.size : Kind → ℕ
  | .kiss => 5
  | .mwc1038 => 1038
  | .mwc4096 => 4096
  | .xor1024 => 16

/-- The name in the header, `par_rng.c:325-335`. -/
def Kind.name : Kind → Str
  | .kiss => chars "PAR_KISS"
  | .mwc1038 => chars "PAR_MWC_1038"
  | .mwc4096 => chars "PAR_MWC_4096"
  | .xor1024 => chars "PAR_XOR_1024"

/-- `write_par_KISS_table` (`par_KISS.c:111-128`), `write_par_MWC_1038_table`
(`par_MWC_1038.c:141-170`), `write_par_MWC_4096_table` (`par_MWC_4096.c:147-177`),
`write_par_XOR_1024_table` (`par_XOR_1024.c:120-146`). -/
def write_table (big : Bool) : State → List Byte
  | .kiss ts => ts.flatMap (fwrite_swapped cell32 big)
  | .mwc1038 ts idx carry => ts.flatMap (fwrite_swapped cell32 big) ++ fwrite_swapped cell32 big idx ++
      fwrite_swapped cell32 big carry
  | .mwc4096 ts idx carry => ts.flatMap (fwrite_swapped cell32 big) ++ fwrite_swapped cell32 big idx ++
      fwrite_swapped cell32 big carry
  | .xor1024 ts idx => ts.flatMap (fwrite_swapped cell64 big) ++ fwrite_swapped cell32 big idx

/-- `read_par_KISS_table`, `par_KISS.c:93-108`: no swap. -/
def read_KISS (big : Bool) (n : ℕ) (file : List Byte) : Out State :=
  (fread_tables cell32 big 5 n file).bind fun (ts, _) => .ok (.kiss ts)

/-- `read_par_MWC_1038_table`, `par_MWC_1038.c:110-138`; `read_par_MWC_4096_table`,
`par_MWC_4096.c:116-144`, is the same text. -/
def read_MWC (size : ℕ) (big : Bool) (n : ℕ) (file : List Byte) :
    Out (List (List W32) × List W32 × List W32) :=
  (fread_tables cell32 big size n file).bind fun (ts, file) =>
  (fread_cells cell32 big n file).bind fun (idx, file) =>
  (fread_cells cell32 big n file).bind fun (carry, _) =>
  .ok (ts.map (unswap cell32 big), unswap cell32 big idx, unswap cell32 big carry)

/-- `read_par_XOR_1024_table`, `par_XOR_1024.c:94-117`. -/
def read_XOR (big : Bool) (n : ℕ) (file : List Byte) : Out State :=
  (fread_tables cell64 big 16 n file).bind fun (ts, file) =>
  (fread_cells cell32 big n file).bind fun (idx, _) =>
  .ok (.xor1024 (ts.map (unswap cell64 big)) (unswap cell32 big idx))

/-- The reader of the compiled generator. -/
def read_table (k : Kind) (big : Bool) (n : ℕ) (file : List Byte) : Out State :=
  match k with
  | .kiss => read_KISS big n file
  | .mwc1038 => (read_MWC 1038 big n file).bind fun (ts, i, c) => .ok (.mwc1038 ts i c)
  | .mwc4096 => (read_MWC 4096 big n file).bind fun (ts, i, c) => .ok (.mwc4096 ts i c)
  | .xor1024 => read_XOR big n file

/-- `write_par_rng_state`, `par_rng.c:313-354`: the bytes of the file. -/
def write_par_rng_state (k : Kind) (big : Bool) (n : ℕ) (s : State) : List Byte :=
  ascii (beginLine ++ field (chars "NTHREADS") (decimal n) ++ field (chars "RNG") k.name ++
    field (chars "RNG_TABLE") (decimal k.size) ++ endLine) ++ write_table big s

/-- What reading a state file leads to: the state of the file, or a new sequence. -/
inductive Restored
  | state (s : State)
  | new

/-- `read_par_rng_state`, `par_rng.c:222-311`. `file` is `none` when it cannot be opened; `n0` is
the uninitialised local variable. -/
def read_par_rng_state (k : Kind) (big : Bool) (n n0 : ℕ) (file : Option (List Byte)) :
    Out Restored :=
  match file with
  | none => .ok .new
  | some file =>
    match get_header (file.map fun b => Char.ofNat b.toNat) with
    | .fail => .ok .new
    | .ub => .ub
    | .ok (hdr, rest) =>
      match get_size_t (chars "NTHREADS") hdr n0 with
      | .fail => .ok .new
      | .ub => .ub
      | .ok m =>
        if m ≠ n then .ok .new else
        match get_string (chars "RNG") hdr with
        | none => .ok .new
        | some str =>
          if str ≠ ' ' :: k.name then .ok .new
          else (read_table k big n (ascii rest)).bind fun s => .ok (.state s)

/-! ## Initialisation -/

/-- The module-level state of `par_rng.c`: the flag (line 38) and the generator's tables. -/
structure Machine where
  inited : Bool
  state : Option State

/-- The calls a program can make. -/
inductive Call
  /-- `initialise_par_rng( NULL )` when seeding would produce the given state. -/
  | seed (s : State)
  /-- `initialise_par_rng( file )`; the state seeding would produce is needed for the fallback. -/
  | restore (file : Option (List Byte)) (s : State)
  /-- draws: the state becomes another one. -/
  | draw (f : State → State)
  /-- `free_par_rng( )`. -/
  | free

/-- `initialise_par_rng`, `par_rng.c:40-132` and `free_par_rng`, `par_rng.c:135-155`. Seeding
(entropy, warm-up) is the given state. A failed read returns before the flag is set. -/
def Machine.call (k : Kind) (big : Bool) (n n0 : ℕ) (m : Machine) : Call → Out Machine
  | .seed s => if m.inited then .ok m else .ok ⟨true, some s⟩
  | .restore file s =>
    if m.inited then .ok m else
    (read_par_rng_state k big n n0 file).bind fun
      | .state s' => .ok ⟨m.inited, some s'⟩
      | .new => .ok ⟨true, some s⟩
  | .draw f => match m.state with
    | none => .ub
    | some s => .ok { m with state := some (f s) }
  | .free => if m.inited then .ok ⟨false, none⟩ else .ok m

/-- A history of calls. -/
def Machine.run (k : Kind) (big : Bool) (n n0 : ℕ) : Machine → List Call → Out Machine
  | m, [] => .ok m
  | m, c :: cs => (m.call k big n n0 c).bind fun m => Machine.run k big n n0 m cs

end GLU.Rng
