import Verif.IO.ChkModel

/-!
# Configuration files: model of the link data writer and reader

`src/IO/writers.c` and `src/IO/readers.c`, for files in the working precision of the program
(`double`, or `float` in a `SINGLE_PREC` build). Numbers are the words that store them; the
arithmetic of the compressed storage types is a parameter (`Arith`). The files are lists of
bytes. Reading a single precision file into a double precision program is not modelled.
-/

namespace GLU.IO

/-- A floating point format, seen as a machine word: its size in bytes, its bytes from the
least significant one, the word made of given bytes, the byte swap used on it, and the 32-bit
integer it contributes to the NERSC and MILC checksums. -/
structure Word where
  W : Type
  size : ℕ
  bytes : W → List Byte
  ofBytes : List Byte → W
  swap : W → W
  res : W → W32

/-- The word whose bytes, least significant first, are given. -/
def joinBytes (n : ℕ) : List Byte → BitVec n
  | [] => 0#n
  | b :: bs => b.setWidth n ||| (joinBytes n bs <<< 8)

/-- `double`: swapped by `bswap_64` (`GLU_bswap.c:103-112`), contributing the sum of its two
32-bit halves (`writers.c:60-68`, `readers.c:296-297`). -/
def dbl : Word where
  W := W64
  size := 8
  bytes w := (List.range 8).map fun i => w.extractLsb' (8 * i) 8
  ofBytes := joinBytes 64
  swap := SwapByteOrder_64
  res w := w.setWidth 32 + (w >>> 32).setWidth 32

/-- `float`: swapped by `bswap_32`, contributing its bit pattern (`writers.c:54-59`,
`readers.c:302`). -/
def flt : Word where
  W := W32
  size := 4
  bytes w := (List.range 4).map fun i => w.extractLsb' (8 * i) 8
  ofBytes := joinBytes 32
  swap := SwapByteOrder_32
  res w := w

variable (P : Word)

/-- The bytes of a word in the memory of a machine with (`big`, i.e. `WORDS_BIGENDIAN`) or
without big-endian words. -/
def mem (big : Bool) (w : P.W) : List Byte := if big then (P.bytes w).reverse else P.bytes w

/-- The word held by given bytes of memory. -/
def ofMem (big : Bool) (l : List Byte) : P.W := P.ofBytes (if big then l.reverse else l)

/-- Storage types `OUTPUT_SMALL`, `OUTPUT_GAUGE`, `OUTPUT_NCxNC`. -/
inductive Store | small | gauge | ncxnc
deriving DecidableEq

/-- `LOOP_SMALL`, `LOOP_GAUGE`, `LOOP_NCxNC`, `src/Headers/GLU_enum.h:216-218`: the number of
reals stored for a link. -/
def LOOP_VAR (NC : ℕ) : Store → ℕ
  | .small => NC * NC - 1
  | .gauge => 2 * (NC - 1) * NC
  | .ncxnc => 2 * (NC * NC)

/-- The floating point operations behind the compressed storage types: `shorten` (C14),
`exhume_O` (`readers.c:126-132`: `rebuild` and `gram_reunit`), and the entry `j` of the last row
computed by `complete_top` (`readers.c:42-77`) from the matrix in which the first `NC-1` rows
have been copied. -/
structure Arith where
  shorten : Arr (P.W × P.W) → List P.W
  exhume : List P.W → Arr (P.W × P.W)
  lastRow : Arr (P.W × P.W) → ℕ → P.W × P.W

variable {P}

/-- The links of a lattice: site, direction, matrix entry. -/
abbrev Lat (P : Word) := ℕ → ℕ → Arr (P.W × P.W)

/-! ### Checksums -/

/-- `w << r | w >> ( 32 - r )`, `writers.c:208-209,221-222`, `readers.c:117-118,193-194,...`,
for `r < 32`. At `r = 0` the code shifts a 32-bit word by 32, which C leaves undefined; the
parameter `X` is the word the machine delivers for `w >> 32` (x86 and ARM compilers usually give
`w` or `0`). -/
def rot (X : W32 → W32) (w : W32) (r : ℕ) : W32 :=
  (w <<< r) ||| (if r = 0 then X w else w >>> (32 - r))

/-- The same expression with the undefined shift as a distinct outcome. -/
def rotC (w : W32) (r : ℕ) : Option W32 :=
  if 32 - r < 32 then some ((w <<< r) ||| (w >>> (32 - r))) else none

/-- The five running checksums: NERSC `k`, MILC `sum29`, `sum31`, SciDAC `CRCsum29`, `CRCsum31`
(`writers.c:180`, `readers.c:183,272`). -/
@[ext] structure Sums where
  k : W32
  s29 : W32
  s31 : W32
  c29 : W32
  c31 : W32
deriving DecidableEq

/-- All accumulators start at zero. -/
def Sums.zero : Sums := ⟨0#32, 0#32, 0#32, 0#32, 0#32⟩

/-- The combination of two partial results: `reduction(+:k)`, `reduction(^:...)`,
`writers.c:182`, `readers.c:274`. -/
def Sums.add (a b : Sums) : Sums :=
  ⟨a.k + b.k, a.s29 ^^^ b.s29, a.s31 ^^^ b.s31, a.c29 ^^^ b.c29, a.c31 ^^^ b.c31⟩

/-- An `omp parallel for` with reductions: `sched` gives the sites each thread runs, in order;
each thread starts from zero and the partial results are combined in the order of the list. -/
def reduceSums (f : ℕ → Sums) (sched : List (List ℕ)) : Sums :=
  (sched.map fun s => s.foldl (fun a i => a.add (f i)) Sums.zero).foldl Sums.add Sums.zero

/-! ### Writer -/

/-- One link in `grab_sitedata`, `writers.c:120-137`. -/
def grab_link (A : Arith P) (LV : ℕ) (type : Store) (link : Arr (P.W × P.W)) : List P.W :=
  match type with
  | .small => A.shorten link
  | _ => (List.range (LV / 2)).flatMap fun j => [(link j).1, (link j).2]

/-- `grab_sitedata`, `writers.c:110-140`: the reals of a site in the order `chunk[ val++ ]`.
`OUTPUT_SMALL` with four colours or more exits the program and is not modelled. -/
def grab_sitedata (A : Arith P) (ND LV : ℕ) (type : Store) (site : ℕ → Arr (P.W × P.W)) :
    List P.W :=
  (List.range ND).flatMap fun mu => grab_link A LV type (site mu)

/-- `swap_for_output`, `writers.c:143-165`, on one word: `outBig` is `OUT_BIG`. -/
def swap_for_output (outBig big : Bool) (w : P.W) : P.W :=
  if outBig then (if !big then P.swap w else w) else (if big then P.swap w else w)

/-- The word loop of `compute_checksum`, `writers.c:200-212`: local sum, two local rotated sums,
two running ranks. -/
def w_loop (X : W32 → W32) (s : W32 × W32 × W32 × ℕ × ℕ) (w : P.W) : W32 × W32 × W32 × ℕ × ℕ :=
  let work := P.res w
  (s.1 + work, s.2.1 ^^^ rot X work s.2.2.2.1, s.2.2.1 ^^^ rot X work s.2.2.2.2,
    if s.2.2.2.1 < 28 then s.2.2.2.1 + 1 else 0, if s.2.2.2.2 < 30 then s.2.2.2.2 + 1 else 0)

/-- One site of `compute_checksum`, `writers.c:183-231`. `none` if the CRC reads outside the
site data. -/
def w_site (A : Arith P) (X : W32 → W32) (outBig big : Bool) (ND LV : ℕ) (type : Store)
    (lat : Lat P) (i : ℕ) : Option Sums :=
  let site := grab_sitedata A ND LV type (lat i)
  let tmp := i * ND * LV
  let loc := site.foldl (w_loop X) (0#32, 0#32, 0#32, tmp % 29, tmp % 31)
  let raw := (site.map (swap_for_output outBig big)).flatMap (mem P big)
  (crc32 0#32 (some raw) (ND * LV * P.size)).map fun work =>
    ⟨loc.1, loc.2.1, loc.2.2.1, rot X work (i % 29), rot X work (i % 31)⟩

/-- `compute_checksum`, `writers.c:168-237`, over a schedule of the sites. -/
def compute_checksum (A : Arith P) (X : W32 → W32) (outBig big : Bool) (ND LV : ℕ) (type : Store)
    (lat : Lat P) (sched : List (List ℕ)) : Option Sums :=
  if ∀ i ∈ sched.flatten, (w_site A X outBig big ND LV type lat i).isSome then
    some (reduceSums (fun i => (w_site A X outBig big ND LV type lat i).getD Sums.zero) sched)
  else none

/-- A `malloc`ed array of words; an entry not yet assigned is `none`. -/
structure Buf (W : Type) where
  size : ℕ
  get : ℕ → Option W

/-- `malloc`. -/
def Buf.malloc (W : Type) (n : ℕ) : Buf W := ⟨n, fun _ => none⟩

/-- Assignment to an entry; `none` outside the array. -/
def Buf.set {W : Type} (b : Buf W) (i : ℕ) (w : W) : Option (Buf W) :=
  if i < b.size then some ⟨b.size, Function.update b.get i (some w)⟩ else none

/-- The assignments `uout[ val + j ] = site[ j ]` of `copy_data`, `writers.c:270-277`. `cast` is
the conversion `(double)` (the identity) or, in an `OUT_SINGLE` build, `(float)`. -/
def put {W : Type} (cast : W → W) : Buf W → ℕ → List W → Option (Buf W)
  | b, _, [] => some b
  | b, val, w :: ws => (b.set val (cast w)).bind fun b' => put cast b' (val + 1) ws

/-- `copy_data`, `writers.c:251-280`, over the sites of `order` (any order of `START .. END-1`
for the parallel loop). -/
def copy_data (A : Arith P) (cast : P.W → P.W) (ND LV : ℕ) (type : Store) (lat : Lat P) :
    List ℕ → Buf P.W → Option (Buf P.W)
  | [], b => some b
  | i :: is, b =>
    (put cast b (LV * (i * ND)) (grab_sitedata A ND LV type (lat i))).bind
      (copy_data A cast ND LV type lat is)

/-- `byteswap_and_write`, `writers.c:240-248`: the bytes appended to the file. `none` if a word
outside the array or never assigned is read. -/
def byteswap_and_write (outBig big : Bool) (uout : Buf P.W) (SIZE : ℕ) : Option (List Byte) :=
  if ∀ n < SIZE, n < uout.size ∧ (uout.get n).isSome then
    some ((List.range SIZE).flatMap fun n =>
      match uout.get n with
      | some w => mem P big (swap_for_output outBig big w)
      | none => [])
  else none

/-- `write_binary_data`, `writers.c:283-301`; `V` is `LVOLUME`, `order` the order in which the
sites are copied. -/
def write_binary_data (A : Arith P) (cast : P.W → P.W) (outBig big : Bool) (ND LV V : ℕ)
    (type : Store) (lat : Lat P) (order : List ℕ) : Option (List Byte) :=
  (copy_data A cast ND LV type lat order (Buf.malloc P.W (ND * LV * V))).bind fun uout =>
    byteswap_and_write outBig big uout (ND * LV * V)

/-- The time-slice loop of `write_binary_data_cheap`, `writers.c:314-322`: the buffer is reused.
`order t` is the order in which the sites `LCU*t .. LCU*(t+1)-1` are copied. -/
def cheap_slices (A : Arith P) (cast : P.W → P.W) (outBig big : Bool) (ND LV LCU : ℕ)
    (type : Store) (lat : Lat P) (order : ℕ → List ℕ) : ℕ → Option (Buf P.W × List Byte)
  | 0 => some (Buf.malloc P.W (LCU * LV * ND), [])
  | t + 1 =>
    (cheap_slices A cast outBig big ND LV LCU type lat order t).bind fun s =>
      (copy_data A cast ND LV type lat (order t) s.1).bind fun uout =>
        (byteswap_and_write outBig big uout (LCU * LV * ND)).map fun bytes =>
          (uout, s.2 ++ bytes)

/-- `write_binary_data_cheap`, `writers.c:304-326`; `T` is `Latt.dims[ND-1]`. -/
def write_binary_data_cheap (A : Arith P) (cast : P.W → P.W) (outBig big : Bool)
    (ND LV LCU T : ℕ) (type : Store) (lat : Lat P) (order : ℕ → List ℕ) : Option (List Byte) :=
  (cheap_slices A cast outBig big ND LV LCU type lat order T).map (·.2)

/-! ### Reader -/

/-- `fread` of `n` words, `readers.c:187-193,229-235`: `none` (a failed read) if the file is too
short; afterwards word `t` of the array, `none` outside it. -/
def fread (P : Word) (big : Bool) (n : ℕ) (file : List Byte) : Option (ℕ → Option P.W) :=
  if n * P.size ≤ file.length then
    some fun t => if t < n then some (ofMem P big ((file.drop (t * P.size)).take P.size)) else none
  else none

/-- The SciDAC checksum of one site, `readers.c:199-206,241-248`: CRC of the bytes of the site as
they were read. -/
def r_crc (X : W32 → W32) (P : Word) (ND LV : ℕ) (file : List Byte) (i : ℕ) : Option Sums :=
  (crc32 0#32 (some (file.drop (P.size * (i * ND * LV)))) (P.size * ND * LV)).map fun work =>
    ⟨0#32, 0#32, 0#32, rot X work (i % 29), rot X work (i % 31)⟩

/-- The word loop of `lattice_reader_suNC`, `readers.c:290-318`. -/
def r_loop (X : W32 → W32) (s : W32 × W32 × W32 × ℕ × ℕ) (w : P.W) : W32 × W32 × W32 × ℕ × ℕ :=
  let res := P.res w
  (s.1 + res, s.2.1 ^^^ rot X res s.2.2.2.1, s.2.2.1 ^^^ rot X res s.2.2.2.2,
    if s.2.2.2.1 < 28 then s.2.2.2.1 + 1 else 0, if s.2.2.2.2 < 30 then s.2.2.2.2 + 1 else 0)

/-- The words of a link, `utemp`, `readers.c:290-304`: `t` runs on from `ND*LOOP_VAR*i`.
`none` outside the array. -/
def r_utemp (p : ℕ → Option P.W) (LV base mu : ℕ) : Option (List P.W) :=
  (List.range LV).mapM fun j => p (base + mu * LV + j)

/-- A real array seen as complex numbers. -/
def pairs {W : Type} : List W → List (W × W)
  | a :: b :: r => (a, b) :: pairs r
  | _ => []

/-- `memcpy( O , uout , n * sizeof( GLU_complex ) )`; `none` if `uout` is too short. -/
def memcpy {W : Type} (O : Arr (W × W)) (uout : List W) (n : ℕ) : Option (Arr (W × W)) :=
  if 2 * n ≤ uout.length then
    some fun j => if j < n then ((pairs uout)[j]?).getD (O j) else O j
  else none

/-- `rebuild_lat`, `readers.c:137-160`. -/
def rebuild_lat (A : Arith P) (NC : ℕ) (type : Store) (link : Arr (P.W × P.W))
    (utemp : List P.W) : Option (Arr (P.W × P.W)) :=
  match type with
  | .small => some (A.exhume utemp)
  | .gauge =>
    (memcpy link utemp (NC * NC - NC)).map fun O j =>
      if NC * NC - NC ≤ j ∧ j < NC * NC then A.lastRow O j else O j
  | .ncxnc => memcpy link utemp (NC * NC)

/-- One site of `lattice_reader_suNC`, `readers.c:275-329`: its contribution to the NERSC and
MILC sums and its new links. -/
def r_site (A : Arith P) (X : W32 → W32) (p : ℕ → Option P.W) (NC ND LV : ℕ) (type : Store)
    (site : ℕ → Arr (P.W × P.W)) (i : ℕ) : Option (Sums × (ℕ → Arr (P.W × P.W))) :=
  let t := ND * LV * i
  ((List.range ND).mapM (r_utemp p LV t)).bind fun us =>
    let loc := us.flatten.foldl (r_loop X) (0#32, 0#32, 0#32, t % 29, t % 31)
    ((List.range ND).mapM fun mu => rebuild_lat A NC type (site mu) ((us[mu]?).getD [])).map
      fun links => (⟨loc.1, loc.2.1, loc.2.2.1, 0#32, 0#32⟩,
        fun mu => (links[mu]?).getD (site mu))

/-- `lattice_reader_suNC`, `readers.c:163-347`: the links and the five sums, `none` when the read
fails (`GLU_FAILURE`). `endian` is `HEAD_DATA.endianess` (`true` for big), `sched1` and `sched2`
the schedules of the two parallel loops. `file` starts at the binary data. The BQCD checksum,
computed sequentially on the same bytes, is C36. Each site only writes its own links, so the
links are given per site. -/
def lattice_reader (A : Arith P) (X : W32 → W32) (endian big : Bool) (NC ND V : ℕ) (type : Store)
    (file : List Byte) (lat : Lat P) (sched1 sched2 : List (List ℕ)) : Option (Lat P × Sums) :=
  let LV := LOOP_VAR NC type
  (fread P big (ND * LV * V) file).bind fun p0 =>
    let p := fun t => (p0 t).map fun w => if endian != big then P.swap w else w
    if (∀ i ∈ sched1.flatten, (r_crc X P ND LV file i).isSome) ∧
       (∀ i ∈ sched2.flatten, (r_site A X p NC ND LV type (lat i) i).isSome) then
      let crc := reduceSums (fun i => (r_crc X P ND LV file i).getD Sums.zero) sched1
      let sums := reduceSums
        (fun i => ((r_site A X p NC ND LV type (lat i) i).map (·.1)).getD Sums.zero) sched2
      some (fun i => if i ∈ sched2.flatten then
          ((r_site A X p NC ND LV type (lat i) i).map (·.2)).getD (lat i) else lat i,
        ⟨sums.k, sums.s29, sums.s31, crc.c29, crc.c31⟩)
    else none

end GLU.IO
