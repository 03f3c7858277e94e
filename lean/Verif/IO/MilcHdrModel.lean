import Verif.IO.HdrModel

/-!
# The MILC header: model

`write_header_MILC` and `get_header_data_MILC`. The file is a list of bytes. `big` is
`WORDS_BIGENDIAN`, `outBig` the build option `OUT_BIG`.
-/

namespace GLU.IO

/-- The bytes of a 32-bit integer in memory. -/
def memInt (big : Bool) (w : W32) : List Byte := mem flt big w

/-- The 32-bit integer held by four bytes of memory. -/
def ofMemInt (big : Bool) (l : List Byte) : W32 := ofMem flt big l

/-- `swap_and_write_int`, `write_headers.c:30-41`. -/
def swap_and_write_int (outBig big : Bool) (arr : List W32) : List Byte :=
  arr.flatMap fun w => memInt big (if outBig != big then SwapByteOrder_32 w else w)

/-- `write_header_MILC`, `write_headers.c:44-73`. `single` is the build option `SINGLE_PREC`;
`str` the 64 bytes of the date buffer (the bytes after the date are uninitialised in the code, so
they are arbitrary here). -/
def write_header_MILC (single outBig big : Bool) (ND : ℕ) (dims : ℕ → ℕ) (str : List Byte)
    (sum29 sum31 : W32) : List Byte :=
  swap_and_write_int outBig big [if single then 20103#32 else 20104#32] ++
  swap_and_write_int outBig big ((List.range ND).map fun i => BitVec.ofNat 32 (dims i)) ++
  str ++
  swap_and_write_int outBig big [0#32] ++
  swap_and_write_int outBig big [sum29, sum31]

/-- `fread( arr , sizeof(int) , n , in ) != n`: words in the machine's order, and what follows. -/
def fread_ints (big : Bool) : ℕ → List Byte → Out (List W32 × List Byte)
  | 0, file => .ok ([], file)
  | n + 1, file =>
    if 4 ≤ file.length then
      (fread_ints big n (file.drop 4)).bind fun (l, rest) => .ok (ofMemInt big (file.take 4) :: l, rest)
    else .fail

/-- What the MILC header tells the program. -/
structure Milc where
  big : Bool
  dims : List ℕ
  double : Bool
  sum29 : W32
  sum31 : W32
deriving DecidableEq

/-- `get_header_data_MILC`, `read_headers.c:142-225`. An `int` converted to `size_t` is
sign-extended. -/
def get_header_data_MILC (big : Bool) (ND : ℕ) (file : List Byte) : Out (Milc × List Byte) :=
  (fread_ints big 1 file).bind fun (magic, file) =>
  let m := magic.headD 0#32
  let understood (w : W32) : Bool := w == 20103#32 || w == 20104#32
  let need_swap := !understood m
  let m := if need_swap then SwapByteOrder_32 m else m
  if !understood m then .fail else
  let endian := if need_swap then !big else big
  let fix (w : W32) : W32 := if need_swap then SwapByteOrder_32 w else w
  (fread_ints big ND file).bind fun (dimensions, file) =>
  if file.length < 64 then .fail else
  let file := file.drop 64
  (fread_ints big 1 file).bind fun (type, file) =>
  if fix (type.headD 0#32) ≠ 0#32 then .fail else
  (fread_ints big 1 file).bind fun (s29, file) =>
  (fread_ints big 1 file).bind fun (s31, file) =>
  .ok (⟨endian, dimensions.map fun w => ((fix w).signExtend 64).toNat, m == 20104#32,
    fix (s29.headD 0#32), fix (s31.headD 0#32)⟩, file)

/-! ### HiRep and CERN headers -/

/-- The bytes of a `double` in memory. -/
def memDbl (big : Bool) (w : W64) : List Byte := mem dbl big w

/-- The `double` held by eight bytes of memory. -/
def ofMemDbl (big : Bool) (l : List Byte) : W64 := ofMem dbl big l

/-- The header part of `write_gauge_field`, `HIREP.c:126-156`; `plaq` is the bit pattern of the
plaquette. -/
def write_header_HIREP (outBig big : Bool) (ND NC : ℕ) (dims : ℕ → ℕ) (plaq : W64) : List Byte :=
  swap_and_write_int outBig big (BitVec.ofNat 32 NC :: BitVec.ofNat 32 (dims (ND - 1)) ::
    (List.range (ND - 1)).map fun mu => BitVec.ofNat 32 (dims mu)) ++
  memDbl big (if outBig != big then SwapByteOrder_64 plaq else plaq)

/-- `fread` of one `double`. -/
def fread_double (big : Bool) (file : List Byte) : Out (W64 × List Byte) :=
  if 8 ≤ file.length then .ok (ofMemDbl big (file.take 8), file.drop 8) else .fail

/-- `get_header_data_HIREP`, `read_headers.c:80-136`: dimensions, plaquette and the rest of the
file. -/
def get_header_data_HIREP (big : Bool) (ND NC : ℕ) (file : List Byte) :
    Out ((List ℕ × W64) × List Byte) :=
  (fread_ints big (ND + 1) file).bind fun (nav, file) =>
  let NAV := nav.map fun w => if !big then SwapByteOrder_32 w else w
  if (NAV.headD 0#32).toInt ≠ NC then .fail else
  let dims := (NAV.drop 2 ++ (NAV.drop 1).take 1).map fun w => (w.signExtend 64).toNat
  (fread_double big file).bind fun (plaq, file) =>
  .ok ((dims, if !big then SwapByteOrder_64 plaq else plaq), file)

/-- The header part of `write_CLS_field`, `CERN.c:141-156` (four dimensions); `plaq` is the bit
pattern of `NC` times the plaquette. -/
def write_header_CERN (big : Bool) (dims : ℕ → ℕ) (plaq : W64) : List Byte :=
  ([dims 3, dims 0, dims 1, dims 2].flatMap fun d =>
    memInt big (if big then SwapByteOrder_32 (BitVec.ofNat 32 d) else BitVec.ofNat 32 d)) ++
  memDbl big (if big then SwapByteOrder_64 plaq else plaq)

/-- `get_header_data_CERN`, `read_headers.c:31-77`, for `NC = 3`, `ND = 4`. The division of the
plaquette by `NC` is left to the caller. -/
def get_header_data_CERN (big : Bool) (file : List Byte) : Out ((List ℕ × W64) × List Byte) :=
  (fread_ints big 4 file).bind fun (nav, file) =>
  let NAV := nav.map fun w => if big then SwapByteOrder_32 w else w
  let dims := (NAV.drop 1 ++ NAV.take 1).map fun w => (w.signExtend 64).toNat
  (fread_double big file).bind fun (plaq, file) =>
  .ok ((dims, if big then SwapByteOrder_64 plaq else plaq), file)

end GLU.IO
