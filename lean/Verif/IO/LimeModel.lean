import Verif.IO.MilcHdrModel

/-!
# LIME records of SciDAC and ILDG files: model

`src/IO/Scidac.c`. The file is a list of bytes. `big` is `WORDS_BIGENDIAN`. What the reader does
with the text of a record (the XML parser, the two BQCD records) is a parameter `handle`, which
sees the type field and the text; it is modelled in `XmlModel.lean`.
-/

namespace GLU.IO

/-- The bytes of a C string literal. -/
def ascii (s : Str) : List Byte := s.map fun c => BitVec.ofNat 8 c.toNat

/-- `lime_padding`, `Scidac.c:51-52`. -/
def lime_padding (nbytes : ℕ) : ℕ := if nbytes % 8 ≠ 0 then 8 - nbytes % 8 else 0

/-- The bytes of a 16-bit integer in memory. -/
def memShort (big : Bool) (w : BitVec 16) : List Byte :=
  let l : List Byte := [w.extractLsb' 0 8, w.extractLsb' 8 8]
  if big then l.reverse else l

/-- The magic number, `Scidac.c:82,163`. -/
def limeMagic : W32 := 1164413355#32

/-- The first 16 bytes of a record header, `Scidac.c:161-175`: magic number, version, message
flags, length. -/
def lime_prefix (big : Bool) (record_length : ℕ) : List Byte :=
  memInt big (if !big then SwapByteOrder_32 limeMagic else limeMagic) ++
  memShort big (if !big then SwapByteOrder_16 1#16 else 1#16) ++
  [0x80#8, 0x00#8] ++
  memDbl big (if !big then SwapByteOrder_64 (BitVec.ofNat 64 record_length)
    else BitVec.ofNat 64 record_length)

/-- `write_SCIDAC_binary`, `Scidac.c:151-192`: the bytes appended to the file. `record` and
`banf` are C strings without their terminators. A type longer than the 128 bytes after position
16 of the header is written outside it (`178-180`). -/
def write_SCIDAC_binary (big : Bool) (record : List Byte) (record_length : ℕ)
    (banf : List Byte) : Out (List Byte) :=
  if 128 < banf.length then .ub else
  .ok (lime_prefix big record_length ++ (banf ++ List.replicate (128 - banf.length) 0#8) ++
    record ++ List.replicate (lime_padding record_length) 0#8)

/-- `strcmp( typebuf , lit ) == 0` for a literal shorter than the type field. -/
def typeIs (field lit : List Byte) : Bool := field.take (lit.length + 1) == lit ++ [0#8]

/-- The type of the record holding the links in a SciDAC file. -/
def scidacBinary : List Byte := ascii (chars "scidac-binary-data")

/-- The type of the record holding the links in an ILDG file. -/
def ildgBinary : List Byte := ascii (chars "ildg-binary-data")

/-- Result of one call of `parse_SCIDAC_hdr`: `last` is `GLU_EOF`. -/
structure Parsed (σ : Type) where
  last : Bool
  state : σ
  file : List Byte
deriving DecidableEq

/-- `parse_SCIDAC_hdr`, `Scidac.c:67-148`. `alloc` says whether `malloc` of a given size succeeds
(its result is not checked, line 107); the size is computed modulo `2^64`. `handle` is the
treatment of the record's text (`116-134`), which may fail or be undefined. -/
def parse_SCIDAC_hdr {σ : Type} (alloc : ℕ → Bool) (handle : σ → List Byte → List Byte → Out σ)
    (big : Bool) (s : σ) (file : List Byte) : Out (Parsed σ) :=
  if file.length < 144 then .ok ⟨true, s, []⟩ else
  let header := file.take 144
  let file := file.drop 144
  let magic := ofMemInt big (header.take 4)
  let magic := if !big then SwapByteOrder_32 magic else magic
  if magic ≠ limeMagic then .fail else
  let len := ofMemDbl big ((header.drop 8).take 8)
  let len := if !big then SwapByteOrder_64 len else len
  let n := len.toNat
  let field := header.drop 16
  if typeIs field scidacBinary || typeIs field ildgBinary then .ok ⟨true, s, file⟩ else
  if !alloc ((n + 1) % 2 ^ 64) then .ub else
  if (n + 1) % 2 ^ 64 < min n file.length then .ub else
  if file.length < n then .fail else
  (handle s field (file.take n)).bind fun s =>
  let file := file.drop n
  if file.length < lime_padding n then .fail else
  .ok ⟨false, s, file.drop (lime_padding n)⟩

/-- The loop of `get_header_data_SCIDAC`, `Scidac.c:201-210`, with `fuel` records left of the 12
allowed. -/
def header_loop {σ : Type} (alloc : ℕ → Bool) (handle : σ → List Byte → List Byte → Out σ)
    (big : Bool) : ℕ → σ → List Byte → Out (σ × List Byte)
  | 0, s, file => .ok (s, file)
  | fuel + 1, s, file =>
    (parse_SCIDAC_hdr alloc handle big s file).bind fun p =>
    if p.last then .ok (p.state, p.file) else header_loop alloc handle big fuel p.state p.file

/-- `get_header_data_SCIDAC`, `Scidac.c:196-211`. -/
def get_header_data_SCIDAC {σ : Type} (alloc : ℕ → Bool)
    (handle : σ → List Byte → List Byte → Out σ) (big : Bool) (s : σ) (file : List Byte) :
    Out (σ × List Byte) :=
  header_loop alloc handle big 12 s file

/-- Several records written one after the other, each with its own length, as in
`write_header_SCIDAC` (`Scidac.c:238-271`). -/
def write_records (big : Bool) : List (List Byte × List Byte) → Out (List Byte)
  | [] => .ok []
  | (banf, record) :: l =>
    (write_SCIDAC_binary big record record.length banf).bind fun a =>
    (write_records big l).bind fun b => .ok (a ++ b)

end GLU.IO
