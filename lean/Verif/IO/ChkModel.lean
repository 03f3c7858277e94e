import Verif.Base.Loop

/-!
# Byte swapping, CRC-32 and cksum: model

Portable branches of `src/Utils/GLU_bswap.c` and the two checksums of `src/IO/crc.c`.
Bytes are `BitVec 8`, C's `uint16_t`, `uint32_t`, `uint64_t` are `BitVec 16/32/64`, so
wrap-around and shifts are those of the hardware words.
-/

namespace GLU.IO

/-- A byte (`unsigned char`). -/
abbrev Byte := BitVec 8
/-- `uint32_t`. -/
abbrev W32 := BitVec 32
/-- `uint64_t`. -/
abbrev W64 := BitVec 64

/-- `SwapByteOrder_16`, `src/Utils/GLU_bswap.c:30-42`, portable branch (37-39): the `int`
result of `value << 8` is truncated to 16 bits by the assignment. -/
def SwapByteOrder_16 (value : BitVec 16) : BitVec 16 :=
  let Hi := value <<< 8
  let Lo := value >>> 8
  Hi ||| Lo

/-- `SwapByteOrder_32`, `src/Utils/GLU_bswap.c:46-59`, portable branch (53-57). The branch
taken by gcc calls `__builtin_bswap32` (50), which is not modelled. -/
def SwapByteOrder_32 (value : W32) : W32 :=
  let Byte0 := value &&& 0x000000FF#32
  let Byte1 := value &&& 0x0000FF00#32
  let Byte2 := value &&& 0x00FF0000#32
  let Byte3 := value &&& 0xFF000000#32
  (Byte0 <<< 24) ||| (Byte1 <<< 8) ||| (Byte2 >>> 8) ||| (Byte3 >>> 24)

/-- `SwapByteOrder_64`, `src/Utils/GLU_bswap.c:63-74`, portable branch (70-72). -/
def SwapByteOrder_64 (value : W64) : W64 :=
  let Hi : W64 := (SwapByteOrder_32 (value.setWidth 32)).setWidth 64
  let Lo : W32 := SwapByteOrder_32 ((value >>> 32).setWidth 32)
  (Hi <<< 32) ||| Lo.setWidth 64

/-- The loop of `bswap_16`, `bswap_32` and `bswap_64`, `src/Utils/GLU_bswap.c:77-112`: word
`i` of the array is replaced by its swap, for `i < n`. `none` when the array has fewer than
`n` words (access outside the array). The iterations are independent, so the `omp parallel
for` order is not modelled here. -/
def bswap {w : Type} (swap : w → w) : ℕ → List w → Option (List w)
  | 0, T => some T
  | _ + 1, [] => none
  | n + 1, t :: T => (bswap swap n T).map (swap t :: ·)

/-- `bswap_16`, `src/Utils/GLU_bswap.c:77-87`. -/
def bswap_16 (n : ℕ) (u : List (BitVec 16)) : Option (List (BitVec 16)) :=
  bswap SwapByteOrder_16 n u

/-- `bswap_32`, `src/Utils/GLU_bswap.c:90-100`. -/
def bswap_32 (n : ℕ) (u : List W32) : Option (List W32) := bswap SwapByteOrder_32 n u

/-- `bswap_64`, `src/Utils/GLU_bswap.c:103-112`. -/
def bswap_64 (n : ℕ) (u : List W64) : Option (List W64) := bswap SwapByteOrder_64 n u

set_option maxRecDepth 10000 in
/-- `crc_table`, `src/IO/crc.c:77-129`, copied. -/
def crc_table : Vector W32 256 :=
  #v[
    0x00000000#32, 0x77073096#32, 0xee0e612c#32, 0x990951ba#32, 0x076dc419#32, 0x706af48f#32, 0xe963a535#32, 0x9e6495a3#32,
    0x0edb8832#32, 0x79dcb8a4#32, 0xe0d5e91e#32, 0x97d2d988#32, 0x09b64c2b#32, 0x7eb17cbd#32, 0xe7b82d07#32, 0x90bf1d91#32,
    0x1db71064#32, 0x6ab020f2#32, 0xf3b97148#32, 0x84be41de#32, 0x1adad47d#32, 0x6ddde4eb#32, 0xf4d4b551#32, 0x83d385c7#32,
    0x136c9856#32, 0x646ba8c0#32, 0xfd62f97a#32, 0x8a65c9ec#32, 0x14015c4f#32, 0x63066cd9#32, 0xfa0f3d63#32, 0x8d080df5#32,
    0x3b6e20c8#32, 0x4c69105e#32, 0xd56041e4#32, 0xa2677172#32, 0x3c03e4d1#32, 0x4b04d447#32, 0xd20d85fd#32, 0xa50ab56b#32,
    0x35b5a8fa#32, 0x42b2986c#32, 0xdbbbc9d6#32, 0xacbcf940#32, 0x32d86ce3#32, 0x45df5c75#32, 0xdcd60dcf#32, 0xabd13d59#32,
    0x26d930ac#32, 0x51de003a#32, 0xc8d75180#32, 0xbfd06116#32, 0x21b4f4b5#32, 0x56b3c423#32, 0xcfba9599#32, 0xb8bda50f#32,
    0x2802b89e#32, 0x5f058808#32, 0xc60cd9b2#32, 0xb10be924#32, 0x2f6f7c87#32, 0x58684c11#32, 0xc1611dab#32, 0xb6662d3d#32,
    0x76dc4190#32, 0x01db7106#32, 0x98d220bc#32, 0xefd5102a#32, 0x71b18589#32, 0x06b6b51f#32, 0x9fbfe4a5#32, 0xe8b8d433#32,
    0x7807c9a2#32, 0x0f00f934#32, 0x9609a88e#32, 0xe10e9818#32, 0x7f6a0dbb#32, 0x086d3d2d#32, 0x91646c97#32, 0xe6635c01#32,
    0x6b6b51f4#32, 0x1c6c6162#32, 0x856530d8#32, 0xf262004e#32, 0x6c0695ed#32, 0x1b01a57b#32, 0x8208f4c1#32, 0xf50fc457#32,
    0x65b0d9c6#32, 0x12b7e950#32, 0x8bbeb8ea#32, 0xfcb9887c#32, 0x62dd1ddf#32, 0x15da2d49#32, 0x8cd37cf3#32, 0xfbd44c65#32,
    0x4db26158#32, 0x3ab551ce#32, 0xa3bc0074#32, 0xd4bb30e2#32, 0x4adfa541#32, 0x3dd895d7#32, 0xa4d1c46d#32, 0xd3d6f4fb#32,
    0x4369e96a#32, 0x346ed9fc#32, 0xad678846#32, 0xda60b8d0#32, 0x44042d73#32, 0x33031de5#32, 0xaa0a4c5f#32, 0xdd0d7cc9#32,
    0x5005713c#32, 0x270241aa#32, 0xbe0b1010#32, 0xc90c2086#32, 0x5768b525#32, 0x206f85b3#32, 0xb966d409#32, 0xce61e49f#32,
    0x5edef90e#32, 0x29d9c998#32, 0xb0d09822#32, 0xc7d7a8b4#32, 0x59b33d17#32, 0x2eb40d81#32, 0xb7bd5c3b#32, 0xc0ba6cad#32,
    0xedb88320#32, 0x9abfb3b6#32, 0x03b6e20c#32, 0x74b1d29a#32, 0xead54739#32, 0x9dd277af#32, 0x04db2615#32, 0x73dc1683#32,
    0xe3630b12#32, 0x94643b84#32, 0x0d6d6a3e#32, 0x7a6a5aa8#32, 0xe40ecf0b#32, 0x9309ff9d#32, 0x0a00ae27#32, 0x7d079eb1#32,
    0xf00f9344#32, 0x8708a3d2#32, 0x1e01f268#32, 0x6906c2fe#32, 0xf762575d#32, 0x806567cb#32, 0x196c3671#32, 0x6e6b06e7#32,
    0xfed41b76#32, 0x89d32be0#32, 0x10da7a5a#32, 0x67dd4acc#32, 0xf9b9df6f#32, 0x8ebeeff9#32, 0x17b7be43#32, 0x60b08ed5#32,
    0xd6d6a3e8#32, 0xa1d1937e#32, 0x38d8c2c4#32, 0x4fdff252#32, 0xd1bb67f1#32, 0xa6bc5767#32, 0x3fb506dd#32, 0x48b2364b#32,
    0xd80d2bda#32, 0xaf0a1b4c#32, 0x36034af6#32, 0x41047a60#32, 0xdf60efc3#32, 0xa867df55#32, 0x316e8eef#32, 0x4669be79#32,
    0xcb61b38c#32, 0xbc66831a#32, 0x256fd2a0#32, 0x5268e236#32, 0xcc0c7795#32, 0xbb0b4703#32, 0x220216b9#32, 0x5505262f#32,
    0xc5ba3bbe#32, 0xb2bd0b28#32, 0x2bb45a92#32, 0x5cb36a04#32, 0xc2d7ffa7#32, 0xb5d0cf31#32, 0x2cd99e8b#32, 0x5bdeae1d#32,
    0x9b64c2b0#32, 0xec63f226#32, 0x756aa39c#32, 0x026d930a#32, 0x9c0906a9#32, 0xeb0e363f#32, 0x72076785#32, 0x05005713#32,
    0x95bf4a82#32, 0xe2b87a14#32, 0x7bb12bae#32, 0x0cb61b38#32, 0x92d28e9b#32, 0xe5d5be0d#32, 0x7cdcefb7#32, 0x0bdbdf21#32,
    0x86d3d2d4#32, 0xf1d4e242#32, 0x68ddb3f8#32, 0x1fda836e#32, 0x81be16cd#32, 0xf6b9265b#32, 0x6fb077e1#32, 0x18b74777#32,
    0x88085ae6#32, 0xff0f6a70#32, 0x66063bca#32, 0x11010b5c#32, 0x8f659eff#32, 0xf862ae69#32, 0x616bffd3#32, 0x166ccf45#32,
    0xa00ae278#32, 0xd70dd2ee#32, 0x4e048354#32, 0x3903b3c2#32, 0xa7672661#32, 0xd06016f7#32, 0x4969474d#32, 0x3e6e77db#32,
    0xaed16a4a#32, 0xd9d65adc#32, 0x40df0b66#32, 0x37d83bf0#32, 0xa9bcae53#32, 0xdebb9ec5#32, 0x47b2cf7f#32, 0x30b5ffe9#32,
    0xbdbdf21c#32, 0xcabac28a#32, 0x53b39330#32, 0x24b4a3a6#32, 0xbad03605#32, 0xcdd70693#32, 0x54de5729#32, 0x23d967bf#32,
    0xb3667a2e#32, 0xc4614ab8#32, 0x5d681b02#32, 0x2a6f2b94#32, 0xb40bbe37#32, 0xc30c8ea1#32, 0x5a05df1b#32, 0x2d02ef8d#32]

/-- Table access `tab[x & 0xff]` of `src/IO/crc.c:132,232,248`: the mask keeps the index
inside the 256 entries. -/
def at_table (tab : Vector W32 256) (x : W32) : W32 :=
  tab[(x &&& 0xff#32).toNat]'(by
    have : x.toNat &&& 255 ≤ 255 := Nat.and_le_right
    simpa [BitVec.toNat_and] using Nat.lt_succ_of_le this)

/-- `DO1`, `src/IO/crc.c:132`: `crc = crc_table[((int)crc ^ (*buf++)) & 0xff] ^ (crc >> 8)`.
The buffer pointer is the list of bytes not yet read; reading past its end is `none`. The
conversion to `int` does not change the low byte. -/
def DO1 : W32 × List Byte → Option (W32 × List Byte)
  | (_, []) => none
  | (crc, b :: buf) =>
    some (at_table crc_table (crc ^^^ b.setWidth 32) ^^^ (crc >>> 8), buf)

/-- `DO2`, `src/IO/crc.c:133`. -/
def DO2 (s : W32 × List Byte) : Option (W32 × List Byte) := (DO1 s).bind DO1
/-- `DO4`, `src/IO/crc.c:134`. -/
def DO4 (s : W32 × List Byte) : Option (W32 × List Byte) := (DO2 s).bind DO2
/-- `DO8`, `src/IO/crc.c:135`. -/
def DO8 (s : W32 × List Byte) : Option (W32 × List Byte) := (DO4 s).bind DO4

/-- The `while (len >= 8)` loop of `crc32`, `src/IO/crc.c:145-148`; returns the remaining
length as well. -/
def crc_while (len : ℕ) (s : W32 × List Byte) : Option (ℕ × (W32 × List Byte)) :=
  if 8 ≤ len then (DO8 s).bind fun s' => crc_while (len - 8) s' else some (len, s)
termination_by len

/-- The `do .. while (--len)` loop of `crc32`, `src/IO/crc.c:149-151`, guarded by
`if (len)`. -/
def crc_tail : ℕ → W32 × List Byte → Option (W32 × List Byte)
  | 0, s => some s
  | n + 1, s => (DO1 s).bind (crc_tail n)

/-- `crc32`, `src/IO/crc.c:138-153`. The buffer is `none` for a null pointer, otherwise the
bytes that may be read from it. -/
def crc32 (crc : W32) (buf : Option (List Byte)) (len : ℕ) : Option W32 :=
  match buf with
  | none => some 0#32
  | some buf =>
    (crc_while len (crc ^^^ 0xffffffff#32, buf)).bind fun r =>
      (crc_tail r.1 r.2).map fun s => s.1 ^^^ 0xffffffff#32

set_option maxRecDepth 10000 in
/-- `crctab`, `src/IO/crc.c:166-220`, copied. -/
def crctab : Vector W32 256 :=
  #v[
    0x00000000#32, 0x04c11db7#32, 0x09823b6e#32, 0x0d4326d9#32, 0x130476dc#32, 0x17c56b6b#32, 0x1a864db2#32, 0x1e475005#32,
    0x2608edb8#32, 0x22c9f00f#32, 0x2f8ad6d6#32, 0x2b4bcb61#32, 0x350c9b64#32, 0x31cd86d3#32, 0x3c8ea00a#32, 0x384fbdbd#32,
    0x4c11db70#32, 0x48d0c6c7#32, 0x4593e01e#32, 0x4152fda9#32, 0x5f15adac#32, 0x5bd4b01b#32, 0x569796c2#32, 0x52568b75#32,
    0x6a1936c8#32, 0x6ed82b7f#32, 0x639b0da6#32, 0x675a1011#32, 0x791d4014#32, 0x7ddc5da3#32, 0x709f7b7a#32, 0x745e66cd#32,
    0x9823b6e0#32, 0x9ce2ab57#32, 0x91a18d8e#32, 0x95609039#32, 0x8b27c03c#32, 0x8fe6dd8b#32, 0x82a5fb52#32, 0x8664e6e5#32,
    0xbe2b5b58#32, 0xbaea46ef#32, 0xb7a96036#32, 0xb3687d81#32, 0xad2f2d84#32, 0xa9ee3033#32, 0xa4ad16ea#32, 0xa06c0b5d#32,
    0xd4326d90#32, 0xd0f37027#32, 0xddb056fe#32, 0xd9714b49#32, 0xc7361b4c#32, 0xc3f706fb#32, 0xceb42022#32, 0xca753d95#32,
    0xf23a8028#32, 0xf6fb9d9f#32, 0xfbb8bb46#32, 0xff79a6f1#32, 0xe13ef6f4#32, 0xe5ffeb43#32, 0xe8bccd9a#32, 0xec7dd02d#32,
    0x34867077#32, 0x30476dc0#32, 0x3d044b19#32, 0x39c556ae#32, 0x278206ab#32, 0x23431b1c#32, 0x2e003dc5#32, 0x2ac12072#32,
    0x128e9dcf#32, 0x164f8078#32, 0x1b0ca6a1#32, 0x1fcdbb16#32, 0x018aeb13#32, 0x054bf6a4#32, 0x0808d07d#32, 0x0cc9cdca#32,
    0x7897ab07#32, 0x7c56b6b0#32, 0x71159069#32, 0x75d48dde#32, 0x6b93dddb#32, 0x6f52c06c#32, 0x6211e6b5#32, 0x66d0fb02#32,
    0x5e9f46bf#32, 0x5a5e5b08#32, 0x571d7dd1#32, 0x53dc6066#32, 0x4d9b3063#32, 0x495a2dd4#32, 0x44190b0d#32, 0x40d816ba#32,
    0xaca5c697#32, 0xa864db20#32, 0xa527fdf9#32, 0xa1e6e04e#32, 0xbfa1b04b#32, 0xbb60adfc#32, 0xb6238b25#32, 0xb2e29692#32,
    0x8aad2b2f#32, 0x8e6c3698#32, 0x832f1041#32, 0x87ee0df6#32, 0x99a95df3#32, 0x9d684044#32, 0x902b669d#32, 0x94ea7b2a#32,
    0xe0b41de7#32, 0xe4750050#32, 0xe9362689#32, 0xedf73b3e#32, 0xf3b06b3b#32, 0xf771768c#32, 0xfa325055#32, 0xfef34de2#32,
    0xc6bcf05f#32, 0xc27dede8#32, 0xcf3ecb31#32, 0xcbffd686#32, 0xd5b88683#32, 0xd1799b34#32, 0xdc3abded#32, 0xd8fba05a#32,
    0x690ce0ee#32, 0x6dcdfd59#32, 0x608edb80#32, 0x644fc637#32, 0x7a089632#32, 0x7ec98b85#32, 0x738aad5c#32, 0x774bb0eb#32,
    0x4f040d56#32, 0x4bc510e1#32, 0x46863638#32, 0x42472b8f#32, 0x5c007b8a#32, 0x58c1663d#32, 0x558240e4#32, 0x51435d53#32,
    0x251d3b9e#32, 0x21dc2629#32, 0x2c9f00f0#32, 0x285e1d47#32, 0x36194d42#32, 0x32d850f5#32, 0x3f9b762c#32, 0x3b5a6b9b#32,
    0x0315d626#32, 0x07d4cb91#32, 0x0a97ed48#32, 0x0e56f0ff#32, 0x1011a0fa#32, 0x14d0bd4d#32, 0x19939b94#32, 0x1d528623#32,
    0xf12f560e#32, 0xf5ee4bb9#32, 0xf8ad6d60#32, 0xfc6c70d7#32, 0xe22b20d2#32, 0xe6ea3d65#32, 0xeba91bbc#32, 0xef68060b#32,
    0xd727bbb6#32, 0xd3e6a601#32, 0xdea580d8#32, 0xda649d6f#32, 0xc423cd6a#32, 0xc0e2d0dd#32, 0xcda1f604#32, 0xc960ebb3#32,
    0xbd3e8d7e#32, 0xb9ff90c9#32, 0xb4bcb610#32, 0xb07daba7#32, 0xae3afba2#32, 0xaafbe615#32, 0xa7b8c0cc#32, 0xa379dd7b#32,
    0x9b3660c6#32, 0x9ff77d71#32, 0x92b45ba8#32, 0x9675461f#32, 0x8832161a#32, 0x8cf30bad#32, 0x81b02d74#32, 0x857130c3#32,
    0x5d8a9099#32, 0x594b8d2e#32, 0x5408abf7#32, 0x50c9b640#32, 0x4e8ee645#32, 0x4a4ffbf2#32, 0x470cdd2b#32, 0x43cdc09c#32,
    0x7b827d21#32, 0x7f436096#32, 0x7200464f#32, 0x76c15bf8#32, 0x68860bfd#32, 0x6c47164a#32, 0x61043093#32, 0x65c52d24#32,
    0x119b4be9#32, 0x155a565e#32, 0x18197087#32, 0x1cd86d30#32, 0x029f3d35#32, 0x065e2082#32, 0x0b1d065b#32, 0x0fdc1bec#32,
    0x3793a651#32, 0x3352bbe6#32, 0x3e119d3f#32, 0x3ad08088#32, 0x2497d08d#32, 0x2056cd3a#32, 0x2d15ebe3#32, 0x29d4f654#32,
    0xc5a92679#32, 0xc1683bce#32, 0xcc2b1d17#32, 0xc8ea00a0#32, 0xd6ad50a5#32, 0xd26c4d12#32, 0xdf2f6bcb#32, 0xdbee767c#32,
    0xe3a1cbc1#32, 0xe760d676#32, 0xea23f0af#32, 0xeee2ed18#32, 0xf0a5bd1d#32, 0xf464a0aa#32, 0xf9278673#32, 0xfde69bc4#32,
    0x89b8fd09#32, 0x8d79e0be#32, 0x803ac667#32, 0x84fbdbd0#32, 0x9abc8bd5#32, 0x9e7d9662#32, 0x933eb0bb#32, 0x97ffad0c#32,
    0xafb010b1#32, 0xab710d06#32, 0xa6322bdf#32, 0xa2f33668#32, 0xbcb4666d#32, 0xb8757bda#32, 0xb5365d03#32, 0xb1f740b4#32]

/-- The static variables `the_crc` and `the_bytes`, `src/IO/crc.c:162-164`. -/
structure CkState where
  the_crc : W32
  the_bytes : W32

/-- Their initial values when the process starts, `src/IO/crc.c:162-164`. -/
def CkState.init : CkState := ⟨0#32, 0#32⟩

/-- One turn of the loop of `CKSUM_ADD`, `src/IO/crc.c:232`. -/
def ck_byte (crc : W32) (b : Byte) : W32 :=
  (crc <<< 8) ^^^ at_table crctab ((crc >>> 24) ^^^ b.setWidth 32)

/-- `CKSUM_ADD`, `src/IO/crc.c:222-237`, on a block of bytes of exactly the stated length.
Blocks of 2^32 bytes and more (where `nbytes` would be truncated by the call) are outside
the model. -/
def CKSUM_ADD (s : CkState) (block : List Byte) : CkState :=
  ⟨block.foldl ck_byte s.the_crc, s.the_bytes + BitVec.ofNat 32 block.length⟩

/-- The loop of `CKSUM_GET`, `src/IO/crc.c:247-249`: `for (i = the_bytes; i > 0; i >>= 8)`. -/
def ck_length (crc i : W32) : W32 :=
  if i = 0#32 then crc
  else ck_length ((crc <<< 8) ^^^ at_table crctab ((crc >>> 24) ^^^ i)) (i >>> 8)
termination_by i.toNat
decreasing_by
  simp only [BitVec.toNat_ushiftRight, Nat.shiftRight_eq_div_pow]
  have : i.toNat ≠ 0 := fun h => by rename_i h'; exact h' (BitVec.eq_of_toNat_eq (by simpa using h))
  omega

/-- `CKSUM_GET`, `src/IO/crc.c:239-256`: the checksum and the byte count. The static variables
keep their values. -/
def CKSUM_GET (s : CkState) : W32 × W32 :=
  (~~~ (ck_length s.the_crc s.the_bytes), s.the_bytes)

end GLU.IO
