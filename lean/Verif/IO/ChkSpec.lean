import Verif.IO.ChkModel

/-!
# Byte order, CRC-32 and POSIX cksum: specification

Written from the published definitions (RFC 1952 section 8 for CRC-32, POSIX.1 `cksum`), not
from the code: a shift register fed one message bit at a time.
-/

namespace GLU.IO

/-- The `k` bytes of a word, least significant first. -/
def bytesOf {n : ℕ} (k : ℕ) (w : BitVec n) : List Byte :=
  (List.range k).map fun i => w.extractLsb' (8 * i) 8

/-- The bits of a byte, least significant first: the order in which CRC-32 takes them. -/
def bitsLow (b : Byte) : List Bool := (List.range 8).map fun i => b.getLsbD i

/-- The bits of a byte, most significant first: the order in which cksum takes them. -/
def bitsHigh (b : Byte) : List Bool := (bitsLow b).reverse

/-- The message bits of a byte string, in CRC-32 order. -/
def messageLow (d : List Byte) : List Bool := d.flatMap bitsLow

/-- The message bits of a byte string, in cksum order. -/
def messageHigh (d : List Byte) : List Bool := d.flatMap bitsHigh

/-- One clock of the CRC-32 register (reflected polynomial `0xEDB88320`): the message bit is
added to the bit shifted out, and if the sum is one the polynomial is subtracted. -/
def clockLow (r : W32) (bit : Bool) : W32 :=
  if (r.getLsbD 0 ^^ bit) then (r >>> 1) ^^^ 0xEDB88320#32 else r >>> 1

/-- CRC-32 of a message: register preset to ones, complemented at the end. -/
def crcSpec (bits : List Bool) : W32 := ~~~ (bits.foldl clockLow 0xffffffff#32)

/-- One clock of the cksum register (polynomial `0x04C11DB7`, most significant bit first). -/
def clockHigh (r : W32) (bit : Bool) : W32 :=
  if (r.getLsbD 31 ^^ bit) then (r <<< 1) ^^^ 0x04C11DB7#32 else r <<< 1

/-- The octets of the length, least significant first, without leading zero octets. -/
def lengthOctets (n : ℕ) : List Byte :=
  if n = 0 then [] else BitVec.ofNat 8 n :: lengthOctets (n / 256)

/-- POSIX `cksum` of a byte string: register preset to zero, fed with the data and then with
the octets of its length, complemented at the end. -/
def cksumSpec (d : List Byte) : W32 :=
  ~~~ ((messageHigh (d ++ lengthOctets d.length)).foldl clockHigh 0#32)

end GLU.IO
