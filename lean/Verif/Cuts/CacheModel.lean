import Verif.IO.HdrModel

/-!
# Cached momentum lists

`compute_veclist` in the build with `NOT_CONDOR_MODE`, `src/Cuts/cut_routines.c:502-607`, and the cached triplets of
`read_trip` and `read_triplet_and_proj`, `src/Cuts/triplet_gen.c:471-626`.

A record is the memory image of a `struct veclist` (`Headers/GLU_types.h:298-301`), `w` bytes long with its padding;
it is written and read as it is. Simplified: the computer is little-endian, an existing file can be opened, and there
is memory for the list.
-/

namespace GLU.Cuts
open GLU.IO

/-- The memory image of a `struct veclist`. -/
abbrev Rec := List (BitVec 8)

/-- The low four bytes of the `size_t` holding the length, which is what `fwrite( in , sizeof(int) , 1 , config2 )`
writes, `cut_routines.c:568`. -/
def lenBytes (n : ℕ) : List (BitVec 8) :=
  [BitVec.ofNat 8 n, BitVec.ofNat 8 (n / 256), BitVec.ofNat 8 (n / 65536), BitVec.ofNat 8 (n / 16777216)]

/-- The number whose low bytes are given. -/
def lenOf : List (BitVec 8) → ℕ
  | [] => 0
  | b :: l => b.toNat + 256 * lenOf l

/-- `fread( list , w , n , config )`: the complete items. -/
def fread (w : ℕ) : ℕ → List (BitVec 8) → List Rec
  | 0, _ => []
  | n + 1, b => if w ≤ b.length then b.take w :: fread w n (b.drop w) else []

/-- What is written, `cut_routines.c:568,577`. -/
def cacheBytes (list : List Rec) : List (BitVec 8) := lenBytes list.length ++ list.flatten

/-- Reading an existing file, `cut_routines.c:583-607`, with the list allocated at line 595 and not written before:
`none` entries were never set. The number of items read is narrowed to an `int`, line 597. The outer `none` is the
null pointer. -/
def readCache (w : ℕ) (file : List (BitVec 8)) : Option (List (Option Rec)) :=
  if file.length < 4 then none
  else
    let n := lenOf (file.take 4)
    let rs := fread w n (file.drop 4)
    if rs.length % 2 ^ 32 = 0 then none
    else some (rs.map some ++ List.replicate (n - rs.length) none)

/-- Reading the file just written, over the list already there, `cut_routines.c:583-607`: `in[0]` keeps its high half
and gets back its low half. -/
def rereadCache (w : ℕ) (list : List Rec) (file : List (BitVec 8)) : Option (List (Option Rec)) :=
  if file.length < 4 then none
  else
    let rs := fread w list.length (file.drop 4)
    if rs.length % 2 ^ 32 = 0 then none
    else some ((rs ++ list.drop rs.length).map some)

/-- `compute_veclist` with a cache, `cut_routines.c:534-607`. `list` is what `get_veclist` or `get_mom_veclist` finds,
`canWrite` whether the file can be created. The result is the list returned and the file left behind. An empty list
leaves the file created at line 549 empty. -/
def cachedList (w : ℕ) (list : List Rec) (canWrite : Bool) (file : Option (List (BitVec 8))) :
    Out (Option (List (Option Rec)) × Option (List (BitVec 8))) :=
  match file with
  | some b => .ok (readCache w b, some b)
  | none =>
    if list.length = 0 then .ok (none, if canWrite then some [] else none)
    else if canWrite then .ok (rereadCache w list (cacheBytes list), some (cacheBytes list))
    else .ub

/-- The files a run without cache can leave behind if it stops at any moment: none, or the beginning of the file. -/
def crashFiles (list : List Rec) : Set (Option (List (BitVec 8))) :=
  {f | f = none ∨ ∃ k, f = some ((cacheBytes list).take k)}

/-- `read_trip`, `triplet_gen.c:472-513`: `nn` ints of four bytes, failure unless all are there. -/
def read_trip (nn : ℕ) (trip : List Rec) (canWrite : Bool) (file : Option (List (BitVec 8))) :
    Out (List Rec × Option (List (BitVec 8))) :=
  match file with
  | some b => if (fread 4 nn b).length = nn then .ok (fread 4 nn b, some b) else .fail
  | none => if canWrite then
      if (fread 4 nn trip.flatten).length = nn then .ok (fread 4 nn trip.flatten, some trip.flatten) else .fail
    else .ub

/-- The reading half of `read_triplet_and_proj`, `triplet_gen.c:595-611`: `count` triplets of twelve bytes, then
`count` projectors of `8 * ND^3` bytes; failure unless all are there. The triplets and the projectors are read into
the callers' arrays item by item; reading stops at the first failure. -/
def readTriplets (ND count : ℕ) (b : List (BitVec 8)) : Option (List Rec × List Rec) :=
  let t := fread 12 count b
  if t.length = count then
    let p := fread (8 * ND ^ 3) count (b.drop (12 * count))
    if p.length = count then some (t, p) else none
  else none

end GLU.Cuts
