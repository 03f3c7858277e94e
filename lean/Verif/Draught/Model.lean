import Verif.Geom.Model

/-!
# Draughtboard colouring

`src/Geometry/draughtboard.c`.
-/

namespace GLU.Draught

open GLU.Geom

/-- `even_sum` of `get_midx` after `k` passes, `draughtboard.c:57-64`. -/
def evenSum (dims n : ℕ → ℕ) : ℕ → ℕ
  | 0 => 0
  | k + 1 => if (dims k &&& 1) = 0 then evenSum dims n k + n k else evenSum dims n k

/-- `odd_sum` of `get_midx` after `k` passes, `draughtboard.c:57-64`. -/
def oddSum (dims n : ℕ → ℕ) : ℕ → ℕ
  | 0 => 0
  | k + 1 => if (dims k &&& 1) = 0 then oddSum dims n k else oddSum dims n k + n k

/-- `get_midx`, `draughtboard.c:50-70`.  The sums are `size_t`; they are at most
the sum of the extents, so no wrap-around is modelled. -/
def get_midx (L : Latt) (i DIR Ncolors : ℕ) : ℕ :=
  (evenSum L.dims (coord L DIR i) DIR % 2 + oddSum L.dims (coord L DIR i) DIR) % Ncolors

/-- What `init_cb` leaves behind: success with `Ncolors` and the lists, a
reported failure, or a write outside an allocated block. -/
inductive CbResult where
  | ok (Ncolors : ℕ) (Nsquare : ℕ → ℕ) (square : ℕ → List ℕ)
  | failure
  | outOfBounds

/-- First pass, `draughtboard.c:88-95`: the counters after `LENGTH` sites. -/
def countPass (L : Latt) (DIR : ℕ) : ℕ → ℕ → ℕ
  | 0 => fun _ => 0
  | i + 1 => Function.update (countPass L DIR i) (get_midx L i DIR 3)
      (countPass L DIR i (get_midx L i DIR 3) + 1)

/-- Second pass, `draughtboard.c:117-121`.  `square c` lists the cells of block
`c` written so far (so its length is `Nsquare[c]`), `cap c` is the number of
cells allocated for it at line 111.  A write at an index beyond the allocation,
or to a block that does not exist, is `none`. -/
def fillPass (L : Latt) (DIR Ncolors : ℕ) (cap : ℕ → ℕ) : ℕ → Option (ℕ → List ℕ)
  | 0 => some fun _ => []
  | i + 1 => (fillPass L DIR Ncolors cap i).bind fun sq =>
      let midx := get_midx L i DIR Ncolors
      if midx < Ncolors ∧ (sq midx).length < cap midx then
        some (Function.update sq midx (sq midx ++ [i]))
      else none

/-- `init_cb`, `draughtboard.c:75-126`.  Allocation failure is not modelled. -/
def init_cb (L : Latt) (LENGTH DIR : ℕ) : CbResult :=
  let cnt := countPass L DIR LENGTH
  let Ncolors := if cnt 2 = 0 then 2 else 3
  if (List.range Ncolors).any (fun c => cnt c == 0) then .failure
  else match fillPass L DIR Ncolors cnt LENGTH with
    | some sq => .ok Ncolors (fun c => (sq c).length) sq
    | none => .outOfBounds

end GLU.Draught
