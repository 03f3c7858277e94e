import Mathlib.Data.Nat.Sqrt
import Mathlib.Algebra.BigOperators.Group.List.Basic
import Mathlib.Algebra.Order.Ring.Int

/-!
# Momentum triplets: `src/Cuts/triplet_gen.c:31-282`

A momentum `int p[ ND ]` is the list of its entries from the last to the first, which is the order in which the code
goes through them when it moves on to the next momentum. The numbers are small enough for `int` arithmetic to be exact;
`(size_t)sqrt( nn )` is the integer square root.

The functions call themselves; a count of the calls that are still allowed makes the model total, and `none` means that
more calls were needed.
-/

namespace GLU.Cuts

/-- A momentum, last entry first. -/
abbrev Mom := List ℤ

/-- The square, `triplet_gen.c:101-103,177-179`. -/
def square (p : Mom) : ℤ := (p.map fun x => x * x).sum

/-- The sum of two momenta, `triplet_gen.c:109`. -/
def plus (p q : Mom) : Mom := List.zipWith (· + ·) p q

/-- Moving on to the next momentum, `triplet_gen.c:152-161,192-201`: `none` when the loop ends without a further
call. -/
def next (r : ℤ) : Mom → Option Mom
  | [] => none
  | x :: xs => if x < r then some ((x + 1) :: xs) else (next r xs).map (-r :: ·)

/-- The array of triplets found, by the two momenta that determine the third. -/
abbrev Triplets := ℕ → Option (Mom × Mom)

/-- `recurse_p2`, `triplet_gen.c:88-163`. The result is the final `check`. -/
def recurse_p2 (r : ℤ) (nn : ℕ) (first : Bool) (p1 : Mom) (count : ℕ) :
    ℕ → Mom → ℕ → Triplets → Option (ℕ × Triplets)
  | 0, _, _, _ => none
  | calls + 1, p2, check, tri =>
    let hit : Bool := square p2 = nn ∧ square (plus p1 p2) = nn
    let tri' := if hit && !first then Function.update tri (count + check) (some (p1, p2)) else tri
    let check' := if hit then check + 1 else check
    match next r p2 with
    | some q => recurse_p2 r nn first p1 count calls q check' tri'
    | none => some (check', tri')

/-- `recurse_p`, `triplet_gen.c:166-203`. `calls2` is the count of calls for the second level. -/
def recurse_p (r : ℤ) (nn : ℕ) (first : Bool) (calls2 : ℕ) : ℕ → Mom → ℕ → Triplets → Option (ℕ × Triplets)
  | 0, _, _, _ => none
  | calls + 1, p1, count, tri =>
    let found : Option (ℕ × Triplets) :=
      if square p1 = nn then
        (recurse_p2 r nn first p1 count calls2 (List.replicate p1.length (-r)) 0 tri).map
          fun x => (count + x.1, x.2)
      else some (count, tri)
    found.bind fun x => match next r p1 with
      | some q => recurse_p r nn first calls2 calls q x.1 x.2
      | none => some x

/-- The first momentum, `triplet_gen.c:229-232,267-269`: a direction whose extent is no multiple of the smallest one
(`whole mu = false`) begins with zero. -/
def startMom (r : ℤ) (whole : List Bool) : Mom := whole.map fun w => if w then -r else 0

/-- One pass of the loop over the squared momenta, `triplet_gen.c:226-237,263-277`. -/
def orbit (whole : List Bool) (first : Bool) (calls nn count : ℕ) (tri : Triplets) : Option (ℕ × Triplets) :=
  recurse_p (Nat.sqrt nn) nn first calls calls (startMom (Nat.sqrt nn) whole) count tri

/-- `get_triplet`, `triplet_gen.c:215-242`: the array after the passes `nn = 0, 2, ..., 2 (n - 1)`. -/
def get_triplet (whole : List Bool) (calls : ℕ) (tri : Triplets) : ℕ → Option (ℕ × Triplets)
  | 0 => some (0, tri)
  | n + 1 => (get_triplet whole calls tri n).bind fun x => orbit whole false calls (2 * n) x.1 x.2

/-- `get_trip`, `triplet_gen.c:252-282`: the final count and the numbers `trip[ nn/2 ]`, last first. -/
def get_trip (whole : List Bool) (calls : ℕ) : ℕ → Option (ℕ × List ℕ)
  | 0 => some (0, [])
  | n + 1 => (get_trip whole calls n).bind fun x =>
      (orbit whole true calls (2 * n) x.1 fun _ => none).map fun y => (y.1, (y.1 - x.1) :: x.2)

/-- The number of passes of `for( nn = 0 ; nn < nnmax ; nn += 2 )`. -/
def passes (nnmax : ℕ) : ℕ := (nnmax + 1) / 2

/-- `get_posit`, `triplet_gen.c:31-54`: the first place of the momentum in the list; when it is not found, -1. -/
def get_posit (p : Mom) (momentum : List Mom) : ℤ :=
  if p ∈ momentum then (momentum.idxOf p : ℤ) else -1

end GLU.Cuts
