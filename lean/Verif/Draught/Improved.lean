import Verif.Geom.Model

/-!
# Draughtboard for rectangle actions

`init_improved_cb`, `src/Geometry/draughtboard.c:128-245`.
-/

namespace GLU.Draught

open GLU.Geom

/-- What `init_improved_cb` leaves behind: success with the lengths and the lists, a reported failure, or undefined
behaviour. -/
inductive ImpResult where
  | ok (Nsquare : ℕ → ℕ) (square : ℕ → List ℕ)
  | failure
  | undefined

/-- `multipliers`, `draughtboard.c:158`. -/
def multiplier (L : Latt) (mu : ℕ) : ℕ := L.dims mu / 4

/-- `orth`, `draughtboard.c:164`. -/
def orthDir (mu : ℕ) : ℕ := if mu = 0 then 1 else 0

/-- `off`, `draughtboard.c:178-192`. -/
def offset (mu orth phase nu : ℕ) : ℤ :=
  match phase with
  | 0 => 0
  | 1 => if nu = orth then 1 else if nu = mu then 1 else 0
  | 2 => if nu = orth then 0 else if nu = mu then 1 else 0
  | 3 => if nu = orth then 1 else if nu = mu then 0 else 0
  | _ => 0

/-- `knightmove`, `draughtboard.c:167-168`. -/
def knightmove (mu orth nu : ℕ) : ℤ := if nu = orth then 2 else if nu = mu then 1 else 0

/-- `shift_mu`, `draughtboard.c:171-172`. -/
def shift_mu (mu nu : ℕ) : ℤ := if nu = mu then 2 else 0

/-- The inner loop, `draughtboard.c:203-207`, after `n` passes.  The state is the entry written last and all entries written. -/
def leafInner (L : Latt) (mu : ℕ) : ℕ → ℕ × List ℕ → ℕ × List ℕ
  | 0, s => s
  | n + 1, s =>
    let s := leafInner L mu n s
    let x := compute_spacing L (shift_mu mu) s.1 L.ND
    (x, s.2 ++ [x])

/-- The outer loop, `draughtboard.c:194-208`, after `outer` passes, same state. -/
def leafOuter (L : Latt) (mu orth phase : ℕ) : ℕ → ℕ × List ℕ
  | 0 => (0, [])
  | outer + 1 =>
    let s := leafOuter L mu orth phase outer
    let x := if outer = 0 then compute_spacing L (offset mu orth phase) 0 L.ND
      else compute_spacing L (knightmove mu orth) s.1 L.ND
    leafInner L mu (2 * multiplier L mu - 1) (x, s.2 ++ [x])

/-- `leaf[ phase ]`, `draughtboard.c:175-211`. -/
def leaf (L : Latt) (mu orth phase : ℕ) : List ℕ := (leafOuter L mu orth phase (2 * multiplier L orth)).2

/-- `d`, `draughtboard.c:212-217`, an array of two that starts as zeros. -/
def otherDir (mu orth k : ℕ) : ℕ := (([1, 2, 3] : List ℕ).filter fun nu => nu ≠ mu ∧ nu ≠ orth).getD k 0

/-- The entries written to `square[ phase + 4*mu ]`, `draughtboard.c:221-234`, in order; `munu` runs through the whole
of `leaf`. -/
def squareWritten (L : Latt) (mu phase : ℕ) : List ℕ :=
  let orth := orthDir mu
  let d0 := otherDir mu orth 0
  let d1 := otherDir mu orth 1
  (List.range (4 * multiplier L d1)).flatMap fun (orth1 : ℕ) =>
    (List.range (4 * multiplier L d0)).flatMap fun (orth2 : ℕ) =>
      let sep : ℕ → ℤ := fun nu => if nu = d1 then (orth1 : ℤ) else if nu = d0 then (orth2 : ℤ) else 0
      let off := compute_spacing L sep 0 L.ND
      (leaf L mu orth ((orth1 + orth2 + phase) % 4)).map fun x => x + off

/-- `init_improved_cb` after its checks, `draughtboard.c:146-244`.  An array of no elements (line 175) and a write behind the
end of an array (lines 197-204 and 230) are undefined behaviour.  Cells that are not written keep the zero of line 155.
`sort` is `qsort` of line 240: its comparison `comp`, lines 30-34, returns `a < b` and so calls any two elements equal in one of
the two orders, for which the C standard promises nothing; it is taken to permute its array in some way.  Allocation failure is
not modelled. -/
def improved_body (sort : List ℕ → List ℕ) (L : Latt) : ImpResult :=
  if (List.range 4).any (fun mu => 4 * multiplier L (orthDir mu) * multiplier L mu == 0 ||
      (List.range 4).any (fun phase => decide ((leaf L mu (orthDir mu) phase).length ≠
        4 * multiplier L (orthDir mu) * multiplier L mu) || decide (volume L / 4 < (squareWritten L mu phase).length))) then .undefined
  else .ok (fun _ => volume L / 4) fun idx =>
    sort (squareWritten L (idx / 4) (idx % 4) ++
      List.replicate (volume L / 4 - (squareWritten L (idx / 4) (idx % 4)).length) 0)

/-- `init_improved_cb`, `draughtboard.c:128-245`. -/
def init_improved_cb (sort : List ℕ → List ℕ) (L : Latt) : ImpResult :=
  if L.ND ≠ 4 then .failure
  else if (List.range 4).any (fun mu => decide (L.dims mu % 4 = 0 ∧ 4 ≤ L.dims mu)) then .failure
  else improved_body sort L

end GLU.Draught
