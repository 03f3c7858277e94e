import Mathlib.Algebra.Order.Ring.Int
import Mathlib.Data.Int.ModEq

/-!
# Lattice geometry: `src/Geometry/geometry.c` and `src/Geometry/init.c`

The number of dimensions `ND` (a compile-time constant of the code) and the
extents `Latt.dims[]` are parameters.  Coordinates are functions `ℕ → ℤ`; only
the entries below `ND` are meaningful, as in the C arrays `int x[ ND ]`.
-/

namespace GLU.Geom

/-- The global `Latt.dims[ ND ]` (`src/Headers/GLU_types.h`, `struct latt_info`),
with `ND` as a parameter. -/
structure Latt where
  ND : ℕ
  dims : ℕ → ℕ

/-- Conversion of a mathematical integer to `size_t` (64-bit unsigned). -/
def wrap64 (z : ℤ) : ℕ := (z % 2 ^ 64).toNat

/-- The loop of `gen_site`, `geometry.c:32-34`: `mu` counts down, every step is
`size_t` arithmetic. -/
def genSiteLoop (dims : ℕ → ℕ) (x : ℕ → ℤ) : ℕ → ℕ → ℕ
  | 0, res => res
  | mu + 1, res => genSiteLoop dims x mu (wrap64 (dims mu * res + x mu))

/-- `gen_site`, `geometry.c:27-36`. -/
def gen_site (L : Latt) (x : ℕ → ℤ) : ℕ :=
  genSiteLoop L.dims x (L.ND - 1) (wrap64 (x (L.ND - 1)))

/-- The loop-carried variable `subvol` of `get_mom_2piBZ` and `get_mom_pipi`
(`geometry.c:91-98`, `109-117`) when the loop reaches direction `mu`. -/
def subvol (L : Latt) (DIMS : ℕ) : ℕ → ℕ
  | 0 => 1
  | mu + 1 => if mu ≠ DIMS then subvol L DIMS mu * L.dims mu else subvol L DIMS mu

/-- Entry `x[mu]` computed by `get_mom_2piBZ`, `geometry.c:104-120`, when no
undefined behaviour occurs (see `get_mom_2piBZ`). -/
def coord (L : Latt) (DIMS i mu : ℕ) : ℕ :=
  if mu ≠ DIMS then
    ((i - i % subvol L DIMS mu) / subvol L DIMS mu) % L.dims mu
  else 0

/-- The divisions of `get_mom_2piBZ` are meaningful: no zero divisor, and the
`int subvol` used as a divisor has not been narrowed. -/
def MomDefined (L : Latt) (DIMS : ℕ) : Prop :=
  ∀ mu < L.ND, mu ≠ DIMS → 0 < L.dims mu ∧ subvol L DIMS mu < 2 ^ 31

instance (L : Latt) (DIMS : ℕ) : Decidable (MomDefined L DIMS) :=
  inferInstanceAs (Decidable (∀ mu < L.ND, _))

/-- `get_mom_2piBZ`, `geometry.c:104-120`.  `none` stands for a division by zero
or for a narrowing of `subvol` to `int` that changes its value.  The return
value of the C function (the sum of the coordinates) is not modelled. -/
def get_mom_2piBZ (L : Latt) (i DIMS : ℕ) : Option (ℕ → ℤ) :=
  if MomDefined L DIMS then some fun mu => (coord L DIMS i mu : ℤ) else none

/-- Entry `x[mu]` of `get_mom_pipi`, `geometry.c:86-101`.  `subvol` is a
`size_t` here; the subtraction is carried out modulo 2^64 and narrowed to `int`,
which gives the mathematical difference for extents below 2^31. -/
def mom_pipi (L : Latt) (i DIMS mu : ℕ) : ℤ :=
  if mu ≠ DIMS then
    ((((i - i % subvol L DIMS mu) / subvol L DIMS mu) % L.dims mu : ℕ) : ℤ)
      - ((L.dims mu / 2 : ℕ) : ℤ)
  else 0

/-- Entry `temp[mu]` of `get_site_2piBZ`, `geometry.c:47-60`. -/
def temp2pi (L : Latt) (x : ℕ → ℤ) (DIMS mu : ℕ) : ℤ :=
  if mu ≠ DIMS then
    let L_2 : ℤ := ((L.dims mu / 2 : ℕ) : ℤ)
    let t : ℤ := if x mu ≥ L_2 then x mu - L.dims mu else x mu
    if t < L_2 then t + L_2 else t
  else 0

/-- `get_site_2piBZ`, `geometry.c:41-62`. -/
def get_site_2piBZ (L : Latt) (x : ℕ → ℤ) (DIMS : ℕ) : ℕ :=
  gen_site L (temp2pi L x DIMS)

/-- `get_site_pipiBZ`, `geometry.c:66-83`. -/
def get_site_pipiBZ (L : Latt) (x : ℕ → ℤ) (DIMS : ℕ) : ℕ :=
  gen_site L fun mu =>
    if mu ≠ DIMS then (if x mu < 0 then x mu + L.dims mu else x mu) else 0

/-- `TwoPI_mpipi_momconv`, `geometry.c:123-132`. -/
def TwoPI_mpipi_momconv (L : Latt) (i DIR : ℕ) : ℕ → ℤ :=
  mom_pipi L (get_site_2piBZ L (fun mu => (coord L DIR i mu : ℤ)) DIR) DIR

/-- `subvol` of `get_mom_2piBZ_hirep2` after `k` passes of the loop,
`geometry.c:139-143`; pass `k` handles direction `mu - 1 = ND - 2 - k`. -/
def subvolHirep (L : Latt) : ℕ → ℕ
  | 0 => 1
  | k + 1 => subvolHirep L k * L.dims (L.ND - 2 - k)

/-- Entry `x[mu]` of `get_mom_2piBZ_hirep2`, `geometry.c:135-146`. -/
def hirep_coord (L : Latt) (i mu : ℕ) : ℕ :=
  if mu + 1 < L.ND then
    let s := subvolHirep L (L.ND - 2 - mu)
    ((i - i % s) / s) % L.dims mu
  else
    let s := subvolHirep L (L.ND - 1)
    ((i - i % s) / s) % L.dims mu

/-- `translate_to_GLU_geom`, `IO/HIREP.c:38-43`: the site whose data stand at
position `i` of a HiRep file. -/
def translate_to_GLU_geom (L : Latt) (i : ℕ) : ℕ :=
  gen_site L (fun mu => (hirep_coord L i mu : ℤ))

/-- Entry `n[mu]` of `get_vec_from_origin`, `geometry.c:236-250`. -/
def get_vec_from_origin (L : Latt) (i DIMS mu : ℕ) : ℤ :=
  let n : ℤ := coord L DIMS i mu
  if mu < DIMS then
    if n > ((L.dims mu / 2 : ℕ) : ℤ) then n - L.dims mu else n
  else n

/-- The accumulation loop of `compute_rsq`, `geometry.c:260-263` (squares of
`int` values, assumed not to overflow). -/
def rsqLoop (r : ℕ → ℤ) : ℕ → ℤ
  | 0 => 0
  | mu + 1 => rsqLoop r mu + r mu * r mu

/-- `compute_rsq`, `geometry.c:253-265`. -/
def compute_rsq (L : Latt) (site DIMS : ℕ) : ℤ :=
  rsqLoop (get_vec_from_origin L site DIMS) DIMS

/-- `compute_spacing`, `geometry.c:269-285`.  The sum `n[mu] + separation[mu]`
is an `int` (assumed not to overflow) that is converted to `size_t` when the
unsigned `Latt.dims[mu]` is added. -/
def compute_spacing (L : Latt) (separation : ℕ → ℤ) (k DIMS : ℕ) : ℕ :=
  gen_site L fun mu =>
    if mu < DIMS then
      ((wrap64 ((coord L DIMS k mu : ℤ) + separation mu + L.dims mu) % L.dims mu : ℕ) : ℤ)
    else 0

/-- `gen_shift`, `geometry.c:288-305`, on the coordinate vector.  In the branch
`x[numu] != 0` the C expression `( x - 1 ) % dims` has a non-negative left
operand. -/
def shiftCoord (L : Latt) (x : ℕ → ℤ) (dir : ℤ) : ℕ → ℤ :=
  if 0 ≤ dir then
    Function.update x dir.toNat ((x dir.toNat + 1) % L.dims dir.toNat)
  else
    let numu := (-dir - 1).toNat
    if x numu = 0 then Function.update x numu (x numu - 1 + L.dims numu)
    else Function.update x numu ((x numu - 1) % L.dims numu)

/-- `gen_shift`, `geometry.c:288-305`. -/
def gen_shift (L : Latt) (i : ℕ) (dir : ℤ) : ℕ :=
  gen_site L (shiftCoord L (fun mu => (coord L L.ND i mu : ℤ)) dir)

/-- `lat[i].neighbor[mu]`, `init.c:37`. -/
def neighbor (L : Latt) (i mu : ℕ) : ℕ := gen_shift L i mu

/-- `lat[i].back[mu]`, `init.c:38` (the argument `-mu - 1` is computed in
`size_t` and narrowed to `int`). -/
def back (L : Latt) (i mu : ℕ) : ℕ := gen_shift L i (-(mu : ℤ) - 1)

/-- `Latt.Lsq` after `k` passes of the loop `init.c:59-62`. -/
def lsqLoop (L : Latt) : ℕ → ℕ
  | 0 => L.dims 0
  | k + 1 => lsqLoop L k * L.dims (k + 1)

/-- `Latt.Lcu`, `init.c:53-63`. -/
def lcu (L : Latt) : ℕ :=
  if L.ND = 2 then L.dims 0 else lsqLoop L (L.ND - 3) * L.dims (L.ND - 2)

/-- `Latt.Volume`, `init.c:55` and `init.c:64`. -/
def volume (L : Latt) : ℕ := lcu L * L.dims (L.ND - 1)

end GLU.Geom
