import Verif.Field.Model

/-!
# Link smearing and the Wilson flow: loops over the lattice

`src/Smear/smear.c` and the steps of `src/Smear/wflowfuncs.c`.  The matrices are
of an arbitrary type `M`; what is computed at one link (staples and projection) is
a parameter `upd`, so that the loops can be shown right for every smearing type.
The concrete updates are at the end and in `Verif/Smear/Proj.lean`.

Every parallel loop writes, in iteration `i`, only to locations no other iteration
reads or writes, so the loops are run in order of `i`.  The last copy loop of
`smear4D` is executed redundantly by every thread (`smear.c:338` opens a nested
parallel region); all of them store the same values, and it is modelled once.
`TOP_VALUE` (stop early at a given topological charge) is not defined by default
and not modelled.
-/

namespace GLU.Smear

open GLU.Geom GLU.Sched

/-- What one link update computes: from the links, the accumulated matrix of that link
(`Z[it].O[mu]`, only used by the flow), site and direction, to the new accumulated
matrix and the new link. -/
abbrev Upd (M Z : Type) := (Loc → M) → Z → ℕ → ℕ → Z × M

/-- The fields of a sweep: links, accumulated matrices and the three buffers (any
contents to begin with). -/
structure St (M Z : Type) where
  lat : Loc → M
  z : Loc → Z
  lat2 : Loc → M
  lat3 : Loc → M
  lat4 : Loc → M

variable {M Z : Type}

/-- Temporal extent `Latt.dims[ ND - 1 ]`. -/
def extent (L : Latt) : ℕ := L.dims (L.ND - 1)

/-- Update `n` sites from `base` on in `dirs` directions into a buffer:
`smear.c:267-280` and `290-305`, `wflowfuncs.c:213-221` and `231-239`; body
`wflowfuncs.c:106-124` or staple and projection. -/
def fill (upd : Upd M Z) (dirs base n : ℕ) (lat : Loc → M) (s : (Loc → Z) × (Loc → M)) :
    (Loc → Z) × (Loc → M) :=
  forN n (fun i s => forN dirs (fun mu s =>
    let r := upd lat (s.1 (base + i, mu)) (base + i) mu
    (Function.update s.1 (base + i, mu) r.1, Function.update s.2 (i, mu) r.2)) s) s

/-- Put the previous slice back and remember the current one, `smear.c:312-332`,
`wflowfuncs.c:246-269` (not the improved branch), `ND_generic_HYP.c:276-292`, in `dirs` directions.  State: links and `lat3`. -/
def rotate (L : Latt) (dirs : ℕ) (t bck : ℕ) (lat2 : Loc → M) (s : (Loc → M) × (Loc → M)) :
    (Loc → M) × (Loc → M) :=
  forN (lcu L) (fun i s => forN dirs (fun mu s =>
    let lat := if t ≠ 0 then Function.update s.1 (bck + i, mu) (s.2 (i, mu)) else s.1
    (lat, Function.update s.2 (i, mu) (lat2 (i, mu)))) s) s

/-- The last two slices, `smear.c:338-356`, `wflowfuncs.c:276-293`, `ND_generic_HYP.c:294-307`. -/
def finish (L : Latt) (dirs : ℕ) (behind slice : ℕ) (lat3 lat4 lat : Loc → M) : Loc → M :=
  forN (lcu L) (fun i lat => forN dirs (fun mu lat =>
    let lat := Function.update lat (behind + i, mu) (lat3 (i, mu))
    Function.update lat (slice + i, mu) (lat4 (i, mu))) lat) lat

/-- Body of the loop over time slices, `smear.c:287-333`, `wflowfuncs.c:227-270`, `ND_generic_HYP.c:263-293`. -/
def timeStep (L : Latt) (dirs : ℕ) (upd : Upd M Z) (t : ℕ) (s : St M Z) : St M Z :=
  let slice := lcu L * t
  let f := fill upd dirs slice (lcu L) s.lat (s.z, s.lat2)
  let bck := back L slice (L.ND - 1)
  let r := rotate L dirs t bck f.2 (s.lat, s.lat3)
  { s with lat := r.1, z := f.1, lat2 := f.2, lat3 := r.2 }

/-- One iteration of `smear4D`, `smear.c:248-356`, and `RK3step_memcheap`,
`wflowfuncs.c:184-296`, without `IMPROVED_SMEARING`, with `dirs = ND`; one iteration of `HYsmearND`,
`ND_generic_HYP.c:246-307`, with `dirs = directions`. -/
def sweep (L : Latt) (dirs : ℕ) (upd : Upd M Z) (s : St M Z) : St M Z :=
  let bk := back L 0 (L.ND - 1)
  let f := fill upd dirs bk (lcu L) s.lat (s.z, s.lat4)
  let s := { s with z := f.1, lat4 := f.2 }
  let s := forN (extent L - 1) (timeStep L dirs upd) s
  let slice := lcu L * (extent L - 1)
  let behind := back L slice (L.ND - 1)
  { s with lat := finish L dirs behind slice s.lat3 s.lat4 s.lat }

/-- `smear4D`, `smear.c:175-398`, for a known smearing type. -/
def smear4D (L : Latt) (upd : Upd M Z) (smiters : ℕ) (s : St M Z) : St M Z :=
  if smiters = 0 then s else forN smiters (fun _ s => sweep L L.ND upd s) s

/-- `RK3step`, `wflowfuncs.c:129-181`: everything into `lat2`, then copied back. -/
def RK3step (L : Latt) (upd : Upd M Z) (s : St M Z) : St M Z :=
  let f := fill upd L.ND 0 (volume L) s.lat (s.z, s.lat2)
  { s with z := f.1, lat2 := f.2,
           lat := forN (volume L) (fun i lat => forN L.ND (fun mu lat =>
             Function.update lat (i, mu) (f.2 (i, mu))) lat) s.lat }

/-- One time slice of `smear3D`, `smear.c:107-135`. -/
def slice3D (L : Latt) (upd : Upd M Z) (t : ℕ) (s : St M Z) : St M Z :=
  let slice := lcu L * t
  let f := fill upd (L.ND - 1) slice (lcu L) s.lat (s.z, s.lat2)
  { s with z := f.1, lat2 := f.2,
           lat := forN (lcu L) (fun i lat => forN (L.ND - 1) (fun mu lat =>
             Function.update lat (slice + i, mu) (f.2 (i, mu))) lat) s.lat }

/-- `smear3D`, `smear.c:37-172`, for a known smearing type: nothing is done in fewer
than three dimensions. -/
def smear3D (L : Latt) (upd : Upd M Z) (smiters : ℕ) (s : St M Z) : St M Z :=
  if L.ND < 3 then s
  else if smiters = 0 then s
  else forN smiters (fun _ s => forN (extent L) (slice3D L upd) s) s

/-! ### `IMPROVED_SMEARING`: staples reach two slices, everything is kept one slice longer -/

/-- `smear.c:312-332`, `wflowfuncs.c:246-269`, improved branch. -/
def rotate2 (L : Latt) (t bck : ℕ) (lat2 : Loc → M) (s : (Loc → M) × (Loc → M)) :
    (Loc → M) × (Loc → M) :=
  forN (lcu L) (fun i s => forN L.ND (fun mu s =>
    let lat := if t > 1 then Function.update s.1 (bck + i, mu) (s.2 (i, mu)) else s.1
    let lat3 := Function.update s.2 (i, mu) (s.2 (i + lcu L, mu))
    (lat, Function.update lat3 (i + lcu L, mu) (lat2 (i, mu)))) s) s

/-- `smear.c:338-356`, `wflowfuncs.c:276-293`, improved branch.  `tail` is the offset in
`lat3` from which the slice `behind` is filled: 0 in `smear.c:346`, `LCU` in
`wflowfuncs.c:284`. -/
def finish2 (L : Latt) (tail behind2 behind slice : ℕ) (lat3 lat4 lat : Loc → M) : Loc → M :=
  forN (lcu L) (fun i lat => forN L.ND (fun mu lat =>
    let lat := Function.update lat (behind2 + i, mu) (lat3 (i, mu))
    let lat := Function.update lat (behind + i, mu) (lat3 (i + tail, mu))
    let lat := Function.update lat (slice + i, mu) (lat4 (i, mu))
    Function.update lat (slice + i + lcu L, mu) (lat4 (i + lcu L, mu))) lat) lat

/-- As `timeStep`, improved branch. -/
def timeStep2 (L : Latt) (upd : Upd M Z) (t : ℕ) (s : St M Z) : St M Z :=
  let slice := lcu L * t
  let f := fill upd L.ND slice (lcu L) s.lat (s.z, s.lat2)
  let bck := back L (back L slice (L.ND - 1)) (L.ND - 1)
  let r := rotate2 L t bck f.2 (s.lat, s.lat3)
  { s with lat := r.1, z := f.1, lat2 := f.2, lat3 := r.2 }

/-- One iteration of `smear4D` (`tail = 0`) and `RK3step_memcheap` (`tail = LCU`) with
`IMPROVED_SMEARING`.  With one time slice the loop bound `Latt.dims[ ND - 1 ] - 2`
(`smear.c:283`) wraps around and the loop runs outside of every array. -/
def sweep2 (L : Latt) (tail : ℕ) (upd : Upd M Z) (s : St M Z) : Option (St M Z) :=
  if extent L < 2 then none
  else
    let bk := back L (back L 0 (L.ND - 1)) (L.ND - 1)
    let f := fill upd L.ND bk (2 * lcu L) s.lat (s.z, s.lat4)
    let s := { s with z := f.1, lat4 := f.2 }
    let s := forN (extent L - 2) (timeStep2 L upd) s
    let slice := lcu L * (extent L - 2)
    let behind := back L slice (L.ND - 1)
    let behind2 := back L behind (L.ND - 1)
    some { s with lat := finish2 L tail behind2 behind slice s.lat3 s.lat4 s.lat }

/-! ### Concrete link updates -/

/-- `all_staples` for `SM_LOG`, `staples.c:42-62`; `log` is `exact_log_slow`. -/
def all_staples_log (L : Latt) (ops : MatOps M) (log : M → M) (lat : Loc → M) (i mu dir : ℕ)
    (stap : M) : M :=
  (List.range (dir - 1)).foldl (fun stap j =>
    let nu := stapleDir mu j
    let t1 := neighbor L i nu
    let t2 := neighbor L i mu
    let b1 := back L i nu
    let b2 := neighbor L b1 mu
    let top := ops.multab_dag (ops.multab_dag (ops.multab (lat (i, nu)) (lat (t1, mu)))
      (lat (t2, nu))) (lat (i, mu))
    let bot := ops.multab_dag (ops.multab (ops.multabdag (lat (b1, nu)) (lat (b1, mu)))
      (lat (b2, nu))) (lat (i, mu))
    ops.a_plus_b (ops.a_plus_b stap (log top)) (log bot)) stap

/-- Staple and projection at one link, `smear.c:113-124`, `270-279` and `293-303`: `dir` is
`ND - 1` in `smear3D` and `ND` in `smear4D`; `zero` is the zeroed staple; `project` is
`project_APE` or `project_STOUT` with the smearing parameters. -/
def smearLink (L : Latt) (ops : MatOps M) (zero : M) (project : M → M → M) (dir : ℕ) : Upd M Unit :=
  fun lat _ it mu => ((), project (all_staples L ops lat it mu dir zero) (lat (it, mu)))

/-- As `smearLink` for `SM_LOG`, `project` being `project_LOG`. -/
def smearLinkLog (L : Latt) (ops : MatOps M) (log : M → M) (zero : M) (project : M → M → M) (dir : ℕ) :
    Upd M Unit :=
  fun lat _ it mu => ((), project (all_staples_log L ops log lat it mu dir zero) (lat (it, mu)))

/-- `flow_directions`, `wflowfuncs.c:89-125`, and the body of `RK3step`,
`wflowfuncs.c:143-170`: `acc z stap link` is `Z` after `multab_dag`,
`Hermitian_proj_short` and `set_zmatrix`; `project z link` the projection. -/
def flowLink (L : Latt) (ops : MatOps M) (zero : M) (acc : Z → M → M → Z) (project : Z → M → M) :
    Upd M Z :=
  fun lat z it mu =>
    let z' := acc z (all_staples L ops lat it mu L.ND zero) (lat (it, mu))
    (z', project z' (lat (it, mu)))

/-- As `flowLink` for `SM_LOG`. -/
def flowLinkLog (L : Latt) (ops : MatOps M) (log : M → M) (zero : M) (acc : Z → M → Z)
    (project : Z → M → M) : Upd M Z :=
  fun lat z it mu =>
    let z' := acc z (all_staples_log L ops log lat it mu L.ND zero)
    (z', project z' (lat (it, mu)))

end GLU.Smear
