import Verif.Gfix.Model

/-!
# Axial gauges

`src/Gfix/MAG.c`: the maximal axial gauge and the axial gauge in one direction.
-/

namespace GLU.Gfix

open Complex GLU.Mat GLU.Geom GLU.Field

/-- `gauge_set`, `MAG.c:37-56`.  The loop state is the gauge field, `left` and `next`. -/
noncomputable def gauge_set (NC : ℕ) (L : Latt) (lat : Gauge) (mu i : ℕ) (gauge : ℕ → Arr ℂ) : ℕ → Arr ℂ :=
  (forN (L.dims mu - 1) (fun _ (s : (ℕ → Arr ℂ) × ℕ × ℕ) =>
    let gauge := s.1
    let left := s.2.1
    let next := s.2.2
    (Function.update gauge next (multab_suNC NC (gauge left) (lat (left, mu)) (gauge next)), next, neighbor L next mu))
    (Function.update gauge i (identity NC (gauge i)), i, neighbor L i mu)).1

/-- The parallel loops of `MAG.c:83-85` and `MAG.c:131-137`: the lines in the order in which the threads take them. -/
noncomputable def gauge_lines (NC : ℕ) (L : Latt) (lat : Gauge) (mu : ℕ) (starts : List ℕ) (gauge : ℕ → Arr ℂ) :
    ℕ → Arr ℂ :=
  starts.foldl (fun gauge i => gauge_set NC L lat mu i gauge) gauge

/-- `MAG_fix`, `MAG.c:59-102`, once the gauge field has been allocated.  `order mu n` is the order in which the `n`
iterations of the parallel loop for the direction `mu` are executed.  The loop state is the field, the gauge matrices
and `subvol`.  The results of `malloc` at line 75 are not looked at by the code and are taken to be good. -/
noncomputable def MAG_fix (NC : ℕ) (L : Latt) (scratch : Arr ℂ) (order : ℕ → ℕ → List ℕ) (lat : Gauge) : Gauge :=
  (forN L.ND (fun mu (s : Gauge × (ℕ → Arr ℂ) × ℕ) =>
    let gauge := gauge_lines NC L s.1 mu (order mu s.2.2) s.2.1
    (gtransform NC L gauge s.1, gauge, s.2.2 * L.dims mu))
    (lat, fun _ => identity NC scratch, 1)).1

/-- `mag`, `MAG.c:158-165`: the field and the return value.  `alloc` tells whether the gauge field could be
allocated; without it nothing is transformed and `GLU_FAILURE` is returned. -/
noncomputable def mag (NC : ℕ) (L : Latt) (scratch : Arr ℂ) (alloc : Bool) (order : ℕ → ℕ → List ℕ) (lat : Gauge) :
    Option (Gauge × ℤ) :=
  (latt_reunitU NC L scratch lat).bind fun lat =>
  let lat := if alloc then MAG_fix NC L scratch order lat else lat
  (latt_reunitU NC L scratch lat).map fun lat => (lat, if alloc then 0 else -1)

/-- `subvolume`, `MAG.c:127-129`. -/
def axialSubvolume (L : Latt) (DIR : ℕ) : ℕ :=
  forN L.ND (fun i v => v * (if i ≠ DIR then L.dims i else 1)) 1

/-- `axial_gauge`, `MAG.c:106-154`: the field and the return value.  When the allocation fails, `gauge`, which was not
initialised (line 111), is compared with `NULL` and freed: `none`.  The result of `gen_site` is narrowed to `int`
(line 135), which does nothing below 2^31. -/
noncomputable def axial_gauge (NC : ℕ) (L : Latt) (scratch : Arr ℂ) (alloc : Bool) (order : ℕ → List ℕ) (lat : Gauge)
    (DIR : ℕ) : Option (Gauge × ℤ) :=
  (latt_reunitU NC L scratch lat).bind fun lat =>
  if alloc then
    ((order (axialSubvolume L DIR)).mapM fun i => (get_mom_2piBZ L i DIR).map (gen_site L)).bind fun starts =>
    let gauge := gauge_lines NC L lat DIR starts (fun _ => identity NC scratch)
    (latt_reunitU NC L scratch (gtransform NC L gauge lat)).map fun lat => (lat, 0)
  else none

end GLU.Gfix
