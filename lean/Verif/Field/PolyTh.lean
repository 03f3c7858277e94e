import Verif.Field.LinksProps
import Verif.Field.PolyProps

/-!
# Polyakov loops measured by a team of threads

`poly_th` of `Field/POLY.c` and its use in `Update/KPHB.c`, a build with `POLY_MEAS`.
-/

namespace GLU.Field

open Complex GLU.Mat GLU.Geom

/-- `poly_th`, `POLY.c:80-111`: `sched` lists the iterations of the first loop in the order they are done, each with the thread that
does it, and `red` is the shared array. Each thread only writes its own slots, so one order of the updates stands for all
interleavings. `none` as in `poly`. -/
noncomputable def poly_th (NC : ℕ) (L : Latt) (Nthreads : ℕ) (sched : List (ℕ × ℕ)) (lat : Gauge) (dir : ℕ) (red : ℕ → ℝ) :
    Option (ℕ → ℝ) :=
  let dir := if dir > L.ND then L.ND else dir
  if L.ND ≤ dir then none else
  let subvolume := polySubvolume L dir
  if subvolume = 0 then none else
  (sched.foldl (fun (red : Option (ℕ → ℝ)) it => red.bind fun red =>
    (get_mom_2piBZ L it.1 dir).map fun x =>
      let pl := Mat.trace NC (small_poly NC L lat (gen_site L x) dir (L.dims dir))
      let red := Function.update red (2 * dir + it.2 * cline L.ND) (red (2 * dir + it.2 * cline L.ND) + pl.re)
      Function.update red (2 * dir + 1 + it.2 * cline L.ND) (red (2 * dir + 1 + it.2 * cline L.ND) + pl.im)) (some red)).map
  fun red => forN Nthreads (fun i red =>
    let red := Function.update red (2 * dir + i * cline L.ND) (red (2 * dir + i * cline L.ND) / subvolume)
    Function.update red (2 * dir + 1 + i * cline L.ND) (red (2 * dir + 1 + i * cline L.ND) / subvolume)) red

/-- The array after the measurements of `perform_measurements`, `KPHB.c:73-83`, with the schedule of each direction. -/
noncomputable def poly_meas (NC : ℕ) (L : Latt) (Nthreads : ℕ) (sched : ℕ → List (ℕ × ℕ)) (lat : Gauge) (red : ℕ → ℝ) :
    Option (ℕ → ℝ) :=
  forN L.ND (fun mu red => red.bind (poly_th NC L Nthreads (sched mu) lat mu))
    (some (forN (Nthreads * cline L.ND) (fun k red => Function.update red k 0) red))

/-- `re` and `im` as printed for a direction, `KPHB.c:85-95`. -/
noncomputable def poly_printed (NC : ℕ) (L : Latt) (Nthreads : ℕ) (sched : ℕ → List (ℕ × ℕ)) (lat : Gauge) (red : ℕ → ℝ) (mu : ℕ) :
    Option (ℝ × ℝ) :=
  (poly_meas NC L Nthreads sched lat red).map fun red =>
    (forN Nthreads (fun k re => re + red (2 * mu + k * cline L.ND)) 0,
      forN Nthreads (fun k im => im + red (2 * mu + 1 + k * cline L.ND)) 0)

end GLU.Field
