import Verif.Cuts.Gluon
import Verif.Cuts.TripModel

/-!
# The three-gluon vertex at the symmetric point: `src/Cuts/MOMggg.c`, `src/Cuts/triplet_gen.c:341-626`

As in `Gluon.lean`: real and complex numbers for floating point, no failures of `malloc`.  The default build: traces (no
`LIE_PROJECTION`), the backward transform (no `CUT_FORWARD`), `PROJ_GRACEY` 0.  Modelled without the files in which the
triplets, their numbers and the projectors are kept between runs, except for `read_trip_array`; a file that is written and
read back in the same run holds the values given here.
-/

namespace GLU.Cuts

open Complex GLU.Mat GLU.Geom GLU.Field

/-- The table `d` of `init_delta`, `triplet_gen.c:56-71`. -/
def delta (mu nu : ℕ) : ℝ := if mu = nu then 1 else 0

/-- `get_proj_gracey` with `PROJ_GRACEY` 0, `triplet_gen.c:346-375,414-416`; `tol` for `PREC_TOL`. -/
noncomputable def get_proj_gracey (ND : ℕ) (tol : ℝ) (p q : ℕ → ℝ) (mu nu sigma : ℕ) : ℝ :=
  let s := acc (fun mu => p mu * p mu) ND
  let psq : ℝ := open Classical in if s < tol then 1 else 1 / s
  let DENOM : ℝ := 1 / (27 * ((ND : ℝ) - 2))
  let p1 := delta mu nu * p sigma
  let p2 := delta nu sigma * p mu
  let p3 := delta sigma mu * p nu
  let p4 := delta mu nu * q sigma
  let p5 := delta nu sigma * q mu
  let p6 := delta sigma mu * q nu
  let p7 := psq * p mu * p nu * p sigma
  let p8 := psq * p mu * p nu * q sigma
  let p9 := psq * p mu * q nu * p sigma
  let p10 := psq * q mu * p nu * p sigma
  let p11 := psq * p mu * q nu * q sigma
  let p12 := psq * q mu * p nu * q sigma
  let p13 := psq * q mu * q nu * p sigma
  let p14 := psq * q mu * q nu * q sigma
  DENOM * (3 * (-2 * p1 + 4 * p10 + 2 * p11 - 4 * p12 + 2 * p13 - 4 * p14 - 5 * p2 + 4 * p3 + 2 * p4 - 4 * p5 + 5 * p6
    + 4 * p7 - 2 * (p8 + p9))) / 2

/-- One of the momenta `mom[ k ]` of `compute_projector`, `triplet_gen.c:435-447`. -/
noncomputable def projector_mom (sinMom : Bool) (L : Latt) (n : ℕ → ℤ) (mu : ℕ) : ℝ :=
  if sinMom then 2 * Real.sin (n mu * twiddle L mu) else n mu * twiddle L mu

/-- The projector of one triplet, the body of the loop of `compute_projector`, `triplet_gen.c:432-465`, as a function of
`z = rho + ND * ( nu + ND * mu )`. -/
noncomputable def compute_projector (tol : ℝ) (sinMom : Bool) (L : Latt) (n0 n1 : ℕ → ℤ) (z : ℕ) : ℝ :=
  get_proj_gracey L.ND tol (projector_mom sinMom L n0) (projector_mom sinMom L n1)
    (z / (L.ND * L.ND) % L.ND) (z / L.ND % L.ND) (z % L.ND)

/-- `psq` of the loop of `write_nonexceptional_g2g3`, `MOMggg.c:141-159`: of the first momentum of a triplet. -/
noncomputable def vertex_psq (tol : ℝ) (sinMom : Bool) (L : Latt) (n : ℕ → ℤ) : ℝ :=
  let psq := acc (fun mu =>
    let cache := n mu * twiddle L mu
    let temp := if sinMom then 2 * Real.sin (0.5 * cache) else cache
    temp * temp) L.ND
  open Classical in if psq < tol then 1 else psq

/-- One pass of the inner loop of `write_nonexceptional_g2g3`, `MOMggg.c:166-226`: the pair `( g2[ place ], g3[ place ] )`
of the triplet `v`, when `psq` is that of its orbit. -/
noncomputable def vertexEntry (NC : ℕ) (tol : ℝ) (sinMom : Bool) (L : Latt) (A : Gauge) (psq : ℝ)
    (v : Vec × Vec × Vec) : ℝ × ℝ :=
  let g2_norm : ℝ := 2 / (3 * (NC * NC - 1) * (L.ND - 1) * volume L)
  let g3_norm : ℝ := 4 / (volume L * NC * (NC * NC - 1))
  let oneOpsq := g3_norm / psq
  let proj := compute_projector tol sinMom L v.1.MOM v.2.1.MOM
  let sum := forN (L.ND * L.ND * L.ND) (fun z (s : ℝ) => open Classical in
    if |proj z| > tol then
      let rho := z % L.ND
      let nu := (z - z % L.ND) / L.ND % L.ND
      let mu := (z - z % (L.ND * L.ND)) / (L.ND * L.ND) % L.ND
      s - proj z * (trace_abc NC (A (v.1.idx, mu)) (A (v.2.1.idx, nu)) (A (v.2.2.idx, rho))).re
    else s) 0
  let res := acc (fun mu =>
    (trace_ab_dag NC (A (v.1.idx, mu)) (A (v.1.idx, mu))).re
      + (trace_ab_dag NC (A (v.2.1.idx, mu)) (A (v.2.1.idx, mu))).re
      + (trace_ab_dag NC (A (v.2.2.idx, mu)) (A (v.2.2.idx, mu))).re) L.ND
  (res * g2_norm, sum * oneOpsq)

/-- The loop over the orbits, `MOMggg.c:137-230`.  `vs` are the triplets and `g` the arrays `g2`, `g3`; `none` is a read
beyond the triplets. -/
noncomputable def orbits (NC : ℕ) (tol : ℝ) (sinMom : Bool) (L : Latt) (A : Gauge) (vs : List (Vec × Vec × Vec)) :
    List ℕ → ℕ → (ℕ → ℝ × ℝ) → Option (ℕ → ℝ × ℝ)
  | [], _, g => some g
  | n :: trip, checker, g =>
    if n ≠ 0 then
      match vs[checker]? with
      | none => none
      | some first =>
        let psq := vertex_psq tol sinMom L first.1.MOM
        if checker + n ≤ vs.length then
          orbits NC tol sinMom L A vs trip (checker + n) fun place =>
            if checker ≤ place ∧ place < checker + n then
              match vs[place]? with
              | some v => vertexEntry NC tol sinMom L A psq v
              | none => g place
            else g place
        else none
    else orbits NC tol sinMom L A vs trip checker g

/-- The momenta scaled by the whole parts of the ratios of the extents, `triplet_gen.c:123-128` (last entry first). -/
def adjusted (rats : List ℤ) (p : Mom) : Mom := List.zipWith (· * ·) rats p

/-- The three positions stored for a triplet, `triplet_gen.c:139-143`. -/
def positions (rats : List ℤ) (momentum : List Mom) (x : Mom × Mom) : ℤ × ℤ × ℤ :=
  (get_posit (adjusted rats x.1) momentum, get_posit (adjusted rats x.2) momentum,
    get_posit (adjusted (rats.map (- ·)) (plus x.1 x.2)) momentum)

/-- `list[ k ]` for an `int` index: `none` is an access outside the list. -/
def entryAt (list : List Vec) (k : ℤ) : Option Vec := if 0 ≤ k then list[k.toNat]? else none

/-- The three entries of the momentum list of a triplet, `triplet_gen.c:443-445`, `MOMggg.c:146,172-174`,
`cut_output.c` (the momenta that are written out). -/
def entriesAt (list : List Vec) (t : ℤ × ℤ × ℤ) : Option (Vec × Vec × Vec) := do
  return (← entryAt list t.1, ← entryAt list t.2.1, ← entryAt list t.2.2)

/-- The momentum of an entry as a list, last entry first, `MOMggg.c:72-80`. -/
def momOf (ND : ℕ) (v : Vec) : Mom := ((List.range ND).map v.MOM).reverse

/-- What is written to the file: the momenta of the triplets (by their entries in the list), `g2` and `g3`. -/
structure VertexFile where
  triplets : List (Vec × Vec × Vec)
  values : List (ℝ × ℝ)

/-- `get_trip` called with the array `trip` of `nnmax/2` integers, `MOMggg.c:83,97`, `triplet_gen.c:252-282`: `none` is a
write beyond the array.  The numbers in the order of the array. -/
def trip_array (whole : List Bool) (calls nnmax : ℕ) : Option (List ℕ) :=
  if passes nnmax ≤ nnmax / 2 then (get_trip whole calls (passes nnmax)).map fun x => x.2.reverse else none

/-- `read_trip_array`, `triplet_gen.c:471-513`: the numbers of a file of an earlier run, if there is one. `none` stands for a
file that is too short, in which case the result is a failure that `MOMggg.c:97` does not look at. -/
def read_trip_array (file : Option (List ℕ)) (whole : List Bool) (calls nnmax : ℕ) : Option (List ℕ) :=
  match file with
  | none => trip_array whole calls nnmax
  | some l => if nnmax / 2 ≤ l.length then some (l.take (nnmax / 2)) else none

/-- `write_nonexceptional_g2g3`, `MOMggg.c:48-271`, with the triplets of `read_triplet_and_proj`,
`triplet_gen.c:517-626`. `heapT` and `heapG` are what `malloc` returns for the triplets and for `g2`, `g3`; `none` is an
access outside an array. -/
noncomputable def write_nonexceptional_g2g3 (NC : ℕ) (tol : ℝ) (sinMom : Bool) (L : Latt) (A : Gauge) (list : List Vec)
    (rats : List ℤ) (whole : List Bool) (calls nnmax : ℕ) (file : Option (List ℕ)) (heapT : ℕ → ℤ × ℤ × ℤ)
    (heapG : ℕ → ℝ × ℝ) : Option VertexFile :=
  (read_trip_array file whole calls nnmax).bind fun trip =>
  (get_triplet whole calls (fun _ => none) (passes nnmax)).bind fun found =>
  let count := 1 + trip.sum
  if found.1 ≤ count then
    let triplet := fun k => match found.2 k with
      | some x => positions rats (list.map (momOf L.ND)) x
      | none => heapT k
    ((List.range count).mapM fun i => entriesAt list (triplet i)).bind fun vs =>
    (orbits NC tol sinMom L A vs trip 0 heapG).map fun g => ⟨vs, (List.range count).map g⟩
  else none

end GLU.Cuts
