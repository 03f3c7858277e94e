import Verif.Cuts.Gluon

/-!
# Instantaneous gluon propagators: `src/Cuts/3Dcuts.c`

As in `Gluon.lean`: real and complex numbers for floating point, a build with FFTW, no failures of `malloc` and
`fopen`.  The check of the cut at the start of `cuts_spatial` is left out.
-/

namespace GLU.Cuts

open Complex GLU.Mat GLU.Geom GLU.Field

/-- `mom_gauge_spatial`, `3Dcuts.c:44-117`: every element of the matrices is transformed over each time slice.
`small_create_plans_DFT` (`plan_ffts.c:188-240`) is called with `DIR = ND - 1`. -/
noncomputable def mom_gauge_spatial (NC : ℕ) (L : Latt) (sign : ℝ) (log : Arr ℂ → Arr ℂ) (A : Gauge) : Gauge :=
  fun l j => if l.1 < volume L ∧ l.2 < L.ND ∧ j < NC * NC then
      let slice := lcu L * (l.1 / lcu L)
      fftw (L.ND - 1) (fun mu => L.dims (L.ND - 1 - 1 - mu)) sign (fun i => log (A (slice + i, l.2)) j) (l.1 % lcu L)
    else A l j

/-- One pass of the loop of `cuts_spatial`, `3Dcuts.c:191-218`: `(g2_spatial[i], g2_temporal[i])` from the momentum
`p` and its partner `m` in the list. -/
noncomputable def spatialEntry (NC : ℕ) (L : Latt) (A : Gauge) (isMid : Bool) (p m : ℕ) : ℝ × ℝ :=
  let g2_norm : ℝ := if 2 < L.ND then 2 / ((NC * NC - 1) * (L.ND - 2) * volume L) else 2 / ((NC * NC - 1) * volume L)
  let g0_norm : ℝ := if 1 < L.ND then 2 / ((NC * NC - 1) * (L.ND - 1) * volume L) else 2 / ((NC * NC - 1) * volume L)
  let s := forN (L.dims (L.ND - 1)) (fun t (s : ℝ × ℝ) =>
    let mom := lcu L * t + p
    let cnj := lcu L * t + m
    (forN (L.ND - 1) (fun mu (r : ℝ) => r + (trace_ab NC (A (mom, mu)) (A (cnj, mu))).re) s.1,
      s.2 + (trace_ab NC (A (mom, L.ND - 1)) (A (cnj, L.ND - 1))).re)) (0, 0)
  if isMid then (s.1 * g0_norm, s.2 * g0_norm) else (s.1 * g2_norm, s.2 * g2_norm)

/-- `cuts_spatial`, `3Dcuts.c:131-236`: the pairs `(g2_spatial[i], g2_temporal[i])` that are written out.
`correct_pspace_landau` changes the first time slice only.  Of an empty list nothing is read. -/
noncomputable def cuts_spatial (NC : ℕ) (L : Latt) (sign : ℝ) (log : Arr ℂ → Arr ℂ) (keep : (ℕ → ℤ) → Bool)
    (A : Gauge) : Option (List (ℝ × ℝ)) :=
  match compute_veclist L keep (L.ND - 1) false with
  | none => some []
  | some list =>
    let B := correct_pspace_landau NC L sign list (L.ND - 1) (mom_gauge_spatial NC L sign log A)
    let midpoint := (list.length - 1) / 2
    (List.range list.length).mapM fun i => do
      let v ← list[i]?
      let w ← list[list.length - i - 1]?
      return spatialEntry NC L B (i == midpoint) v.idx w.idx

end GLU.Cuts
