import Verif.Cuts.Gluon
import Verif.Mat.Lie

/-!
# The exceptional three-gluon vertex: `src/Cuts/MOMgg.c`

As in `Gluon.lean`: real and complex numbers for floating point, a build with FFTW, no failures of `malloc`.
-/

namespace GLU.Cuts

open Complex GLU.Mat GLU.Geom GLU.Field

/-- The three builds of the contraction: `LIE_PROJECTION`, `TRACE_PROJECTION`, neither (the default). -/
inductive Contraction
  | lies
  | traces
  | matrices
  deriving DecidableEq

/-- `contraction_lies`, `MOMgg.c:38-63`.  `none` where `ifabc_ABC` is not modelled (more than three colours). -/
noncomputable def contraction_lies (NC : ℕ) (L : Latt) (A : Gauge) (posit conj lzero_mat : ℕ) (mom : ℕ → ℝ)
    (spsq : ℝ) : Option ℂ := do
  let res ← forN L.ND (fun mu (s : Option ℂ) => forN L.ND (fun nu (s : Option ℂ) => forN L.ND (fun rho (s : Option ℂ) => do
    let res ← s
    let tr ← ifabc_ABC NC (A (posit, mu)) (A (conj, nu)) (A (lzero_mat, rho))
    return res + (if mu ≠ nu then ((-mom mu * mom nu / spsq * mom rho : ℝ) : ℂ) * tr
      else (((1 - mom mu * mom nu / spsq) * mom rho : ℝ) : ℂ) * tr)) s) s) (some 0)
  return res / (4 * spsq : ℝ)

/-- `contraction_traces`, `MOMgg.c:66-90`. -/
noncomputable def contraction_traces (NC : ℕ) (L : Latt) (A : Gauge) (posit conj lzero_mat : ℕ) (mom : ℕ → ℝ)
    (spsq : ℝ) : ℂ :=
  let invspsq : ℝ := open Classical in if spsq = 0 then 1 else 1 / spsq
  forN L.ND (fun mu (s : ℂ) => forN L.ND (fun nu (s : ℂ) => forN L.ND (fun rho (s : ℂ) =>
    let tr := trace_abc NC (A (posit, mu)) (A (conj, nu)) (A (lzero_mat, rho))
    s + (if mu ≠ nu then ((-mom mu * mom nu * invspsq * mom rho : ℝ) : ℂ) * tr
      else (((1 - mom mu * mom nu * invspsq) * mom rho : ℝ) : ℂ) * tr)) s) s) 0 * invspsq

/-- The matrices `AA`, `Arho`, `AP`, `AM` of `contraction_matrices`, `MOMgg.c:100-117`, in this order. -/
noncomputable def contraction_sums (NC : ℕ) (L : Latt) (A : Gauge) (posit conj lzero_mat : ℕ) (mom : ℕ → ℝ)
    (spsq : ℝ) : Arr ℂ × Arr ℂ × Arr ℂ × Arr ℂ :=
  let z := zero_mat NC scratch
  forN L.ND (fun mu (s : Arr ℂ × Arr ℂ × Arr ℂ × Arr ℂ) =>
    (a_plus_b NC s.1 (multab NC (A (posit, mu)) (A (conj, mu)) scratch),
     a_plus_Sxb NC s.2.1 (A (lzero_mat, mu)) (mom mu),
     a_plus_Sxb NC s.2.2.1 (A (posit, mu)) (mom mu),
     a_plus_Sxb NC s.2.2.2 (A (conj, mu)) (-mom mu / spsq))) (z, z, z, z)

/-- `contraction_matrices`, `MOMgg.c:92-122`. -/
noncomputable def contraction_matrices (NC : ℕ) (L : Latt) (A : Gauge) (posit conj lzero_mat : ℕ) (mom : ℕ → ℝ)
    (spsq : ℝ) : ℂ :=
  let s := contraction_sums NC L A posit conj lzero_mat mom spsq
  (trace_ab NC s.1 s.2.1 + trace_abc NC s.2.1 s.2.2.1 s.2.2.2) / (spsq : ℝ)

/-- The contraction of the build. -/
noncomputable def contraction (c : Contraction) (NC : ℕ) (L : Latt) (A : Gauge) (posit conj lzero_mat : ℕ)
    (mom : ℕ → ℝ) (spsq : ℝ) : Option ℂ :=
  match c with
  | .lies => contraction_lies NC L A posit conj lzero_mat mom spsq
  | .traces => some (contraction_traces NC L A posit conj lzero_mat mom spsq)
  | .matrices => some (contraction_matrices NC L A posit conj lzero_mat mom spsq)

/-- One pass of the loop of `write_exceptional_g2g3_MOMgg`, `MOMgg.c:171-205`: the pair `(g2[i], g3[i])`.  `psq_calc`
(`MOMgg.c:126-145`) is the function of the same name of `glueprop.c`. -/
noncomputable def exceptionalEntry (c : Contraction) (NC : ℕ) (tol : ℝ) (sinMom : Bool) (L : Latt) (A : Gauge)
    (isZero : Bool) (posit conj lzero_mat : ℕ) : Option (ℝ × ℝ) := do
  let g2_norm : ℝ := 2 / ((NC * NC - 1) * (L.ND - 1) * volume L)
  let g0_norm : ℝ := 2 / ((NC * NC - 1) * L.ND * volume L)
  let g3_norm : ℝ := 4 / (2 * NC * (NC * NC - 1) * (L.ND - 1) * volume L)
  let g2 := acc (fun mu => (trace_ab NC (A (posit, mu)) (A (conj, mu))).re) L.ND
  let g2 := if isZero then g2 * g0_norm else g2 * g2_norm
  let t ← contraction c NC L A posit conj lzero_mat (psq_mom sinMom L posit) (psq_calc tol sinMom L posit)
  return (g2, t.re * g3_norm)

/-- `write_exceptional_g2g3_MOMgg`, `MOMgg.c:147-218`: the array of pairs `(g2[i], g3[i])` that is written out, of the
length of the list.  `none` is the read of an element of an empty list, which is undefined (or a contraction that is
not modelled). -/
noncomputable def write_exceptional_g2g3_MOMgg (c : Contraction) (NC : ℕ) (tol : ℝ) (sinMom : Bool) (L : Latt)
    (A : Gauge) (list : List Vec) : Option (List (ℝ × ℝ)) :=
  if list.length = 0 then none else
    let posit_zero_mat := (list.length - 1) / 2
    (List.range list.length).mapM fun i => do
      let z ← list[posit_zero_mat]?
      let v ← list[i]?
      let w ← list[list.length - i - 1]?
      exceptionalEntry c NC tol sinMom L A (i == posit_zero_mat) v.idx w.idx z.idx

/-- The case `EXCEPTIONAL` of `cuts_struct`, `cuts.c:112-184`. -/
noncomputable def exceptional (c : Contraction) (NC : ℕ) (tol : ℝ) (sinMom : Bool) (L : Latt) (sign : ℝ)
    (log : Arr ℂ → Arr ℂ) (keep : (ℕ → ℤ) → Bool) (A : Gauge) : Option (List (ℝ × ℝ)) :=
  match compute_veclist L keep L.ND false with
  | none => none
  | some list => write_exceptional_g2g3_MOMgg c NC tol sinMom L
      (correct_pspace_landau NC L sign list L.ND (mom_gauge NC L sign log A)) list

end GLU.Cuts
