import Verif.Field.Model
import Verif.Mat.Exp

/-!
# The instanton configuration

Model of `Geometry/BPST_config.c` and of the part of `IO/read_config.c` that calls it.  Numbers are real; `SINGULAR` is
defined in the file (`BPST_config.c:28`), so that the singular gauge is modelled.
-/

namespace GLU.Field

open Complex GLU.Mat GLU.Geom GLU.Sched

/-- `atan2` of the C library for arguments that are not both zero. -/
noncomputable def atan2 (y x : ℝ) : ℝ := arg ⟨x, y⟩

/-- `Asing`, `BPST_config.c:31-44`.  `none`: a division by zero. -/
noncomputable def Asing (y : ℕ → ℝ) (rho : ℝ) (mu : ℕ) : Option ℝ :=
  let sums := forN 4 (fun nu (s : ℝ × ℝ) =>
    ((if nu ≠ mu then s.1 + y nu * y nu else s.1), s.2 + (y nu * y nu + y nu))) (0, 0)
  let sum := √(sums.1 + rho * rho)
  let sumr := sums.2 + rho * rho
  if sum = 0 then none else some (atan2 sum sumr / sum)

/-- `t`, `BPST_config.c:56-61`: the Pauli matrices in the upper left corner. -/
noncomputable def pauliArr (NC j : ℕ) : Arr ℂ :=
  let z := zero_mat NC scratch
  if j = 0 then Function.update (Function.update z 1 1) NC 1
  else if j = 1 then Function.update (Function.update z 1 (-I)) NC I
  else Function.update (Function.update z 0 1) (NC + 1) (-1)

/-- `b`, `BPST_config.c:87-91`. -/
def instB (sign : ℝ) (y : ℕ → ℝ) (nu j : ℕ) : ℝ :=
  if nu = 0 then (if j = 0 then -sign * y 3 else if j = 1 then y 2 else -y 1)
  else if nu = 1 then (if j = 0 then -y 2 else if j = 1 then -sign * y 3 else y 0)
  else if nu = 2 then (if j = 0 then y 1 else if j = 1 then -y 0 else -sign * y 3)
  else (if j = 0 then sign * y 0 else if j = 1 then sign * y 1 else sign * y 2)

/-- The matrix that is exponentiated, `BPST_config.c:95-111`, for the position `y` and the direction `nu`. -/
noncomputable def instQ (NC : ℕ) (rho sign : ℝ) (y : ℕ → ℝ) (nu : ℕ) : Option (Arr ℂ) :=
  let temp := forN 3 (fun j (temp : Arr ℂ) =>
    forN (NC * NC) (fun k (temp : Arr ℂ) => Function.update temp k (temp k + instB sign y nu j * pauliArr NC j k)) temp)
    (zero_mat NC scratch)
  (Asing y 0 nu).bind fun c0 => (Asing y rho nu).map fun c1 =>
    let c : ℝ := c0 - c1
    forN (NC * NC) (fun j (temp : Arr ℂ) => Function.update temp j (temp j * c)) temp

/-- The position with respect to the centre, `BPST_config.c:65-69` and `79-84`; `dims[mu]/2` is a division of integers. -/
noncomputable def instY (L : Latt) (x : ℕ → ℤ) (nu : ℕ) : ℝ := (x nu : ℝ) - (((L.dims nu / 2 : ℕ) : ℝ) - 0.5)

/-- The link `lat[i].O[nu]` of `instanton_config` in four dimensions, `BPST_config.c:63-113`. -/
noncomputable def instLink (NC : ℕ) (L : Latt) (i nu : ℕ) (g : Arr ℂ) : Option (Arr ℂ) :=
  (get_mom_2piBZ L i 4).bind fun x => (instQ NC 4 1 (instY L x) nu).bind fun Q => exponentiate NC Q g

/-- `instanton_config`, `BPST_config.c:48-117`: the value returned and the link at each place; the sites are visited
in any order and every link is written once. -/
noncomputable def instanton_config (NC : ℕ) (L : Latt) (lat : Gauge) : ℤ × (Loc → Option (Arr ℂ)) :=
  if L.ND ≠ 4 then (-1, fun l => some (lat l))
  else (0, fun l => if l.1 < volume L ∧ l.2 < L.ND then instLink NC L l.1 l.2 (lat l) else some (lat l))

/-- `get_config_SUNC` for the header `INSTANTON`, `read_config.c:173-175`: the value returned by `instanton_config` is
dropped. -/
noncomputable def readInstanton (NC : ℕ) (L : Latt) (lat : Gauge) : ℤ × (Loc → Option (Arr ℂ)) :=
  (0, (instanton_config NC L lat).2)

end GLU.Field
