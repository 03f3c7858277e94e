import Verif.Gfix.FA
import Verif.Mat.PackProps

/-!
# What the planes of the Fourier-accelerated method stand for
-/

namespace GLU.Gfix

open Complex Matrix Finset GLU.Mat

/-- Entry `r ≤ c`, `r < NC - 1`, of the matrix the planes stand for at one site.  Three colours put the two
independent diagonal entries into the first plane. -/
noncomputable def upper (NC : ℕ) (inp : ℕ → ℂ) (r c : ℕ) : ℂ :=
  if NC = 3 then
    if r = c then (if r = 0 then I * (inp 0).im else -I * (inp 0).re)
    else if r = 0 then inp c else inp 3
  else if NC = 2 then (if r = c then I * (inp 0).im else inp 1)
  else inp (packedPos NC r c)

/-- The anti-Hermitian traceless matrix the planes stand for at one site: the direction of the step. -/
noncomputable def direction (NC : ℕ) (inp : ℕ → ℂ) : Matrix (Fin NC) (Fin NC) ℂ := fun r c =>
  if (r : ℕ) < c then upper NC inp r c
  else if (c : ℕ) < r then -star (upper NC inp c r)
  else if (r : ℕ) < NC - 1 then upper NC inp r r
  else -∑ k ∈ range (NC - 1), upper NC inp k k

/-- Four or more colours store the diagonal entries, which have to be imaginary. -/
def ImagDiag (NC : ℕ) (inp : ℕ → ℂ) : Prop := 3 < NC → ∀ r < NC - 1, (inp (packedPos NC r r)).re = 0

end GLU.Gfix
