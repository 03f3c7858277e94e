import Verif.U1.Model

/-!
# What a U(1) field has to satisfy

Definitions used by the statements of the theorems about U(1) fields, independent of the loops of the model.
-/

namespace GLU.U1

open Complex Finset GLU.Mat GLU.Geom GLU.Field

/-- The momenta of the sites `i` and `b` of the transformed lattice add up to zero, modulo the extents. -/
def Opposite (L : Latt) (i b : ℕ) : Prop := ∀ mu < L.ND, L.dims mu ∣ coord L L.ND i mu + coord L L.ND b mu

instance (L : Latt) (i b : ℕ) : Decidable (Opposite L i b) := inferInstanceAs (Decidable (∀ mu < L.ND, _))

/-- The momentum of the site `i` has no spatial part. -/
def NoSpatial (L : Latt) (i : ℕ) : Prop := ∀ mu < L.ND - 1, coord L L.ND i mu = 0

instance (L : Latt) (i : ℕ) : Decidable (NoSpatial L i) := inferInstanceAs (Decidable (∀ mu < L.ND - 1, _))

/-- The square of the lattice momentum of the site `i`: `Σ_mu ( 2 sin( p_mu / 2 ) )^2`, `p_mu = 2 pi k_mu / L_mu`. -/
noncomputable def latticeSq (L : Latt) (i : ℕ) : ℝ :=
  ∑ mu ∈ range L.ND, (2 * Real.sin (Real.pi * (coord L L.ND i mu : ℝ) / (L.dims mu : ℝ))) ^ 2

/-- The angle of the elementary square at `x` in the plane `mu`, `nu` of a field of angles. -/
def curl (L : Latt) (A : ℕ → ℕ → ℝ) (x mu nu : ℕ) : ℝ :=
  A mu x + A nu (neighbor L x mu) - A mu (neighbor L x nu) - A nu x

/-- The gauge transform of a field of angles: `A_mu(x) + w(x) - w(x+mu)`. -/
def gauged (L : Latt) (w : ℕ → ℝ) (A : ℕ → ℕ → ℝ) : ℕ → ℕ → ℝ :=
  fun mu x => A mu x + w x - w (neighbor L x mu)

/-- The real parts. -/
def angles (O : Fields) : ℕ → ℕ → ℝ := fun mu x => (O mu x).re

/-- The average of `f x mu nu` over all sites `x` and planes `nu < mu`. -/
noncomputable def planeMean (L : Latt) (f : ℕ → ℕ → ℕ → ℝ) : ℝ :=
  (∑ x ∈ range (volume L), ∑ mu ∈ range L.ND, ∑ nu ∈ range mu, f x mu nu) /
    ((volume L : ℝ) * ((L.ND : ℝ) * ((L.ND : ℝ) - 1) / 2))

end GLU.U1
