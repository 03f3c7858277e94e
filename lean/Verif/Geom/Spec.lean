import Verif.Geom.Model
import Mathlib.Algebra.BigOperators.Ring.Nat
import Mathlib.Algebra.BigOperators.Intervals

/-!
# Specification of the lattice geometry

Stated without the loops of the code: a site is a vector of coordinates, its
index is the mixed-radix number with the first direction fastest.
-/

namespace GLU.Geom

open Finset

/-- Number of sites below direction `k` in a mixed-radix numbering. -/
def radix (d : ℕ → ℕ) (k : ℕ) : ℕ := ∏ nu ∈ range k, d nu

/-- `x` is a vector of coordinates of the lattice. -/
def InRange (L : Latt) (x : ℕ → ℤ) : Prop :=
  ∀ mu < L.ND, 0 ≤ x mu ∧ x mu < L.dims mu

/-- Lexicographical index of a coordinate vector. -/
def lexIndex (L : Latt) (x : ℕ → ℤ) : ℤ :=
  ∑ mu ∈ range L.ND, x mu * (radix L.dims mu : ℤ)

/-- Shapes the code supports: at least two directions, positive extents, and a
volume that fits an `int` (so that no intermediate value is narrowed). -/
structure Valid (L : Latt) : Prop where
  nd : 2 ≤ L.ND
  pos : ∀ mu < L.ND, 0 < L.dims mu
  small : ∏ mu ∈ range L.ND, L.dims mu < 2 ^ 31

/-- Periodic image: two coordinate vectors name the same site. -/
def SameSite (L : Latt) (x y : ℕ → ℤ) : Prop :=
  ∀ mu < L.ND, (L.dims mu : ℤ) ∣ x mu - y mu

end GLU.Geom
