import Verif.Update.Model
import Verif.Field.Model
import Verif.Draught.Model

/-!
# Overrelaxation of the whole lattice, by several threads

`OR_lattice`, `Update/relax.c:76-112`, built without `IMPROVED_SMEARING` and without `SOR`. The loop over the sites of a
colour is an `omp for`; its iterations are interleaved access by access as in `Verif/Sched/Model.lean`, and the barrier
at its end is the condition that all iterations have finished.
-/

namespace GLU.Update

open GLU.Mat GLU.Geom GLU.Sched GLU.Field

/-- The values the link takes one after the other in `overrelax`, `relax.c:57-70`, for the subgroups in the list. It ends
early where a projection is undefined. -/
noncomputable def orValues (NC : ℕ) (staple : Arr ℂ) : List ℕ → Arr ℂ → List (Arr ℂ)
  | [], _ => []
  | i :: is, U =>
    match only_subgroup NC U staple i with
    | none => []
    | some s =>
      let t := microcanonical s.1 s.2.1
      let U := su2_rotate NC U t.1 t.2 i
      U :: orValues NC staple is U

/-- `overrelax` on the link of an iteration of the site loop, `relax.c:106`. -/
noncomputable def orUpd (NC : ℕ) (staple U : Arr ℂ) : List (Arr ℂ) :=
  orValues NC staple (List.range (NSU2SUBGROUPS NC)) U

/-- The loop over the sites of one colour in one direction, `relax.c:100-107`: from the links `f` the team can come to the
links `f'`. Every update has to be defined. -/
def OrColour (NC : ℕ) (L : Latt) (S : List ℕ) (mu : ℕ) (f f' : Gauge) : Prop :=
  (∀ x ∈ S, overrelax NC (f (x, mu)) (staple NC L f x mu L.ND) ≠ none) ∧
  ∃ sched : List ℕ, (∀ x ∈ sched, x ∈ S) ∧
    (∀ x ∈ S, (run mu ⟨linkTask L (ops NC) (zero_mat NC scratch) (orUpd NC) mu, f⟩ sched).task x = .done) ∧
    f' = (run mu ⟨linkTask L (ops NC) (zero_mat NC scratch) (orUpd NC) mu, f⟩ sched).mem

/-- `OR_lattice`, `relax.c:95-109`: the first `n` passes of the loop over `cmu`; `nc` colours with the sites `sq`. -/
inductive OrLattice (NC : ℕ) (L : Latt) (nc : ℕ) (sq : ℕ → List ℕ) (f : Gauge) : ℕ → Gauge → Prop
  | start : OrLattice NC L nc sq f 0 f
  | pass {n : ℕ} {g h : Gauge} : OrLattice NC L nc sq f n g → OrColour NC L (sq (n % nc)) (n / nc) g h →
      OrLattice NC L nc sq f (n + 1) h

/-- The overrelaxations of `update_lattice`, `Update/KPHB.c:114-118`: `k` of them. -/
inductive OrMany (NC : ℕ) (L : Latt) (nc : ℕ) (sq : ℕ → List ℕ) (f : Gauge) : ℕ → Gauge → Prop
  | start : OrMany NC L nc sq f 0 f
  | sweep {k : ℕ} {g h : Gauge} : OrMany NC L nc sq f k g → OrLattice NC L nc sq g (L.ND * nc) h →
      OrMany NC L nc sq f (k + 1) h

/-- An iteration of the site loop carried out in one piece, `relax.c:101-107`. -/
noncomputable def orSite (NC : ℕ) (L : Latt) (mu x : ℕ) (f : Gauge) : Option Gauge :=
  (overrelax NC (f (x, mu)) (staple NC L f x mu L.ND)).map fun V => Function.update f (x, mu) V

/-- The site loop when the team is a single thread: one site after the other, `relax.c:100-107`. -/
noncomputable def orSites (NC : ℕ) (L : Latt) (mu : ℕ) : List ℕ → Gauge → Option Gauge
  | [], f => some f
  | x :: xs, f => (orSite NC L mu x f).bind (orSites NC L mu xs)

/-- `OR_lattice` by a single thread, `relax.c:95-109`: the first `n` passes. -/
noncomputable def orAlone (NC : ℕ) (L : Latt) (nc : ℕ) (sq : ℕ → List ℕ) (n : ℕ) (f : Gauge) : Option Gauge :=
  forN n (fun cmu o => o.bind (orSites NC L (cmu / nc) (sq (cmu % nc)))) (some f)

end GLU.Update
