import Verif.Update.SweepModel

/-!
# Updates of the lattice where a division by zero is carried on

`hb_lattice`, `Update/hb.c:154-194`, `OR_lattice`, `Update/relax.c:74-112` and `update_lattice`,
`Update/KPHB.c:101-120`, built without `IMPROVED_SMEARING` and `SOR` and with `USE_KP`. A link is `none` once a division by
zero or the logarithm of zero has gone into it: the program goes on with what these give (NaN or infinity). The random
numbers an iteration draws are a stream of their own; as the stream is arbitrary this covers every way in which the
iterations of a thread use up the numbers of the thread.
-/

namespace GLU.Update

open GLU.Mat GLU.Geom GLU.Sched GLU.Field

/-- A link with a value, or one that was spoilt. -/
abbrev Spoilt := Option (Arr ℂ)

/-- The operations of `all_staples`, `staples.c:72-78`, on links that can be spoilt. -/
noncomputable def opsS (NC : ℕ) : MatOps Spoilt where
  multab b c := b.bind fun b => c.map fun c => (ops NC).multab b c
  multab_dag b c := b.bind fun b => c.map fun c => (ops NC).multab_dag b c
  multabdag b c := b.bind fun b => c.map fun c => (ops NC).multabdag b c
  a_plus_b b c := b.bind fun b => c.map fun c => (ops NC).a_plus_b b c

/-- The first `k` passes of the loop of `hb`, `hb.c:141-150`. -/
noncomputable def hbPart (NC : ℕ) (U staple : Arr ℂ) (invbeta : ℝ) (r : ℕ → ℝ) (k : ℕ) : Option (Arr ℂ × ℕ) :=
  forN k (fun i st => st.bind fun st =>
    (only_subgroup NC st.1 staple i).bind fun s =>
      (generate_SU2 s.1 s.2.1 (invbeta * s.2.2) r st.2).map fun g =>
        (su2_rotate NC st.1 g.1.1 g.1.2 i, g.2)) (some (U, 0))

/-- The values the link takes in `hb.c:188-189`: after every subgroup, and after `gram_reunit`. -/
noncomputable def hbUpdS (NC : ℕ) (invbeta : ℝ) (r : ℕ → ℝ) (array : Arr ℂ) (staple U : Spoilt) : List Spoilt :=
  (List.range (NSU2SUBGROUPS NC)).map (fun k => U.bind fun U => staple.bind fun st =>
    (hbPart NC U st invbeta r (k + 1)).map Prod.fst) ++
  [U.bind fun U => staple.bind fun st => (hbLink NC U st invbeta r 0 array).map Prod.fst]

/-- The first `k` passes of the loop of `overrelax`, `relax.c:57-70`. -/
noncomputable def orPart (NC : ℕ) (U staple : Arr ℂ) (k : ℕ) : Spoilt :=
  forN k (fun i U => U.bind fun U =>
    (only_subgroup NC U staple i).map fun s =>
      let t := microcanonical s.1 s.2.1
      su2_rotate NC U t.1 t.2 i) (some U)

/-- The values the link takes in `relax.c:106`. -/
noncomputable def orUpdS (NC : ℕ) (staple U : Spoilt) : List Spoilt :=
  (List.range (NSU2SUBGROUPS NC)).map fun k => U.bind fun U => staple.bind fun st => orPart NC U st (k + 1)

/-- The loop over the sites of a colour, `hb.c:183-190` or `relax.c:101-107`; `upd x` is what is done to the link of the
site `x`. -/
def Colour (NC : ℕ) (L : Latt) (upd : ℕ → Spoilt → Spoilt → List Spoilt) (S : List ℕ) (mu : ℕ)
    (f f' : Loc → Spoilt) : Prop :=
  ∃ sched : List ℕ, (∀ x ∈ sched, x ∈ S) ∧
    (∀ x ∈ S, (run mu ⟨fun x => linkTask L (opsS NC) (some (zero_mat NC scratch)) (upd x) mu x, f⟩ sched).task x = .done) ∧
    f' = (run mu ⟨fun x => linkTask L (opsS NC) (some (zero_mat NC scratch)) (upd x) mu x, f⟩ sched).mem

/-- A number `par_rng_dbl` can return. -/
def IsStream (r : ℕ → ℝ) : Prop := ∀ n, 0 ≤ r n ∧ r n < 1

/-- `hb_lattice`, `hb.c:177-191`: the first `n` passes of the loop over `cmu`. -/
inductive HbPasses (NC : ℕ) (L : Latt) (invbeta : ℝ) (nc : ℕ) (sq : ℕ → List ℕ) (f : Loc → Spoilt) :
    ℕ → (Loc → Spoilt) → Prop
  | start : HbPasses NC L invbeta nc sq f 0 f
  | pass {n : ℕ} {g h : Loc → Spoilt} (r : ℕ → ℕ → ℝ) (array : ℕ → Arr ℂ) : HbPasses NC L invbeta nc sq f n g →
      (∀ x, IsStream (r x)) →
      Colour NC L (fun x => hbUpdS NC invbeta (r x) (array x)) (sq (n % nc)) (n / nc) g h →
      HbPasses NC L invbeta nc sq f (n + 1) h

/-- `OR_lattice`, `relax.c:95-109`: the first `n` passes of the loop over `cmu`. -/
inductive OrPasses (NC : ℕ) (L : Latt) (nc : ℕ) (sq : ℕ → List ℕ) (f : Loc → Spoilt) : ℕ → (Loc → Spoilt) → Prop
  | start : OrPasses NC L nc sq f 0 f
  | pass {n : ℕ} {g h : Loc → Spoilt} : OrPasses NC L nc sq f n g →
      Colour NC L (fun _ => orUpdS NC) (sq (n % nc)) (n / nc) g h → OrPasses NC L nc sq f (n + 1) h

/-- `update_lattice`, `KPHB.c:101-120`: a heat bath and `Nor` overrelaxations. -/
inductive Update (NC : ℕ) (L : Latt) (invbeta : ℝ) (nc : ℕ) (sq : ℕ → List ℕ) (f : Loc → Spoilt) :
    ℕ → (Loc → Spoilt) → Prop
  | heat {g : Loc → Spoilt} : HbPasses NC L invbeta nc sq f (L.ND * nc) g → Update NC L invbeta nc sq f 0 g
  | relax {Nor : ℕ} {g h : Loc → Spoilt} : Update NC L invbeta nc sq f Nor g → OrPasses NC L nc sq g (L.ND * nc) h →
      Update NC L invbeta nc sq f (Nor + 1) h

/-- The loops of `hb_update` that call it, `KPHB.c:184-193` and `205-240`: `n` updates, each with `Nor`
overrelaxations. -/
inductive Updates (NC : ℕ) (L : Latt) (invbeta : ℝ) (nc : ℕ) (sq : ℕ → List ℕ) (Nor : ℕ) (f : Loc → Spoilt) :
    ℕ → (Loc → Spoilt) → Prop
  | start : Updates NC L invbeta nc sq Nor f 0 f
  | more {n : ℕ} {g h : Loc → Spoilt} : Updates NC L invbeta nc sq Nor f n g → Update NC L invbeta nc sq g Nor h →
      Updates NC L invbeta nc sq Nor f (n + 1) h

end GLU.Update
