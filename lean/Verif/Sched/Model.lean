import Verif.Geom.Model

/-!
# Parallel update of the links of one colour

`src/Update/hb.c:178-191`, `src/Update/relax.c:96-109` and
`src/Smear/staples.c:32-82`, as programs that read and write one link at a time,
interleaved arbitrarily.
-/

namespace GLU.Sched

open GLU.Geom

/-- The link `lat[site].O[direction]`. -/
abbrev Loc := ℕ × ℕ

/-- The matrix operations used by `all_staples`, with their C names:
`multab_suNC`, `multab_dag_suNC`, `multabdag_suNC` and `a_plus_b`. -/
structure MatOps (M : Type) where
  multab : M → M → M
  multab_dag : M → M → M
  multabdag : M → M → M
  a_plus_b : M → M → M

/-- What one loop iteration of a thread still has to do.  `write` stores to the
link that the iteration updates.  Between two steps of one thread any number of
steps of other threads may happen.  A link is read or written in one step; torn
accesses would only be visible for conflicting accesses, and the theorem about
this model shows that there are none. -/
inductive Prog (M : Type) where
  | done : Prog M
  | read (l : Loc) (k : M → Prog M) : Prog M
  | write (v : M) (k : Prog M) : Prog M

/-- Direction `nu` of pass `j` of the staple loop, `staples.c:65`. -/
def stapleDir (mu j : ℕ) : ℕ := if j < mu then j else j + 1

/-- The staple loop, `staples.c:64-79` (the branch used by the updates, which pass
`SM_APE`), over the passes in the list, continuing with the staple.  The links
are read in the order of the source text. -/
def stapleProg {M : Type} (L : Latt) (ops : MatOps M) (i mu : ℕ) :
    List ℕ → M → (M → Prog M) → Prog M
  | [], stap, k => k stap
  | j :: js, stap, k =>
    let nu := stapleDir mu j
    let t1 := neighbor L i nu
    let t2 := neighbor L i mu
    let b1 := back L i nu
    let b2 := neighbor L b1 mu
    .read (i, nu) fun u1 => .read (t1, mu) fun u2 =>
      let a := ops.multab u1 u2
      .read (t2, nu) fun u3 =>
        let b := ops.multab_dag a u3
        let stap := ops.a_plus_b stap b
        .read (b1, nu) fun u4 => .read (b1, mu) fun u5 =>
          let a := ops.multabdag u4 u5
          .read (b2, nu) fun u6 =>
            let b := ops.multab a u6
            let stap := ops.a_plus_b stap b
            stapleProg L ops i mu js stap k

/-- Successive in-place writes to the link. -/
def writeAll {M : Type} : List M → Prog M
  | [] => .done
  | v :: vs => .write v (writeAll vs)

/-- One iteration of the update loop, `hb.c:183-190` and `relax.c:101-107`: build
the staple, then overwrite the link.  `upd stap U` lists the values the link
takes one after the other (`su2_rotate` for each subgroup, then `gram_reunit`);
the update is taken as an arbitrary function of staple and link, so the random
numbers of the heat bath are not modelled here. -/
def linkTask {M : Type} (L : Latt) (ops : MatOps M) (zero : M) (upd : M → M → List M) (mu i : ℕ) :
    Prog M :=
  stapleProg L ops i mu (List.range (L.ND - 1)) zero fun stap =>
    .read (i, mu) fun U => writeAll (upd stap U)

/-- All iterations of one parallel loop and the links. -/
structure Config (M : Type) where
  task : ℕ → Prog M
  mem : Loc → M

/-- One step of the iteration that handles site `x`. -/
def stepAt {M : Type} (mu : ℕ) (s : Config M) (x : ℕ) : Config M :=
  match s.task x with
  | .done => s
  | .read l k => { s with task := Function.update s.task x (k (s.mem l)) }
  | .write v k => ⟨Function.update s.task x k, Function.update s.mem (x, mu) v⟩

/-- A schedule: the sites whose iterations take the successive steps. -/
def run {M : Type} (mu : ℕ) (s : Config M) (sched : List ℕ) : Config M :=
  sched.foldl (stepAt mu) s

/-- `all_staples` as a function of the links, `staples.c:32-82`, default branch. -/
def all_staples {M : Type} (L : Latt) (ops : MatOps M) (lat : Loc → M) (i mu dir : ℕ) (stap : M) :
    M :=
  (List.range (dir - 1)).foldl (fun stap j =>
    let nu := stapleDir mu j
    let t1 := neighbor L i nu
    let t2 := neighbor L i mu
    let b1 := back L i nu
    let b2 := neighbor L b1 mu
    let top := ops.multab_dag (ops.multab (lat (i, nu)) (lat (t1, mu))) (lat (t2, nu))
    let bot := ops.multab (ops.multabdag (lat (b1, nu)) (lat (b1, mu))) (lat (b2, nu))
    ops.a_plus_b (ops.a_plus_b stap top) bot) stap

end GLU.Sched
