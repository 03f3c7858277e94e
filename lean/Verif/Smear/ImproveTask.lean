import Verif.Smear.Improve
import Verif.Sched.Model

/-!
# Parallel update with improved staples

`src/Update/hb.c:161-175` and `src/Update/relax.c:80-93`, as programs that read and write one link at a time, in the style of
`Verif.Sched.Model`.
-/

namespace GLU.Smear

open GLU.Geom GLU.Sched GLU.Mat GLU.Field

/-- Links read by the pass `nu` of the improved staple, `src/Smear/staples.c:109-325`, in the order of the source text; `loop` says
whether `SYMANZIK_ONE_LOOP` is defined. -/
def passLinks (L : Latt) (loop : Bool) (i mu dir nu : ℕ) : List Loc :=
  if nu = mu then []
  else
    let f := neighbor L
    let b := back L
    [-- 110-130
     (i, nu), (f i nu, mu), (f i mu, nu), (b i nu, nu), (b i nu, mu), (f (b i nu) mu, nu),
     -- 146-159
     (i, nu), (f i nu, nu), (f (f i nu) nu, mu), (f (f i mu) nu, nu), (f i mu, nu),
     -- 161-174
     (b i nu, nu), (b (b i nu) nu, nu), (b (b i nu) nu, mu), (f (b (b i nu) nu) mu, nu), (f (f (b (b i nu) nu) mu) nu, nu),
     -- 183-214
     (i, nu), (f i nu, mu), (f (f i nu) mu, mu), (f (f i mu) mu, nu), (b i nu, nu), (b i nu, mu), (f (b i nu) mu, mu),
     (f (f (b i nu) mu) mu, nu), (f i mu, mu),
     -- 251-270
     (b i mu, nu), (f (b i mu) nu, mu), (f (f (b i mu) nu) mu, mu), (f i mu, nu), (b (b i mu) nu, nu), (b (b i mu) nu, mu),
     (f (b (b i mu) nu) mu, mu), (f (f (b (b i mu) nu) mu) mu, nu), (b i mu, mu)] ++
    if loop then (List.range dir).flatMap fun rho =>
      -- 285-325
      if rho ≠ mu ∧ rho ≠ nu then
        [(i, nu), (f i nu, rho), (f (f i nu) rho, mu), (f (f i mu) rho, nu), (f i mu, rho),
         (b i nu, nu), (b (b i nu) rho, rho), (b (b i nu) rho, mu), (f (b (b i nu) rho) mu, nu), (f (f (b (b i nu) rho) mu) nu, rho)]
      else []
    else []

/-- All links read by the improved staple. -/
def stapleLinks (L : Latt) (loop : Bool) (i mu dir : ℕ) : List Loc :=
  (List.range dir).flatMap (passLinks L loop i mu dir)

/-- Read the links of the list one after the other and go on with the values read. -/
def readLinks {M : Type} : List Loc → (Loc → M) → ((Loc → M) → Prog M) → Prog M
  | [], f, k => k f
  | l :: ls, f, k => .read l fun v => readLinks ls (Function.update f l v) k

/-- One iteration of the update loop, `hb.c:167-174` and `relax.c:86-92`: build the improved staple from the links it reads, then
overwrite the link.  `upd stap U` lists the values the link takes one after the other.  If a link is read twice the last value
counts for both places; the theorems about this program show that both reads find the same value. -/
noncomputable def improveTask (NC : ℕ) (L : Latt) (loop : Bool) (w : ℝ × ℝ × ℝ) (upd : Arr ℂ → Arr ℂ → List (Arr ℂ)) (mu i : ℕ) :
    Prog (Arr ℂ) :=
  readLinks (stapleLinks L loop i mu L.ND) (fun _ => scratch) fun f =>
    .read (i, mu) fun U => writeAll (upd (all_staples_improve NC L f loop w i mu L.ND (zero_mat NC scratch)) U)

end GLU.Smear
