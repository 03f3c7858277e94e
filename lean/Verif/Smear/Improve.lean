import Verif.Smear.Model
import Verif.Field.Path

/-!
# Improved staples

`all_staples_improve`, `src/Smear/staples.c:84-386` (only compiled with `IMPROVED_SMEARING`), for smearing types other than
`SM_LOG`.
-/

namespace GLU.Smear

open GLU.Geom GLU.Sched GLU.Mat GLU.Field Complex

/-- The sums of staples `c0_stap`, `c1_stap` and `c2_stap` (the last only with `SYMANZIK_ONE_LOOP`). -/
structure Sums where
  c0 : Arr ℂ
  c1 : Arr ℂ
  c2 : Arr ℂ

/-- The loop over `rho`, `staples.c:285-325` (only with `SYMANZIK_ONE_LOOP`), added to `c2`. -/
noncomputable def oneLoop (NC : ℕ) (L : Latt) (lat : Gauge) (i mu dir nu : ℕ) (c2 : Arr ℂ) : Arr ℂ :=
  forN dir (fun rho c2 =>
    if rho ≠ mu ∧ rho ≠ nu then
      let temp := neighbor L i nu
      let a := multab_suNC NC (lat (i, nu)) (lat (temp, rho)) scratch
      let temp := neighbor L temp rho
      let b := multab_suNC NC a (lat (temp, mu)) scratch
      let temp2 := neighbor L i mu
      let temp := neighbor L temp2 rho
      let a := multab_dag_suNC NC b (lat (temp, nu)) scratch
      let b := multab_dag_suNC NC a (lat (temp2, rho)) scratch
      let c2 := a_plus_b NC c2 b
      let temp := back L i nu
      let temp2 := back L temp rho
      let a := multab_dagdag_suNC NC (lat (temp, nu)) (lat (temp2, rho)) scratch
      let b := multab_suNC NC a (lat (temp2, mu)) scratch
      let temp := neighbor L temp2 mu
      let a := multab_suNC NC b (lat (temp, nu)) scratch
      let temp2 := neighbor L temp nu
      let b := multab_suNC NC a (lat (temp2, rho)) scratch
      a_plus_b NC c2 b
    else c2) c2

/-- Body of the loop over `nu`, `staples.c:109-325`; `loop` says whether `SYMANZIK_ONE_LOOP` is defined. -/
noncomputable def improveDir (NC : ℕ) (L : Latt) (lat : Gauge) (loop : Bool) (i mu dir nu : ℕ) (s : Sums) : Sums :=
  if nu = mu then s
  else
    -- top and bottom staple, 110-130
    let t1 := neighbor L i nu
    let a := multab_suNC NC (lat (i, nu)) (lat (t1, mu)) scratch
    let t2 := neighbor L i mu
    let b := multab_dag_suNC NC a (lat (t2, nu)) scratch
    let c0 := a_plus_b NC s.c0 b
    let b1 := back L i nu
    let a := multabdag_suNC NC (lat (b1, nu)) (lat (b1, mu)) scratch
    let b2 := neighbor L b1 mu
    let b := multab_suNC NC a (lat (b2, nu)) scratch
    let c0 := a_plus_b NC c0 b
    -- upright rectangle, 146-159
    let tv1 := neighbor L i nu
    let a := multab_suNC NC (lat (i, nu)) (lat (tv1, nu)) scratch
    let tv2 := neighbor L tv1 nu
    let b := multab_suNC NC a (lat (tv2, mu)) scratch
    let tv3 := neighbor L i mu
    let tv4 := neighbor L tv3 nu
    let a := multab_dag_suNC NC b (lat (tv4, nu)) scratch
    let b := multab_dag_suNC NC a (lat (tv3, nu)) scratch
    let c1 := a_plus_b NC s.c1 b
    -- below, 161-174
    let bv1 := back L i nu
    let bv2 := back L bv1 nu
    let a := multab_dagdag_suNC NC (lat (bv1, nu)) (lat (bv2, nu)) scratch
    let b := multab_suNC NC a (lat (bv2, mu)) scratch
    let bv3 := neighbor L bv2 mu
    let a := multab_suNC NC b (lat (bv3, nu)) scratch
    let bv4 := neighbor L bv3 nu
    let b := multab_suNC NC a (lat (bv4, nu)) scratch
    let c1 := a_plus_b NC c1 b
    -- horizontal, forwards, 183-214
    let tf1 := neighbor L i nu
    let a := multab_suNC NC (lat (i, nu)) (lat (tf1, mu)) scratch
    let tf2 := neighbor L tf1 mu
    let b := multab_suNC NC a (lat (tf2, mu)) scratch
    let tf3 := neighbor L i mu
    let tf4 := neighbor L tf3 mu
    let a := multab_dag_suNC NC b (lat (tf4, nu)) scratch
    let tempstap := equiv NC scratch a
    let bf1 := back L i nu
    let a := multabdag_suNC NC (lat (bf1, nu)) (lat (bf1, mu)) scratch
    let bf2 := neighbor L bf1 mu
    let b := multab_suNC NC a (lat (bf2, mu)) scratch
    let bf3 := neighbor L bf2 mu
    let a := multab_suNC NC b (lat (bf3, nu)) scratch
    let tempstap := a_plus_b NC tempstap a
    let b := multab_dag NC tempstap (lat (tf3, mu)) scratch
    let c1 := a_plus_b NC c1 b
    -- horizontal, backwards, 251-270
    let tb1 := back L i mu
    let tb2 := neighbor L tb1 nu
    let b := multab_suNC NC (lat (tb1, nu)) (lat (tb2, mu)) scratch
    let tb3 := neighbor L tb2 mu
    let a := multab_suNC NC b (lat (tb3, mu)) scratch
    let tb4 := neighbor L i mu
    let b := multab_dag_suNC NC a (lat (tb4, nu)) scratch
    let tempstap := equiv NC tempstap b
    let bb2 := back L tb1 nu
    let b := multabdag_suNC NC (lat (bb2, nu)) (lat (bb2, mu)) scratch
    let bb3 := neighbor L bb2 mu
    let a := multab_suNC NC b (lat (bb3, mu)) scratch
    let bb4 := neighbor L bb3 mu
    let b := multab_suNC NC a (lat (bb4, nu)) scratch
    let tempstap := a_plus_b NC tempstap b
    let b := multabdag NC (lat (tb1, mu)) tempstap scratch
    let c1 := a_plus_b NC c1 b
    ⟨c0, c1, if loop then oneLoop NC L lat i mu dir nu s.c2 else s.c2⟩

/-- All three sums, `staples.c:100-326`. -/
noncomputable def improveSums (NC : ℕ) (L : Latt) (lat : Gauge) (loop : Bool) (i mu dir : ℕ) : Sums :=
  forN dir (improveDir NC L lat loop i mu dir) ⟨zero_mat NC scratch, zero_mat NC scratch, zero_mat NC scratch⟩

/-- `all_staples_improve`, `staples.c:87-384`; `w` are the weights of lines 328-335.  The code for two and three colours,
336-369, is the loop of line 371 unrolled; `stap` is overwritten. -/
noncomputable def all_staples_improve (NC : ℕ) (L : Latt) (lat : Gauge) (loop : Bool) (w : ℝ × ℝ × ℝ) (i mu dir : ℕ)
    (stap : Arr ℂ) : Arr ℂ :=
  let s := improveSums NC L lat loop i mu dir
  let stap := fun k => if k < NC * NC then (w.1 : ℂ) * s.c0 k + (w.2.1 : ℂ) * s.c1 k else stap k
  if loop then fun k => if k < NC * NC then stap k + (w.2.2 : ℂ) * s.c2 k else stap k else stap

/-- `IWA_WEIGHT1` and `IWA_WEIGHT2` with `SYMANZIK`, `Headers/GLU_definitions.h:557-558`; `eps` is the over-improvement `epsilon`. -/
noncomputable def symanzik (eps : ℝ) : ℝ × ℝ := ((5 - 2 * eps) / 3, -(1 - eps) / 12)

/-- The same with `IWASAKI`, `Headers/GLU_definitions.h:561-562`. -/
noncomputable def iwasaki (eps : ℝ) : ℝ × ℝ := (1 + 2.648 * (1 - eps), -0.331 * (1 - eps))

/-- The same with `DBW2`, `Headers/GLU_definitions.h:565-566`. -/
noncomputable def dbw2 (eps : ℝ) : ℝ × ℝ := (1 + 11.2536 * (1 - eps), -1.4069 * (1 - eps))

end GLU.Smear
