import Verif.Field.Model
import Verif.Mat.Proj

/-!
# Field strength, action density and topological charge

`src/Field/clover.c` and `gauge_topological_meas_th` of `src/Field/plaqs_links.c`.  The loops of the clover leaves
are transcribed statement by statement (`u`, `v`, `x`, `y`, `s`, `t` are the temporaries of the code, whose old contents
are never read).  The logarithm definition (`CLOVER_LOG_DEF`) and the two other projections, which have to be switched
on by editing the file, are not modelled.
-/

namespace GLU.Field

open Complex GLU.Mat GLU.Geom GLU.Sched

/-! ## The loops -/

/-- The 1x1 loop of sector 1, `clover.c:83-87`. -/
noncomputable def s1_1x1 (NC : ℕ) (L : Latt) (lat : Gauge) (i mu nu : ℕ) : Arr ℂ :=
  let s1 := neighbor L i mu
  let s2 := neighbor L i nu
  let u := multab_suNC NC (lat (i, mu)) (lat (s1, nu)) scratch
  let v := multab_dag_suNC NC u (lat (s2, mu)) scratch
  let u := multab_dag_suNC NC v (lat (i, nu)) scratch
  u

/-- The 1x1 loop of sector 2, `clover.c:108-112`. -/
noncomputable def s2_1x1 (NC : ℕ) (L : Latt) (lat : Gauge) (i mu nu : ℕ) : Arr ℂ :=
  let s1 := back L i nu
  let s2 := neighbor L s1 mu
  let u := multabdag_suNC NC (lat (s1, nu)) (lat (s1, mu)) scratch
  let v := multab_suNC NC u (lat (s2, nu)) scratch
  let u := multab_dag_suNC NC v (lat (i, mu)) scratch
  u

/-- The 1x1 loop of sector 3, `clover.c:132-137`. -/
noncomputable def s3_1x1 (NC : ℕ) (L : Latt) (lat : Gauge) (i mu nu : ℕ) : Arr ℂ :=
  let s1 := back L i mu
  let s2 := back L s1 nu
  let s3 := back L i nu
  let u := multab_dagdag_suNC NC (lat (s1, mu)) (lat (s2, nu)) scratch
  let v := multab_suNC NC u (lat (s2, mu)) scratch
  let u := multab_suNC NC v (lat (s3, nu)) scratch
  u

/-- The 1x1 loop of sector 4, `clover.c:157-161`. -/
noncomputable def s4_1x1 (NC : ℕ) (L : Latt) (lat : Gauge) (i mu nu : ℕ) : Arr ℂ :=
  let s2 := back L i mu
  let s1 := neighbor L s2 nu
  let u := multab_dag_suNC NC (lat (i, nu)) (lat (s1, mu)) scratch
  let v := multab_dag_suNC NC u (lat (s2, nu)) scratch
  let u := multab_suNC NC v (lat (s2, mu)) scratch
  u

/-- The 2x2 loop of sector 1, `clover.c:191-205`. -/
noncomputable def s1_2x2 (NC : ℕ) (L : Latt) (lat : Gauge) (i mu nu : ℕ) : Arr ℂ :=
  let s1 := neighbor L i mu
  let s2 := neighbor L s1 mu
  let s3 := neighbor L s2 nu
  let u := multab_suNC NC (lat (i, mu)) (lat (s1, mu)) scratch
  let v := multab_suNC NC u (lat (s2, nu)) scratch
  let u := multab_suNC NC v (lat (s3, nu)) scratch
  let s6 := neighbor L i nu
  let s5 := neighbor L s6 nu
  let s4 := neighbor L s5 mu
  let v := multab_dag_suNC NC u (lat (s4, mu)) scratch
  let u := multab_dag_suNC NC v (lat (s5, mu)) scratch
  let v := multab_dag_suNC NC u (lat (s6, nu)) scratch
  let u := multab_dag_suNC NC v (lat (i, nu)) scratch
  u

/-- The 1x2 loop of sector 1, `clover.c:216-224`. -/
noncomputable def s1_1x2 (NC : ℕ) (L : Latt) (lat : Gauge) (i mu nu : ℕ) : Arr ℂ :=
  let s1 := neighbor L i mu
  let s2 := neighbor L s1 nu
  let s3 := neighbor L i nu
  let s4 := neighbor L s3 nu
  let u := multab_suNC NC (lat (i, mu)) (lat (s1, nu)) scratch
  let v := multab_suNC NC u (lat (s2, nu)) scratch
  let u := multab_dag_suNC NC v (lat (s4, mu)) scratch
  let v := multab_dag_suNC NC u (lat (s3, nu)) scratch
  let u := multab_dag_suNC NC v (lat (i, nu)) scratch
  u

/-- The 2x1 loop of sector 1, `clover.c:232-240`. -/
noncomputable def s1_2x1 (NC : ℕ) (L : Latt) (lat : Gauge) (i mu nu : ℕ) : Arr ℂ :=
  let t1 := neighbor L i mu
  let t2 := neighbor L t1 mu
  let u := multab_suNC NC (lat (i, mu)) (lat (t1, mu)) scratch
  let v := multab_suNC NC u (lat (t2, nu)) scratch
  let t3 := neighbor L i nu
  let t4 := neighbor L t3 mu
  let u := multab_dag_suNC NC v (lat (t4, mu)) scratch
  let v := multab_dag_suNC NC u (lat (t3, mu)) scratch
  let u := multab_dag_suNC NC v (lat (i, nu)) scratch
  u

/-- The 1x3 loop of sector 1, `clover.c:251-264`. -/
noncomputable def s1_1x3 (NC : ℕ) (L : Latt) (lat : Gauge) (i mu nu : ℕ) : Arr ℂ :=
  let s1 := neighbor L i mu
  let s2 := neighbor L s1 nu
  let s3 := neighbor L s2 nu
  let u := multab_suNC NC (lat (i, mu)) (lat (s1, nu)) scratch
  let v := multab_suNC NC u (lat (s2, nu)) scratch
  let u := multab_suNC NC v (lat (s3, nu)) scratch
  let s4 := neighbor L s3 nu
  let s5 := back L s4 mu
  let s6 := back L s5 nu
  let s7 := back L s6 nu
  let v := multab_dag_suNC NC u (lat (s5, mu)) scratch
  let u := multab_dag_suNC NC v (lat (s6, nu)) scratch
  let v := multab_dag_suNC NC u (lat (s7, nu)) scratch
  let u := multab_dag_suNC NC v (lat (i, nu)) scratch
  u

/-- The 3x1 loop of sector 1, `clover.c:272-285`. -/
noncomputable def s1_3x1 (NC : ℕ) (L : Latt) (lat : Gauge) (i mu nu : ℕ) : Arr ℂ :=
  let t1 := neighbor L i mu
  let t2 := neighbor L t1 mu
  let t3 := neighbor L t2 mu
  let u := multab_suNC NC (lat (i, mu)) (lat (t1, mu)) scratch
  let v := multab_suNC NC u (lat (t2, mu)) scratch
  let u := multab_suNC NC v (lat (t3, nu)) scratch
  let t4 := neighbor L t3 nu
  let t5 := back L t4 mu
  let t6 := back L t5 mu
  let t7 := back L t6 mu
  let v := multab_dag_suNC NC u (lat (t5, mu)) scratch
  let u := multab_dag_suNC NC v (lat (t6, mu)) scratch
  let v := multab_dag_suNC NC u (lat (t7, mu)) scratch
  let u := multab_dag_suNC NC v (lat (i, nu)) scratch
  u

/-- The 3x3 loop of sector 1, `clover.c:298-319`. -/
noncomputable def s1_3x3 (NC : ℕ) (L : Latt) (lat : Gauge) (i mu nu : ℕ) : Arr ℂ :=
  let s1 := neighbor L i mu
  let s2 := neighbor L s1 mu
  let s3 := neighbor L s2 mu
  let s4 := neighbor L s3 nu
  let s5 := neighbor L s4 nu
  let s := multab_suNC NC (lat (i, mu)) (lat (s1, mu)) scratch
  let v := multab_suNC NC (lat (s2, mu)) (lat (s3, nu)) scratch
  let x := multab_suNC NC (lat (s4, nu)) (lat (s5, nu)) scratch
  let y := multab_suNC NC s v scratch
  let s := multab_suNC NC y x scratch
  let s7 := neighbor L i nu
  let s8 := neighbor L s7 nu
  let s9 := neighbor L s8 nu
  let s10 := neighbor L s9 mu
  let s11 := neighbor L s10 mu
  let t := multab_suNC NC (lat (i, nu)) (lat (s7, nu)) scratch
  let v := multab_suNC NC (lat (s8, nu)) (lat (s9, mu)) scratch
  let x := multab_suNC NC (lat (s10, mu)) (lat (s11, mu)) scratch
  let y := multab_suNC NC t v scratch
  let t := multab_suNC NC y x scratch
  let u := multab_dag_suNC NC s t scratch
  u

/-- The 2x2 loop of sector 2, `clover.c:348-361`. -/
noncomputable def s2_2x2 (NC : ℕ) (L : Latt) (lat : Gauge) (i mu nu : ℕ) : Arr ℂ :=
  let s1 := back L i nu
  let s2 := back L s1 nu
  let s3 := neighbor L s2 mu
  let u := multab_dagdag_suNC NC (lat (s1, nu)) (lat (s2, nu)) scratch
  let v := multab_suNC NC u (lat (s2, mu)) scratch
  let u := multab_suNC NC v (lat (s3, mu)) scratch
  let s4 := neighbor L s3 mu
  let s5 := neighbor L s4 nu
  let s6 := neighbor L i mu
  let v := multab_suNC NC u (lat (s4, nu)) scratch
  let u := multab_suNC NC v (lat (s5, nu)) scratch
  let v := multab_dag_suNC NC u (lat (s6, mu)) scratch
  let u := multab_dag_suNC NC v (lat (i, mu)) scratch
  u

/-- The 1x2 loop of sector 2, `clover.c:372-380`. -/
noncomputable def s2_1x2 (NC : ℕ) (L : Latt) (lat : Gauge) (i mu nu : ℕ) : Arr ℂ :=
  let s1 := back L i nu
  let s2 := back L s1 nu
  let u := multab_dagdag_suNC NC (lat (s1, nu)) (lat (s2, nu)) scratch
  let v := multab_suNC NC u (lat (s2, mu)) scratch
  let s3 := neighbor L s2 mu
  let s4 := neighbor L s3 nu
  let u := multab_suNC NC v (lat (s3, nu)) scratch
  let v := multab_suNC NC u (lat (s4, nu)) scratch
  let u := multab_dag_suNC NC v (lat (i, mu)) scratch
  u

/-- The 2x1 loop of sector 2, `clover.c:388-397`. -/
noncomputable def s2_2x1 (NC : ℕ) (L : Latt) (lat : Gauge) (i mu nu : ℕ) : Arr ℂ :=
  let t1 := back L i nu
  let t2 := neighbor L t1 mu
  let u := multabdag_suNC NC (lat (t1, nu)) (lat (t1, mu)) scratch
  let v := multab_suNC NC u (lat (t2, mu)) scratch
  let t3 := neighbor L t2 mu
  let t4 := neighbor L t3 nu
  let t5 := back L t4 mu
  let u := multab_suNC NC v (lat (t3, nu)) scratch
  let v := multab_dag_suNC NC u (lat (t5, mu)) scratch
  let u := multab_dag_suNC NC v (lat (i, mu)) scratch
  u

/-- The 1x3 loop of sector 2, `clover.c:408-420`. -/
noncomputable def s2_1x3 (NC : ℕ) (L : Latt) (lat : Gauge) (i mu nu : ℕ) : Arr ℂ :=
  let s1 := back L i nu
  let s2 := back L s1 nu
  let s3 := back L s2 nu
  let u := multab_dagdag_suNC NC (lat (s1, nu)) (lat (s2, nu)) scratch
  let v := multab_dag_suNC NC u (lat (s3, nu)) scratch
  let u := multab_suNC NC v (lat (s3, mu)) scratch
  let s4 := neighbor L s3 mu
  let s5 := neighbor L s4 nu
  let s6 := neighbor L s5 nu
  let v := multab_suNC NC u (lat (s4, nu)) scratch
  let u := multab_suNC NC v (lat (s5, nu)) scratch
  let v := multab_suNC NC u (lat (s6, nu)) scratch
  let u := multab_dag_suNC NC v (lat (i, mu)) scratch
  u

/-- The 3x1 loop of sector 2, `clover.c:428-441`. -/
noncomputable def s2_3x1 (NC : ℕ) (L : Latt) (lat : Gauge) (i mu nu : ℕ) : Arr ℂ :=
  let t1 := back L i nu
  let t2 := neighbor L t1 mu
  let t3 := neighbor L t2 mu
  let u := multabdag_suNC NC (lat (t1, nu)) (lat (t1, mu)) scratch
  let v := multab_suNC NC u (lat (t2, mu)) scratch
  let u := multab_suNC NC v (lat (t3, mu)) scratch
  let t4 := neighbor L t3 mu
  let t5 := neighbor L t4 nu
  let t6 := back L t5 mu
  let t7 := back L t6 mu
  let v := multab_suNC NC u (lat (t4, nu)) scratch
  let u := multab_dag_suNC NC v (lat (t6, mu)) scratch
  let v := multab_dag_suNC NC u (lat (t7, mu)) scratch
  let u := multab_dag_suNC NC v (lat (i, mu)) scratch
  u

/-- The 3x3 loop of sector 2, `clover.c:454-476`. -/
noncomputable def s2_3x3 (NC : ℕ) (L : Latt) (lat : Gauge) (i mu nu : ℕ) : Arr ℂ :=
  let s1 := back L i nu
  let s2 := back L s1 nu
  let s3 := back L s2 nu
  let s4 := neighbor L s3 mu
  let s5 := neighbor L s4 mu
  let s := multab_dagdag_suNC NC (lat (s1, nu)) (lat (s2, nu)) scratch
  let v := multabdag_suNC NC (lat (s3, nu)) (lat (s3, mu)) scratch
  let x := multab_suNC NC (lat (s4, mu)) (lat (s5, mu)) scratch
  let y := multab_suNC NC s v scratch
  let s := multab_suNC NC y x scratch
  let s6 := neighbor L i mu
  let s7 := neighbor L s6 mu
  let s8 := neighbor L s7 mu
  let s9 := back L s8 nu
  let s10 := back L s9 nu
  let s11 := back L s10 nu
  let t := multab_suNC NC (lat (i, mu)) (lat (s6, mu)) scratch
  let v := multab_dag_suNC NC (lat (s7, mu)) (lat (s9, nu)) scratch
  let x := multab_dagdag_suNC NC (lat (s10, nu)) (lat (s11, nu)) scratch
  let y := multab_suNC NC t v scratch
  let t := multab_suNC NC y x scratch
  let u := multab_dag_suNC NC s t scratch
  u

/-- The 2x2 loop of sector 3, `clover.c:505-518`. -/
noncomputable def s3_2x2 (NC : ℕ) (L : Latt) (lat : Gauge) (i mu nu : ℕ) : Arr ℂ :=
  let s1 := back L i mu
  let s2 := back L s1 mu
  let s3 := back L s2 nu
  let s4 := back L s3 nu
  let u := multab_dagdag_suNC NC (lat (s1, mu)) (lat (s2, mu)) scratch
  let v := multab_dag_suNC NC u (lat (s3, nu)) scratch
  let u := multab_dag_suNC NC v (lat (s4, nu)) scratch
  let s5 := neighbor L s4 mu
  let s6 := neighbor L s5 mu
  let s7 := neighbor L s6 nu
  let v := multab_suNC NC u (lat (s4, mu)) scratch
  let u := multab_suNC NC v (lat (s5, mu)) scratch
  let v := multab_suNC NC u (lat (s6, nu)) scratch
  let u := multab_suNC NC v (lat (s7, nu)) scratch
  u

/-- The 1x2 loop of sector 3, `clover.c:528-537`. -/
noncomputable def s3_1x2 (NC : ℕ) (L : Latt) (lat : Gauge) (i mu nu : ℕ) : Arr ℂ :=
  let s1 := back L i mu
  let s2 := back L s1 nu
  let s3 := back L s2 nu
  let u := multab_dagdag_suNC NC (lat (s1, mu)) (lat (s2, nu)) scratch
  let v := multab_dag_suNC NC u (lat (s3, nu)) scratch
  let s4 := neighbor L s3 mu
  let s5 := neighbor L s4 nu
  let u := multab_suNC NC v (lat (s3, mu)) scratch
  let v := multab_suNC NC u (lat (s4, nu)) scratch
  let u := multab_suNC NC v (lat (s5, nu)) scratch
  u

/-- The 2x1 loop of sector 3, `clover.c:545-554`. -/
noncomputable def s3_2x1 (NC : ℕ) (L : Latt) (lat : Gauge) (i mu nu : ℕ) : Arr ℂ :=
  let t1 := back L i mu
  let t2 := back L t1 mu
  let t3 := back L t2 nu
  let u := multab_dagdag_suNC NC (lat (t1, mu)) (lat (t2, mu)) scratch
  let v := multab_dag_suNC NC u (lat (t3, nu)) scratch
  let t4 := neighbor L t3 mu
  let t5 := neighbor L t4 mu
  let u := multab_suNC NC v (lat (t3, mu)) scratch
  let v := multab_suNC NC u (lat (t4, mu)) scratch
  let u := multab_suNC NC v (lat (t5, nu)) scratch
  u

/-- The 1x3 loop of sector 3, `clover.c:565-578`. -/
noncomputable def s3_1x3 (NC : ℕ) (L : Latt) (lat : Gauge) (i mu nu : ℕ) : Arr ℂ :=
  let s1 := back L i mu
  let s2 := back L s1 nu
  let s3 := back L s2 nu
  let s4 := back L s3 nu
  let u := multab_dagdag_suNC NC (lat (s1, mu)) (lat (s2, nu)) scratch
  let v := multab_dag_suNC NC u (lat (s3, nu)) scratch
  let u := multab_dag_suNC NC v (lat (s4, nu)) scratch
  let s5 := neighbor L s4 mu
  let s6 := neighbor L s5 nu
  let s7 := neighbor L s6 nu
  let v := multab_suNC NC u (lat (s4, mu)) scratch
  let u := multab_suNC NC v (lat (s5, nu)) scratch
  let v := multab_suNC NC u (lat (s6, nu)) scratch
  let u := multab_suNC NC v (lat (s7, nu)) scratch
  u

/-- The 3x1 loop of sector 3, `clover.c:586-599`. -/
noncomputable def s3_3x1 (NC : ℕ) (L : Latt) (lat : Gauge) (i mu nu : ℕ) : Arr ℂ :=
  let t1 := back L i mu
  let t2 := back L t1 mu
  let t3 := back L t2 mu
  let t4 := back L t3 nu
  let u := multab_dagdag_suNC NC (lat (t1, mu)) (lat (t2, mu)) scratch
  let v := multab_dag_suNC NC u (lat (t3, mu)) scratch
  let u := multab_dag_suNC NC v (lat (t4, nu)) scratch
  let t5 := neighbor L t4 mu
  let t6 := neighbor L t5 mu
  let t7 := neighbor L t6 mu
  let v := multab_suNC NC u (lat (t4, mu)) scratch
  let u := multab_suNC NC v (lat (t5, mu)) scratch
  let v := multab_suNC NC u (lat (t6, mu)) scratch
  let u := multab_suNC NC v (lat (t7, nu)) scratch
  u

/-- The 3x3 loop of sector 3, `clover.c:612-633`. -/
noncomputable def s3_3x3 (NC : ℕ) (L : Latt) (lat : Gauge) (i mu nu : ℕ) : Arr ℂ :=
  let s1 := back L i mu
  let s2 := back L s1 mu
  let s3 := back L s2 mu
  let s4 := back L s3 nu
  let s5 := back L s4 nu
  let s6 := back L s5 nu
  let s := multab_dagdag_suNC NC (lat (s1, mu)) (lat (s2, mu)) scratch
  let v := multab_dagdag_suNC NC (lat (s3, mu)) (lat (s4, nu)) scratch
  let x := multab_dagdag_suNC NC (lat (s5, nu)) (lat (s6, nu)) scratch
  let y := multab_suNC NC s v scratch
  let s := multab_suNC NC y x scratch
  let s7 := neighbor L s6 mu
  let s8 := neighbor L s7 mu
  let s9 := neighbor L s8 mu
  let s10 := neighbor L s9 nu
  let s11 := neighbor L s10 nu
  let t := multab_suNC NC (lat (s6, mu)) (lat (s7, mu)) scratch
  let v := multab_suNC NC (lat (s8, mu)) (lat (s9, nu)) scratch
  let x := multab_suNC NC (lat (s10, nu)) (lat (s11, nu)) scratch
  let y := multab_suNC NC t v scratch
  let t := multab_suNC NC y x scratch
  let u := multab_suNC NC s t scratch
  u

/-- The 2x2 loop of sector 4, `clover.c:662-675`. -/
noncomputable def s4_2x2 (NC : ℕ) (L : Latt) (lat : Gauge) (i mu nu : ℕ) : Arr ℂ :=
  let s1 := neighbor L i nu
  let s2 := neighbor L s1 nu
  let s3 := back L s2 mu
  let s4 := back L s3 mu
  let u := multab_suNC NC (lat (i, nu)) (lat (s1, nu)) scratch
  let v := multab_dag_suNC NC u (lat (s3, mu)) scratch
  let u := multab_dag_suNC NC v (lat (s4, mu)) scratch
  let s5 := back L s4 nu
  let s6 := back L s5 nu
  let s7 := neighbor L s6 mu
  let v := multab_dag_suNC NC u (lat (s5, nu)) scratch
  let u := multab_dag_suNC NC v (lat (s6, nu)) scratch
  let v := multab_suNC NC u (lat (s6, mu)) scratch
  let u := multab_suNC NC v (lat (s7, mu)) scratch
  u

/-- The 1x2 loop of sector 4, `clover.c:685-694`. -/
noncomputable def s4_1x2 (NC : ℕ) (L : Latt) (lat : Gauge) (i mu nu : ℕ) : Arr ℂ :=
  let s1 := neighbor L i nu
  let s2 := neighbor L s1 nu
  let s3 := back L s2 mu
  let u := multab_suNC NC (lat (i, nu)) (lat (s1, nu)) scratch
  let v := multab_dag_suNC NC u (lat (s3, mu)) scratch
  let s4 := back L s3 nu
  let s5 := back L s4 nu
  let u := multab_dag_suNC NC v (lat (s4, nu)) scratch
  let v := multab_dag_suNC NC u (lat (s5, nu)) scratch
  let u := multab_suNC NC v (lat (s5, mu)) scratch
  u

/-- The 2x1 loop of sector 4, `clover.c:702-711`. -/
noncomputable def s4_2x1 (NC : ℕ) (L : Latt) (lat : Gauge) (i mu nu : ℕ) : Arr ℂ :=
  let t1 := neighbor L i nu
  let t2 := back L t1 mu
  let t3 := back L t2 mu
  let u := multab_dag_suNC NC (lat (i, nu)) (lat (t2, mu)) scratch
  let v := multab_dag_suNC NC u (lat (t3, mu)) scratch
  let t4 := back L t3 nu
  let t5 := neighbor L t4 mu
  let u := multab_dag_suNC NC v (lat (t4, nu)) scratch
  let v := multab_suNC NC u (lat (t4, mu)) scratch
  let u := multab_suNC NC v (lat (t5, mu)) scratch
  u

/-- The 1x3 loop of sector 4, `clover.c:722-735`. -/
noncomputable def s4_1x3 (NC : ℕ) (L : Latt) (lat : Gauge) (i mu nu : ℕ) : Arr ℂ :=
  let s1 := neighbor L i nu
  let s2 := neighbor L s1 nu
  let s3 := neighbor L s2 nu
  let s4 := back L s3 mu
  let u := multab_suNC NC (lat (i, nu)) (lat (s1, nu)) scratch
  let v := multab_suNC NC u (lat (s2, nu)) scratch
  let u := multab_dag_suNC NC v (lat (s4, mu)) scratch
  let s5 := back L s4 nu
  let s6 := back L s5 nu
  let s7 := back L s6 nu
  let v := multab_dag_suNC NC u (lat (s5, nu)) scratch
  let u := multab_dag_suNC NC v (lat (s6, nu)) scratch
  let v := multab_dag_suNC NC u (lat (s7, nu)) scratch
  let u := multab_suNC NC v (lat (s7, mu)) scratch
  u

/-- The 3x1 loop of sector 4, `clover.c:743-756`. -/
noncomputable def s4_3x1 (NC : ℕ) (L : Latt) (lat : Gauge) (i mu nu : ℕ) : Arr ℂ :=
  let t1 := neighbor L i nu
  let t2 := back L t1 mu
  let t3 := back L t2 mu
  let t4 := back L t3 mu
  let u := multab_dag_suNC NC (lat (i, nu)) (lat (t2, mu)) scratch
  let v := multab_dag_suNC NC u (lat (t3, mu)) scratch
  let u := multab_dag_suNC NC v (lat (t4, mu)) scratch
  let t5 := back L t4 nu
  let t6 := neighbor L t5 mu
  let t7 := neighbor L t6 mu
  let v := multab_dag_suNC NC u (lat (t5, nu)) scratch
  let u := multab_suNC NC v (lat (t5, mu)) scratch
  let v := multab_suNC NC u (lat (t6, mu)) scratch
  let u := multab_suNC NC v (lat (t7, mu)) scratch
  u

/-- The 3x3 loop of sector 4, `clover.c:769-790`. -/
noncomputable def s4_3x3 (NC : ℕ) (L : Latt) (lat : Gauge) (i mu nu : ℕ) : Arr ℂ :=
  let s1 := neighbor L i nu
  let s2 := neighbor L s1 nu
  let s3 := neighbor L s2 nu
  let s4 := back L s3 mu
  let s5 := back L s4 mu
  let s6 := back L s5 mu
  let s := multab_suNC NC (lat (i, nu)) (lat (s1, nu)) scratch
  let v := multab_dag_suNC NC (lat (s2, nu)) (lat (s4, mu)) scratch
  let x := multab_dagdag_suNC NC (lat (s5, mu)) (lat (s6, mu)) scratch
  let y := multab_suNC NC s v scratch
  let s := multab_suNC NC y x scratch
  let s7 := back L s6 nu
  let s8 := back L s7 nu
  let s9 := back L s8 nu
  let s10 := neighbor L s9 mu
  let s11 := neighbor L s10 mu
  let t := multab_dagdag_suNC NC (lat (s7, nu)) (lat (s8, nu)) scratch
  let v := multabdag_suNC NC (lat (s9, nu)) (lat (s9, mu)) scratch
  let x := multab_suNC NC (lat (s10, mu)) (lat (s11, mu)) scratch
  let y := multab_suNC NC t v scratch
  let t := multab_suNC NC y x scratch
  let u := multab_suNC NC s t scratch
  u

/-! ## The sectors -/

/-- The factors of the improved definition, `GLU_definitions.h:621-632`.  `k5 = 0` stands for the default build without
`k5` (`NK5`), whose factors are the same numbers and which leaves the 3x3 loops out. -/
structure Weights where
  k1 : ℝ
  k2 : ℝ
  k3 : ℝ
  k4 : ℝ
  k5 : ℝ

/-- `Clover_k1` ... `Clover_k4`, `GLU_definitions.h:628-631` (and `622-626` for `k5 = 0`). -/
noncomputable def weights (k5 : ℝ) : Weights where
  k1 := 19 / 9 - 55 * k5
  k2 := 1 / 36 - 16 * k5
  k3 := (64 * k5 - 32 / 45) * 0.5
  k4 := (1 / 15 - 6 * k5) * 0.5
  k5 := k5

/-- `CL_TOL`, `GLU_definitions.h:638`. -/
noncomputable def CL_TOL : ℝ := 1e-8

/-- `compute_s1`, `clover.c:73-95`. -/
noncomputable def compute_s1 (NC : ℕ) (L : Latt) (lat : Gauge) (i mu nu : ℕ) (mul : ℝ) (sum : Arr ℂ) : Arr ℂ :=
  a_plus_Sxb NC sum (s1_1x1 NC L lat i mu nu) mul

/-- `compute_s2`, `clover.c:98-120`. -/
noncomputable def compute_s2 (NC : ℕ) (L : Latt) (lat : Gauge) (i mu nu : ℕ) (mul : ℝ) (sum : Arr ℂ) : Arr ℂ :=
  a_plus_Sxb NC sum (s2_1x1 NC L lat i mu nu) mul

/-- `compute_s3`, `clover.c:122-145`. -/
noncomputable def compute_s3 (NC : ℕ) (L : Latt) (lat : Gauge) (i mu nu : ℕ) (mul : ℝ) (sum : Arr ℂ) : Arr ℂ :=
  a_plus_Sxb NC sum (s3_1x1 NC L lat i mu nu) mul

/-- `compute_s4`, `clover.c:147-169`. -/
noncomputable def compute_s4 (NC : ℕ) (L : Latt) (lat : Gauge) (i mu nu : ℕ) (mul : ℝ) (sum : Arr ℂ) : Arr ℂ :=
  a_plus_Sxb NC sum (s4_1x1 NC L lat i mu nu) mul

/-- `compute_clover_s1`, `clover.c:176-329`; `fClover_kn` is the absolute value of the factor, lines 64-68
and 996-1002. -/
noncomputable def compute_clover_s1 (NC : ℕ) (L : Latt) (lat : Gauge) (w : Weights) (i mu nu : ℕ) (sum : Arr ℂ) : Arr ℂ :=
  let sum := if |w.k1| > CL_TOL then compute_s1 NC L lat i mu nu w.k1 sum else sum
  let sum := if |w.k2| > CL_TOL then a_plus_Sxb NC sum (s1_2x2 NC L lat i mu nu) w.k2 else sum
  let sum := if |w.k3| > CL_TOL then
      let sum := a_plus_Sxb NC sum (s1_1x2 NC L lat i mu nu) w.k3
      a_plus_Sxb NC sum (s1_2x1 NC L lat i mu nu) w.k3
    else sum
  let sum := if |w.k4| > CL_TOL then
      let sum := a_plus_Sxb NC sum (s1_1x3 NC L lat i mu nu) w.k4
      a_plus_Sxb NC sum (s1_3x1 NC L lat i mu nu) w.k4
    else sum
  if |w.k5| > CL_TOL then a_plus_Sxb NC sum (s1_3x3 NC L lat i mu nu) w.k5 else sum

/-- `compute_clover_s2`, `clover.c:333-486`; `fClover_kn` is the absolute value of the factor, lines 64-68
and 996-1002. -/
noncomputable def compute_clover_s2 (NC : ℕ) (L : Latt) (lat : Gauge) (w : Weights) (i mu nu : ℕ) (sum : Arr ℂ) : Arr ℂ :=
  let sum := if |w.k1| > CL_TOL then compute_s2 NC L lat i mu nu w.k1 sum else sum
  let sum := if |w.k2| > CL_TOL then a_plus_Sxb NC sum (s2_2x2 NC L lat i mu nu) w.k2 else sum
  let sum := if |w.k3| > CL_TOL then
      let sum := a_plus_Sxb NC sum (s2_1x2 NC L lat i mu nu) w.k3
      a_plus_Sxb NC sum (s2_2x1 NC L lat i mu nu) w.k3
    else sum
  let sum := if |w.k4| > CL_TOL then
      let sum := a_plus_Sxb NC sum (s2_1x3 NC L lat i mu nu) w.k4
      a_plus_Sxb NC sum (s2_3x1 NC L lat i mu nu) w.k4
    else sum
  if |w.k5| > CL_TOL then a_plus_Sxb NC sum (s2_3x3 NC L lat i mu nu) w.k5 else sum

/-- `compute_clover_s3`, `clover.c:490-643`; `fClover_kn` is the absolute value of the factor, lines 64-68
and 996-1002. -/
noncomputable def compute_clover_s3 (NC : ℕ) (L : Latt) (lat : Gauge) (w : Weights) (i mu nu : ℕ) (sum : Arr ℂ) : Arr ℂ :=
  let sum := if |w.k1| > CL_TOL then compute_s3 NC L lat i mu nu w.k1 sum else sum
  let sum := if |w.k2| > CL_TOL then a_plus_Sxb NC sum (s3_2x2 NC L lat i mu nu) w.k2 else sum
  let sum := if |w.k3| > CL_TOL then
      let sum := a_plus_Sxb NC sum (s3_1x2 NC L lat i mu nu) w.k3
      a_plus_Sxb NC sum (s3_2x1 NC L lat i mu nu) w.k3
    else sum
  let sum := if |w.k4| > CL_TOL then
      let sum := a_plus_Sxb NC sum (s3_1x3 NC L lat i mu nu) w.k4
      a_plus_Sxb NC sum (s3_3x1 NC L lat i mu nu) w.k4
    else sum
  if |w.k5| > CL_TOL then a_plus_Sxb NC sum (s3_3x3 NC L lat i mu nu) w.k5 else sum

/-- `compute_clover_s4`, `clover.c:647-800`; `fClover_kn` is the absolute value of the factor, lines 64-68
and 996-1002. -/
noncomputable def compute_clover_s4 (NC : ℕ) (L : Latt) (lat : Gauge) (w : Weights) (i mu nu : ℕ) (sum : Arr ℂ) : Arr ℂ :=
  let sum := if |w.k1| > CL_TOL then compute_s4 NC L lat i mu nu w.k1 sum else sum
  let sum := if |w.k2| > CL_TOL then a_plus_Sxb NC sum (s4_2x2 NC L lat i mu nu) w.k2 else sum
  let sum := if |w.k3| > CL_TOL then
      let sum := a_plus_Sxb NC sum (s4_1x2 NC L lat i mu nu) w.k3
      a_plus_Sxb NC sum (s4_2x1 NC L lat i mu nu) w.k3
    else sum
  let sum := if |w.k4| > CL_TOL then
      let sum := a_plus_Sxb NC sum (s4_1x3 NC L lat i mu nu) w.k4
      a_plus_Sxb NC sum (s4_3x1 NC L lat i mu nu) w.k4
    else sum
  if |w.k5| > CL_TOL then a_plus_Sxb NC sum (s4_3x3 NC L lat i mu nu) w.k5 else sum

/-! ## Field strength and charge -/

/-- The three compile-time definitions of the field strength: the default, `PLAQUETTE_FMUNU` and `CLOVER_IMPROVE`. -/
inductive FmunuDef where
  | standard
  | plaquette
  | improved (w : Weights)

/-- The accumulation of the loops in one plane, `clover.c:882-910` and, with the same statements, `clover.c:947-975`. -/
noncomputable def cloverSum (NC : ℕ) (L : Latt) (df : FmunuDef) (lat : Gauge) (i mu nu : ℕ) : Arr ℂ :=
  let sum := zero_mat NC scratch
  match df with
  | .standard =>
    let sum := compute_s1 NC L lat i mu nu 1 sum
    let sum := compute_s2 NC L lat i mu nu 1 sum
    let sum := compute_s3 NC L lat i mu nu 1 sum
    compute_s4 NC L lat i mu nu 1 sum
  | .plaquette => compute_s1 NC L lat i mu nu 1 sum
  | .improved w =>
    let sum := compute_clover_s1 NC L lat w i mu nu sum
    let sum := compute_clover_s2 NC L lat w i mu nu sum
    let sum := compute_clover_s3 NC L lat w i mu nu sum
    compute_clover_s4 NC L lat w i mu nu sum

/-- The three numbers `compute_Gmunu_kernel` writes. -/
structure Kernel where
  plaq_t : ℝ
  plaq_sp : ℝ
  q : ℝ

/-- `compute_GG_q`, `clover.c:811-865`. -/
noncomputable def compute_GG_q (NC : ℕ) (sum_1 sum_2 : Arr ℂ) : Kernel :=
  let GMUNU_1 := Hermitian_proj NC scratch sum_1
  let GMUNU_2 := Hermitian_proj NC scratch sum_2
  { plaq_sp := (trace_ab NC GMUNU_1 GMUNU_1).re
    plaq_t := (trace_ab NC GMUNU_2 GMUNU_2).re
    q := (trace_ab NC GMUNU_1 GMUNU_2).re }

/-- `compute_q`, `clover.c:871-931`, in four dimensions. -/
noncomputable def compute_q (NC : ℕ) (L : Latt) (df : FmunuDef) (lat : Gauge) (i mu nu rho delta : ℕ) : Arr ℂ :=
  let GMUNU_1 := Hermitian_proj NC scratch (cloverSum NC L df lat i mu nu)
  let GMUNU_2 := Hermitian_proj NC scratch (cloverSum NC L df lat i rho delta)
  multab NC GMUNU_1 GMUNU_2 scratch

/-- `compute_Gmunu_kernel`, `clover.c:934-984`, in four dimensions. -/
noncomputable def compute_Gmunu_kernel (NC : ℕ) (L : Latt) (df : FmunuDef) (lat : Gauge) (i mu nu rho delta : ℕ) : Kernel :=
  let sum_1 := cloverSum NC L df lat i mu nu
  let sum_2 := cloverSum NC L df lat i rho delta
  let r := compute_GG_q NC sum_1 sum_2
  match df with
  | .plaquette =>
    { plaq_sp := 2 * (NC - (trace NC sum_1).re)
      plaq_t := 2 * (NC - (trace NC sum_2).re)
      q := r.q }
  | _ => r

/-- One iteration of the site loop of `compute_Gmunu`, `clover.c:1006-1023`, on `(plaq_sp, plaq_t, Q)`. -/
noncomputable def siteGmunu (NC : ℕ) (L : Latt) (df : FmunuDef) (lat : Gauge) (i : ℕ) (s : ℝ × ℝ × ℝ) : ℝ × ℝ × ℝ :=
  let r := compute_Gmunu_kernel NC L df lat i 3 0 1 2
  let s := (s.1 + r.plaq_sp, s.2.1 + r.plaq_t, s.2.2 + r.q)
  let r := compute_Gmunu_kernel NC L df lat i 3 1 2 0
  let s := (s.1 + r.plaq_sp, s.2.1 + r.plaq_t, s.2.2 + r.q)
  let r := compute_Gmunu_kernel NC L df lat i 3 2 0 1
  (s.1 + r.plaq_sp, s.2.1 + r.plaq_t, s.2.2 + r.q)

/-- `compute_Gmunu`, `clover.c:987-1034`: `(GG, qtop)`.  In other than four dimensions the kernel leaves its results
unwritten (lines 945-982) and they are read: the outcome `none`. -/
noncomputable def compute_Gmunu (NC : ℕ) (L : Latt) (df : FmunuDef) (lat : Gauge) : Option (ℝ × ℝ) :=
  if L.ND ≠ 4 then none else
  let s := forN (volume L) (siteGmunu NC L df lat) (0, 0, 0)
  let GG := s.1 + s.2.1
  let qtop := s.2.2
  match df with
  | .plaquette => some (GG * 16, qtop * 16)
  | _ => some (GG, qtop)

/-- One iteration of the site loop of `compute_Gmunu_th`, `clover.c:1061-1076`. -/
noncomputable def siteGmunu_th (NC : ℕ) (L : Latt) (df : FmunuDef) (lat : Gauge) (it : ℕ × ℕ) (red : ℕ → ℝ) : ℕ → ℝ :=
  let add (r : Kernel) (red : ℕ → ℝ) : ℕ → ℝ :=
    let red := Function.update red (0 + cline L.ND * it.2) (red (0 + cline L.ND * it.2) + (r.plaq_t + r.plaq_sp))
    Function.update red (1 + cline L.ND * it.2) (red (1 + cline L.ND * it.2) + r.q)
  let red := add (compute_Gmunu_kernel NC L df lat it.1 3 0 1 2) red
  let red := add (compute_Gmunu_kernel NC L df lat it.1 3 1 2 0) red
  add (compute_Gmunu_kernel NC L df lat it.1 3 2 0 1) red

/-- `compute_Gmunu_th`, `clover.c:1037-1089`; `sched` as in `av_plaquette_th`.  Other than four dimensions: `none`. -/
noncomputable def compute_Gmunu_th (NC : ℕ) (L : Latt) (df : FmunuDef) (Nthreads : ℕ) (sched : List (ℕ × ℕ)) (lat : Gauge)
    (red : ℕ → ℝ) : Option (ℕ → ℝ) :=
  if L.ND ≠ 4 then none else
  let red := forN Nthreads (fun i red => Function.update (Function.update red (0 + cline L.ND * i) 0)
    (1 + cline L.ND * i) 0) red
  let red := sched.foldl (fun red it => siteGmunu_th NC L df lat it red) red
  match df with
  | .plaquette => some (forN Nthreads (fun i red =>
      let red := Function.update red (0 + cline L.ND * i) (red (0 + cline L.ND * i) * 16)
      Function.update red (1 + cline L.ND * i) (red (1 + cline L.ND * i) * 16)) red)
  | _ => some red

/-- `qtop[i]` written by `compute_Gmunu_array`, `clover.c:1107-1121`.  Other than four dimensions: `Qmat` is read
unwritten, `none`. -/
noncomputable def compute_Gmunu_array (NC : ℕ) (L : Latt) (df : FmunuDef) (lat : Gauge) (i : ℕ) : Option ℂ :=
  if L.ND ≠ 4 then none else
  let q := trace NC (compute_q NC L df lat i 3 0 1 2)
  let q := q + trace NC (compute_q NC L df lat i 3 1 2 0)
  let q := q + trace NC (compute_q NC L df lat i 3 2 0 1)
  match df with
  | .plaquette => some (q * 16)
  | _ => some q

/-- Conversion of a double to `int`: towards zero, undefined when the value does not fit. -/
noncomputable def toInt (x : ℝ) : Option ℤ :=
  let n := if 0 ≤ x then ⌊x⌋ else ⌈x⌉
  if -2 ^ 31 ≤ n ∧ n < 2 ^ 31 then some n else none

/-- What `gauge_topological_meas_th` prints and returns. -/
structure TopMeas where
  /-- the printed action density -/
  GT : ℝ
  /-- `*qtop_new` -/
  qtop_new : ℝ
  /-- `*qtop_old` afterwards -/
  qtop_old : ℝ
  /-- the printed integer charge, with the status `GLU_SUCCESS`; `none` is `GLU_FAILURE` -/
  charge : Option ℤ

/-- `gauge_topological_meas_th`, `plaqs_links.c:347-393`. -/
noncomputable def gauge_topological_meas_th (NC : ℕ) (L : Latt) (df : FmunuDef) (Nthreads : ℕ) (sched : List (ℕ × ℕ))
    (lat : Gauge) (red : ℕ → ℝ) (qtop_old : ℝ) : Option TopMeas := do
  let red ← compute_Gmunu_th NC L df Nthreads sched lat red
  let s := forN Nthreads (fun i (s : ℝ × ℝ) => (s.1 + red (0 + cline L.ND * i), s.2 + red (1 + cline L.ND * i))) (0, 0)
  let GT ← fdiv s.1 (16 * volume L)
  let Q := s.2 * -0.001583143494411527678811
  let qint ← toInt (if Q > 0 then Q + 0.5 else Q - 0.5)
  if |qtop_old - Q| < 5.0e-3 ∧ |qint - Q| < 0.10 then
    some ⟨GT, Q, qtop_old, some qint⟩
  else
    some ⟨GT, Q, Q, none⟩

end GLU.Field
