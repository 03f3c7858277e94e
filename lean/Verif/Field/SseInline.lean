import Verif.Mat.SseTrace
import Verif.Mat.Proj
import Verif.Field.Model

/-!
# Vector instructions used inline

Model of the branches written with vector intrinsics in `Field/plaqs_links.c`, `Gfix/gtrans.c`,
`Matrix_Ops/givens.c` and `Matrix_Ops/exactQ.c`, transcribed statement by statement; see
`Verif.Mat.Sse` for the conventions.
-/

namespace GLU.Mat.Sse

open Complex

/-- `complete_plaquette` for `NC == 3`, `plaqs_links.c:42-118`. -/
noncomputable def complete_plaquette3 (s : ISA) (a b c d : Arr (V2 ℝ)) : V2 ℝ :=
  let tra1 := mm_add (SSE2_MUL s (a 0) (b 0)) (mm_add (SSE2_MUL s (a 1) (b 3)) (SSE2_MUL s (a 2)
    (b 6)))
  let tra2 := mm_add (SSE2_MUL s (a 0) (b 1)) (mm_add (SSE2_MUL s (a 1) (b 4)) (SSE2_MUL s (a 2)
    (b 7)))
  let tra3 := mm_add (SSE2_MUL s (a 0) (b 2)) (mm_add (SSE2_MUL s (a 1) (b 5)) (SSE2_MUL s (a 2)
    (b 8)))
  let tr := SSE2_MULCONJ s (mm_add (SSE2_MUL_CONJ s tra1 (c 0)) (mm_add (SSE2_MUL_CONJ s tra2
    (c 1)) (SSE2_MUL_CONJ s tra3 (c 2)))) (d 0)
  let tr := mm_add tr (SSE2_MULCONJ s (mm_add (SSE2_MUL_CONJ s tra1 (c 3)) (mm_add
    (SSE2_MUL_CONJ s tra2 (c 4)) (SSE2_MUL_CONJ s tra3 (c 5)))) (d 1))
  let tr := mm_add tr (SSE2_MULCONJ s (mm_add (SSE2_MUL_CONJ s tra1 (c 6)) (mm_add
    (SSE2_MUL_CONJ s tra2 (c 7)) (SSE2_MUL_CONJ s tra3 (c 8)))) (d 2))
  let tra1 := mm_add (SSE2_MUL s (a 3) (b 0)) (mm_add (SSE2_MUL s (a 4) (b 3)) (SSE2_MUL s (a 5)
    (b 6)))
  let tra2 := mm_add (SSE2_MUL s (a 3) (b 1)) (mm_add (SSE2_MUL s (a 4) (b 4)) (SSE2_MUL s (a 5)
    (b 7)))
  let tra3 := mm_add (SSE2_MUL s (a 3) (b 2)) (mm_add (SSE2_MUL s (a 4) (b 5)) (SSE2_MUL s (a 5)
    (b 8)))
  let tr := mm_add tr (SSE2_MULCONJ s (mm_add (SSE2_MUL_CONJ s tra1 (c 0)) (mm_add
    (SSE2_MUL_CONJ s tra2 (c 1)) (SSE2_MUL_CONJ s tra3 (c 2)))) (d 3))
  let tr := mm_add tr (SSE2_MULCONJ s (mm_add (SSE2_MUL_CONJ s tra1 (c 3)) (mm_add
    (SSE2_MUL_CONJ s tra2 (c 4)) (SSE2_MUL_CONJ s tra3 (c 5)))) (d 4))
  let tr := mm_add tr (SSE2_MULCONJ s (mm_add (SSE2_MUL_CONJ s tra1 (c 6)) (mm_add
    (SSE2_MUL_CONJ s tra2 (c 7)) (SSE2_MUL_CONJ s tra3 (c 8)))) (d 5))
  let tra1 := mm_add (SSE2_MUL s (a 6) (b 0)) (mm_add (SSE2_MUL s (a 7) (b 3)) (SSE2_MUL s (a 8)
    (b 6)))
  let tra2 := mm_add (SSE2_MUL s (a 6) (b 1)) (mm_add (SSE2_MUL s (a 7) (b 4)) (SSE2_MUL s (a 8)
    (b 7)))
  let tra3 := mm_add (SSE2_MUL s (a 6) (b 2)) (mm_add (SSE2_MUL s (a 7) (b 5)) (SSE2_MUL s (a 8)
    (b 8)))
  let tr := mm_add tr (SSE2_MULCONJ s (mm_add (SSE2_MUL_CONJ s tra1 (c 0)) (mm_add
    (SSE2_MUL_CONJ s tra2 (c 1)) (SSE2_MUL_CONJ s tra3 (c 2)))) (d 6))
  let tr := mm_add tr (SSE2_MULCONJ s (mm_add (SSE2_MUL_CONJ s tra1 (c 3)) (mm_add
    (SSE2_MUL_CONJ s tra2 (c 4)) (SSE2_MUL_CONJ s tra3 (c 5)))) (d 7))
  let tr := mm_add tr (SSE2_MULCONJ s (mm_add (SSE2_MUL_CONJ s tra1 (c 6)) (mm_add
    (SSE2_MUL_CONJ s tra2 (c 7)) (SSE2_MUL_CONJ s tra3 (c 8)))) (d 8))
  tr

/-- `complete_plaquette` for `NC == 2`, `plaqs_links.c:153-179`. -/
noncomputable def complete_plaquette2 (s : ISA) (a b c d : Arr (V2 ℝ)) : V2 ℝ :=
  let tra1 := mm_add (SSE2_MUL s (a 0) (b 0)) (SSE2_MUL s (a 1) (b 2))
  let tra2 := mm_add (SSE2_MUL s (a 0) (b 1)) (SSE2_MUL s (a 1) (b 3))
  let tra3 := mm_add (SSE2_MUL s (a 2) (b 0)) (SSE2_MUL s (a 3) (b 2))
  let tra4 := mm_add (SSE2_MUL s (a 2) (b 1)) (SSE2_MUL s (a 3) (b 3))
  let tr := SSE2_MUL_CONJ s (mm_add (SSE2_MUL_CONJ s tra1 (c 0)) (SSE2_MUL_CONJ s tra2 (c 1)))
    (d 0)
  let tr := mm_add tr (SSE2_MUL_CONJ s (mm_add (SSE2_MUL_CONJ s tra1 (c 2))
    (SSE2_MUL_CONJ s tra2 (c 3))) (d 1))
  let tr := mm_add tr (SSE2_MUL_CONJ s (mm_add (SSE2_MUL_CONJ s tra3 (c 0))
    (SSE2_MUL_CONJ s tra4 (c 1))) (d 2))
  let tr := mm_add tr (SSE2_MUL_CONJ s (mm_add (SSE2_MUL_CONJ s tra3 (c 2))
    (SSE2_MUL_CONJ s tra4 (c 3))) (d 3))
  tr

/-- `complete_plaquette`, `plaqs_links.c:33-201`, with the vectorised product and trace for other
`NC`; `temp` and `ct` are the
contents of uninitialised arrays. -/
noncomputable def complete_plaquette (s : ISA) (NC NB : ℕ) (ct : Arr (V2 ℝ)) (a b c d temp : Arr ℂ) : ℝ :=
  if NC = 3 then (st (complete_plaquette3 s (ldA a) (ldA b) (ldA c) (ldA d))).re
  else if NC = 2 then (st (complete_plaquette2 s (ldA a) (ldA b) (ldA c) (ldA d))).re
  else Re_trace_abc_dag_suNC s NC a (multab_dag s NC NB ct b c temp) d

/-- `inline_gtransform_local` for `NC == 3`, `gtrans.c:37-121`: the new `b`. -/
noncomputable def gtransform_local3 (s : ISA) (a b c : Arr (V2 ℝ)) : Arr (V2 ℝ) :=
  let A := SSE2_MUL_CONJ s (c 0) (b 0)
  let B := SSE2_MUL_CONJ s (c 1) (b 1)
  let C := SSE2_MUL_CONJ s (c 2) (b 2)
  let D := SSE2_MUL_CONJ s (c 0) (b 3)
  let E := SSE2_MUL_CONJ s (c 1) (b 4)
  let F := SSE2_MUL_CONJ s (c 2) (b 5)
  let A := mm_add A B
  let D := mm_add D E
  let bp0 := mm_add C A
  let bp1 := mm_add D F
  let A := SSE2_MUL_CONJ s (c 0) (b 6)
  let B := SSE2_MUL_CONJ s (c 1) (b 7)
  let D := SSE2_MUL_CONJ s (c 3) (b 0)
  let E := SSE2_MUL_CONJ s (c 4) (b 1)
  let C := SSE2_MUL_CONJ s (c 2) (b 8)
  let F := SSE2_MUL_CONJ s (c 5) (b 2)
  let A := mm_add A B
  let D := mm_add D E
  let bp2 := mm_add C A
  let bp3 := mm_add F D
  let A := SSE2_MUL_CONJ s (c 3) (b 3)
  let B := SSE2_MUL_CONJ s (c 4) (b 4)
  let D := SSE2_MUL_CONJ s (c 3) (b 6)
  let E := SSE2_MUL_CONJ s (c 4) (b 7)
  let C := SSE2_MUL_CONJ s (c 5) (b 5)
  let F := SSE2_MUL_CONJ s (c 5) (b 8)
  let A := mm_add A B
  let D := mm_add D E
  let bp4 := mm_add C A
  let bp5 := mm_add D F
  let A := SSE2_MULCONJ s bp0 (a 0)
  let B := SSE2_MULCONJ s bp1 (a 1)
  let D := SSE2_MULCONJ s bp3 (a 0)
  let E := SSE2_MULCONJ s bp4 (a 1)
  let C := SSE2_MULCONJ s bp2 (a 2)
  let F := SSE2_MULCONJ s bp5 (a 2)
  let A := mm_add A B
  let D := mm_add D E
  let b := Function.update b 0 (mm_add A C)
  let b := Function.update b 1 (mm_add D F)
  let A := SSE2_MULCONJ s bp0 (a 3)
  let B := SSE2_MULCONJ s bp1 (a 4)
  let D := SSE2_MULCONJ s bp3 (a 3)
  let E := SSE2_MULCONJ s bp4 (a 4)
  let C := SSE2_MULCONJ s bp2 (a 5)
  let F := SSE2_MULCONJ s bp5 (a 5)
  let A := mm_add A B
  let D := mm_add D E
  let b := Function.update b 3 (mm_add A C)
  let b := Function.update b 4 (mm_add D F)
  let A := SSE2_MULCONJ s bp0 (a 6)
  let B := SSE2_MULCONJ s bp1 (a 7)
  let D := SSE2_MULCONJ s bp3 (a 6)
  let E := SSE2_MULCONJ s bp4 (a 7)
  let C := SSE2_MULCONJ s bp2 (a 8)
  let F := SSE2_MULCONJ s bp5 (a 8)
  let A := mm_add A B
  let D := mm_add D E
  let b := Function.update b 6 (mm_add A C)
  let b := Function.update b 7 (mm_add D F)
  let A := SSE2_MUL s (b 3) (b 7)
  let B := SSE2_MUL s (b 4) (b 6)
  let C := SSE2_MUL s (b 1) (b 6)
  let D := SSE2_MUL s (b 0) (b 7)
  let E := SSE2_MUL s (b 0) (b 4)
  let F := SSE2_MUL s (b 1) (b 3)
  let A := mm_sub A B
  let C := mm_sub C D
  let E := mm_sub E F
  let b := Function.update b 2 (SSE2_CONJ A)
  let b := Function.update b 5 (SSE2_CONJ C)
  let b := Function.update b 8 (SSE2_CONJ E)
  b

/-- `inline_gtransform_local` for `NC == 2`, `gtrans.c:124-133`. -/
noncomputable def gtransform_local2 (s : ISA) (a b c : Arr (V2 ℝ)) : Arr (V2 ℝ) :=
  let bp0 := mm_add (SSE2_MUL_CONJ s (c 0) (b 0)) (SSE2_MUL_CONJ s (c 1) (b 1))
  let bp1 := mm_add (SSE2_MUL_CONJ s (c 0) (b 2)) (SSE2_MUL_CONJ s (c 1) (b 3))
  let b := Function.update b 0 (mm_add (SSE2_MULCONJ s bp0 (a 0)) (SSE2_MULCONJ s bp1 (a 1)))
  let b := Function.update b 2 (mm_add (SSE2_MULCONJ s bp0 (a 2)) (SSE2_MULCONJ s bp1 (a 3)))
  let b := Function.update b 1 (SSE_FLIP (SSE2_CONJ (b 2)))
  let b := Function.update b 3 (SSE2_CONJ (b 0))
  b

/-- `inline_gtransform_local`, `gtrans.c:30-140`; `temp` and `ct` are the contents of uninitialised
arrays. -/
noncomputable def gtransform_local (s : ISA) (NC NB : ℕ) (ct : Arr (V2 ℝ)) (a b c temp : Arr ℂ) : Arr ℂ :=
  if NC = 3 then stA (gtransform_local3 s (ldA a) (ldA b) (ldA c))
  else if NC = 2 then stA (gtransform_local2 s (ldA a) (ldA b) (ldA c))
  else multab_suNC s NC NB a (multab_dag_suNC s NC NB ct b c temp) b

/-- `Hermitian_proj_short` for `NC == 3`, `exactQ.c:404-421`. -/
noncomputable def Hermitian_proj_short3 (U : Arr ℂ) : Arr ℂ :=
  let cimU0 := (U 0).im
  let cimU4 := (U 4).im
  let cimU8 := (U 8).im
  let u := ldA U
  let half : V2 ℝ := ⟨0.5, 0.5⟩
  stA (arr [⟨(2 * cimU0 - cimU4 - cimU8) / 3, 0⟩,
    SSE2_iMUL (mm_mul half (mm_sub (SSE2_CONJ (u 3)) (u 1))),
    SSE2_iMUL (mm_mul half (mm_sub (SSE2_CONJ (u 6)) (u 2))),
    ⟨(2 * cimU4 - cimU0 - cimU8) / 3, 0⟩,
    SSE2_iMUL (mm_mul half (mm_sub (SSE2_CONJ (u 7)) (u 5)))])

/-- The lines shared by the three rotations, `givens.c:62-67,117-122,172-177`; a division by zero is
`none`. -/
noncomputable def rotNorm (s0 s1 : V2 ℝ) : Option (V2 ℝ × V2 ℝ) :=
  let sum := mm_add (mm_mul s0 s0) (mm_mul s1 s1)
  let sum := mm_add sum (mm_shuffle1 sum sum)
  if sum.lo = 0 ∨ sum.hi = 0 then none else
  let sum : V2 ℝ := ⟨√sum.lo, √sum.hi⟩
  some (mm_div s0 sum, mm_div s1 sum)

/-- `rotation1`, `givens.c:55-107`: the new `U` and `w`. -/
noncomputable def rotation1 (s : ISA) (U w : Arr ℂ) : Option (Arr ℂ × Arr ℂ) :=
  let u := ldA U
  let w := ldA w
  let s0 := mm_add (u 0) (SSE2_CONJ (u 4))
  let s1 := mm_sub (u 1) (SSE2_CONJ (u 3))
  (rotNorm s0 s1).map fun r =>
    let s0 := r.1
    let s1 := r.2
    let tmp0 := mm_add (SSE2_MUL s s0 (w 0)) (SSE2_MUL s s1 (w 3))
    let tmp1 := mm_add (SSE2_MUL s s0 (w 1)) (SSE2_MUL s s1 (w 4))
    let tmp2 := mm_add (SSE2_MUL s s0 (w 2)) (SSE2_MUL s s1 (w 5))
    let tmp3 := mm_sub (SSE2_MULCONJ s s0 (w 3)) (SSE2_MULCONJ s s1 (w 0))
    let tmp4 := mm_sub (SSE2_MULCONJ s s0 (w 4)) (SSE2_MULCONJ s s1 (w 1))
    let tmp5 := mm_sub (SSE2_MULCONJ s s0 (w 5)) (SSE2_MULCONJ s s1 (w 2))
    let w := Function.update w 0 (tmp0)
    let w := Function.update w 1 (tmp1)
    let w := Function.update w 2 (tmp2)
    let w := Function.update w 3 (tmp3)
    let w := Function.update w 4 (tmp4)
    let w := Function.update w 5 (tmp5)
    let tmp0 := mm_add (SSE2_MULCONJ s s0 (u 0)) (SSE2_MULCONJ s s1 (u 1))
    let tmp1 := mm_sub (SSE2_MUL s s0 (u 1)) (SSE2_MUL s s1 (u 0))
    let tmp2 := mm_add (SSE2_MULCONJ s s0 (u 3)) (SSE2_MULCONJ s s1 (u 4))
    let tmp3 := mm_sub (SSE2_MUL s s0 (u 4)) (SSE2_MUL s s1 (u 3))
    let tmp4 := mm_add (SSE2_MULCONJ s s0 (u 6)) (SSE2_MULCONJ s s1 (u 7))
    let tmp5 := mm_sub (SSE2_MUL s s0 (u 7)) (SSE2_MUL s s1 (u 6))
    let u := Function.update u 0 (tmp0)
    let u := Function.update u 1 (tmp1)
    let u := Function.update u 3 (tmp2)
    let u := Function.update u 4 (tmp3)
    let u := Function.update u 6 (tmp4)
    let u := Function.update u 7 (tmp5)
    (stA u, stA w)

/-- `rotation2`, `givens.c:110-162`: the new `U` and `w`. -/
noncomputable def rotation2 (s : ISA) (U w : Arr ℂ) : Option (Arr ℂ × Arr ℂ) :=
  let u := ldA U
  let w := ldA w
  let s0 := mm_add (u 4) (SSE2_CONJ (u 8))
  let s1 := mm_sub (u 5) (SSE2_CONJ (u 7))
  (rotNorm s0 s1).map fun r =>
    let s0 := r.1
    let s1 := r.2
    let tmp0 := mm_add (SSE2_MUL s s0 (w 3)) (SSE2_MUL s s1 (w 6))
    let tmp1 := mm_add (SSE2_MUL s s0 (w 4)) (SSE2_MUL s s1 (w 7))
    let tmp2 := mm_add (SSE2_MUL s s0 (w 5)) (SSE2_MUL s s1 (w 8))
    let tmp3 := mm_sub (SSE2_MULCONJ s s0 (w 6)) (SSE2_MULCONJ s s1 (w 3))
    let tmp4 := mm_sub (SSE2_MULCONJ s s0 (w 7)) (SSE2_MULCONJ s s1 (w 4))
    let tmp5 := mm_sub (SSE2_MULCONJ s s0 (w 8)) (SSE2_MULCONJ s s1 (w 5))
    let w := Function.update w 3 (tmp0)
    let w := Function.update w 4 (tmp1)
    let w := Function.update w 5 (tmp2)
    let w := Function.update w 6 (tmp3)
    let w := Function.update w 7 (tmp4)
    let w := Function.update w 8 (tmp5)
    let tmp0 := mm_add (SSE2_MULCONJ s s0 (u 1)) (SSE2_MULCONJ s s1 (u 2))
    let tmp1 := mm_sub (SSE2_MUL s s0 (u 2)) (SSE2_MUL s s1 (u 1))
    let tmp2 := mm_add (SSE2_MULCONJ s s0 (u 4)) (SSE2_MULCONJ s s1 (u 5))
    let tmp3 := mm_sub (SSE2_MUL s s0 (u 5)) (SSE2_MUL s s1 (u 4))
    let tmp4 := mm_add (SSE2_MULCONJ s s0 (u 7)) (SSE2_MULCONJ s s1 (u 8))
    let tmp5 := mm_sub (SSE2_MUL s s0 (u 8)) (SSE2_MUL s s1 (u 7))
    let u := Function.update u 1 (tmp0)
    let u := Function.update u 2 (tmp1)
    let u := Function.update u 4 (tmp2)
    let u := Function.update u 5 (tmp3)
    let u := Function.update u 7 (tmp4)
    let u := Function.update u 8 (tmp5)
    (stA u, stA w)

/-- `rotation3`, `givens.c:165-216`: the new `U` and `w`. -/
noncomputable def rotation3 (s : ISA) (U w : Arr ℂ) : Option (Arr ℂ × Arr ℂ) :=
  let u := ldA U
  let w := ldA w
  let s0 := mm_add (u 8) (SSE2_CONJ (u 0))
  let s1 := mm_sub (u 6) (SSE2_CONJ (u 2))
  (rotNorm s0 s1).map fun r =>
    let s0 := r.1
    let s1 := r.2
    let tmp0 := mm_sub (SSE2_MULCONJ s s0 (w 0)) (SSE2_MULCONJ s s1 (w 6))
    let tmp1 := mm_sub (SSE2_MULCONJ s s0 (w 1)) (SSE2_MULCONJ s s1 (w 7))
    let tmp2 := mm_sub (SSE2_MULCONJ s s0 (w 2)) (SSE2_MULCONJ s s1 (w 8))
    let tmp3 := mm_add (SSE2_MUL s s0 (w 6)) (SSE2_MUL s s1 (w 0))
    let tmp4 := mm_add (SSE2_MUL s s0 (w 7)) (SSE2_MUL s s1 (w 1))
    let tmp5 := mm_add (SSE2_MUL s s0 (w 8)) (SSE2_MUL s s1 (w 2))
    let w := Function.update w 0 (tmp0)
    let w := Function.update w 1 (tmp1)
    let w := Function.update w 2 (tmp2)
    let w := Function.update w 6 (tmp3)
    let w := Function.update w 7 (tmp4)
    let w := Function.update w 8 (tmp5)
    let tmp0 := mm_sub (SSE2_MUL s s0 (u 0)) (SSE2_MUL s s1 (u 2))
    let tmp1 := mm_add (SSE2_MULCONJ s s0 (u 2)) (SSE2_MULCONJ s s1 (u 0))
    let tmp2 := mm_sub (SSE2_MUL s s0 (u 3)) (SSE2_MUL s s1 (u 5))
    let tmp3 := mm_add (SSE2_MULCONJ s s0 (u 5)) (SSE2_MULCONJ s s1 (u 3))
    let tmp4 := mm_sub (SSE2_MUL s s0 (u 6)) (SSE2_MUL s s1 (u 8))
    let tmp5 := mm_add (SSE2_MULCONJ s s0 (u 8)) (SSE2_MULCONJ s s1 (u 6))
    let u := Function.update u 0 (tmp0)
    let u := Function.update u 2 (tmp1)
    let u := Function.update u 3 (tmp2)
    let u := Function.update u 5 (tmp3)
    let u := Function.update u 6 (tmp4)
    let u := Function.update u 8 (tmp5)
    (stA u, stA w)

end GLU.Mat.Sse
