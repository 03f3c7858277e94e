import Verif.Update.Model

/-!
# The heat bath of Creutz

The branch of `hb.c` that is built when `USE_KP` is not defined (`hb.c:61-75`, `95-103`).
-/

namespace GLU.Update

open Complex

/-- `Creutz`, `hb.c:64-74`: the value of `d` and whether the draw is rejected; `none` when the argument of the logarithm is
not positive. Two numbers are used. -/
noncomputable def Creutz (xl NORM : ℝ) (r : ℕ → ℝ) (n : ℕ) : Option ℝ × Prop :=
  let x4 := r n
  let y := xl + (1 - xl) * r (n + 1)
  if y ≤ 0 then (none, False) else
  let a0 := 1 + Real.log y * NORM
  (some (1 - a0), 1 - a0 * a0 < x4 * x4)

open Classical in
/-- `while( Creutz( ... ) && iters < NHBMAX ) { iters++ ; }`, `hb.c:99-101`, with `fuel = NHBMAX - iters`. -/
noncomputable def creutzWhile (xl NORM : ℝ) (r : ℕ → ℝ) : ℕ → ℕ → Option ℝ × ℕ
  | 0, n => ((Creutz xl NORM r n).1, n + 2)
  | fuel + 1, n =>
    if (Creutz xl NORM r n).2 then creutzWhile xl NORM r fuel (n + 2) else ((Creutz xl NORM r n).1, n + 2)

open Classical in
/-- `hb.c:96-102`: `d` and the position in the stream. -/
noncomputable def drawCreutz (NORM : ℝ) (r : ℕ → ℝ) (n : ℕ) : Option ℝ × ℕ :=
  let xl := Real.exp (-2 / NORM)
  if (Creutz xl NORM r n).2 then creutzWhile xl NORM r (NHBMAX - 1) (n + 2) else ((Creutz xl NORM r n).1, n + 2)

/-- `generate_SU2`, `hb.c:78-128`, in this build. -/
noncomputable def generateCreutz (s0 s1 : ℂ) (NORM : ℝ) (r : ℕ → ℝ) (n : ℕ) : Option ((ℂ × ℂ) × ℕ) :=
  let p := drawCreutz NORM r n
  p.1.map fun d => (su2From d (r p.2) (r (p.2 + 1)) s0 s1, p.2 + 2)

end GLU.Update
