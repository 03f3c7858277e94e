import Verif.Mat.LU
import Mathlib.Analysis.Real.Sqrt

/-!
# Reunitarisation

Model of `Matrix_Ops/gramschmidt.c` (portable version).  A division by a vanishing norm
(which in C produces infinities and NaN) is the separate outcome `none`.
-/

namespace GLU.Mat

open Complex

/-- `gram_reunit` for `NC == 3`, `gramschmidt.c:76-164`.  `uu[2k]`, `uu[2k+1]` are the real
and imaginary part of `U[k]`. -/
noncomputable def gram_reunit3 (U : Arr ℂ) : Option (Arr ℂ) :=
  let v00R := (U 0).re
  let v00I := (U 0).im
  let v10R := (U 1).re
  let v10I := (U 1).im
  let v01R := (U 3).re
  let v01I := (U 3).im
  let v11R := (U 4).re
  let v11I := (U 4).im
  let v02R := (U 6).re
  let v02I := (U 6).im
  let v12R := (U 7).re
  let v12I := (U 7).im
  let norm := v00R * v00R + v00I * v00I
  let norm := (v01R * v01R + v01I * v01I) + norm
  let norm := (v02R * v02R + v02I * v02I) + norm
  if norm = 0 then none else
  let norm := 1 / Real.sqrt norm
  let v00R := v00R * norm
  let v00I := v00I * norm
  let v01R := v01R * norm
  let v01I := v01I * norm
  let v02R := v02R * norm
  let v02I := v02I * norm
  let cR := (v10R * v00R) + (v10I * v00I)
  let cR := (v11R * v01R) + (v12R * v02R) + cR
  let cR := (v12I * v02I) + (v11I * v01I) + cR
  let cI := (v00R * v10I - v10R * v00I)
  let cI := (v01R * v11I - v11R * v01I) + cI
  let cI := (v02R * v12I - v12R * v02I) + cI
  let v10R := v10R - (cR * v00R - cI * v00I)
  let v10I := v10I - (cR * v00I + cI * v00R)
  let v11R := v11R - (cR * v01R - cI * v01I)
  let v11I := v11I - (cR * v01I + cI * v01R)
  let v12R := v12R - (cR * v02R - cI * v02I)
  let v12I := v12I - (cR * v02I + cI * v02R)
  let norm := v10R * v10R + v10I * v10I
  let norm := v11R * v11R + v11I * v11I + norm
  let norm := v12R * v12R + v12I * v12I + norm
  if norm = 0 then none else
  let norm := 1 / Real.sqrt norm
  let v10R := v10R * norm
  let v10I := v10I * norm
  let v11R := v11R * norm
  let v11I := v11I * norm
  let v12R := v12R * norm
  let v12I := v12I * norm
  let v20R := v01R * v12R - v01I * v12I
  let v20R := v20R - v02R * v11R + v02I * v11I
  let v20I := v01R * v12I + v12R * v01I
  let v20I := v02R * v11I + v11R * v02I - v20I
  let v21R := v02R * v10R - v02I * v10I
  let v21R := v21R - v12R * v00R + v12I * v00I
  let v21I := v02R * v10I + v10R * v02I
  let v21I := v00R * v12I + v12R * v00I - v21I
  let v22R := v00R * v11R - v00I * v11I
  let v22R := v22R - v01R * v10R + v01I * v10I
  let v22I := v00R * v11I + v11R * v00I
  let v22I := v01R * v10I + v10R * v01I - v22I
  some (arr [⟨v00R, v00I⟩, ⟨v10R, v10I⟩, ⟨v20R, v20I⟩,
    ⟨v01R, v01I⟩, ⟨v11R, v11I⟩, ⟨v21R, v21I⟩,
    ⟨v02R, v02I⟩, ⟨v12R, v12I⟩, ⟨v22R, v22I⟩])

/-- `gram_reunit` for `NC == 2`, `gramschmidt.c:167-178`. -/
noncomputable def gram_reunit2 (U : Arr ℂ) : Option (Arr ℂ) :=
  let v00R := (U 0).re
  let v00I := (U 0).im
  let v01R := (U 2).re
  let v01I := (U 2).im
  let norm := Real.sqrt (v00R * v00R + v00I * v00I + v01R * v01R + v01I * v01I)
  if norm = 0 then none else
  let norm := 1 / norm
  some (arr [(v00R * norm : ℝ) + I * v00I * norm, -((v01R * norm : ℝ) - I * v01I * norm),
    (v01R * norm : ℝ) + I * v01I * norm, (v00R * norm : ℝ) - I * v00I * norm])

/-- `project`, `gramschmidt.c:34-51`. -/
noncomputable def project (NC : ℕ) (V U : Arr ℂ) : Arr ℂ :=
  let p := forN NC (fun i (p : ℝ × ℝ) =>
    (p.1 + (V i).re * (U i).re + (V i).im * (U i).im,
      p.2 + (U i).re * (V i).im - (U i).im * (V i).re)) (0, 0)
  mapN NC (fun i x => x - ((p.1 * (U i).re - p.2 * (U i).im : ℝ) +
    I * (p.1 * (U i).im + p.2 * (U i).re : ℝ))) V

/-- `vect_norm2`, `gramschmidt.c:54-68`. -/
noncomputable def vect_norm2 (NC : ℕ) (a : Arr ℂ) : Option (Arr ℂ) :=
  let norm := forN NC (fun mu (norm : ℝ) =>
    norm + ((a mu).re * (a mu).re + (a mu).im * (a mu).im)) 0
  if norm = 0 then none else
  let norm := 1 / Real.sqrt norm
  some (mapN NC (fun _ x => x * norm) a)

/-- One pass of the modified Gram-Schmidt loop, `gramschmidt.c:191-201`: the vectors `v`
and the matrix `U`. -/
noncomputable def gramStep (NC k : ℕ) (s : (ℕ → Arr ℂ) × Arr ℂ) :
    Option ((ℕ → Arr ℂ) × Arr ℂ) :=
  (vect_norm2 NC (forN k (fun i vk => project NC vk (s.1 i)) (s.1 k))).map fun vk =>
    (Function.update s.1 k vk,
      forN NC (fun j U => Function.update U (j + NC * k) (vk j)) s.2)

/-- `gram_reunit`, generic branch, `gramschmidt.c:180-221`. -/
noncomputable def gram_reunitN (NC : ℕ) (U array : Arr ℂ) : Option (Arr ℂ) :=
  (forN (NC - 1) (fun k o => o.bind (gramStep NC k))
    (some (fun i j => U (j + NC * i), U))).map fun s => completeBottom NC s.2 array

/-- `gram_reunit`, `gramschmidt.c:72-224`. -/
noncomputable def gram_reunit (NC : ℕ) (U array : Arr ℂ) : Option (Arr ℂ) :=
  if NC = 3 then gram_reunit3 U else if NC = 2 then gram_reunit2 U else gram_reunitN NC U array

end GLU.Mat
