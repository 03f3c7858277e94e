import Verif.Mat.UNops
import Mathlib.Analysis.Real.Sqrt

/-!
# Lie algebra data and the Vandermonde solver

Model of `Matrix_Ops/lie_mats.c` and `Matrix_Ops/vandermonde.c`.  The literals
0.8660254037844386, 0.57735026918962584, 0.28867513459481292 and
1.7320508075688772 are idealised as `√3/2`, `1/√3 = √3/3`, `1/(2√3) = √3/6` and
`√3`.
-/

namespace GLU.Mat

open Complex

/-- `struct struc_func`, lie_mats.c:26-29. -/
structure Struc where
  val : ℝ
  a : ℕ
  b : ℕ
  c : ℕ

/-- lie_mats.c:74. -/
noncomputable def r3_two : ℝ := √3 / 2
/-- lie_mats.c:130. -/
noncomputable def one_r3 : ℝ := √3 / 3
/-- lie_mats.c:131. -/
noncomputable def one_twor3 : ℝ := √3 / 6

/-- The `f` table for three colours, lie_mats.c:75-128. -/
noncomputable def fTable3 : List Struc := [
    ⟨1, 0, 1, 2⟩, ⟨-1, 0, 2, 1⟩, ⟨1 / 2, 0, 3, 6⟩, ⟨-(1 / 2), 0, 4, 5⟩, ⟨1 / 2, 0, 5, 4⟩,
    ⟨-(1 / 2), 0, 6, 3⟩, ⟨-1, 1, 0, 2⟩, ⟨1, 1, 2, 0⟩, ⟨1 / 2, 1, 3, 5⟩, ⟨1 / 2, 1, 4, 6⟩,
    ⟨-(1 / 2), 1, 5, 3⟩, ⟨-(1 / 2), 1, 6, 4⟩, ⟨1, 2, 0, 1⟩, ⟨-1, 2, 1, 0⟩, ⟨1 / 2, 2, 3, 4⟩,
    ⟨-(1 / 2), 2, 4, 3⟩, ⟨-(1 / 2), 2, 5, 6⟩, ⟨1 / 2, 2, 6, 5⟩, ⟨-(1 / 2), 3, 0, 6⟩,
    ⟨-(1 / 2), 3, 1, 5⟩, ⟨-(1 / 2), 3, 2, 4⟩, ⟨1 / 2, 3, 4, 2⟩, ⟨r3_two, 3, 4, 7⟩, ⟨1 / 2, 3, 5, 1⟩,
    ⟨1 / 2, 3, 6, 0⟩, ⟨-r3_two, 3, 7, 4⟩, ⟨1 / 2, 4, 0, 5⟩, ⟨-(1 / 2), 4, 1, 6⟩, ⟨1 / 2, 4, 2, 3⟩,
    ⟨-(1 / 2), 4, 3, 2⟩, ⟨-r3_two, 4, 3, 7⟩, ⟨-(1 / 2), 4, 5, 0⟩, ⟨1 / 2, 4, 6, 1⟩,
    ⟨r3_two, 4, 7, 3⟩, ⟨-(1 / 2), 5, 0, 4⟩, ⟨1 / 2, 5, 1, 3⟩, ⟨1 / 2, 5, 2, 6⟩, ⟨-(1 / 2), 5, 3, 1⟩,
    ⟨1 / 2, 5, 4, 0⟩, ⟨-(1 / 2), 5, 6, 2⟩, ⟨r3_two, 5, 6, 7⟩, ⟨-r3_two, 5, 7, 6⟩, ⟨1 / 2, 6, 0, 3⟩,
    ⟨1 / 2, 6, 1, 4⟩, ⟨-(1 / 2), 6, 2, 5⟩, ⟨-(1 / 2), 6, 3, 0⟩, ⟨-(1 / 2), 6, 4, 1⟩,
    ⟨1 / 2, 6, 5, 2⟩, ⟨-r3_two, 6, 5, 7⟩, ⟨r3_two, 6, 7, 5⟩, ⟨r3_two, 7, 3, 4⟩, ⟨-r3_two, 7, 4, 3⟩,
    ⟨r3_two, 7, 5, 6⟩, ⟨-r3_two, 7, 6, 5⟩]

/-- The `d` table for three colours, lie_mats.c:132-189. -/
noncomputable def dTable3 : List Struc := [
    ⟨one_r3, 0, 0, 7⟩, ⟨1 / 2, 0, 3, 5⟩, ⟨1 / 2, 0, 4, 6⟩, ⟨1 / 2, 0, 5, 3⟩, ⟨1 / 2, 0, 6, 4⟩,
    ⟨one_r3, 0, 7, 0⟩, ⟨one_r3, 1, 1, 7⟩, ⟨-(1 / 2), 1, 3, 6⟩, ⟨1 / 2, 1, 4, 5⟩, ⟨1 / 2, 1, 5, 4⟩,
    ⟨-(1 / 2), 1, 6, 3⟩, ⟨one_r3, 1, 7, 1⟩, ⟨one_r3, 2, 2, 7⟩, ⟨1 / 2, 2, 3, 3⟩, ⟨1 / 2, 2, 4, 4⟩,
    ⟨-(1 / 2), 2, 5, 5⟩, ⟨-(1 / 2), 2, 6, 6⟩, ⟨one_r3, 2, 7, 2⟩, ⟨1 / 2, 3, 0, 5⟩,
    ⟨-(1 / 2), 3, 1, 6⟩, ⟨1 / 2, 3, 2, 3⟩, ⟨1 / 2, 3, 3, 2⟩, ⟨-one_twor3, 3, 3, 7⟩,
    ⟨1 / 2, 3, 5, 0⟩, ⟨-(1 / 2), 3, 6, 1⟩, ⟨-one_twor3, 3, 7, 3⟩, ⟨1 / 2, 4, 0, 6⟩,
    ⟨1 / 2, 4, 1, 5⟩, ⟨1 / 2, 4, 2, 4⟩, ⟨1 / 2, 4, 4, 2⟩, ⟨-one_twor3, 4, 4, 7⟩, ⟨1 / 2, 4, 5, 1⟩,
    ⟨1 / 2, 4, 6, 0⟩, ⟨-one_twor3, 4, 7, 4⟩, ⟨1 / 2, 5, 0, 3⟩, ⟨1 / 2, 5, 1, 4⟩,
    ⟨-(1 / 2), 5, 2, 5⟩, ⟨1 / 2, 5, 3, 0⟩, ⟨1 / 2, 5, 4, 1⟩, ⟨-(1 / 2), 5, 5, 2⟩,
    ⟨-one_twor3, 5, 5, 7⟩, ⟨-one_twor3, 5, 7, 5⟩, ⟨1 / 2, 6, 0, 4⟩, ⟨-(1 / 2), 6, 1, 3⟩,
    ⟨-(1 / 2), 6, 2, 6⟩, ⟨-(1 / 2), 6, 3, 1⟩, ⟨1 / 2, 6, 4, 0⟩, ⟨-(1 / 2), 6, 6, 2⟩,
    ⟨-one_twor3, 6, 6, 7⟩, ⟨-one_twor3, 6, 7, 6⟩, ⟨one_r3, 7, 0, 0⟩, ⟨one_r3, 7, 1, 1⟩,
    ⟨one_r3, 7, 2, 2⟩, ⟨-one_twor3, 7, 3, 3⟩, ⟨-one_twor3, 7, 4, 4⟩, ⟨-one_twor3, 7, 5, 5⟩,
    ⟨-one_twor3, 7, 6, 6⟩, ⟨-one_r3, 7, 7, 7⟩]

/-- The `f` table for two colours, lie_mats.c:194-199; the `d` table is empty
(`dcount = 0`, line 39). -/
noncomputable def fTable2 : List Struc := [
    ⟨1, 0, 1, 2⟩, ⟨-1, 0, 2, 1⟩, ⟨-1, 1, 0, 2⟩, ⟨1, 1, 2, 0⟩, ⟨1, 2, 0, 1⟩, ⟨-1, 2, 1, 0⟩]

/-- `actually_compute_fs_and_ds`, lie_mats.c:65-240, `fcount` and `f`.  Only the
tabulated cases are modelled, the numerical construction for more than three
colours (lines 201-236) is in `Verif/Mat/LieMany.lean`. -/
noncomputable def fTable (NC : ℕ) : Option (List Struc) :=
  if NC = 3 then some fTable3 else if NC = 2 then some fTable2 else none

/-- `actually_compute_fs_and_ds`, lie_mats.c:65-240, `dcount` and `d`. -/
noncomputable def dTable (NC : ℕ) : Option (List Struc) :=
  if NC = 3 then some dTable3 else if NC = 2 then some [] else none

/-- `lie_data`, lie_mats.c:243-270, three colours (247-255). -/
noncomputable def lie_data3 (A : Arr ℂ) : Arr ℂ :=
  arr [A 1 + A 3, I * (A 1 - A 3), A 0 - A 4, A 2 + A 6, I * (A 2 - A 6), A 5 + A 7,
    I * (A 5 - A 7), -A 8 * (√3 : ℝ)]

/-- `lie_data`, lie_mats.c:243-270, two colours (256-259). -/
noncomputable def lie_data2 (A : Arr ℂ) : Arr ℂ :=
  arr [1 / 2 * (A 1 + A 2), 1 / 2 * (I * (A 1 - A 2)), A 0]

/-- `lie_data`, lie_mats.c:243-270, for the tabulated numbers of colours. -/
noncomputable def lie_data (NC : ℕ) (A : Arr ℂ) : Arr ℂ :=
  if NC = 3 then lie_data3 A else lie_data2 A

/-- `for( i < dcount ) result += d[i].val * a[d[i].a] * b[d[i].b] * c[d[i].c]`,
lie_mats.c:323-326 and 381-384. -/
noncomputable def dLoop (t : List Struc) (a b c : Arr ℂ) (result : ℂ) : ℂ :=
  t.foldl (fun r s => r + (s.val : ℂ) * a s.a * b s.b * c s.c) result

/-- `for( i < fcount ) result += ( I * f[i].val ) * a[..] * b[..] * c[..]`,
lie_mats.c:361-364 and 385-388. -/
noncomputable def fLoop (t : List Struc) (a b c : Arr ℂ) (result : ℂ) : ℂ :=
  t.foldl (fun r s => r + (I * (s.val : ℂ)) * a s.a * b s.b * c s.c) result

/-- `dabc_ABC`, lie_mats.c:312-328. -/
noncomputable def dabc_ABC (NC : ℕ) (A B C : Arr ℂ) : Option ℂ :=
  (dTable NC).map fun t => dLoop t (lie_data NC A) (lie_data NC B) (lie_data NC C) 0

/-- `ifabc_ABC`, lie_mats.c:350-366. -/
noncomputable def ifabc_ABC (NC : ℕ) (A B C : Arr ℂ) : Option ℂ :=
  (fTable NC).map fun t => fLoop t (lie_data NC A) (lie_data NC B) (lie_data NC C) 0

/-- `ifabc_dabc_ABC`, lie_mats.c:369-390. -/
noncomputable def ifabc_dabc_ABC (NC : ℕ) (A B C : Arr ℂ) : Option ℂ := do
  let td ← dTable NC
  let tf ← fTable NC
  let a := lie_data NC A
  let b := lie_data NC B
  let c := lie_data NC C
  pure (fLoop tf a b c (dLoop td a b c 0))

/-! ## Generators -/

/-- `mat_idx`, lie_mats.c:42. -/
def mat_idx (NC row column : ℕ) : ℕ := row + column * NC

/-- The list `lambda` with the running index `idx`. -/
structure Gens where
  lam : ℕ → Arr ℂ
  idx : ℕ

/-- `lambda[idx][x] = v`. -/
noncomputable def Gens.set (g : Gens) (x : ℕ) (v : ℂ) : Gens :=
  { g with lam := Function.update g.lam g.idx (Function.update (g.lam g.idx) x v) }

/-- `idx ++`. -/
def Gens.next (g : Gens) : Gens := { g with idx := g.idx + 1 }

/-- The value of `-i` for a `size_t` `i`: negation modulo 2^64. -/
def negSize (i : ℕ) : ℕ := (2 ^ 64 - i % 2 ^ 64) % 2 ^ 64

/-- Loop body for one `j`, lie_mats.c:408-413, with `k = subblock - 1`. -/
noncomputable def genPair (NC k j : ℕ) (g : Gens) : Gens :=
  let g := (g.set (mat_idx NC j k) (1 / 2)).set (mat_idx NC k j) (1 / 2)
  let g := g.next
  let g := (g.set (mat_idx NC j k) (I * (1 / 2))).set (mat_idx NC k j) (-I * (1 / 2))
  g.next

/-- One pass of the `while`, lie_mats.c:405-423, for the given `subblock`.  The
last diagonal entry is `fact * ( -i )` with `i` a `size_t`, whose value is
converted to a double; that conversion is idealised as exact. -/
noncomputable def genBlock (NC subblock : ℕ) (g : Gens) : Gens :=
  let k := subblock - 1
  let g := forN k (fun j g => genPair NC k j g) g
  let fact : ℝ := √(1 / (2 * subblock * (subblock - 1 : ℝ)))
  let g := forN (subblock - 1) (fun i g => g.set (mat_idx NC i i) (fact : ℂ)) g
  let g := g.set (mat_idx NC (subblock - 1) (subblock - 1)) ((fact * (negSize (subblock - 1) : ℝ) : ℝ) : ℂ)
  g.next

/-- `init_generators`, lie_mats.c:393-426: `subblock` runs from 2 to `NC`. -/
noncomputable def init_generators (NC : ℕ) : ℕ → Arr ℂ :=
  (forN (NC - 1) (fun n g => genBlock NC (n + 2) g) ⟨fun _ _ => 0, 0⟩).lam

/-! ## Vandermonde solver -/

/-- `f[i] = ( f[i] - f[i-1] ) / ( x[i] - x[i-k-1] )`, vandermonde.c:35; the
quotient by zero is the outcome `none`. -/
noncomputable def vdmDiff (x : Arr ℝ) (k i : ℕ) (f : Arr ℂ) : Option (Arr ℂ) :=
  if x i - x (i - k - 1) = 0 then none
  else some (Function.update f i ((f i - f (i - 1)) / ((x i - x (i - k - 1) : ℝ) : ℂ)))

/-- The inner loop `for( i = NC - 1 ; i > k ; i-- )`, vandermonde.c:34-36: the
step number `m` handles `i = NC - 1 - m`. -/
noncomputable def vdmSweep (NC : ℕ) (x : Arr ℝ) (k : ℕ) (f : Option (Arr ℂ)) : Option (Arr ℂ) :=
  forN (NC - 1 - k) (fun m f => f.bind (vdmDiff x k (NC - 1 - m))) f

/-- vandermonde.c:38-43: `k` runs from `NC - 1` down to 1 (step number `m`
handles `k = NC - 1 - m`), `i` from `k` to `NC - 2`. -/
noncomputable def vdmExpand (NC : ℕ) (x : Arr ℝ) (f : Arr ℂ) : Arr ℂ :=
  forN (NC - 1) (fun m f =>
    forFrom (NC - 1 - m) (NC - 1)
      (fun i f => Function.update f i (f i - f (i + 1) * (x (NC - 1 - m) : ℂ))) f) f

/-- `solvandermonde`, vandermonde.c:27-45, and `solvandermonde_new`,
vandermonde.c:59-77 (the same statements with the arguments exchanged). -/
noncomputable def solvandermonde (NC : ℕ) (f : Arr ℂ) (x : Arr ℝ) : Option (Arr ℂ) :=
  (forN (NC - 1) (fun k f => vdmSweep NC x k f) (some f)).map (vdmExpand NC x)

end GLU.Mat
