import Verif.Cuts.CutModel
import Verif.IO.MilcHdrModel

/-!
# The files of the measurements: `src/Cuts/cut_output.c`

`big` is `WORDS_BIGENDIAN`. A `double` is its 64-bit pattern, an `int` its 32-bit pattern. A writer
returns the bytes that it appends to the file, `none` when an array is accessed outside its bounds.
The writes themselves succeed (the result of `fwrite` is not looked at in the code), the ASCII
output compiled with `ASCII_CHECK` is left out.
-/

namespace GLU.Cuts
open GLU.IO

/-- `FWRITE` with `size == sizeof( int )`, `cut_output.c:31-41`: the bytes written and the array
left behind. -/
def FWRITE_32 (big : Bool) (arr : List W32) (stride : ℕ) : Option (List Byte × List W32) := do
  let arr ← if !big then bswap_32 stride arr else some arr
  let out ← if stride ≤ arr.length then some ((arr.take stride).flatMap (memInt big)) else none
  let arr ← if !big then bswap_32 stride arr else some arr
  return (out, arr)

/-- `FWRITE` with `size == sizeof( double )`, `cut_output.c:42-45`. -/
def FWRITE_64 (big : Bool) (arr : List W64) (stride : ℕ) : Option (List Byte × List W64) := do
  let arr ← if !big then bswap_64 stride arr else some arr
  let out ← if stride ≤ arr.length then some ((arr.take stride).flatMap (memDbl big)) else none
  let arr ← if !big then bswap_64 stride arr else some arr
  return (out, arr)

/-- `write_complex_g2g3_to_list`, `cut_output.c:264-285`; the arrays are the real and imaginary
parts in turn. -/
def write_complex_g2g3_to_list (big : Bool) (g2 g3 : List W64) (num_mom : ℕ) :
    Option (List Byte) := do
  let nmom : List W32 := [BitVec.ofNat 32 num_mom]
  let (o1, nmom) ← FWRITE_32 big nmom 1
  let (o2, _) ← FWRITE_64 big g2 (2 * num_mom)
  let (o3, _) ← FWRITE_32 big nmom 1
  let (o4, _) ← FWRITE_64 big g3 (2 * num_mom)
  return o1 ++ o2 ++ o3 ++ o4

/-- `write_g2_to_list`, `cut_output.c:288-307`. -/
def write_g2_to_list (big : Bool) (g2 : List W64) (num_mom : ℕ) : Option (List Byte) := do
  let nmom : List W32 := [BitVec.ofNat 32 num_mom]
  let (o1, _) ← FWRITE_32 big nmom 1
  let (o2, _) ← FWRITE_64 big g2 num_mom
  return o1 ++ o2

/-- `write_g2g3_to_list`, `cut_output.c:310-335`: the length of the arrays is read from `nmom`
after it has been written. -/
def write_g2g3_to_list (big : Bool) (g2 g3 : List W64) (num_mom : ℕ) : Option (List Byte) := do
  let nmom : List W32 := [BitVec.ofNat 32 num_mom]
  let (o1, nmom) ← FWRITE_32 big nmom 1
  let n1 ← nmom[0]?
  let (o2, _) ← FWRITE_64 big g2 n1.toNat
  let (o3, nmom) ← FWRITE_32 big nmom 1
  let n2 ← nmom[0]?
  let (o4, _) ← FWRITE_64 big g3 n2.toNat
  return o1 ++ o2 ++ o3 ++ o4

/-- The array `aout` of `write_lattice_fields`, `cut_output.c:353-362`: position
`2 * ( a + mu * NCNC )` and the next one hold the real and imaginary part of element `a` of link
`mu`. -/
def fieldRow (ND NCNC : ℕ) (O : ℕ → ℕ → W64 × W64) : List W64 :=
  (List.range (ND * NCNC * 2)).map fun b =>
    let z := O (b / 2 / NCNC) (b / 2 % NCNC)
    if b % 2 = 0 then z.1 else z.2

/-- The loop of `write_lattice_fields`, `cut_output.c:352-364`. -/
def write_rows (big : Bool) (ND NCNC : ℕ) : List (ℕ → ℕ → W64 × W64) → Option (List Byte)
  | [] => some []
  | O :: l => do
    let (o, _) ← FWRITE_64 big (fieldRow ND NCNC O) (ND * NCNC * 2)
    let r ← write_rows big ND NCNC l
    return o ++ r

/-- `write_lattice_fields`, `cut_output.c:337-367`; `A` is the field as bit patterns of the real and
imaginary parts. -/
def write_lattice_fields (big : Bool) (ND NCNC : ℕ) (A : ℕ → ℕ → ℕ → W64 × W64) (list : List Vec) :
    Option (List Byte) := do
  let nmom : List W32 := [BitVec.ofNat 32 list.length]
  let (o1, _) ← FWRITE_32 big nmom 1
  let o2 ← write_rows big ND NCNC (list.map fun v => A v.idx)
  return o1 ++ o2

/-- The array `kall` of `write_mom_veclist`, `cut_output.c:385-394`, and of
`write_triplet_mom_list`, `cut_output.c:496-504`. -/
def kall (DIR : ℕ) (list : List (ℕ → ℤ)) : List W32 :=
  list.flatMap fun MOM => BitVec.ofNat 32 DIR :: (List.range DIR).map fun a => BitVec.ofInt 32 (MOM a)

/-- `write_mom_veclist`, `cut_output.c:370-398`. The variable `stride` (376) is an `int`: when
`( DIR + 1 ) * num_mom[ 0 ]` does not fit, the array is allocated with another length than the loop
writes, which is `none` here. -/
def write_mom_veclist (big : Bool) (list : List Vec) (DIR : ℕ) : Option (List Byte) :=
  if 2 ^ 31 ≤ (DIR + 1) * list.length then none else do
  let nmom : List W32 := [BitVec.ofNat 32 list.length]
  let (o1, _) ← FWRITE_32 big nmom 1
  let (o2, _) ← FWRITE_32 big (kall DIR (list.map Vec.MOM)) ((DIR + 1) * list.length)
  return o1 ++ o2

/-- One of the two files of a direction written by `write_moments`, `cut_output.c:419-434`: the loop
over the measurements. -/
def moment_loop (big : Bool) (nmom : List W32) (NQ : ℕ) : List (List W64) → Option (List Byte)
  | [] => some []
  | re :: l => do
    let (o1, nmom) ← FWRITE_32 big nmom 1
    let (o2, _) ← FWRITE_64 big re NQ
    let r ← moment_loop big nmom NQ l
    return o1 ++ o2 ++ r

/-- The file `Qmoment_d<mu>` (or `Q2moment_d<mu>`) of `write_moments`, `cut_output.c:401-442`, from the
array `Q` (or `Q2`) of each measurement, which holds `NQ` moments for each direction. -/
def write_moments (big : Bool) (NQ mu : ℕ) (Q : List (ℕ → W64)) : Option (List Byte) := do
  let Nmeas : List W32 := [BitVec.ofNat 32 Q.length]
  let (o1, _) ← FWRITE_32 big Nmeas 1
  let o2 ← moment_loop big [BitVec.ofNat 32 NQ] NQ
    (Q.map fun q => (List.range NQ).map fun j => q (j + mu * NQ))
  return o1 ++ o2

/-- `write_tslice_list`, `cut_output.c:524-541`. -/
def write_tslice_list (big : Bool) (LT : ℕ) : Option (List Byte) := do
  let lt : List W32 := [BitVec.ofNat 32 LT]
  let (o1, _) ← FWRITE_32 big lt 1
  let T := (List.range LT).map (BitVec.ofNat 32)
  let (o2, _) ← FWRITE_32 big T LT
  return o1 ++ o2

/-- The file of the gluon propagators (`cuts.c:166` and `glueprop.c:144`), the three-gluon vertex
(`cuts.c:162`, `MOMgg.c:207`), the smeared propagators (`smearing_param.c:286-287`), with `DIR = ND`, and
the instantaneous propagators (`3Dcuts.c:156`, `221`), with `DIR = ND - 1`. -/
def pair_file (big : Bool) (list : List Vec) (DIR : ℕ) (g2 g3 : List W64) : Option (List Byte) := do
  let a ← write_mom_veclist big list DIR
  let b ← write_g2g3_to_list big g2 g3 list.length
  return a ++ b

/-- The file of the gluon fields, `cuts.c:149-150`. -/
def field_file (big : Bool) (list : List Vec) (ND NCNC : ℕ) (A : ℕ → ℕ → ℕ → W64 × W64) :
    Option (List Byte) := do
  let a ← write_mom_veclist big list ND
  let b ← write_lattice_fields big ND NCNC A list
  return a ++ b

/-- The file of a time correlator, `config_gluons.c:384-387`, `Qcorr.c:51-74` and `Qslab.c:94-188`. -/
def time_file (big : Bool) (LT : ℕ) (ct : List W64) : Option (List Byte) := do
  let a ← write_tslice_list big LT
  let b ← write_g2_to_list big ct LT
  return a ++ b

/-- The file of the charge correlator, `Qcorr.c:116-205`. -/
def corr_file (big : Bool) (list : List Vec) (ND : ℕ) (q : List W64) : Option (List Byte) := do
  let a ← write_mom_veclist big list ND
  let b ← write_g2_to_list big q list.length
  return a ++ b

/-- The writes of the loop over the time separations in the static potential file, `POLY.c:395`. -/
def static_rows (big : Bool) (n : ℕ) : List (List W64 × List W64) → Option (List Byte)
  | [] => some []
  | r :: l => do
    let o ← write_complex_g2g3_to_list big r.1 r.2 n
    let s ← static_rows big n l
    return o ++ s

/-- The file of the static potential, `Coul_staticpot`, `POLY.c:310-415`: the displacements (352), the number
`T - 1` of separations (361-364), and one entry of `rows` for each separation `t` from 1 to `T - 1` (371-399).
`none` for the reported failure with `T < 1` (322). -/
def static_file (big : Bool) (list : List Vec) (ND T : ℕ) (rows : ℕ → List W64 × List W64) :
    Option (List Byte) :=
  if T < 1 then none else do
  let a ← write_mom_veclist big list (ND - 1)
  let Tcorrs : List W32 := [BitVec.ofNat 32 (T - 1)]
  let (c, _) ← FWRITE_32 big Tcorrs 1
  let b ← static_rows big list.length ((List.range (T - 1)).map fun t => rows (t + 1))
  return a ++ c ++ b

end GLU.Cuts
