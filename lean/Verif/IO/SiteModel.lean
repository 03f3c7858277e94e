import Verif.IO.CfgModel
import Verif.Geom.Model

/-!
# HiRep and CERN files: model

`src/IO/HIREP.c` and `src/IO/CERN.c` in a double precision build. Numbers are the words that
store them; the word format `P` is `dbl` in the program (any format will do for the proofs). The
file is a list of bytes.
-/

namespace GLU.IO

open GLU.Geom

/-- The first `n` complex numbers of a link as a sequence of reals. -/
def matWords {W : Type} (n : ℕ) (link : Arr (W × W)) : List W :=
  (List.range n).flatMap fun j => [(link j).1, (link j).2]

variable {P : Word}

/-! ### HiRep -/

/-- `mat_stride`, `HIREP.c:119-123` and `Nelements`, `HIREP.c:51-54`. -/
def hirep_elements (NC : ℕ) : ℕ := if NC = 2 then NC else NC * NC

/-- The order of the directions: time first, `HIREP.c:166-179` and `90-103`. -/
def hirep_dirs (ND : ℕ) : List ℕ := (ND - 1) :: List.range (ND - 1)

/-- One pass of the site loop of `write_gauge_field`, `HIREP.c:162-190`: the bytes written. -/
def hirep_write_site (outBig big : Bool) (NC ND : ℕ) (site : ℕ → Arr (P.W × P.W)) : List Byte :=
  let uoutd := (hirep_dirs ND).flatMap fun mu => matWords (hirep_elements NC) (site mu)
  (uoutd.map (swap_for_output outBig big)).flatMap (mem P big)

/-- The data part of `write_gauge_field`, `HIREP.c:157-190` (the header, `126-156`, precedes
it). -/
def write_gauge_field (outBig big : Bool) (L : Latt) (NC : ℕ) (lat : Lat P) : List Byte :=
  (List.range (volume L)).flatMap fun i =>
    hirep_write_site outBig big NC L.ND (lat (translate_to_GLU_geom L i))

/-- The link taken from the buffer at position `a`, `HIREP.c:77-80,84-87` (two colours; `neg` is
the change of sign) and `93-96,99-102`. `none` for a read outside the buffer. -/
def hirep_link (neg : P.W → P.W) (NC : ℕ) (uind : List P.W) (a : ℕ) (old : Arr (P.W × P.W)) :
    Option (Arr (P.W × P.W)) :=
  if NC = 2 then
    uind[a]?.bind fun u0 => uind[a + 1]?.bind fun u1 => uind[a + 2]?.bind fun u2 =>
      uind[a + 3]?.map fun u3 => fun j =>
        if j = 0 then (u0, u3)
        else if j = 1 then (neg u2, u1)
        else if j = 2 then (neg (neg u2), u1)
        else if j = 3 then (u0, neg u3)
        else old j
  else
    ((List.range (NC * NC)).mapM fun j =>
        uind[a + 2 * j]?.bind fun r => uind[a + 2 * j + 1]?.map fun i => (r, i)).map
      fun l j => (l[j]?).getD (old j)

/-- The links of a site, `HIREP.c:75-103`: the `k`-th direction in file order starts at
`a = 2 * Nelements * k`. -/
def hirep_links (neg : P.W → P.W) (NC : ℕ) (uind : List P.W) :
    List ℕ → ℕ → (ℕ → Arr (P.W × P.W)) → Option (ℕ → Arr (P.W × P.W))
  | [], _, site => some site
  | mu :: mus, a, site =>
    (hirep_link neg NC uind a (site mu)).bind fun link =>
      hirep_links neg NC uind mus (a + 2 * hirep_elements NC) (Function.update site mu link)

/-- The site loop of `read_gauge_field`, `HIREP.c:61-106`, from site `i` of the file on; `none`
for a failed read or an access outside the buffer. The words are always taken as big-endian. -/
def hirep_read_sites (neg : P.W → P.W) (big : Bool) (L : Latt) (NC : ℕ) :
    List ℕ → List Byte → Lat P → Option (Lat P)
  | [], _, lat => some lat
  | i :: is, file, lat =>
    let stride := 2 * hirep_elements NC * L.ND
    if stride * P.size ≤ file.length then
      let uind := (List.range stride).map fun t =>
        let w := ofMem P big ((file.drop (t * P.size)).take P.size)
        if !big then P.swap w else w
      let idx := translate_to_GLU_geom L i
      (hirep_links neg NC uind (hirep_dirs L.ND) 0 (lat idx)).bind fun site =>
        hirep_read_sites neg big L NC is (file.drop (stride * P.size)) (Function.update lat idx site)
    else none

/-- `read_gauge_field`, `HIREP.c:46-112`, on the data that follow the header. `reunit` is the
reunitarisation of a link by `latt_reunitU`. -/
def read_gauge_field (neg : P.W → P.W) (reunit : Arr (P.W × P.W) → Arr (P.W × P.W)) (big : Bool)
    (L : Latt) (NC : ℕ) (file : List Byte) (lat : Lat P) : Option (Lat P) :=
  (hirep_read_sites neg big L NC (List.range (volume L)) file lat).map
    fun lat i mu => reunit (lat i mu)

/-! ### CERN -/

/-- The sites of time slice `t` whose links are stored, in file order, `CERN.c:66-71` and
`169-182`. -/
def cern_sites (L : Latt) (t : ℕ) : List ℕ :=
  (List.range (L.dims 0)).flatMap fun x => (List.range (L.dims 1)).flatMap fun y =>
    (List.range (L.dims 2)).filterMap fun z =>
      if (x + y + z + t) % 2 = 1 then
        some (gen_site L fun mu => if mu = 0 then (x : ℤ) else if mu = 1 then (y : ℤ)
          else if mu = 2 then (z : ℤ) else (t : ℤ))
      else none

/-- The eight links stored for a site, as (site, direction), `CERN.c:75-87` and `186-198`. -/
def cern_links (L : Latt) (idx : ℕ) : List (ℕ × ℕ) :=
  [(idx, 3), (back L idx 3, 3), (idx, 0), (back L idx 0, 0),
   (idx, 1), (back L idx 1, 1), (idx, 2), (back L idx 2, 2)]

/-- All links stored for a time slice, in file order. -/
def cern_targets (L : Latt) (t : ℕ) : List (ℕ × ℕ) := (cern_sites L t).flatMap (cern_links L)

/-- The words copied into the buffer for a time slice, `CERN.c:169-231`. -/
def cern_slice (L : Latt) (NC : ℕ) (lat : Lat P) (t : ℕ) : List P.W :=
  (cern_targets L t).flatMap fun p => matWords (NC * NC) (lat p.1 p.2)

/-- The slice loop of `write_CLS_field`, `CERN.c:166-231`, over the slices in any order. `none`
outside the buffer. -/
def cern_fill (L : Latt) (NC : ℕ) (lat : Lat P) : List ℕ → Buf P.W → Option (Buf P.W)
  | [], b => some b
  | t :: ts, b =>
    (put id b (lcu L * t * 2 * (NC * NC) * 4) (cern_slice L NC lat t)).bind
      (cern_fill L NC lat ts)

/-- `write_CLS_field`, `CERN.c:130-242`, in four dimensions: the data after the header of 24
bytes. `none` for an access outside the buffer or if a word never assigned is written. -/
def write_CLS_field (big : Bool) (L : Latt) (NC : ℕ) (lat : Lat P) (order : List ℕ) :
    Option (List Byte) :=
  (cern_fill L NC lat order (Buf.malloc P.W (volume L * 4 * (NC * NC) * 2))).bind fun uout =>
    byteswap_and_write false big uout (8 * volume L * (NC * NC))

/-- The copies of one slice of `read_CLS_field`, `CERN.c:80-87,113`: target number `m` of the
slice is filled from word `m * 2 * NCNC` of the buffer on. `none` outside the buffer. -/
def cern_copy (NC : ℕ) (uin : ℕ → Option P.W) :
    List (ℕ × ℕ) → ℕ → Lat P → Option (Lat P)
  | [], _, lat => some lat
  | p :: ps, m, lat =>
    ((List.range (NC * NC)).mapM fun j =>
        (uin (m * (2 * (NC * NC)) + 2 * j)).bind fun r =>
          (uin (m * (2 * (NC * NC)) + 2 * j + 1)).map fun i => (r, i)).bind fun l =>
      cern_copy NC uin ps (m + 1)
        (Function.update lat p.1 (Function.update (lat p.1) p.2
          fun j => (l[j]?).getD (lat p.1 p.2 j)))

/-- `read_CLS_field`, `CERN.c:39-127`, in four dimensions on a little-endian machine, over the
slices in any order. `none` for a failed read (the program exits) or an access outside the
buffer. (On a big-endian machine `bswap_32` is applied to the memory of the lattice structure
itself, `121-123`; that is not modelled.) -/
def read_CLS_field (L : Latt) (NC : ℕ) (file : List Byte) : List ℕ → Lat P → Option (Lat P)
  | [], lat => some lat
  | t :: ts, lat =>
    let offset := 4 * 4 + 8 + lcu L * t * 8 * (NC * NC) * P.size
    (fread P false (2 * lcu L * (NC * NC) * 4) (file.drop offset)).bind fun uin =>
      (cern_copy NC uin (cern_targets L t) 0 lat).bind (read_CLS_field L NC file ts)

end GLU.IO
