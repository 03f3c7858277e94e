import Verif.IO.CheckProps
import Verif.IO.ChkProps
import Verif.Utils.MemModel

/-!
# The low-memory reader

`lattice_reader_suNC_cheaper`, `src/IO/readers.c:351-491`: the file is read site by site through a buffer for one site.  As for
the other reader, files in the working precision of the program are modelled (the reunitarisation of `readers.c:473-476`, for
single precision files in a double precision program, is not), and `malloc` is assumed to succeed; its result is not tested in
the code.
-/

namespace GLU.IO

variable {P : Word}

/-- One site, `readers.c:386-463`: `f` is the rest of the file, `site` the links of the site `i`; `none` if the read fails.  The
number of the site is a `uint32_t` in `DML_checksum_accum`, `readers.c:109-122`. -/
def cheap_site (A : Arith P) (X : W32 → W32) (endian big : Bool) (NC ND LV : ℕ) (type : Store) (site : ℕ → Arr (P.W × P.W))
    (i : ℕ) (f : List Byte) : Option (Sums × (ℕ → Arr (P.W × P.W))) :=
  (fread P big (ND * LV) f).bind fun p0 =>
  (crc32 0#32 (some (f.take (ND * LV * P.size))) (P.size * ND * LV)).bind fun work =>
    let rank := i % 2 ^ 32
    let p := fun t => (p0 t).map fun w => if endian != big then P.swap w else w
    ((List.range ND).mapM (r_utemp p LV 0)).bind fun us =>
      let loc := us.flatten.foldl (r_loop X) (0#32, 0#32, 0#32, (ND * LV * i) % 29, (ND * LV * i) % 31)
      ((List.range ND).mapM fun mu => rebuild_lat A NC type (site mu) ((us[mu]?).getD [])).map
        fun links => (⟨loc.1, loc.2.1, loc.2.2.1, rot X work (rank % 29), rot X work (rank % 31)⟩,
          fun mu => (links[mu]?).getD (site mu))

/-- The loop over the sites, `readers.c:383-464`: the links and, unless a read failed, the rest of the file and the sums.  The
links of the sites that were read before a failure stay. -/
def cheap_sites (A : Arith P) (X : W32 → W32) (endian big : Bool) (NC ND LV : ℕ) (type : Store) (file : List Byte) (lat : Lat P) :
    ℕ → Lat P × Option (List Byte × Sums)
  | 0 => (lat, some (file, Sums.zero))
  | n + 1 =>
    match cheap_sites A X endian big NC ND LV type file lat n with
    | (l, none) => (l, none)
    | (l, some (f, s)) =>
      match cheap_site A X endian big NC ND LV type (l n) n f with
      | none => (l, none)
      | some (s', links) => (Function.update l n links, some (f.drop (ND * LV * P.size), s.add s'))

/-- `lattice_reader_suNC_cheaper`, `readers.c:351-491`: the links and, unless a read failed, the five sums. -/
def lattice_reader_cheaper (A : Arith P) (X : W32 → W32) (endian big : Bool) (NC ND V : ℕ) (type : Store) (file : List Byte)
    (lat : Lat P) : Lat P × Option Sums :=
  let r := cheap_sites A X endian big NC ND (LOOP_VAR NC type) type file lat V
  (r.1, r.2.map (·.2))

/-! ## The BQCD checksum in the two readers -/

/-- The bytes of the sites of a file. -/
def siteBlocks (size V : ℕ) (file : List Byte) : List (List Byte) :=
  (List.range V).map fun i => (file.drop (i * size)).take size

/-- The BQCD checksum in `lattice_reader_suNC`, `readers.c:210-221` and `251-261`, for a file with at least one site of `size`
bytes: the static variables of the checksum and the value, zero for the other headers.  For double precision the code
reads through `uin`, the static pointer of the single precision branch: null, or freed by the last single precision read
(`readers.c:334`); `none` is this undefined behaviour. -/
def fast_bqcd (single : Bool) (head : Head) (ck : CkState) (size V : ℕ) (file : List Byte) : Option (CkState × W32) :=
  if head ≠ .ildgBqcd then some (ck, 0#32)
  else if single then
    let ck := (siteBlocks size V file).foldl CKSUM_ADD ck
    some (ck, (CKSUM_GET ck).1)
  else if V = 0 then some (ck, (CKSUM_GET ck).1)
  else none

/-- The same in `lattice_reader_suNC_cheaper`, `readers.c:395-396`, `410-411` and `466-468`: for every header. -/
def cheap_bqcd (ck : CkState) (size V : ℕ) (file : List Byte) : CkState × W32 :=
  let ck := (siteBlocks size V file).foldl CKSUM_ADD ck
  (ck, (CKSUM_GET ck).1)

/-! ## The choice -/

/-- `get_config_SUNC`, `src/IO/read_config.c:136-160`, for the headers of line 144-150 other than BQCD: the links and the value
returned, for the answer of the memory check; `s1` and `s2` are the schedules of the fast reader. -/
def get_config (head : Head) (SAFETY : GLU.Utils.Speed) (A : Arith P) (X : W32 → W32) (endian big : Bool) (NC ND V : ℕ)
    (type : Store) (file : List Byte) (lat : Lat P) (s1 s2 : List (List ℕ)) : Lat P × W32 :=
  if SAFETY ≠ .FAST then
    let r := lattice_reader_cheaper A X endian big NC ND V type file lat
    (r.1, reader_value head 0#32 r.2)
  else
    let r := lattice_reader A X endian big NC ND V type file lat s1 s2
    ((r.map (·.1)).getD lat, reader_value head 0#32 (r.map (·.2)))

end GLU.IO
