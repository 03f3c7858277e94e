import Verif.IO.XmlModel

/-!
# The input file: model

`src/IO/input_reader.c`. The file is a text without null characters. Floating-point conversion
(`strtod`) is a parameter.
-/

namespace GLU.IO

/-- `INPUT` and `NTAGS`, `input_reader.c:38-47`. -/
structure Table where
  input : ℕ → Str × Str
  ntags : ℕ

/-- A freshly allocated table (`calloc`, line 53) with the value `NTAGS` has. -/
def Table.fresh (ntags : ℕ) : Table := ⟨fun _ => ([], []), ntags⟩

/-- `fscanf( setup , "%s = %s" , ... )`, `input_reader.c:55`: `none` for `EOF`; otherwise the first
word, the second if it was reached, and the rest of the file. -/
def scanPair (s : Str) : Option ((Str × Option Str) × Str) :=
  let s := s.dropWhile isspace
  if s = [] then none else
  let tok := s.takeWhile fun c => !isspace c
  let r := (s.dropWhile fun c => !isspace c).dropWhile isspace
  match r with
  | '=' :: r =>
    let r := r.dropWhile isspace
    if r = [] then some ((tok, none), [])
    else some ((tok, some (r.takeWhile fun c => !isspace c)), r.dropWhile fun c => !isspace c)
  | r => some ((tok, none), r)

/-- The loop of `pack_inputs`, `input_reader.c:55-56`; words are stored in 64 bytes and the table
has 64 entries. `fuel` is larger than the length of the text, every round uses a character. -/
def pack_loop : ℕ → Str → Table → Out Table
  | 0, _, _ => .ub
  | fuel + 1, s, t =>
    let k := t.ntags + 1
    match scanPair s with
    | none => .ok { t with ntags := k }
    | some ((tok, val), rest) =>
      if 64 ≤ k ∨ 64 ≤ tok.length ∨ 64 ≤ (val.getD []).length then .ub
      else pack_loop fuel rest ⟨Function.update t.input k (tok, val.getD []), k⟩

/-- `pack_inputs`, `input_reader.c:49-58`: `NTAGS` keeps the value of an earlier call. -/
def pack_inputs (ntags : ℕ) (file : Str) : Out Table :=
  pack_loop (file.length + 1) file (Table.fresh ntags)

/-- `tag_search`, `input_reader.c:77-86`: `none` for `GLU_FAILURE`. -/
def tag_search (t : Table) (tag : Str) : Option ℕ :=
  (List.range t.ntags).find? fun i => decide ((t.input i).1 = tag)

/-- `INPUT[tag_search( tag )].VALUE` after the check for failure. -/
def lookup (t : Table) (tag : Str) : Out Str :=
  match tag_search t tag with
  | none => .fail
  | some i => .ok (t.input i).2

/-- The same without the check, `input_reader.c:160-161,514-515`: a missing tag reads `INPUT[-1]`. -/
def lookup_unchecked (t : Table) (tag : Str) : Out Str :=
  match tag_search t tag with
  | none => .ub
  | some i => .ok (t.input i).2

/-- `setint`, `input_reader.c:88-102`. -/
def setint (t : Table) (tag : Str) : Out ℕ :=
  (lookup t tag).bind fun v =>
  match strtol v with
  | none => .fail
  | some z => if isLong z then .ok (toSize z) else .fail

/-- `setdbl`, `input_reader.c:104-118`; `strtod` gives `none` without a number or out of range. -/
def setdbl (strtod : Str → Option Dbl) (t : Table) (tag : Str) : Out Dbl :=
  (lookup t tag).bind fun v =>
  match strtod v with
  | none => .fail
  | some x => .ok x

/-- `confno`, `input_reader.c:120-132`: a failure gives zero. -/
def confno (t : Table) : ℕ :=
  match setint t (chars "CONFNO") with
  | .ok n => n
  | _ => 0

/-- The loop of `read_random_lattice_info`, `input_reader.c:139-147`, from direction `mu`: the
dimensions and whether all were understood. A missing tag leaves the default, a failed conversion
what `strtol` returned; the later dimensions are not touched. -/
def read_dimensions (t : Table) : ℕ → ℕ → (ℕ → ℕ) → Bool × (ℕ → ℕ)
  | 0, _, d => (true, d)
  | k + 1, mu, d =>
    match setint t (chars "DIM_" ++ decimal mu) with
    | .ok n => read_dimensions t k (mu + 1) (Function.update d mu n)
    | _ => (false, Function.update d mu (match lookup t (chars "DIM_" ++ decimal mu) with
        | .ok v => toSize (strtolVal v)
        | _ => 8))

/-- `MODE` and `SEED`, `get_mode`, `input_reader.c:166-195`; the mode is represented by the name in
the file, with everything unknown meaning rewriting. The seed is read by `%u`. -/
def get_mode (t : Table) (seed0 : ℕ) : Out (Str × ℕ) :=
  (lookup t (chars "MODE")).bind fun m =>
  (lookup t (chars "SEED")).bind fun s =>
  (sscanf 10 32 s).bind fun r =>
  .ok (if m = chars "GAUGE_FIXING" ∨ m = chars "CUTTING" ∨ m = chars "SMEARING" ∨
      m = chars "SUNCxU1" ∨ m = chars "HEATBATH" then m else chars "REWRITE", r.getD seed0)

/-- The output formats. -/
inductive Output | small | gauge | ncxnc | hirep | milc | scidac | ildg | cern
deriving DecidableEq

/-- `out_details`, `input_reader.c:198-235`. -/
def out_details (t : Table) (NC : ℕ) (mode : Str) : Out Output :=
  (lookup t (chars "STORAGE")).bind fun v =>
  if v = chars "NERSC_SMALL" then
    .ok (if 3 < NC then .ncxnc else if mode ≠ chars "SUNCxU1" then .small else .ncxnc)
  else if v = chars "NERSC_GAUGE" then
    .ok (if mode ≠ chars "SUNCxU1" then .gauge else .ncxnc)
  else if v = chars "NERSC_NCxNC" then .ok .ncxnc
  else if v = chars "HIREP" then .ok .hirep
  else if v = chars "MILC" then .ok .milc
  else if v = chars "SCIDAC" then .ok .scidac
  else if v = chars "ILDG" then .ok .ildg
  else if v = chars "CERN" then .ok .cern
  else .fail

/-- The names `header_type` recognises and which need no dimensions, `input_reader.c:246-284`. -/
def fileHeaders : List Str := [chars "NERSC", chars "HIREP", chars "CERN", chars "MILC",
  chars "SCIDAC", chars "LIME", chars "ILDG_SCIDAC", chars "ILDG_BQCD"]

/-- `header_type`, `input_reader.c:238-320`: header, dimensions (`d` before), trajectory number.
For `UNIT` a missing dimension is ignored (`306`). -/
def header_type (t : Table) (ND : ℕ) (d : ℕ → ℕ) : Out (Str × (ℕ → ℕ) × ℕ) :=
  (lookup t (chars "HEADER")).bind fun v =>
  let flow := confno t
  if v ∈ fileHeaders then .ok (v, d, flow)
  else if v = chars "JLQCD" ∨ v = chars "RANDOM" ∨ v = chars "INSTANTON" then
    let r := read_dimensions t ND 0 d
    if r.1 then (setint t (chars "CONFNO")).bind fun n => .ok (v, r.2, n) else .fail
  else if v = chars "UNIT" then .ok (v, (read_dimensions t ND 0 d).2, flow)
  else .fail

/-- `struct hb_info`. -/
structure HbInfo where
  beta : Dbl
  therm : ℕ
  iterations : ℕ
  Nor : ℕ
  Nsave : ℕ
  Nmeasure : ℕ

/-- `read_hb_struct`, `input_reader.c:322-351`. -/
def read_hb_struct (strtod : Str → Option Dbl) (t : Table) : Out HbInfo :=
  (setdbl strtod t (chars "BETA")).bind fun beta =>
  (setint t (chars "THERM")).bind fun therm =>
  (setint t (chars "ITERS")).bind fun iterations =>
  (setint t (chars "OVER_ITERS")).bind fun Nor =>
  (setint t (chars "SAVE")).bind fun Nsave =>
  (setint t (chars "MEASURE")).bind fun Nmeasure =>
  .ok ⟨beta, therm, iterations, Nor, Nsave, Nmeasure⟩

/-- `struct cut_info`; types are represented by their names. -/
structure CutInfo where
  dir : Str
  type : Str
  logarithmic : Bool
  max_t : ℕ
  max_mom : ℕ
  angle : ℕ
  cyl_width : Dbl
  output : Str

/-- The cut types, `input_reader.c:362-383`. -/
def cutTypes : List Str := [chars "EXCEPTIONAL", chars "NON_EXCEPTIONAL", chars "FIELDS",
  chars "SMEARED_GLUONS", chars "INSTANTANEOUS_GLUONS", chars "CONFIGSPACE_GLUONS",
  chars "GLUON_PROPS", chars "STATIC_POTENTIAL", chars "TOPOLOGICAL_CORRELATOR",
  chars "TOPOLOGICAL_SUSCEPTIBILITY", chars "TOPOLOGICAL_MOMENTS"]

/-- `read_cuts_struct`, `input_reader.c:354-440`; an unknown cut type is not a failure and leaves
the rest unset (`none`). -/
def read_cuts_struct (strtod : Str → Option Dbl) (t : Table) : Out (Option CutInfo) :=
  (lookup t (chars "CUTTYPE")).bind fun dir =>
  if dir ∉ cutTypes then .ok none else
  (lookup t (chars "MOM_CUT")).bind fun m =>
  (lookup t (chars "FIELD_DEFINITION")).bind fun f =>
  (setint t (chars "MAX_T")).bind fun max_t =>
  (setint t (chars "MAXMOM")).bind fun max_mom =>
  (setint t (chars "ANGLE")).bind fun angle =>
  (setdbl strtod t (chars "CYL_WIDTH")).bind fun w =>
  (lookup t (chars "OUTPUT")).bind fun output =>
  .ok (some ⟨dir, if m = chars "HYPERCUBIC_CUT" ∨ m = chars "CYLINDER_CUT" ∨ m = chars "CONICAL_CUT"
      then m else chars "SPHERICAL_CUT", f = chars "LOGARITHMIC", max_t, max_mom, angle, w, output⟩)

/-- `read_gf_struct`, `input_reader.c:443-481`: type, accuracy before the power is taken, maximal
iterations, tuning. -/
def read_gf_struct (strtod : Str → Option Dbl) (t : Table) : Out (Str × Dbl × ℕ × Dbl) :=
  (lookup t (chars "GFTYPE")).bind fun g =>
  (setdbl strtod t (chars "ACCURACY")).bind fun acc =>
  (setint t (chars "MAX_ITERS")).bind fun iters =>
  (setdbl strtod t (chars "GF_TUNE")).bind fun alpha =>
  .ok (if g = chars "AXIALT" ∨ g = chars "COULOMB" ∨ g = chars "COULOMB_RESIDUAL" ∨
      g = chars "LANDAU" ∨ g = chars "MAG" then g else chars "NOFIX", acc, iters, alpha)

/-- `read_suNC_x_U1`, `input_reader.c:484-508`. -/
def read_suNC_x_U1 (strtod : Str → Option Dbl) (t : Table) : Out (Dbl × Dbl × Str) :=
  (setdbl strtod t (chars "U1_ALPHA")).bind fun alpha =>
  (setdbl strtod t (chars "U1_CHARGE")).bind fun charge =>
  (lookup t (chars "U1_MEAS")).bind fun m =>
  .ok (alpha, charge, if m = chars "U1_RECTANGLE" ∨ m = chars "U1_TOPOLOGICAL" then m
    else chars "U1_PLAQUETTE")

/-- The smearing parameters, `input_reader.c:570-577`: `ALPHA1`, ..., from the given one on. -/
def read_alphas (strtod : Str → Option Dbl) (t : Table) : ℕ → ℕ → Out (List Dbl)
  | 0, _ => .ok []
  | k + 1, mu => (setdbl strtod t (chars "ALPHA" ++ decimal (mu + 1))).bind fun a =>
    (read_alphas strtod t k (mu + 1)).bind fun l => .ok (a :: l)

/-- The smearing types, `input_reader.c:527-546`. -/
def smearTypes : List Str := [chars "APE", chars "STOUT", chars "LOG", chars "HYP", chars "HEX",
  chars "HYL", chars "WFLOW_LOG", chars "WFLOW_STOUT", chars "ADAPTWFLOW_LOG",
  chars "ADAPTWFLOW_STOUT"]

/-- `smearing_info`, `input_reader.c:519-580`: type, spatial links only, iterations, parameters. -/
def smearing_info (strtod : Str → Option Dbl) (t : Table) (ND : ℕ) :
    Out (Str × Bool × ℕ × List Dbl) :=
  (lookup t (chars "SMEARTYPE")).bind fun s =>
  (lookup t (chars "DIRECTION")).bind fun dir =>
  (setint t (chars "SMITERS")).bind fun iters =>
  (read_alphas strtod t (ND - 1) 0).bind fun alphas =>
  .ok (if s ∈ smearTypes then s else chars "NOSMEARING", dir = chars "SPATIAL", iters, alphas)

/-- `struct infile_data` and the fields of `Latt` that are set. -/
structure Infile where
  mode : Str × ℕ
  cuts : Option CutInfo
  gf : Str × Dbl × ℕ × Dbl
  hb : HbInfo
  sm : Str × Bool × ℕ × List Dbl
  u1 : Dbl × Dbl × Str
  rtrans : Bool
  head : Str
  storage : Output
  details : Str
  continuation : Bool
  dims : ℕ → ℕ
  flow : ℕ

/-- Is it the reported failure? -/
def Out.failed {α : Type} : Out α → Bool
  | .fail => true
  | _ => false

/-- Is it undefined behaviour? -/
def Out.isUb {α : Type} : Out α → Bool
  | .ub => true
  | _ => false

/-- `get_input_data`, `input_reader.c:583-650`, from the table on: every group is read, failures
are counted, and any failure makes the whole a failure. Undefined behaviour anywhere is undefined
behaviour of the whole, also when another group fails. `seed0` and `d` are the seed and the
dimensions before. The mode seen by `out_details` after a failed `get_mode` is irrelevant: the
result is a failure anyway. -/
def get_input_table (strtod : Str → Option Dbl) (ND NC seed0 : ℕ) (d : ℕ → ℕ) (t : Table) :
    Out Infile :=
  let mode := get_mode t seed0
  let cuts := read_cuts_struct strtod t
  let gf := read_gf_struct strtod t
  let hb := read_hb_struct strtod t
  let sm := smearing_info strtod t ND
  let u1 := read_suNC_x_U1 strtod t
  let rt := lookup_unchecked t (chars "RANDOM_TRANSFORM")
  let head := header_type t ND d
  let storage := out_details t NC (match mode with | .ok m => m.1 | _ => [])
  let details := lookup_unchecked t (chars "CONFIG_INFO")
  if mode.isUb || cuts.isUb || gf.isUb || hb.isUb || sm.isUb || u1.isUb || rt.isUb || head.isUb ||
    storage.isUb || details.isUb then .ub
  else mode.bind fun mode => cuts.bind fun cuts => gf.bind fun gf => hb.bind fun hb =>
    sm.bind fun sm => u1.bind fun u1 => rt.bind fun rt => head.bind fun head =>
    storage.bind fun storage => details.bind fun details =>
    let new := head.1 = chars "UNIT" ∨ head.1 = chars "RANDOM"
    .ok { mode, cuts, gf, hb := if new then hb else { hb with therm := 0 }, sm, u1,
          rtrans := rt = chars "YES", head := head.1, storage, details, continuation := ¬ new,
          dims := head.2.1, flow := if new then 0 else head.2.2 }

/-- `get_input_data` on the text of a readable file; `ntags` is the value the static counter has
before the call. -/
def get_input_data (strtod : Str → Option Dbl) (ND NC seed0 : ℕ) (d : ℕ → ℕ) (ntags : ℕ)
    (file : Str) : Out Infile :=
  (pack_inputs ntags file).bind fun t => get_input_table strtod ND NC seed0 d t

end GLU.IO
