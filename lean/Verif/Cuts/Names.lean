import Verif.Cuts.CutModel
import Verif.IO.HdrModel

/-!
# The names of the measurement files: `output_str_struct` in `src/Cuts/cut_output.c`
-/

namespace GLU.Cuts
open GLU.IO

/-- `cut_mode`, `src/Headers/GLU_enum.h:162-174`. -/
inductive Mode where
  | exceptional | nonexceptional | fields | smeared | instantaneous | configspace | gluonProps | staticPotential
  | topologicalCorrelator | topologicalMoments | topologicalSusceptibility | noCuts
deriving DecidableEq

/-- Choices made when the program is built: `NC`, whether `SIN_MOM` is defined and the value of `PROJ_GRACEY` if it
is defined. -/
structure Build where
  NC : ℕ
  sinMom : Bool
  gracey : Option ℤ

/-- The settings that enter: of `struct cut_info` and of `Latt`. The width is the text printed by `%g`. -/
structure Settings where
  dir : Mode
  dims : List ℕ
  type : CutType
  max_mom : ℕ
  max_t : ℕ
  width : Str
  angle : ℕ
  logDef : Bool
  flow : ℕ

/-- The start of the name, `cut_output.c:129-164`. -/
def modeTag (gracey : Option ℤ) : Mode → Str
  | .instantaneous => chars "G2spG2t"
  | .smeared => chars "G2_G2SM"
  | .gluonProps => chars "G2F2"
  | .configspace => chars "CSPACE"
  | .fields => chars "MATS"
  | .exceptional => chars "MOMgg"
  | .nonexceptional => if gracey.isSome then chars "spgracey" else chars "spboucaud"
  | .staticPotential => chars "STATPOT"
  | .topologicalSusceptibility => chars "QSUSC"
  | _ => chars "MOMgg"

/-- The dimensions, `cut_output.c:170-176`. -/
def dimStr : List ℕ → Str
  | [] => []
  | [d] => decimal d ++ chars "_"
  | d :: ds => decimal d ++ chars "x" ++ dimStr ds

/-- The kind of cut, `cut_output.c:206-223`. -/
def cutTag (s : Settings) : CutType → Str
  | .hypercubic => chars "cutHYP"
  | .psq => chars "cutPSQ"
  | .cylinder => chars "cutCYL_w" ++ s.width
  | .cylinderConical => chars "cutCON_" ++ decimal s.angle

/-- `output_str_struct`, `cut_output.c:114-261`; `where_` is the directory (`./` with `CONDOR_MODE`). -/
def output_str_struct (b : Build) (where_ : Str) (s : Settings) : Str :=
  let str := where_ ++ modeTag b.gracey s.dir ++ (chars "_SU") ++ decimal b.NC ++ (chars "_") ++ dimStr s.dims
  if s.dir = .configspace then
    str ++ (if s.logDef then chars "LOG." else chars "LIN.") ++ decimal s.flow ++ (chars ".bin")
  else
  let str := str ++ decimal s.max_mom ++ (chars "_")
  let str := if s.dir = .staticPotential then str ++ (chars "T") ++ decimal s.max_t ++ (chars "_") else str
  let type := if s.dir = .nonexceptional then CutType.psq else s.type
  let str := str ++ cutTag s type
  let glue := s.dir ≠ .staticPotential ∧ s.dir ≠ .topologicalSusceptibility
  let str := if glue then str ++ (if b.sinMom then chars "_SINMOM" else chars "_PSQMOM") else str
  let str :=
    match b.gracey with
    | none => str
    | some g => if s.dir = .nonexceptional then
        if -1 < g ∧ g < 15 then str ++ (chars "_PROJ") ++ decimal g.toNat else str
      else str
  let str := if glue then str ++ (if s.logDef then chars "_LOG" else chars "_LIN") else str
  str ++ (chars ".") ++ decimal s.flow ++ (chars ".bin")

/-- What callers append to the name: nothing, `m%zu` (`Qcorr.c:107-109`), that and `.tcorr` (`Qcorr.c:42-43`), or
`.m%zu.tcorr_d%zu` (`Qslab.c:82-84`). -/
inductive Suffix where
  | plain
  | corr (m : ℕ)
  | corrT (m : ℕ)
  | slab (m d : ℕ)
deriving DecidableEq

/-- The text appended. -/
def Suffix.text : Suffix → Str
  | .plain => []
  | .corr m => (chars "m") ++ decimal m
  | .corrT m => (chars "m") ++ decimal m ++ (chars ".tcorr")
  | .slab m d => (chars ".m") ++ decimal m ++ (chars ".tcorr_d") ++ decimal d

/-- Which file a mode writes: `Qsusc.c:56-85` for the topological modes, the others have one file each (`CUT_wrap.c:42-69`).
The moments are written under other names (`cut_output.c:414-417`), `GLU_NOCUTS` writes nothing. -/
def Writes : Mode → Suffix → Prop
  | .topologicalCorrelator, .corr _ => True
  | .topologicalCorrelator, .corrT _ => True
  | .topologicalSusceptibility, .slab _ _ => True
  | .exceptional, .plain => True
  | .nonexceptional, .plain => True
  | .fields, .plain => True
  | .smeared, .plain => True
  | .instantaneous, .plain => True
  | .configspace, .plain => True
  | .gluonProps, .plain => True
  | .staticPotential, .plain => True
  | _, _ => False

/-- The name of a file. -/
def fileName (b : Build) (where_ : Str) (s : Settings) (x : Suffix) : Str := output_str_struct b where_ s ++ x.text

end GLU.Cuts
