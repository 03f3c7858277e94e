import Verif.IO.HdrModel

/-!
# Files opened while reading a configuration

`read_file`, `src/Wrappers/GLUlib_wrap.c:62-155`, followed for the file alone: what is opened, what is closed,
and in which order the steps can fail.  The contents of the steps are modelled elsewhere (headers, readers and
checks in `Verif/IO`, memory in `Verif/Alloc`).
-/

namespace GLU.Run.Close
open GLU.IO

/-- `header_mode`, `src/Headers/enum.h`: the kinds of header `Latt.head` can be. -/
inductive Head where
  | UNSUPPORTED | NERSC | HIREP | MILC | SCIDAC | LIME | ILDG_SCIDAC | ILDG_BQCD | RANDOM | UNIT | INSTANTON
  | JLQCD | CERN
deriving DecidableEq, Repr

/-- How the steps of one reading turn out: whether the file can be opened, and for the steps that look at the
file or at the machine, whether they succeed. -/
structure World where
  opens : Bool
  header : Bool
  memory : Bool
  granted : Bool
  links : Bool
  sums : Bool
deriving DecidableEq, Repr

/-- The open files of the process, and the number of files opened so far (the next handle). -/
structure Files where
  isOpen : Finset ℕ
  next : ℕ

/-- `fopen`; `none` is the null pointer. -/
def fopen (ok : Bool) (f : Files) : Files × Option ℕ :=
  if ok = true then (⟨insert f.next f.isOpen, f.next + 1⟩, some f.next) else (f, none)

/-- `fclose`: undefined for the null pointer and for a file that is not open. -/
def fclose (p : Option ℕ) (f : Files) : Out Files :=
  match p with
  | none => .ub
  | some h => if h ∈ f.isOpen then .ok ⟨f.isOpen.erase h, f.next⟩ else .ub

/-- `read_header`, `src/IO/read_headers.c:364-403`, for its result alone. -/
def read_header (w : World) : Head → Bool
  | .JLQCD | .RANDOM | .UNIT | .INSTANTON => true
  | .UNSUPPORTED => false
  | _ => w.header

/-- `get_config_SUNC`, `src/IO/read_config.c:136-181`, compared with `GLU_FAILURE` as in
`GLUlib_wrap.c:121-124`: the generated fields never fail, the others depend on the file (the value returned is
the checksum, so a file can also fail by its checksum; the rest is in `Verif/IO`). -/
def get_config_SUNC (w : World) : Head → Bool
  | .RANDOM | .UNIT | .INSTANTON => true
  | .UNSUPPORTED => false
  | _ => w.links

/-- `checks`, `src/IO/read_config.c:43-133`, for its result alone. -/
def checks (w : World) : Head → Bool
  | .RANDOM | .UNIT | .INSTANTON | .LIME | .JLQCD => true
  | .UNSUPPORTED => false
  | _ => w.sums

/-- The three kinds that do without a file, `GLUlib_wrap.c:80-82`. -/
def mayBeMissing (h : Head) : Bool :=
  h == .UNIT || h == .RANDOM || h == .INSTANTON

/-- `read_file`, `src/Wrappers/GLUlib_wrap.c:62-155`: the files afterwards, and whether a field is returned. -/
def read_file (w : World) (h : Head) (f : Files) : Out (Files × Bool) :=
  let o := fopen w.opens f
  let f := o.1
  let infile := o.2
  if infile = none ∧ mayBeMissing h = false then .ok (f, false)
  else if read_header w h = false then (fclose infile f).bind fun f => .ok (f, false)
  else if w.memory = false then (fclose infile f).bind fun f => .ok (f, false)
  else if w.granted = false then .ok (f, false)
  else if get_config_SUNC w h = false then (fclose infile f).bind fun f => .ok (f, false)
  else if checks w h = false then (fclose infile f).bind fun f => .ok (f, false)
  else if infile ≠ none then (fclose infile f).bind fun f => .ok (f, true)
  else .ok (f, true)

/-- A program that reads configurations one after the other. -/
def readAll : List (World × Head) → Files → Out (Files × List Bool)
  | [], f => .ok (f, [])
  | (w, h) :: l, f =>
      (read_file w h f).bind fun r => (readAll l r.1).bind fun s => .ok (s.1, r.2 :: s.2)

end GLU.Run.Close
