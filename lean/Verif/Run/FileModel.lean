import Verif.IO.HdrModel

/-!
# File names, writing a configuration and the exit status

`hb_update`, `src/Update/KPHB.c:131-133,221-226`; `write_configuration` and the wrappers,
`src/Wrappers/GLUlib_wrap.c:157-345`; `main`, `src/Run/Mainfile.c:33-93`.
-/

namespace GLU.Run
open GLU.IO

/-- `strtok( traj_name , "." )`, `KPHB.c:131`: leading dots are passed over, the token goes to the next dot.
`none` is the null pointer. -/
def stem (name : Str) : Option Str :=
  match name.dropWhile (· = '.') with
  | [] => none
  | s => some (s.takeWhile (· ≠ '.'))

/-- The names written by `sprintf`, `KPHB.c:133,221,225`. -/
def configName (pch : Str) (i : ℕ) : Str := pch ++ ['.'] ++ decimal i
/-- The name of the generator state, `KPHB.c:133,225`. -/
def randName (pch : Str) (i : ℕ) : Str := pch ++ ['.'] ++ decimal i ++ chars ".rand"

/-- `char str[ strlen(pch)+6+sizeof(size_t) ]`, `KPHB.c:132`, with eight bytes in a `size_t`. -/
def nameBuffer (pch : Str) : ℕ := pch.length + 6 + 8

/-- `sprintf` of `s` into a buffer: undefined if the text with its final zero does not fit. -/
def sprintf (size : ℕ) (s : Str) : Out Str := if s.length + 1 ≤ size then .ok s else .ub

/-- The two names used for a save, `KPHB.c:131-132,221-226`; a null pointer in `strlen` is undefined. -/
def saveNames (name : Str) (i : ℕ) : Out (Str × Str) :=
  match stem name with
  | none => .ub
  | some pch => (sprintf (nameBuffer pch) (configName pch i)).bind fun c =>
      (sprintf (nameBuffer pch) (randName pch i)).bind fun r => .ok (c, r)

/-- A file. -/
structure Node where
  content : List (BitVec 8)
  readable : Bool
  writable : Bool
deriving DecidableEq

/-- The files by name, and the names under which a file could be created. -/
structure FS where
  file : Str → Option Node
  creatable : Str → Bool

/-- `file_exists`, `GLUlib_wrap.c:157-167`. -/
def file_exists (fs : FS) (name : Str) : Bool :=
  match fs.file name with
  | some n => n.readable
  | none => false

/-- `fopen( outfile , "w" )`: an existing file is emptied; `none` is the null pointer. -/
def fopenW (fs : FS) (name : Str) : Option FS :=
  match fs.file name with
  | some n => if n.writable then some { fs with file := Function.update fs.file name (some { n with content := [] }) }
      else none
  | none => if fs.creatable name then
      some { fs with file := Function.update fs.file name (some ⟨[], true, true⟩) } else none

/-- Bytes arrive in an open file. -/
def FS.append (fs : FS) (name : Str) (bytes : List (BitVec 8)) : FS :=
  { fs with file := fun n => if n = name then (fs.file n).map fun f => { f with content := f.content ++ bytes }
      else fs.file n }

/-- `write_configuration`, `GLUlib_wrap.c:170-188`. `write_lat` is given by the bytes that arrive in the file and its
own result, which is not looked at. Writing to a null pointer is undefined. `true`: `GLU_SUCCESS`. -/
def write_configuration (fs : FS) (name : Str) (bytes : List (BitVec 8)) (_latOk : Bool) : Out (FS × Bool) :=
  if file_exists fs name then .ok (fs, false) else
  match fopenW fs name with
  | none => .ub
  | some fs' => .ok (fs'.append name bytes, true)

/-- `GLU_mode`, `src/Headers/GLU_enum.h:132-138`. -/
inductive Mode where
  | rewrite | gf | cuts | smearing | u1 | heatbath
deriving DecidableEq

/-- How the parts of the work end: reading the configuration, processing it (gauge fixing, cuts, smearing, ...),
writing the result. -/
structure Work where
  read : Bool
  process : Bool
  write : Bool
deriving DecidableEq

/-- The result of the wrappers, `GLUlib_wrap.c:191-345`; `true`: `GLU_SUCCESS`. The result of the processing is not
used; cuts and heat bath have no write. -/
def wrapper (m : Mode) (argc : ℕ) (w : Work) : Bool :=
  if !w.read then false else
  match m with
  | .cuts | .heatbath => true
  | _ => if argc - 1 = 6 then w.write else true

/-- `argv[ k ]`: the standard provides `argv[0]` to `argv[argc]`. -/
def argvOk (argc k : ℕ) : Bool := k ≤ argc

/-- The command-line arguments the chosen wrapper is given, `Mainfile.c:63-87`. -/
def argsUsed : Mode → List ℕ
  | .cuts | .heatbath => [4]
  | _ => [4, 6]

/-- `main`, `Mainfile.c:33-93`: the value returned. `helpCode` and `usageCode` are the results of
`GLU_helps_those_who_help_themselves` and `GLUsage`; `input` is `none` if the input file is refused and the mode
otherwise. -/
def main (argc : ℕ) (helpCode usageCode : ℤ) (input : Option Mode) (w : Work) : Out ℤ :=
  if argc = 2 then .ok helpCode
  else if argc < 4 ∨ argc % 2 = 0 then .ok usageCode
  else match input with
    | none => .ok (-1)
    | some m =>
      if (argsUsed m).all (argvOk argc) then
        let _ := wrapper m argc w
        .ok 0
      else .ub

end GLU.Run
