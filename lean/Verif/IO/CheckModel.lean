import Verif.IO.CfgModel
import Mathlib.Data.Real.Basic
import Mathlib.Analysis.SpecialFunctions.Pow.Real

/-!
# Acceptance of a configuration: model

`src/IO/read_config.c` and the decision of `read_file` in `src/Wrappers/GLUlib_wrap.c`.
-/

namespace GLU.IO

/-- `header_mode`, `src/Headers/GLU_enum.h:91-104`. -/
inductive Head
  | nersc | hirep | milc | scidac | ildgScidac | ildgBqcd | jlqcd | lime | cern
  | random | unit | instanton | unsupported
deriving DecidableEq

/-- A `double`: `none` is NaN (a corrupted file can produce one). Infinities are not
distinguished from large numbers. -/
abbrev Dbl := Option ℝ

/-- `fabs( a - b ) > tol`: false when either is NaN. -/
def differs (a b : Dbl) (tol : ℝ) : Prop :=
  match a, b with
  | some x, some y => |x - y| > tol
  | _, _ => False

/-- The part of `struct head_data` that is compared, `GLU_types.h:189-198`; `single` is
`precision == FLOAT_PREC`. -/
structure HeadData where
  single : Bool
  plaquette : Dbl
  trace : Dbl
  checksum : W32

/-- `PLAQ_AND_TRACE_TOL`, `GLU_definitions.h:266`. -/
noncomputable def PLAQ_AND_TRACE_TOL : ℝ := 1 / 10 ^ 6

/-- `PREC_TOL`, `GLU_definitions.h:362` (double precision). -/
noncomputable def PREC_TOL (NC : ℕ) : ℝ := NC * (1 / 10 ^ 14)

open Classical in
/-- `check_sums`, `read_config.c:34-122`: `true` is `GLU_SUCCESS`. -/
noncomputable def check_sums (head : Head) (NC : ℕ) (plaq tr : Dbl) (chksum : W32)
    (hd : HeadData) : Bool :=
  match head with
  | .milc | .ildgScidac | .scidac => if chksum ≠ hd.checksum then false else true
  | .ildgBqcd =>
    let TTOL : ℝ := if hd.single then 1 / 10 ^ 6 else PLAQ_AND_TRACE_TOL
    if differs hd.plaquette plaq TTOL then false
    else if chksum ≠ hd.checksum then false else true
  | .hirep | .cern => if differs plaq hd.plaquette (10 * PREC_TOL NC) then false else true
  | .nersc =>
    let error : ℕ := 0
    let error := if chksum ≠ hd.checksum then error + 1 else error
    let error := if differs plaq hd.plaquette PLAQ_AND_TRACE_TOL then error + 1 else error
    let error := if differs tr hd.trace PLAQ_AND_TRACE_TOL then error + 1 else error
    if error = 3 then false else true
  | .lime | .random | .unit | .instanton | .jlqcd => true
  | .unsupported => false

/-- The value the reader returns, `readers.c:338-347`; `bqcd` is the BQCD checksum. The value is
`GLU_FAILURE`, converted to `uint32_t`, for a failed read. -/
def reader_value (head : Head) (bqcd : W32) : Option Sums → W32
  | none => 0xFFFFFFFF#32
  | some s =>
    match head with
    | .nersc => s.k
    | .milc => s.s29
    | .ildgScidac | .scidac => s.c29
    | .ildgBqcd => bqcd
    | .lime | .jlqcd => 0#32
    | _ => 0xFFFFFFFF#32

/-- The decision of `read_file`, `GLUlib_wrap.c:121-146`, once the value of the reader is known:
`check == GLU_FAILURE`, that is -1, ends the program, then `checks`. -/
noncomputable def read_file_accepts (head : Head) (NC : ℕ) (value : W32) (plaq tr : Dbl)
    (hd : HeadData) : Bool :=
  if value = 0xFFFFFFFF#32 then false else check_sums head NC plaq tr value hd

end GLU.IO
