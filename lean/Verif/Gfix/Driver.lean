import Verif.Gfix.FA

/-!
# The Landau gauge driver

`src/Gfix/Landau.c` with its callers `GF_wrap_landau`, `src/Wrappers/GF_wrap.c`, and `read_and_fix`,
`src/Wrappers/GLUlib_wrap.c`.  `LUXURY_GAUGE` is not defined.  The planes of `Landau.c:272-299` are taken to be
allocated; their setting up does not touch the field.
-/

namespace GLU.Gfix

open Complex GLU.Mat GLU.Geom GLU.Field

/-- What reading the file again does, `grab_file`, `Landau.c:239-257`, before the random transformation: the file could
not be opened, reading its header or its links failed and left the field `lat`, or the field `lat` was read. -/
inductive Reread
  | missing
  | failed (lat : Gauge)
  | read (lat : Gauge)

/-- Outcome of the driver: the field, the value returned (a `size_t`) and the accuracy printed. -/
inductive LandauOut
  | done (lat : Gauge) (ret : ℕ) (theta : ℝ)
  | running
  | undef

/-- `GLU_FAILURE` as a `size_t`. -/
def FAILURE_SIZE : ℕ := 2 ^ 64 - 1

/-- `GF_GLU_FAILURES`, `Headers/GLU_definitions.h:401`. -/
def GF_GLU_FAILURES : ℕ := 7

/-- The end of `Landau`, `Landau.c:365-373`, for `failure != GF_GLU_FAILURES`: `output_fixing_info`, `Landau.c:42-66`,
reunitarises the field and prints. -/
noncomputable def landauFinish (NC : ℕ) (L : Latt) (scratch : Arr ℂ) (lat : Gauge) (iters : ℕ) (theta : ℝ) : LandauOut :=
  match latt_reunitU NC L scratch lat with
  | some lat => .done lat iters theta
  | none => .undef

/-- The restarts, `Landau.c:323-342`.  `n` is `GF_GLU_FAILURES - failure`.  `reread` is the file; `g` are the random
matrices of `random_transform`, `Geometry/random_config.c:107-120`; opening a missing file gives a null pointer that is
handed to the header reader: `undef`. -/
noncomputable def landauRestarts (NC : ℕ) (L : Latt) (scratch : Arr ℂ) (callback : Gauge → FaOut) (max_iter : ℕ)
    (reread : ℕ → Gauge → Reread) (g : ℕ → ℕ → Arr ℂ) : ℕ → ℕ → Gauge → ℕ → ℝ → LandauOut
  | 0, _, lat, _, theta => .done lat FAILURE_SIZE theta
  | n + 1, failure, lat, iters, theta =>
    match reread failure lat with
    | .missing => .undef
    | .failed lat => landauFinish NC L scratch lat iters theta
    | .read lat =>
      match callback (gtransform NC L (g failure) lat) with
      | .running => .running
      | .undef => .undef
      | .done lat iters_loc theta =>
        if iters_loc ≠ 123456789 then landauFinish NC L scratch lat (iters + iters_loc) theta
        else landauRestarts NC L scratch callback max_iter reread g n (failure + 1) lat (iters + max_iter) theta

/-- `Landau`, `Landau.c:260-374`.  `callback` is `FACG`, or `FASD` with `GLU_GFIX_SD`; `gaugeAlloc` tells whether the
gauge field of the restarts could be allocated. -/
noncomputable def Landau (NC : ℕ) (L : Latt) (scratch : Arr ℂ) (callback : Gauge → FaOut) (max_iter : ℕ)
    (gaugeAlloc : Bool) (reread : ℕ → Gauge → Reread) (g : ℕ → ℕ → Arr ℂ) (lat : Gauge) : LandauOut :=
  match callback lat with
  | .running => .running
  | .undef => .undef
  | .done lat iters theta =>
    if iters = 123456789 then
      if gaugeAlloc then
        landauRestarts NC L scratch callback max_iter reread g (GF_GLU_FAILURES - 1) 1 lat iters theta
      else .done lat FAILURE_SIZE theta
    else landauFinish NC L scratch lat iters theta

/-- `GF_wrap_landau`, `GF_wrap.c:63-82`: the `size_t` is returned as an `int`. -/
def wrapReturn (ret : ℕ) : ℤ := (ret : ℤ).bmod (2 ^ 32)

/-- `read_and_fix`, `GLUlib_wrap.c:260-287`, for a file that could be read: the field handed to the writer (if it is to
be written) and the return value.  `fix` is `GF_wrap` and `write` the return value of `write_configuration`. -/
def read_and_fix (writing : Bool) (fix : Gauge → Gauge × ℤ) (write : Gauge → ℤ) (lat : Gauge) : Option Gauge × ℤ :=
  let r := fix lat
  if writing then (some r.1, write r.1) else (none, 0)

end GLU.Gfix
