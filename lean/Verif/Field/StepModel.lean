import Mathlib.Data.BitVec
import Mathlib.Data.List.Basic

/-!
# The topological charge along a smearing history

Model of `compute_Qsusc_step`, `src/Field/Qsusc.c:32-102`. The smearing and the three measurements are parameters; they
have models of their own (`Verif.Smear.Dispatch`, `Verif.Field.Topo`).
-/

namespace GLU.Field.Step

/-- The modes `TOPOLOGICAL_SUSCEPTIBILITY`, `TOPOLOGICAL_CORRELATOR` and `TOPOLOGICAL_MOMENTS` of `CUTINFO.dir`,
`CUT_wrap.c:55-58`. -/
inductive Mode where
  | susceptibility
  | correlator
  | moments
  deriving DecidableEq

/-- What a call leaves behind. -/
structure Run (F V : Type) where
  /-- the field `lat` -/
  lat : F
  /-- the files named by the number of the measurement, `Qslab.c:83` and `Qcorr.c:108` -/
  records : List (ℕ × V)
  /-- the entries of `Qmom`; `none` is memory that was never written -/
  Qmom : List (Option V)
  /-- the returned flag, `true` for `GLU_SUCCESS` -/
  flag : Bool
  /-- the entries given to `write_moments`, if it is called -/
  written : Option (List (Option V))

/-- The parameters: `SM_wrap_struct` (`SM_wrap.c`) gives the new field and its return value; `compute_Qsusc`,
`compute_Qcorr` and `compute_Qmoments` give the measured numbers, or `none` for `GLU_FAILURE`. -/
structure Tools (F V : Type) where
  smear : F → F × Bool
  measure : Mode → F → Option V

variable {F V : Type}

/-- The number of entries of `struct Qmoments` (two pointers) in the block `malloc( ( max_t - 1 ) * sizeof( struct
Qmoments ) )`, `Qsusc.c:48`, in the arithmetic of `size_t`; `none` if the request is above `PTRDIFF_MAX` and so is
refused. -/
def room (max_t : BitVec 64) : Option ℕ :=
  let bytes := ((max_t - 1) * 16).toNat
  if bytes < 2 ^ 63 then some (bytes / 16) else none

/-- The loop `Qsusc.c:64-85`, `left` passes from `measurement` on. -/
def loop (T : Tools F V) (mode : Mode) : (left measurement : ℕ) → Run F V → Run F V
  | 0, _, r => r
  | left + 1, measurement, r =>
    let r := { r with lat := (T.smear r.lat).1 }
    match T.measure mode r.lat with
    | none => { r with flag := false }
    | some v =>
      match mode with
      | .moments => loop T mode left (measurement + 1) { r with Qmom := r.Qmom.set (measurement - 1) (some v) }
      | _ => loop T mode left (measurement + 1) { r with records := r.records ++ [(measurement, v)] }

/-- `compute_Qsusc_step`, `Qsusc.c:32-102`. `none`: memory that is not owned is touched. The requests for the
arrays `Q` and `Q2` of an entry are granted. -/
def compute_Qsusc_step (T : Tools F V) (mode : Mode) (max_t : BitVec 64) (lat : F) : Option (Run F V) :=
  let r : Run F V := ⟨lat, [], [], true, none⟩
  match mode with
  | .moments =>
    -- the loops at 50-53 and 95-97 run over `max_t - 1` entries
    let n := (max_t - 1).toNat
    match room max_t with
    | none => none
    | some k =>
      if n ≤ k then
        let r := loop T mode (max_t.toNat - 1) 1 { r with Qmom := List.replicate n none }
        some { r with written := some r.Qmom }
      else none
  | .correlator => some (loop T mode (max_t.toNat - 1) 1 r)
  | .susceptibility =>
    match T.measure mode lat with
    | none => some { r with flag := false }
    | some v => some (loop T mode (max_t.toNat - 1) 1 { r with records := [(0, v)] })

end GLU.Field.Step
