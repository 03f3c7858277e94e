import Mathlib.Data.Nat.Notation

/-!
# The choice between the fast and the memory-saving input/output

`have_memory_readers_writers`, `src/Utils/GLU_memcheck.c:207-266`. Sizes are counted in bytes as natural
numbers; the code multiplies everything by the same factor for gigabytes and compares doubles.
-/

namespace GLU.Utils

/-- `GLU_speed`, `src/Headers/GLU_enum.h:48-51`. -/
inductive Speed where
  | FAST | MODERATE | SLOW
deriving DecidableEq, Repr

/-- `GLU_output`, `src/Headers/GLU_enum.h:198-208`. -/
inductive Output where
  | NO_OUTPUT | SMALL | GAUGE | NCxNC | MILC | ILDG | SCIDAC | HIREP | CERN
deriving DecidableEq, Repr

/-- What does not change during a run: the colours, the dimensions, the lattice volume and the memory of the
machine in bytes. -/
structure Setup where
  NC : ℕ
  ND : ℕ
  volume : ℕ
  memory : ℕ

/-- `gauge_fields`, `GLU_memcheck.c:46-47`, in bytes: complex links (16 bytes each entry) and the neighbour
tables. -/
def Setup.gauge_fields (s : Setup) : ℕ := 16 * s.volume * (s.NC ^ 2 * s.ND) + 4 * s.volume * (2 * s.ND)

/-- `expensive_more`, `GLU_memcheck.c:226-251`, for the formats that have it. -/
def Setup.expensive_more (s : Setup) : Output → Option ℕ
  | .SMALL => some (s.gauge_fields + 8 * (s.volume * (s.ND * (s.NC ^ 2 - 1))))
  | .GAUGE => some (s.gauge_fields + 16 * (s.volume * (s.ND * s.NC * (s.NC - 1))))
  | .MILC | .SCIDAC | .ILDG | .NCxNC => some (2 * s.gauge_fields)
  | _ => none

/-- `have_memory_readers_writers`, `GLU_memcheck.c:207-266`: the answer and the new value of the static variable
`IO`, where `none` is -1. -/
def have_memory_readers_writers (s : Setup) (IO : Option Speed) (t : Output) : Speed × Option Speed :=
  match IO with
  | some v => (v, some v)
  | none =>
    match s.expensive_more t with
    | some more => if more < s.memory then (.FAST, some .FAST) else (.SLOW, some .SLOW)
    | none => if t = .HIREP then (.FAST, some .FAST) else (.SLOW, some .FAST)

/-- The answers to a sequence of questions. -/
def answers (s : Setup) : Option Speed → List Output → List Speed
  | _, [] => []
  | IO, t :: l => (have_memory_readers_writers s IO t).1 :: answers s (have_memory_readers_writers s IO t).2 l

end GLU.Utils
