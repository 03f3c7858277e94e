import Verif.Cuts.CacheModel
import Verif.Mat.Lie

/-!
# The cached tables of structure constants

Model of `compute_fs_and_ds`, `lie_mats.c:272-309`, in a build with `NOT_CONDOR_MODE`, on a little endian machine with
four byte `int`, and of the loops over the tables. A record is the bytes of a `struct struc_func`; `dec` says which one.
-/

namespace GLU.Cuts

open GLU.IO GLU.Mat

/-- A table in memory: the null pointer of `lie_mats.c:32-33`, or entries of which `none` was never set. -/
inductive Tab
  | null
  | mem (l : List (Option Rec))

/-- The static variables `fcount`, `dcount`, `f` and `d`, `lie_mats.c:32-39`; a count of `none` has an indeterminate
value. -/
structure Lie where
  fcount : Option ℕ
  dcount : Option ℕ
  f : Tab
  d : Tab

/-- What is written, `lie_mats.c:289-294`. -/
def tableBytes (ft dt : List Rec) : List (BitVec 8) :=
  lenBytes ft.length ++ (lenBytes dt.length ++ (ft.flatten ++ dt.flatten))

/-- `fread( &count , sizeof( int ) , 1 , file )` into a `size_t` that is zero, `lie_mats.c:297-298`: the value after it
and whether one item was read. Part of an item leaves an indeterminate value. -/
def readCount (b : List (BitVec 8)) : Option ℕ × Bool :=
  if 4 ≤ b.length then (some (lenOf (b.take 4)), true) else if b = [] then (some 0, false) else (none, false)

/-- The new memory after `n` records of which those in `r` were read. -/
def filled (n : ℕ) (r : List Rec) : Tab := .mem (r.map some ++ List.replicate (n - r.length) none)

/-- Reading an existing file, `lie_mats.c:297-302`; every `return` leaves what was set so far. -/
def readTables (w : ℕ) (b : List (BitVec 8)) : Lie :=
  match readCount b with
  | (some n, true) =>
    match readCount (b.drop 4) with
    | (some m, true) =>
      let rf := fread w n (b.drop 8)
      if rf.length ≠ n then ⟨some n, some m, filled n rf, filled m []⟩
      else ⟨some n, some m, filled n rf, filled m (fread w m (b.drop (8 + w * n)))⟩
    | (m, _) => ⟨some n, m, .null, .null⟩
  | (n, _) => ⟨n, some 0, .null, .null⟩

/-- `compute_fs_and_ds`, `lie_mats.c:273-309`, called once in a process. `ft` and `dt` are the tables that
`actually_compute_fs_and_ds` sets up, `file` the cache before the call and `canWrite` whether it can be created; a null
stream in `fwrite` is undefined. (For two colours `d` stays the null pointer, which no loop of length zero reads.) -/
def compute_fs_and_ds (w : ℕ) (ft dt : List Rec) (canWrite : Bool) (file : Option (List (BitVec 8))) :
    Out (Lie × Option (List (BitVec 8))) :=
  match file with
  | none =>
    if canWrite then
      .ok (⟨some ft.length, some dt.length, .mem (ft.map some), .mem (dt.map some)⟩, some (tableBytes ft dt))
    else .ub
  | some b => .ok (readTables w b, some b)

/-- The files a run without cache can leave behind if it stops at any moment. -/
def lieCrashFiles (ft dt : List Rec) : Set (Option (List (BitVec 8))) :=
  {f | f = none ∨ ∃ k, f = some ((tableBytes ft dt).take k)}

/-- The records a loop `for( i = 0 ; i < count ; i++ )` reads from a table, `lie_mats.c:323-326` and `361-364`: undefined
if the count is indeterminate, the pointer null or an entry not set. -/
def loopReads (count : Option ℕ) (t : Tab) : Out (List Rec) :=
  match count, t with
  | none, _ => .ub
  | some n, .null => if n = 0 then .ok [] else .ub
  | some n, .mem l => if n ≤ l.length then (match (l.take n).mapM id with | some r => .ok r | none => .ub) else .ub

/-- `ifabc_ABC`, `lie_mats.c:350-366`, with the tables in memory. -/
noncomputable def ifabcMem (dec : Rec → Struc) (NC : ℕ) (s : Lie) (A B C : Arr ℂ) : Out ℂ :=
  (loopReads s.fcount s.f).bind fun t => .ok (fLoop (t.map dec) (lie_data NC A) (lie_data NC B) (lie_data NC C) 0)

/-- `dabc_ABC`, `lie_mats.c:312-328`, with the tables in memory. -/
noncomputable def dabcMem (dec : Rec → Struc) (NC : ℕ) (s : Lie) (A B C : Arr ℂ) : Out ℂ :=
  (loopReads s.dcount s.d).bind fun t => .ok (dLoop (t.map dec) (lie_data NC A) (lie_data NC B) (lie_data NC C) 0)

end GLU.Cuts
