import Mathlib.Data.Nat.Notation
import Mathlib.Tactic.TypeStar

/-!
# Memory: requests, failures, and what is released

The allocation and release of the temporary fields, `src/Utils/GLU_malloc.c`, `src/Gfix/CGalloc.c`, and the
routines that use them, for every pattern of failing requests. A step that the C standard leaves undefined
(going through a null, indeterminate or released pointer, reading beyond a block, branching on or releasing an
indeterminate pointer) has the outcome `none`.

Simplifications. A block is named by the number of its request. Only the cells that hold pointers are modelled;
a block of numbers has no cells that are looked at. Every request is for at least one byte. The parallel loops run
in their sequential order: every request has its own answer, so another order only renames the blocks.
-/

namespace GLU.Alloc

/-- The value of a pointer: never set, null, or the address of the block returned by a request. -/
inductive Ptr where
  | garbage
  | null
  | blk (n : ℕ)
deriving DecidableEq, Repr

/-- The memory: how many requests were made, which blocks are allocated, how many pointers each block has room
for and what those are. -/
structure Heap where
  req : ℕ
  live : ℕ → Bool
  size : ℕ → ℕ
  cell : ℕ → ℕ → Ptr

/-- What the program does not choose: the answer to each request, and whether the build uses the aligned
allocator (`HAVE_IMMINTRIN_H`, `GLU_malloc.c:39`). -/
structure Env where
  ok : ℕ → Bool
  aligned : Bool

/-- A piece of program: from a memory to a value and a memory, or to an undefined outcome. -/
abbrev Prog (α : Type*) := Heap → Option (α × Heap)

/-- Sequencing. -/
def andThen {α β : Type*} (x : Prog α) (f : α → Prog β) : Prog β := fun h =>
  match x h with
  | none => none
  | some (a, h') => f a h'

/-- Returning a value. -/
def ret {α : Type*} (a : α) : Prog α := fun h => some (a, h)

/-- `for( i = 0 ; i < n ; i++ )` with a value carried along. -/
def loop {σ : Type*} (n : ℕ) (body : ℕ → σ → Prog σ) (s : σ) : Prog σ :=
  match n with
  | 0 => ret s
  | n + 1 => andThen (loop n body s) (body n)

/-- Reading cell `i` of the block `p` points to. -/
def load (p : Ptr) (i : ℕ) : Prog Ptr := fun h =>
  match p with
  | .blk b => if h.live b = true ∧ i < h.size b then some (h.cell b i, h) else none
  | _ => none

/-- Writing cell `i` of the block `p` points to. -/
def store (p : Ptr) (i : ℕ) (q : Ptr) : Prog Unit := fun h =>
  match p with
  | .blk b =>
    if h.live b = true ∧ i < h.size b then
      some ((), { h with cell := fun x j => if x = b ∧ j = i then q else h.cell x j })
    else none
  | _ => none

/-- `free`: nothing for null, undefined unless the block is allocated. -/
def release (p : Ptr) : Prog Unit := fun h =>
  match p with
  | .garbage => none
  | .null => some ((), h)
  | .blk b =>
    if h.live b = true then some ((), { h with live := fun x => if x = b then false else h.live x }) else none

/-- `p == NULL`. The test of a pointer that was never set is undefined. -/
def isNull (p : Ptr) : Prog Bool := fun h =>
  match p with
  | .garbage => none
  | .null => some (true, h)
  | .blk _ => some (false, h)

/-- `malloc`, `calloc`: the pointer or null. -/
def malloc (E : Env) (n : ℕ) : Prog Ptr := fun h =>
  some (if E.ok h.req = true then Ptr.blk h.req else Ptr.null,
    { req := h.req + 1
      live := fun x => if x = h.req then E.ok h.req else h.live x
      size := fun x => if x = h.req then n else h.size x
      cell := fun x j => if x = h.req then Ptr.garbage else h.cell x j })

/-- `GLU_malloc`, `src/Utils/GLU_malloc.c:34-45`: whether it failed, and the value the pointer passed by address
(`old` before) has afterwards. `posix_memalign` leaves it alone when it fails; the other build stores null. -/
def GLU_malloc (E : Env) (old : Ptr) (n : ℕ) : Prog (Bool × Ptr) :=
  andThen (malloc E n) fun p =>
    ret (if p = Ptr.null then (true, if E.aligned = true then old else Ptr.null) else (false, p))

/-- `allocate_s_site`, `src/Utils/GLU_malloc.c:114-118`: the matrices of one site, `lat[i].O[mu]`. The block of
a matrix holds numbers, so it has no pointer cells. -/
def allocate_matrices (E : Env) (lat : Ptr) (i L2 : ℕ) (flag : Bool) : Prog Bool :=
  loop L2 (fun mu flag =>
    andThen (load lat i) fun O =>
    andThen (load O mu) fun old =>
    andThen (GLU_malloc E old 0) fun r =>
    andThen (store O mu r.2) fun _ =>
    ret (flag || r.1)) flag

/-- `allocate_s_site`, `src/Utils/GLU_malloc.c:97-122`, for `L1` sites of `L2` matrices; null if a request
failed. `allocate_lat`, 48-71, is the same for the lattice volume and the number of dimensions; the table of
neighbours it fills in afterwards needs no memory of its own. -/
def allocate_s_site (E : Env) (L1 L2 : ℕ) : Prog Ptr :=
  andThen (GLU_malloc E Ptr.null L1) fun r =>
  if r.1 = true then ret Ptr.null
  else
    andThen (loop L1 (fun i flag =>
      andThen (load r.2 i) fun old =>
      andThen (GLU_malloc E old L2) fun q =>
      andThen (store r.2 i q.2) fun _ =>
      allocate_matrices E r.2 i L2 (flag || q.1)) false) fun flag =>
    ret (if flag = true then Ptr.null else r.2)

/-- `free_s_site`, `src/Utils/GLU_malloc.c:125-148`; `free_lat`, 74-94, is the same for the lattice. -/
def free_s_site (lat : Ptr) (L1 L2 : ℕ) : Prog Unit :=
  andThen (loop L1 (fun i _ =>
    andThen (loop L2 (fun mu _ =>
      andThen (load lat i) fun O =>
      andThen (load O mu) fun q =>
      andThen (isNull q) fun z =>
      if z = true then ret () else release q) ()) fun _ =>
    andThen (load lat i) fun O =>
    andThen (isNull O) fun z =>
    if z = true then ret () else release O) ()) fun _ =>
  andThen (isNull lat) fun z =>
  if z = true then ret () else release lat

/-- `smear4D`, `src/Smear/smear.c:189-236` and 381-397, without `TOP_VALUE`: `known` says whether the projection
is one of the three; `w` is the number of time slices held by the two delayed buffers, 1 or (with
`IMPROVED_SMEARING`) 2. The smearing in between (modelled in `Verif/Smear`) allocates nothing and is left out.
The result is whether `GLU_SUCCESS` is returned. -/
def smear4D (E : Env) (lcu ND w : ℕ) (known : Bool) : Prog Bool :=
  let memfree := fun (lat2 lat3 lat4 : Ptr) (good : Bool) =>
    andThen (free_s_site lat2 lcu ND) fun _ =>
    andThen (free_s_site lat3 (w * lcu) ND) fun _ =>
    andThen (free_s_site lat4 (w * lcu) ND) fun _ => ret good
  if known = false then memfree Ptr.null Ptr.null Ptr.null false
  else
    andThen (allocate_s_site E lcu ND) fun lat2 =>
    if lat2 = Ptr.null then memfree lat2 Ptr.null Ptr.null false
    else
      andThen (allocate_s_site E (w * lcu) ND) fun lat3 =>
      if lat3 = Ptr.null then memfree lat2 lat3 Ptr.null false
      else
        andThen (allocate_s_site E (w * lcu) ND) fun lat4 =>
        if lat4 = Ptr.null then memfree lat2 lat3 lat4 false
        else memfree lat2 lat3 lat4 true

/-- `read_file`, `src/Wrappers/GLUlib_wrap.c:108-155`, from the allocation of the field on: `good` says whether
the file could be read and its checks passed. After a failure the table of sites alone is released, 127 and
141. -/
def read_file (E : Env) (vol ND : ℕ) (good : Bool) : Prog Ptr :=
  andThen (allocate_s_site E vol ND) fun lat =>
  if lat = Ptr.null then ret Ptr.null
  else if good = true then ret lat
  else andThen (release lat) fun _ => ret Ptr.null

/-- `flow_RK3`, `src/Smear/wflow.c:49-51` and 179-183, with `allocate_WF` and `free_WF`,
`src/Smear/wflowfuncs.c:327-396`, for the fast variant (`memcheap` false): two fields over the lattice and an
array for sums. The flow in between is left out. The result is whether `GLU_SUCCESS` is returned, and whether the
flow was run. -/
def flow_RK3 (E : Env) (vol ND : ℕ) : Prog (Bool × Bool) :=
  let memfree := fun (red lat2 Z : Ptr) (ran : Bool) =>
    andThen (isNull red) fun z =>
    andThen (if z = true then ret () else release red) fun _ =>
    andThen (free_s_site lat2 vol ND) fun _ =>
    andThen (free_s_site Z vol ND) fun _ => ret (true, ran)
  andThen (allocate_s_site E vol ND) fun lat2 =>
  if lat2 = Ptr.null then memfree Ptr.null lat2 Ptr.null false
  else
    andThen (allocate_s_site E vol ND) fun Z =>
    if Z = Ptr.null then memfree Ptr.null lat2 Z false
    else
      andThen (malloc E 0) fun red =>
      if red = Ptr.null then memfree red lat2 Z false
      else memfree red lat2 Z true

/-- `flow_RK3` with `memcheap` true, same lines: four fields, of which `lat3` and `lat4` hold `w` time slices and
`lat2` one; `free_WF` releases all three as `w` time slices, `wflowfuncs.c:381-389`. -/
def flow_RK3_memcheap (E : Env) (lcu vol ND w : ℕ) : Prog (Bool × Bool) :=
  let memfree := fun (red lat2 Z lat3 lat4 : Ptr) (ran : Bool) =>
    andThen (isNull red) fun z =>
    andThen (if z = true then ret () else release red) fun _ =>
    andThen (free_s_site Z vol ND) fun _ =>
    andThen (free_s_site lat2 (w * lcu) ND) fun _ =>
    andThen (free_s_site lat3 (w * lcu) ND) fun _ =>
    andThen (free_s_site lat4 (w * lcu) ND) fun _ => ret (true, ran)
  andThen (allocate_s_site E lcu ND) fun lat2 =>
  if lat2 = Ptr.null then memfree Ptr.null lat2 Ptr.null Ptr.null Ptr.null false
  else
    andThen (allocate_s_site E vol ND) fun Z =>
    if Z = Ptr.null then memfree Ptr.null lat2 Z Ptr.null Ptr.null false
    else
      andThen (allocate_s_site E (w * lcu) ND) fun lat3 =>
      if lat3 = Ptr.null then memfree Ptr.null lat2 Z lat3 Ptr.null false
      else
        andThen (allocate_s_site E (w * lcu) ND) fun lat4 =>
        if lat4 = Ptr.null then memfree Ptr.null lat2 Z lat3 lat4 false
        else
          andThen (malloc E 0) fun red =>
          if red = Ptr.null then memfree red lat2 Z lat3 lat4 false
          else memfree red lat2 Z lat3 lat4 true

/-- The pointers of `struct CGtemps` that `allocate_temp_lg` sets. -/
structure CG where
  sn : Ptr
  in_old : Ptr
  red : Ptr

/-- `allocate_temp_lg`, `src/Gfix/CGalloc.c:97-129`, with `FACG` true and `H` components: whether it succeeded,
and the pointers. The second request of a condition is made only if the first was granted. -/
def allocate_temp_lg (E : Env) (H : ℕ) : Prog (Bool × CG) :=
  andThen (malloc E 0) fun red =>
  if red = Ptr.null then ret (false, ⟨Ptr.null, Ptr.null, red⟩)
  else
    andThen (GLU_malloc E Ptr.null H) fun sn =>
    if sn.1 = true then ret (false, ⟨sn.2, Ptr.null, red⟩)
    else
      andThen (GLU_malloc E Ptr.null H) fun io =>
      if io.1 = true then ret (false, ⟨sn.2, io.2, red⟩)
      else
        andThen (loop H (fun i flag =>
          andThen (load sn.2 i) fun old =>
          andThen (GLU_malloc E old 0) fun q =>
          andThen (store sn.2 i q.2) fun _ =>
          if q.1 = true then ret true
          else
            andThen (load io.2 i) fun old =>
            andThen (GLU_malloc E old 0) fun q =>
            andThen (store io.2 i q.2) fun _ =>
            ret (flag || q.1)) false) fun flag =>
        ret (!flag, ⟨sn.2, io.2, red⟩)

/-- `free_temp_lg`, `src/Gfix/CGalloc.c:185-209`, with `FACG` true. -/
def free_temp_lg (c : CG) (H : ℕ) : Prog Unit :=
  andThen (isNull c.red) fun z =>
  andThen (if z = true then ret () else release c.red) fun _ =>
  andThen (isNull c.sn) fun z =>
  andThen (if z = true then ret () else
    loop H (fun i _ => andThen (load c.sn i) release) ()) fun _ =>
  andThen (isNull c.in_old) fun z =>
  andThen (if z = true then ret () else
    loop H (fun i _ => andThen (load c.in_old i) release) ()) fun _ =>
  andThen (release c.in_old) fun _ =>
  release c.sn

/-- `FACG`, `src/Gfix/FACG.c:340-391`, from the allocation on: the number of iterations returned; `iters` is what
the search (left out) counts. -/
def FACG (E : Env) (H iters : ℕ) : Prog ℕ :=
  andThen (allocate_temp_lg E H) fun r =>
  andThen (free_temp_lg r.2 H) fun _ =>
  ret (if r.1 = true then iters else 0)

end GLU.Alloc
