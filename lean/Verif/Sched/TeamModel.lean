import Mathlib.Data.Fintype.Basic
import Mathlib.Data.List.Basic
import Mathlib.Logic.Relation
import Mathlib.Logic.Function.Basic
import Mathlib.Algebra.Group.Defs

/-!
# Sums collected by a team of threads

The iterative gauge fixing of `src/Gfix/FACG.c` and `src/Gfix/CFACG.c` runs inside one parallel region. Each thread
adds what its sites contribute to its own entries of the array `red`, every thread then reads the entries of all
threads, and decides from them how to go on. The threads run freely between two barriers; `omp for` has a barrier at
its end.

Modelled: every access to `red`, and the barriers. The links and the arrays of the Fourier transform are not; what a
site contributes is a parameter. The three accesses of the compensated sum to the entry of the own thread are one step.
`*tr`, which in Landau gauge is one variable for all threads, is computed by each thread from what it has read.
-/

namespace GLU.Sched.Team

/-- One access to the array. -/
inductive Act (V : Type) where
  | set (l : ℕ) (v : V)
  | add (l : ℕ) (v : V)
  | read (l : ℕ)

variable {V : Type}

/-- The entry that is accessed. -/
def Act.loc : Act V → ℕ
  | .set l _ => l
  | .add l _ => l
  | .read l => l

/-- The array after an access. -/
def Act.exec [Add V] (a : Act V) (m : ℕ → V) : ℕ → V :=
  match a with
  | .set l v => Function.update m l v
  | .add l v => Function.update m l (m l + v)
  | .read _ => m

/-- The numbers a thread has read, after an access. -/
def Act.note (a : Act V) (m : ℕ → V) (log : List V) : List V :=
  match a with
  | .read l => log ++ [m l]
  | _ => log

/-- The team between two barriers: the array, and for each thread what it has read since the last barrier and what it
still has to do before the next. -/
structure Conf (n : ℕ) (V : Type) where
  mem : ℕ → V
  log : Fin n → List V
  rest : Fin n → List (Act V)

/-- Thread `i` makes its next access. -/
inductive Step [Add V] {n : ℕ} : Conf n V → Conf n V → Prop
  | act (c : Conf n V) (i : Fin n) (a : Act V) (r : List (Act V)) (h : c.rest i = a :: r) :
      Step c ⟨a.exec c.mem, Function.update c.log i (a.note c.mem (c.log i)), Function.update c.rest i r⟩

/-- The code the threads run: what each does first, and what it does after a barrier, given its variables and what it
has read; `none` leaves the region. -/
structure Code (n : ℕ) (S V : Type) where
  start : Fin n → S × List (Act V)
  next : Fin n → S → List V → Option (S × List (Act V))

/-- The team. -/
structure State (n : ℕ) (S V : Type) where
  conf : Conf n V
  st : Fin n → S

/-- The state in which the region is entered. -/
def Code.init {n : ℕ} {S : Type} (C : Code n S V) (m : ℕ → V) : State n S V :=
  ⟨⟨m, fun _ => [], fun i => (C.start i).2⟩, fun i => (C.start i).1⟩

/-- A thread makes an access, or all threads have come to the barrier and pass it. -/
inductive TStep [Add V] {n : ℕ} {S : Type} (C : Code n S V) : State n S V → State n S V → Prop
  | act (s : State n S V) (c : Conf n V) (h : Step s.conf c) : TStep C s ⟨c, s.st⟩
  | barrier (s : State n S V) (f : Fin n → S × List (Act V)) (h : ∀ i, s.conf.rest i = [])
      (hf : ∀ i, C.next i (s.st i) (s.conf.log i) = some (f i)) :
      TStep C s ⟨⟨s.conf.mem, fun _ => [], fun i => (f i).2⟩, fun i => (f i).1⟩

/-- All threads have done what they had to do before the barrier, but some leave the region and some wait: OpenMP
leaves this undefined, in practice the program hangs. -/
def Diverged {n : ℕ} {S : Type} (C : Code n S V) (s : State n S V) : Prop :=
  (∀ i, s.conf.rest i = []) ∧ (∃ i, C.next i (s.st i) (s.conf.log i) = none) ∧
    ∃ j, (C.next j (s.st j) (s.conf.log j)).isSome

/-- The variables of a thread in one of the loops: the number of the pass, the number of the part of the pass, and the
numbers read in this pass. -/
structure Vars (V : Type) where
  iter : ℕ
  part : ℕ
  seen : List V

/-- One of the iterative loops. The entry of column `c` that belongs to thread `t` is `red[ c + CLINE*t ]`. -/
structure Loop (n : ℕ) (V : Type) where
  CLINE : ℕ
  /-- the entries thread `i` clears at the start of a pass -/
  share : Fin n → List ℕ
  /-- the columns read and the columns then added to in part `p` of pass `k`, given what was read before in the pass;
  `none` if the pass has no such part -/
  part : (k p : ℕ) → (seen : List V) → Option (List ℕ × List ℕ)
  /-- what the sites of thread `i` contribute -/
  contrib : (k p : ℕ) → Fin n → (c : ℕ) → List V
  /-- whether there is another pass -/
  again : (k : ℕ) → (seen : List V) → Bool

/-- The reads of the columns, of all threads. -/
def collect {n : ℕ} (A : Loop n V) (cols : List ℕ) : List (Act V) :=
  cols.flatMap fun c => (List.range n).map fun t => .read (c + A.CLINE * t)

/-- The contributions of one thread. -/
def contribute {n : ℕ} (A : Loop n V) (k p : ℕ) (i : Fin n) (cols : List ℕ) : List (Act V) :=
  cols.flatMap fun c => (A.contrib k p i c).map fun v => .add (c + A.CLINE * i) v

/-- Clearing. -/
def clear [Zero V] {n : ℕ} (A : Loop n V) (i : Fin n) : List (Act V) :=
  (A.share i).map fun l => .set l 0

/-- The loop as code: clear, barrier, the parts with a barrier after each, then the decision. -/
def Loop.code [Zero V] {n : ℕ} (A : Loop n V) : Code n (Vars V) V where
  start i := (⟨0, 0, []⟩, clear A i)
  next i s log :=
    let seen := s.seen ++ log
    match A.part s.iter s.part seen with
    | some (rd, ad) => some (⟨s.iter, s.part + 1, seen⟩, collect A rd ++ contribute A s.iter s.part i ad)
    | none => if A.again s.iter seen = true then some (⟨s.iter + 1, 0, []⟩, clear A i) else none

end GLU.Sched.Team
