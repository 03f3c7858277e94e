import Verif.Rng.PeriodProps

/-!
# Seeding the threads and warming up: `src/Utils/par_rng.c:62-125`

The generator is a parameter: `set` is what one of the `GLU_set_par_..._table` functions makes of the seed of a thread
and `step` is one call of `par_rng_dbl`.  A thread without a table is `none`.
-/

namespace GLU.Rng

open GLU.IO

/-- The seed of a thread, `par_rng.c:82-84` and `87-89`; the sum is taken in 32 bits. -/
def threadSeed (seed : W32) (i : ℕ) : W32 := seed + BitVec.ofNat 32 i

/-- The tables of `N` threads after seeding, `par_rng.c:97-110`. -/
def seeded {W : Type} (set : W32 → Thread W) (N : ℕ) (seed : W32) : ℕ → Option (Thread W) :=
  fun t => if t < N then some (set (threadSeed seed t)) else none

/-- One call of `par_rng_dbl( thread )`, `par_rng.c:188-205`, with thread number `t`. -/
def drawOn {W O : Type} (step : Thread W → Option (O × Thread W)) (s : ℕ → Option (Thread W)) (t : ℕ) :
    ℕ → Option (Thread W) :=
  fun u => if u = t then (s t).bind fun x => (step x).map (·.2) else s u

/-- The draws of the warm-up loop, `par_rng.c:112-120`, in the order `sched` in which they take place; each is given by
the number of the thread that makes it. -/
def warm_up {W O : Type} (step : Thread W → Option (O × Thread W)) (sched : List ℕ) (s : ℕ → Option (Thread W)) :
    ℕ → Option (Thread W) :=
  sched.foldl (drawOn step) s

/-- The draws can take place in the order `sched` when the iteration `i` of the loop is run by the thread `run i`
(`get_GLU_thread`, line 116): every iteration makes 10000 draws with the generator of its thread.  OpenMP leaves `run`
to the implementation. -/
def IsSchedule (N : ℕ) (run : ℕ → ℕ) (sched : List ℕ) : Prop :=
  ∀ t, sched.count t = 10000 * ((List.range N).filter fun i => run i = t).length

end GLU.Rng
