import Mathlib.Data.Fin.Basic
import Mathlib.Logic.Function.Basic

/-!
# The trajectory number under threads

The parallel region of `hb_update`, `src/Update/KPHB.c:181-239`, as far as it concerns the shared trajectory number
`Latt.flow`, which `write_header_NERSC` puts into the header of a saved configuration
(`src/IO/writers.c:380`, `src/IO/write_headers.c`).

Every thread runs the loop of lines 205-238 for itself. Its place in the program is counted by one number: iteration
`i` has the places `5 i` (line 208, the measurement), `5 i + 1` (217, the single construct), `5 i + 2` (228, the end of
the single construct), `5 i + 3` (232, the update) and `5 i + 4` (234, the master construct).

The measurement, the end of the single construct and the update are places where all threads wait for each other:
`perform_measurements` and `update_lattice` contain work-shared loops, which end with a barrier. That the threads also
meet inside of them is left out, as the trajectory number is neither read nor written there. The master construct has
no barrier.

Simplification: a read gives the last value written; in C the unsynchronised read and write are a data race, which is
undefined behaviour by itself.
-/

namespace GLU.Run

/-- The parameters of the run: number of threads, first iteration, one past the last, and the two intervals. -/
structure Threads where
  count : ℕ
  start : ℕ
  iterations : ℕ
  Nsave : ℕ
  Nmeasure : ℕ

/-- `KPHB.c:217`: the configuration is saved in iteration `i`. -/
def Threads.saves (p : Threads) (i : ℕ) : Prop := i % p.Nsave = 0 ∧ i ≠ p.start

/-- `KPHB.c:208`: the observables are measured in iteration `i`. -/
def Threads.measures (p : Threads) (i : ℕ) : Prop := i % p.Nmeasure = 0

/-- Shared trajectory number, place of every thread, and the headers written so far: iteration and number written. -/
structure TState (n : ℕ) where
  flow : ℕ
  place : Fin n → ℕ
  headers : List (ℕ × ℕ)

/-- `KPHB.c:204-205`: every thread enters the loop with the trajectory number of the start. -/
def TState.init (p : Threads) : TState p.count := ⟨p.start, fun _ => 5 * p.start, []⟩

/-- One step of one thread, or of all threads through a barrier. -/
inductive TStep (p : Threads) : TState p.count → TState p.count → Prop where
  /-- `KPHB.c:208`, not a measurement. -/
  | skipMeasure (s i t) (hi : i < p.iterations) (hm : ¬ p.measures i) (h : s.place t = 5 * i) :
      TStep p s { s with place := Function.update s.place t (5 * i + 1) }
  /-- `KPHB.c:210,212`: the measurement, with its barriers. -/
  | measure (s i) (hi : i < p.iterations) (hm : p.measures i) (h : ∀ t, s.place t = 5 * i) :
      TStep p s { s with place := fun _ => 5 * i + 1 }
  /-- `KPHB.c:217`, not a save point. -/
  | skipSave (s i t) (hs : ¬ p.saves i) (h : s.place t = 5 * i + 1) :
      TStep p s { s with place := Function.update s.place t (5 * i + 3) }
  /-- `KPHB.c:218-227`: the first thread to arrive writes the configuration. -/
  | write (s i t) (hs : p.saves i) (h : s.place t = 5 * i + 1) (hf : ∀ w, (i, w) ∉ s.headers) :
      TStep p s ⟨s.flow, Function.update s.place t (5 * i + 2), (i, s.flow) :: s.headers⟩
  /-- `KPHB.c:218`: the other threads go to the end of the construct. -/
  | skipSingle (s i t w) (hs : p.saves i) (h : s.place t = 5 * i + 1) (hf : (i, w) ∈ s.headers) :
      TStep p s { s with place := Function.update s.place t (5 * i + 2) }
  /-- `KPHB.c:228`: the barrier at the end of the construct. -/
  | endSingle (s i) (h : ∀ t, s.place t = 5 * i + 2) :
      TStep p s { s with place := fun _ => 5 * i + 3 }
  /-- `KPHB.c:232`: the update, with its barriers. -/
  | update (s i) (h : ∀ t, s.place t = 5 * i + 3) :
      TStep p s { s with place := fun _ => 5 * i + 4 }
  /-- `KPHB.c:234-237`: the master thread. -/
  | master (s i t) (ht : t.val = 0) (h : s.place t = 5 * i + 4) :
      TStep p s { s with flow := i + 1, place := Function.update s.place t (5 * (i + 1)) }
  /-- `KPHB.c:234`: the other threads. -/
  | notMaster (s i t) (ht : t.val ≠ 0) (h : s.place t = 5 * i + 4) :
      TStep p s { s with place := Function.update s.place t (5 * (i + 1)) }

/-- The states a run can get to. -/
inductive TReach (p : Threads) : TState p.count → Prop where
  | init : TReach p (TState.init p)
  | step {s s'} (h : TReach p s) (hs : TStep p s s') : TReach p s'

end GLU.Run
