import Verif.Gfix.Driver

/-!
# Best of several gauge copies: `luxury_copy_fast`, `src/Gfix/Landau.c:88-213`

The library is compiled with `LUXURY_GAUGE`, the number of copies, and `BEST_COPY`, which is defined unless `WORST_COPY`
is (`Headers/GLU_definitions.h:441-445`).
-/

namespace GLU.Gfix

open GLU.Mat GLU.Geom GLU.Field

/-- What the loop over the copies carries: `lat_best` (`none` while nothing was copied into it), `maxlink` and `iters`. -/
structure LuxState where
  best : Option Gauge
  maxlink : ℝ
  iters : ℕ

/-- What the loop over the copies ends with. -/
inductive LuxOut
  | state (s : LuxState)
  | running
  | undef

/-- One pass of the loop, `Landau.c:127-174`.  `fa acc max` is `FACG`, or `FASD` with `GLU_GFIX_SD`; `g` are the matrices
of `random_transform`. -/
noncomputable def luxCopy (NC : ℕ) (L : Latt) (fa : ℝ → ℕ → Gauge → FaOut) (lat : Gauge) (g : ℕ → Arr ℂ) (s : LuxState) :
    LuxOut :=
  match fa 1e-6 1000 (gtransform NC L g lat) with
  | .running => .running
  | .undef => .undef
  | .done lat_copy iters _ =>
    match gauge_functional NC L lat_copy with
    | none => .undef
    | some newlink =>
      open Classical in
      if newlink < s.maxlink ∧ iters ≠ 1000 ∧ iters ≠ 123456789 then .state ⟨some lat_copy, newlink, iters⟩
      else .state ⟨s.best, s.maxlink, iters⟩

/-- The loop over `n` more copies from the copy `c` on, `Landau.c:127`. -/
noncomputable def luxCopies (NC : ℕ) (L : Latt) (fa : ℝ → ℕ → Gauge → FaOut) (lat : Gauge) (g : ℕ → ℕ → Arr ℂ) :
    ℕ → ℕ → LuxState → LuxOut
  | 0, _, s => .state s
  | n + 1, c, s =>
    match luxCopy NC L fa lat (g c) s with
    | .state s => luxCopies NC L fa lat g n (c + 1) s
    | .running => .running
    | .undef => .undef

/-- `luxury_copy_fast`, `Landau.c:90-211`, with `copies` for `LUXURY_GAUGE`.  `alloc` tells whether the temporaries could be
allocated; if not, 0 is returned and `*tr` keeps the zero of `Landau.c:265`.  Copying `lat_best` before anything was
stored in it reads memory that was never written: `undef`. -/
noncomputable def luxury_copy_fast (NC : ℕ) (L : Latt) (fa : ℝ → ℕ → Gauge → FaOut) (alloc : Bool) (copies : ℕ)
    (g : ℕ → ℕ → Arr ℂ) (acc : ℝ) (max_iters : ℕ) (lat : Gauge) : FaOut :=
  if alloc = false then .done lat 0 0 else
  match luxCopies NC L fa lat g copies 0 ⟨none, 1, 0⟩ with
  | .running => .running
  | .undef => .undef
  | .state s =>
    match s.best with
    | none => .undef
    | some lat_best =>
      match fa acc max_iters lat_best with
      | .running => .running
      | .undef => .undef
      | .done lat iters tr => .done lat (s.iters + iters) tr

end GLU.Gfix
