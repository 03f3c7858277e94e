import Verif.Smear.HypProps
import Verif.Utils.MemModel

/-!
# The choice of the smearing routine

`src/Wrappers/SM_wrap.c` and the two questions about the memory it asks, `src/Utils/GLU_memcheck.c`.  The memory sizes are
natural numbers of bytes, where the code multiplies everything by the same factor and compares doubles; `7./3.` is kept by
multiplying both sides by three.  `TOP_VALUE`, the timers and the printing are not modelled.
-/

namespace GLU.Smear

open GLU.Geom GLU.Sched GLU.Mat GLU.Field
open GLU.Utils (Setup Speed)

/-- `smearing_types`, `src/Headers/GLU_enum.h:145-156`, in the order of the enumeration. -/
inductive SmType where
  | NOSMEARING | APE | STOUT | LOG | HYP | HEX | HYL | WFLOW_STOUT | WFLOW_LOG | ADAPTWFLOW_STOUT | ADAPTWFLOW_LOG
deriving DecidableEq, Repr

/-- The number of an enumerator, `GLU_enum.h:145-156`. -/
def SmType.code : SmType → ℕ
  | .NOSMEARING => 0 | .APE => 1 | .STOUT => 2 | .LOG => 3 | .HYP => 4 | .HEX => 5 | .HYL => 6
  | .WFLOW_STOUT => 7 | .WFLOW_LOG => 8 | .ADAPTWFLOW_STOUT => 9 | .ADAPTWFLOW_LOG => 10

/-- The smearing types the routines are called with: `SM_APE`, `SM_STOUT` and `SM_LOG`. -/
inductive Kind where
  | APE | STOUT | LOG
deriving DecidableEq, Repr

/-- `GENTYPE`, `SM_wrap.c:76`: `( SMINFO.type - 1 ) % 3 + 1`, here for a type other than `SM_NOSMEARING`. -/
def gentype (t : SmType) : Kind :=
  match (t.code - 1) % 3 + 1 with
  | 1 => .APE
  | 2 => .STOUT
  | _ => .LOG

/-- The fields of `struct sm_info` (`src/Headers/GLU_types.h:60-64`) that are looked at: type, `dir == SPATIAL_LINKS_ONLY`, `smiters`. -/
structure SmInfo where
  type : SmType
  spatial : Bool
  smiters : ℕ
deriving DecidableEq

/-- The value of `SMINFO.dir`, `GLU_enum.h:58-60`: `ND - 1` or `ND`. -/
def SmInfo.dir (ND : ℕ) (i : SmInfo) : ℕ := if i.spatial then ND - 1 else ND

/-- The routines that `hyp_chooser` calls. -/
inductive Routine where
  | flow_adaptive_RK3 (k : Kind)
  | flow_RK3 (k : Kind) (memcheap : Bool)
  | smear3D (k : Kind)
  | smear4D (k : Kind)
  | HYsmearND (k : Kind) (directions : ℕ)
  | HYPSLsmear3D (k : Kind)
  | HYPSLsmear4D_expensive (k : Kind)
deriving DecidableEq, Repr

/-- `hyp_chooser`, `SM_wrap.c:41-106`. -/
def hyp_chooser (ND : ℕ) (i : SmInfo) (meminfo : Speed) : Routine :=
  if i.type = .ADAPTWFLOW_LOG then .flow_adaptive_RK3 .LOG
  else if i.type = .ADAPTWFLOW_STOUT then .flow_adaptive_RK3 .STOUT
  else if (i.type = .WFLOW_LOG ∨ i.type = .WFLOW_STOUT) ∧ meminfo = .FAST then
    .flow_RK3 (if i.type = .WFLOW_LOG then .LOG else .STOUT) false
  else if (i.type = .WFLOW_LOG ∨ i.type = .WFLOW_STOUT) ∧ meminfo = .MODERATE then
    .flow_RK3 (if i.type = .WFLOW_LOG then .LOG else .STOUT) true
  else if i.type = .APE ∨ i.type = .STOUT ∨ i.type = .LOG then
    if i.spatial then .smear3D (gentype i.type) else .smear4D (gentype i.type)
  else if ND ≠ 4 then .HYsmearND (gentype i.type) (i.dir ND)
  else if i.spatial then .HYPSLsmear3D (gentype i.type)
  else if meminfo = .FAST then .HYPSLsmear4D_expensive (gentype i.type)
  else .HYsmearND (gentype i.type) (i.dir ND)

/-- Three times `expensive_less` of `have_memory_hyp`, `GLU_memcheck.c:125-126`; `lcu` is the number of sites of a slice. -/
def hyp_less3 (s : Setup) (lcu : ℕ) : ℕ := s.NC ^ 2 * s.ND * 16 * (s.volume * 7 + 21 * lcu)

/-- `expensive_more` of `have_memory_hyp`, `GLU_memcheck.c:127-128`. -/
def hyp_more (s : Setup) (lcu : ℕ) : ℕ := s.NC ^ 2 * s.ND * 16 * (s.volume * 7 + 3 * lcu)

/-- `have_memory_hyp`, `GLU_memcheck.c:115-163`, with `HAVE_UNISTD_H`: the answer and the new value of the static variable
`HYP`, where `none` is -1. -/
def have_memory_hyp (s : Setup) (lcu : ℕ) (HYP : Option Speed) (spatial : Bool) : Speed × Option Speed :=
  match HYP with
  | some v => (v, some v)
  | none =>
    let fourDdef : Speed :=
      if spatial then .FAST
      else if s.memory < hyp_more s lcu then
        if 3 * s.memory < hyp_less3 s lcu then .SLOW
        else if s.NC < 4 then .MODERATE else .FAST
      else .FAST
    (fourDdef, some fourDdef)

/-- `TRUEHERM`, `GLU_memcheck.c:283-287`. -/
def trueherm (NC : ℕ) : ℕ := if NC = 3 then NC * (NC + 1) / 2 - 1 - 1 else NC * (NC + 1) / 2 - 1

/-- `expensive_less` of `have_memory_wf`, `GLU_memcheck.c:289-295`, with `lat_element` and `sublat_element` of lines 51-53. -/
def wf_less (s : Setup) (lcu : ℕ) (adaptive : Bool) : ℕ :=
  s.gauge_fields + trueherm s.NC * (16 * s.volume) * s.ND + 3 * (16 * lcu) * s.NC ^ 2 * s.ND +
    if adaptive then s.gauge_fields else 0

/-- `expensive_more` of `have_memory_wf`, `GLU_memcheck.c:290-295`. -/
def wf_more (s : Setup) (adaptive : Bool) : ℕ :=
  2 * s.gauge_fields + trueherm s.NC * (16 * s.volume) * s.ND + if adaptive then s.gauge_fields else 0

/-- `have_memory_wf`, `GLU_memcheck.c:274-324`, with `HAVE_UNISTD_H`: the answer and the new value of the static variable `WF`.
`GLU_FAILURE` and the mark "not asked yet" are the same number -1, so both are `none`. -/
def have_memory_wf (s : Setup) (lcu : ℕ) (WF : Option Speed) (adaptive spatial : Bool) : Option Speed × Option Speed :=
  match WF with
  | some v => (some v, some v)
  | none =>
    let fourDdef : Option Speed :=
      if spatial then some .FAST
      else if s.memory < wf_more s adaptive then
        if s.memory < wf_less s lcu adaptive then none else some .MODERATE
      else some .FAST
    (fourDdef, fourDdef)

/-- The static variables `HYP` and `WF`, `GLU_memcheck.c:37`. -/
structure Statics where
  HYP : Option Speed
  WF : Option Speed
deriving DecidableEq

/-- Their values at the start, `GLU_memcheck.c:37`. -/
def Statics.init : Statics := ⟨none, none⟩

/-- `SM_wrap_struct`, `SM_wrap.c:219-261`: success, the routine that is called, and the static variables. -/
def SM_wrap_struct (s : Setup) (lcu : ℕ) (m : Statics) (i : SmInfo) : Bool × Option Routine × Statics :=
  if i.smiters = 0 then (true, none, m)
  else if i.type = .NOSMEARING then (true, none, m)
  else if i.type = .HYP ∨ i.type = .HEX ∨ i.type = .HYL then
    let a := have_memory_hyp s lcu m.HYP i.spatial
    (true, some (hyp_chooser s.ND i a.1), { m with HYP := a.2 })
  else if i.type = .WFLOW_LOG ∨ i.type = .ADAPTWFLOW_LOG ∨ i.type = .WFLOW_STOUT ∨ i.type = .ADAPTWFLOW_STOUT then
    let a := have_memory_wf s lcu m.WF (i.type = .ADAPTWFLOW_LOG ∨ i.type = .ADAPTWFLOW_STOUT) i.spatial
    match a.1 with
    | none => (false, none, { m with WF := a.2 })
    | some v => (true, some (hyp_chooser s.ND i v), { m with WF := a.2 })
  else (true, some (hyp_chooser s.ND i .FAST), m)

/-- The static variables after a history of calls; the machine may have a different amount of memory each time.  The calls of
the library: `src/Wrappers/GLUlib_wrap.c:307`, `src/Field/Qsusc.c:67`, `src/Field/POLY.c:316`,
`src/Cuts/config_gluons.c:349`, `src/Cuts/smearing_param.c:228`. -/
def history : List (Setup × ℕ × SmInfo) → Statics
  | [] => .init
  | c :: l => (SM_wrap_struct c.1 c.2.1 (history l) c.2.2).2.2

/-! ## Running the routine -/

variable {M : Type}

/-- What the routines other than the flows work with: the update of a link in `smear4D` and `smear3D` for each type, the pieces of
the hypercubic routines, and the contents of their work space. -/
structure Lib (M : Type) where
  upd4 : Kind → Upd M Unit
  upd3 : Kind → Upd M Unit
  dress : Kind → Dress M
  junk1 : ℕ → ℕ → ℕ → M
  junk2 : ℕ → ℕ → ℕ → M

/-- The links after a call of a routine other than a flow; `none`: it returns `GLU_FAILURE`.  `alloc`: the work space was
allocated, see `smear.c:61-65` and `213-236`, `ND_generic_HYP.c:222-239`, `4D_fast.c:262-273`, `HYP.c:183-193`. -/
def runRoutine (L : Latt) (lib : Lib M) (alloc : Bool) (n : ℕ) (s : St M Unit) : Routine → Option (Loc → M)
  | .smear3D k => if alloc then some (smear3D L (lib.upd3 k) n s).lat else none
  | .smear4D k => if alloc then some (smear4D L (lib.upd4 k) n s).lat else none
  | .HYsmearND k d => if alloc then some (HYsmearND L (lib.dress k) d n s).lat else none
  | .HYPSLsmear3D k => if alloc then (HYPSLsmear3D L (lib.dress k) lib.junk1 n (s.lat, s.lat2)).map (·.1) else none
  | .HYPSLsmear4D_expensive k =>
    if alloc then (HYPSLsmear4D_expensive L (lib.dress k) lib.junk1 lib.junk2 n s).map (·.lat) else none
  | .flow_adaptive_RK3 _ => none
  | .flow_RK3 _ _ => none

/-- A smearing without flow as the caller sees it, `SM_wrap.c:219-261` with `41-106`: the status and the links.  The values the
routines return are not looked at; a routine that cannot allocate leaves the links as they are. -/
def smearRun (s : Setup) (L : Latt) (lib : Lib M) (alloc : Bool) (m : Statics) (i : SmInfo) (st : St M Unit) :
    Bool × (Loc → M) :=
  let c := SM_wrap_struct s (lcu L) m i
  (c.1, match c.2.1 with
    | none => st.lat
    | some r => (runRoutine L lib alloc i.smiters st r).getD st.lat)

end GLU.Smear
