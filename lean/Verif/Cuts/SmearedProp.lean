import Verif.Cuts.Gluon

/-!
# Propagators of a field and of the smeared field

Model of `src/Cuts/smearing_param.c`.  A `struct site` holds the pointer `O` to its links (`src/Headers/GLU_types.h:269-273`),
so the fields live in a heap and an array of sites only names them.  `mom_gauge`, `psq_calc` and `project_trans_long` are, line
by line, those of `cuts.c` and `glueprop.c` and the models of these are used.  Without `WEAK_FIELD` and `TADPOLE_IMPROVE`, which
are commented out.
-/

namespace GLU.Cuts

open GLU.Mat GLU.Geom GLU.Field

/-- The links, by the address of the table `O` of a site and the direction. -/
abbrev Heap := ℕ → ℕ → Arr ℂ

/-- The pointers `O` of an array of sites. -/
abbrev Sites := ℕ → ℕ

/-- The gauge field that an array of sites stands for. -/
def view (h : Heap) (s : Sites) : Gauge := fun l => h (s l.1) l.2

open Classical in
/-- A routine that turns the gauge field of the array of sites `s` into `F` of it, working through the pointers; everything
else in the heap stays. -/
noncomputable def through (L : Latt) (F : Gauge → Gauge) (s : Sites) (h : Heap) : Heap :=
  fun a mu => if hx : ∃ x < volume L, s x = a then F (view h s) (hx.choose, mu) else h a mu

/-- The array of sites after the loop of `memcpy` over the sites, `smearing_param.c:223-227`: whole structures are copied,
pointer included.  `junk` is what `malloc` returns. -/
def copySites (L : Latt) (a junk : Sites) : Sites := fun j => if j < volume L then a j else junk j

/-- The transverse part times its normalisation as in the loop `smearing_param.c:265-277`, for the entry `i` of the list. -/
noncomputable def smearedEntry (NC : ℕ) (tol : ℝ) (sinMom : Bool) (L : Latt) (A : Gauge) (list : List Vec) (i : ℕ) : Option ℝ :=
  let g2_norm : ℝ := 2 / ((NC * NC - 1) * (L.ND - 1) * volume L)
  let g0_norm : ℝ := 2 / ((NC * NC - 1) * L.ND * volume L)
  (list[i]?).bind fun v => (list[list.length - i - 1]?).map fun c =>
    let trans := (project_trans_long NC tol sinMom L A v.idx).1
    if c.idx ≠ v.idx then trans * g2_norm else trans * g0_norm

/-- `cuts_struct_smeared`, `smearing_param.c:205-305`: the arrays `g2` and `g2_SM` that are written.  `a` are the pointers of
the sites that are passed, `smear` is what `SM_wrap_struct` makes of a field.  `none` when no momentum is kept (the null
pointer of `compute_veclist` is read). -/
noncomputable def cuts_struct_smeared (NC : ℕ) (tol : ℝ) (sinMom : Bool) (L : Latt) (sign : ℝ) (log : Arr ℂ → Arr ℂ)
    (keep : (ℕ → ℤ) → Bool) (smear : Gauge → Gauge) (a junk : Sites) (h : Heap) : Option ((ℕ → Option ℝ) × (ℕ → Option ℝ)) :=
  let sm := copySites L a junk
  let h := through L smear sm h
  let h := through L (mom_gauge NC L sign log) a h
  let h := through L (mom_gauge NC L sign log) sm h
  match compute_veclist L keep L.ND false with
  | none => none
  | some list =>
    let h := through L (correct_pspace_landau NC L sign list L.ND) a h
    let h := through L (correct_pspace_landau NC L sign list L.ND) sm h
    some (smearedEntry NC tol sinMom L (view h a) list, smearedEntry NC tol sinMom L (view h sm) list)

end GLU.Cuts
