import Verif.Smear.Stout
import Verif.Smear.Givens

/-!
# Hypercubic smearing

`src/Smear/ND_generic_HYP.c`, `src/Smear/4D_fast.c` and `src/Smear/HYP.c`.  As in `Verif/Smear/Model.lean` the matrices are of an
arbitrary type and the projection is a parameter; the projection of level `k` is that with the smearing parameter number `k`.
The parallel loops write, in iteration `i`, only to locations no other iteration reads or writes, so the loops are run in order
of `i`.  `TOP_VALUE` and the printing are not modelled.
-/

namespace GLU.Smear

open GLU.Geom GLU.Sched GLU.Mat GLU.Field

/-- What the hypercubic routines are given: `zero` is the zeroed matrix, `post b u` is what is made of a staple `b` of the link
`u` before it is added up (the staple itself, or `exact_log_slow` of `b` times the adjoint of `u` if `type == SM_LOG`), and
`project k` the projection with `smear_alphas[ k ]` and `one_minus_smalpha[ k ]`. -/
structure Dress (M : Type) where
  ops : MatOps M
  zero : M
  post : M → M → M
  project : ℕ → M → M → M

variable {M : Type}

/-- The staples of a link in the direction `rho` at the site `i` in the plane with the direction `jj`, from links `U` of
direction `jj` and `V` of direction `rho`, added to `stap`.  The same text at `ND_generic_HYP.c:101-123` and `146-176`,
`4D_fast.c:127-149` and `182-203`, `HYP.c:119-138`. -/
def addStaples (L : Latt) (D : Dress M) (i rho jj : ℕ) (U V : ℕ → M) (link stap : M) : M :=
  let b := D.ops.multab_dag (D.ops.multab (U i) (V (neighbor L i jj))) (U (neighbor L i rho))
  let stap := D.ops.a_plus_b stap (D.post b link)
  let temp := back L i jj
  let b := D.ops.multab (D.ops.multabdag (U temp) (V temp)) (U (neighbor L temp rho))
  D.ops.a_plus_b stap (D.post b link)

/-! ## The recursive routine -/

/-- `recurse_staples`, `ND_generic_HYP.c:74-187`, with `lev = k + 1`; `list_dirs` is `pre` followed by `rho`.
`is_orthogonal`, lines 59-72, is written as membership. -/
def recurse_staples (L : Latt) (D : Dress M) (MAXDIR : ℕ) (lat : Loc → M) : ℕ → List ℕ → ℕ → ℕ → M
  | 0, pre, rho, i =>
    let stap := forN MAXDIR (fun jj stap =>
      if jj ∈ pre ++ [rho] then stap
      else addStaples L D i rho jj (fun x => lat (x, jj)) (fun x => lat (x, rho)) (lat (i, rho)) stap) D.zero
    D.project (MAXDIR - 1) stap (lat (i, rho))
  | k + 1, pre, rho, i =>
    let stap := forN MAXDIR (fun jj stap =>
      if jj ∈ pre ++ [rho] then stap
      else addStaples L D i rho jj (recurse_staples L D MAXDIR lat k (pre ++ [rho]) jj)
        (recurse_staples L D MAXDIR lat k (pre ++ [jj]) rho) (lat (i, rho)) stap) D.zero
    D.project (MAXDIR - (k + 2)) stap (lat (i, rho))

/-- The update of one link, `ND_generic_HYP.c:254-260` and `269-274`, with `lev = directions - 1` at least one
(for `directions = 1` the C goes to level zero, which is not modelled). -/
def hypLink (L : Latt) (D : Dress M) (directions : ℕ) : Upd M Unit :=
  fun lat _ it mu => ((), recurse_staples L D directions lat (directions - 2) [] mu it)

/-- `HYsmearND`, `ND_generic_HYP.c:189-345`, for a known smearing type and allocated buffers. -/
def HYsmearND (L : Latt) (D : Dress M) (directions smiters : ℕ) (s : St M Unit) : St M Unit :=
  if smiters = 0 then s else forN smiters (fun _ s => sweep L directions (hypLink L D directions) s) s

/-! ## The routine for four dimensions with all levels in memory -/

/-- `get_lv1`, `4D_fast.c:35-82` (`n = ND`, level 3), and `get_spatial_lv1`, `HYP.c:36-88` (`n = ND - 1`, level 2), at the site
`i`; `junk` is what the array held before. -/
def get_lv1 (L : Latt) (D : Dress M) (n level : ℕ) (lat : Loc → M) (i : ℕ) (junk : ℕ → M) : ℕ → M :=
  (forN n (fun mu s => forN n (fun nu (s : ℕ × (ℕ → M)) =>
    if nu = mu then s
    else
      let b := D.ops.multab_dag (D.ops.multab (lat (i, nu)) (lat (neighbor L i nu, mu))) (lat (neighbor L i mu, nu))
      let b := D.post b (lat (i, mu))
      let temp := back L i nu
      let c := D.ops.multab (D.ops.multabdag (lat (temp, nu)) (lat (temp, mu))) (lat (neighbor L temp mu, nu))
      let c := D.post c (lat (i, mu))
      (s.1 + 1, Function.update s.2 s.1 (D.project level (D.ops.a_plus_b b c) (lat (i, mu))))) s) (0, junk)).2

/-- Place of the link of direction `mu` that belongs to the direction `nu` in the arrays: `4D_fast.c:121-122`, `124-125`,
`176-177`, `179-180` (`n = ND`), `HYP.c:114-115`, `117-118` (`n = ND - 1`). -/
def dressIdx (n mu nu : ℕ) : ℕ := if nu > mu then (n - 1) * mu + nu - 1 else (n - 1) * mu + nu

/-- `get_lv2`, `4D_fast.c:84-160`, at the site `i`; `lev1 x` is the array of the site `x`.  `sigma` is declared outside the
loops but set anew for every `rho`. -/
def get_lv2 (L : Latt) (D : Dress M) (lat : Loc → M) (lev1 : ℕ → ℕ → M) (i : ℕ) (junk : ℕ → M) : ℕ → M :=
  (forN 4 (fun mu s => forN 4 (fun nu (s : ℕ × (ℕ → M)) =>
    if nu = mu then s
    else
      let stap := forN 4 (fun rho stap =>
        if rho = mu ∨ rho = nu then stap
        else
          let sigma := forN 4 (fun jj sigma => if jj ≠ mu ∧ jj ≠ nu ∧ jj ≠ rho then jj else sigma) 0
          let jj := dressIdx 4 mu sigma
          let kk := dressIdx 4 rho sigma
          addStaples L D i mu rho (fun x => lev1 x kk) (fun x => lev1 x jj) (lat (i, mu)) stap) D.zero
      (s.1 + 1, Function.update s.2 s.1 (D.project 2 stap (lat (i, mu))))) s) (0, junk)).2

/-- `gen_staples_4D`, `4D_fast.c:162-206`, added to `stap`. -/
def gen_staples_4D (L : Latt) (D : Dress M) (lev2 : ℕ → ℕ → M) (lat : Loc → M) (i mu : ℕ) (stap : M) : M :=
  forN 4 (fun nu stap =>
    if mu = nu then stap
    else
      let jj := dressIdx 4 mu nu
      let kk := dressIdx 4 nu mu
      addStaples L D i mu nu (fun x => lev2 x kk) (fun x => lev2 x jj) (lat (i, mu)) stap) stap

/-- The update of one link, `4D_fast.c:299-304` and `318-323`. -/
def fastLink (L : Latt) (D : Dress M) (lev2 : ℕ → ℕ → M) : Upd M Unit :=
  fun lat _ it mu => ((), D.project 1 (gen_staples_4D L D lev2 lat it mu D.zero) (lat (it, mu)))

/-- Body of the loop over the sites of a slice, `4D_fast.c:314-334`: links, `lat2` and `lat3`. -/
def fastSite (L : Latt) (upd : Upd M Unit) (t slice bck i : ℕ) (s : (Loc → M) × (Loc → M) × (Loc → M)) :
    (Loc → M) × (Loc → M) × (Loc → M) :=
  let s := forN 4 (fun mu s => (s.1, Function.update s.2.1 (i, mu) (upd s.1 () (slice + i) mu).2, s.2.2)) s
  forN 4 (fun mu s =>
    let lat := if t ≠ 0 then Function.update s.1 (bck + i, mu) (s.2.2 (i, mu)) else s.1
    (lat, s.2.1, Function.update s.2.2 (i, mu) (s.2.1 (i, mu)))) s

/-- Body of the loop over time slices, `4D_fast.c:310-335`. -/
def fastStep (L : Latt) (upd : Upd M Unit) (t : ℕ) (s : St M Unit) : St M Unit :=
  let slice := lcu L * t
  let bck := back L slice (L.ND - 1)
  let r := forN (lcu L) (fastSite L upd t slice bck) (s.lat, s.lat2, s.lat3)
  { s with lat := r.1, lat2 := r.2.1, lat3 := r.2.2 }

/-- One iteration, `4D_fast.c:290-348`; `junk` is what the arrays of the levels held before. -/
def fastSweep (L : Latt) (D : Dress M) (junk1 junk2 : ℕ → ℕ → M) (s : St M Unit) : St M Unit :=
  let lev1 := fun x => get_lv1 L D 4 3 s.lat x (junk1 x)
  let lev2 := fun x => get_lv2 L D s.lat lev1 x (junk2 x)
  let upd := fastLink L D lev2
  let bk := back L 0 (L.ND - 1)
  let s := { s with lat4 := (fill upd 4 bk (lcu L) s.lat (s.z, s.lat4)).2 }
  let s := forN (extent L - 1) (fastStep L upd) s
  let slice := lcu L * (extent L - 1)
  let behind := back L slice (L.ND - 1)
  { s with lat := finish L 4 behind slice s.lat3 s.lat4 s.lat }

/-- `HYPSLsmear4D_expensive`, `4D_fast.c:211-391`, for a known smearing type and allocated buffers; `none`: it fails unless the
number of dimensions is four.  The contents of the arrays before iteration `n` are `junk1 n` and `junk2 n`. -/
def HYPSLsmear4D_expensive (L : Latt) (D : Dress M) (junk1 junk2 : ℕ → ℕ → ℕ → M) (smiters : ℕ) (s : St M Unit) :
    Option (St M Unit) :=
  if L.ND ≠ 4 then none
  else if smiters < 1 then some s
  else some (forN smiters (fun n s => fastSweep L D (junk1 n) (junk2 n) s) s)

/-! ## The spatial routine for four dimensions -/

/-- `staples3D`, `HYP.c:90-141`, for the site `i` of the slice `t`, added to `stap`. -/
def staples3D (L : Latt) (D : Dress M) (lev1 : ℕ → ℕ → M) (lat : Loc → M) (i mu t : ℕ) (stap : M) : M :=
  forN 3 (fun nu stap =>
    if nu = mu then stap
    else
      let rho := forN 3 (fun jj rho => if jj ≠ mu ∧ jj ≠ nu then jj else rho) 0
      let jj := dressIdx 3 mu rho
      let kk := dressIdx 3 nu rho
      addStaples L D i mu nu (fun x => lev1 x kk) (fun x => lev1 x jj) (lat (lcu L * t + i, mu)) stap) stap

/-- Body of the loop over the sites of a slice, `HYP.c:213-228`: links and `lat2`. -/
def spatialSite (L : Latt) (D : Dress M) (lev1 : ℕ → ℕ → M) (t i : ℕ) (s : (Loc → M) × (Loc → M)) : (Loc → M) × (Loc → M) :=
  let it := lcu L * t + i
  let s := forN 3 (fun mu s =>
    (s.1, Function.update s.2 (i, mu) (D.project 1 (staples3D L D lev1 s.1 i mu t D.zero) (s.1 (it, mu))))) s
  forN 3 (fun mu s => (Function.update s.1 (it, mu) (s.2 (i, mu)), s.2)) s

/-- Body of the loop over time slices, `HYP.c:207-229`. -/
def spatialStep (L : Latt) (D : Dress M) (junk : ℕ → ℕ → M) (t : ℕ) (s : (Loc → M) × (Loc → M)) : (Loc → M) × (Loc → M) :=
  let lev1 := fun it => get_lv1 L D 3 2 s.1 (lcu L * t + it) (junk it)
  forN (lcu L) (spatialSite L D lev1 t) s

/-- `HYPSLsmear3D`, `HYP.c:144-266`, for a known smearing type and allocated buffers; `none`: it fails unless the number of
dimensions is four. -/
def HYPSLsmear3D (L : Latt) (D : Dress M) (junk : ℕ → ℕ → ℕ → M) (smiters : ℕ) (s : (Loc → M) × (Loc → M)) :
    Option ((Loc → M) × (Loc → M)) :=
  if smiters = 0 then some s
  else if L.ND ≠ 4 then none
  else some (forN smiters (fun _ s => forN (extent L) (fun t s => spatialStep L D (junk t) t s) s) s)

/-! ## The smearing parameters -/

/-- `smear_alphas[ k ]` and `one_minus_smalpha[ k ]` for `1 ≤ k < MAXDIR`, `ND_generic_HYP.c:39-57`. -/
noncomputable def smearAlphas (ND : ℕ) (sm_alpha : ℕ → ℝ) (k : ℕ) : ℝ × ℝ :=
  if ND < 3 then (sm_alpha (k - 1), 1 - sm_alpha (k - 1))
  else (sm_alpha (k - 1) / (((ND - (k - 1) - 1 : ℕ) : ℝ) * ((ND - 2 : ℕ) : ℝ)), 1 - sm_alpha (k - 1))

/-- `alpha1` ... `alpha3` and `one_min_a1` ... `one_min_a3`, `GLU_definitions.h:523-528` (without `CHROMA_APE`). -/
noncomputable def macroAlphas (sm_alpha : ℕ → ℝ) : ℕ → ℝ × ℝ
  | 1 => (sm_alpha 0 / 6.0, 1.0 - sm_alpha 0)
  | 2 => (sm_alpha 1 / 4.0, 1.0 - sm_alpha 1)
  | _ => (sm_alpha 2 * 0.5, 1.0 - sm_alpha 2)

/-! ## With the projections of the code -/

/-- The hypercubic routines on complex matrices for `SM_APE` and `SM_STOUT`; a matrix may be undefined (not a number), which
spreads through all operations. -/
noncomputable def dressO (NC : ℕ) (proj : ℕ → Arr ℂ → Arr ℂ → Option (Arr ℂ)) : Dress (Option (Arr ℂ)) where
  ops := opsO NC
  zero := some (zero_mat NC scratch)
  post b _ := b
  project k s l := s.bind fun s => l.bind fun l => proj k s l

/-- `project = project_APE`, `ND_generic_HYP.c:214-216`, `4D_fast.c:247-249`, `HYP.c:173-175`, with the weights `w k` of staples
and link at level `k`. -/
noncomputable def apeDress (NC : ℕ) (w : ℕ → ℝ × ℝ) (array : Arr ℂ) : Dress (Option (Arr ℂ)) :=
  dressO NC fun k s l => project_APE NC s l (w k).1 (w k).2 array

/-- `project = project_STOUT`, `ND_generic_HYP.c:217-219`, `4D_fast.c:250-252`, `HYP.c:176-178`. -/
noncomputable def stoutDress (NC : ℕ) (w : ℕ → ℝ × ℝ) : Dress (Option (Arr ℂ)) :=
  dressO NC fun k s l => project_STOUT NC s l (w k).1 (w k).2

end GLU.Smear
