import Verif.Field.CloverLemmas
import Verif.Field.LinksProps

/-!
# Action density and topological charge (C76)
-/

namespace GLU.Field

open Complex GLU.Mat GLU.Geom GLU.Sched Matrix Finset

/-! ## Specification -/

/-- The four rectangles at a site in the plane `mu`, `nu`, with `m` steps in direction `mu` and `n` in direction `nu`,
all going around in the sense from `mu` to `nu`. -/
def leaves (mu nu m n : ℕ) : List (List Step) :=
  [rect (mu, true) m (nu, true) n, rect (nu, false) n (mu, true) m,
   rect (mu, false) m (nu, false) n, rect (nu, true) n (mu, false) m]

/-- The shapes that enter a definition of the field strength, with their factors. A factor of at most `1e-8` counts
as zero. -/
noncomputable def shapes : FmunuDef → List (ℝ × ℕ × ℕ)
  | .improved w => [(w.k1, 1, 1), (w.k2, 2, 2), (w.k3, 1, 2), (w.k3, 2, 1), (w.k4, 1, 3), (w.k4, 3, 1), (w.k5, 3, 3)].map
      fun t => (if |t.1| > 1e-8 then t.1 else 0, t.2)
  | _ => [(1, 1, 1)]

/-- The loops, with their factors, averaged in the field strength: all four leaves, or one for the plaquette
definition. -/
noncomputable def loops (df : FmunuDef) (mu nu : ℕ) : List (ℝ × List Step) :=
  match df with
  | .plaquette => [(1, rect (mu, true) 1 (nu, true) 1)]
  | df => (shapes df).flatMap fun t => (leaves mu nu t.2.1 t.2.2).map fun p => (t.1, p)

/-- The sum of the transporters around the loops. -/
noncomputable def leafSum (NC : ℕ) (L : Latt) (df : FmunuDef) (lat : Gauge) (i mu nu : ℕ) : Matrix (Fin NC) (Fin NC) ℂ :=
  ((loops df mu nu).map fun t => (t.1 : ℂ) • along NC L lat i t.2).sum

/-- The lattice field strength: the traceless Hermitian projection of the sum of the loops. -/
noncomputable def Fmunu (NC : ℕ) (L : Latt) (df : FmunuDef) (lat : Gauge) (i mu nu : ℕ) : Matrix (Fin NC) (Fin NC) ℂ :=
  lieHerm (leafSum NC L df lat i mu nu)

/-- The action density of one plane. -/
noncomputable def planeAction (NC : ℕ) (L : Latt) (df : FmunuDef) (lat : Gauge) (i mu nu : ℕ) : ℝ :=
  match df with
  | .plaquette => 2 * (NC - (Matrix.trace (along NC L lat i (rect (mu, true) 1 (nu, true) 1))).re)
  | df => (Matrix.trace (Fmunu NC L df lat i mu nu * Fmunu NC L df lat i mu nu)).re

/-- The loops of the plaquette definition are not averaged over four leaves. -/
noncomputable def scale : FmunuDef → ℝ
  | .plaquette => 16
  | _ => 1

/-- The action at a site: the sum over the six planes. -/
noncomputable def siteAction (NC : ℕ) (L : Latt) (df : FmunuDef) (lat : Gauge) (i : ℕ) : ℝ :=
  scale df * ∑ mu ∈ range 4, ∑ nu ∈ range mu, planeAction NC L df lat i mu nu

/-- The charge at a site: `F` contracted with its dual, `∑ ε(μ,ν,ρ,σ) tr F(μ,ν) F(ρ,σ)`. -/
noncomputable def siteCharge (NC : ℕ) (L : Latt) (df : FmunuDef) (lat : Gauge) (i : ℕ) : ℝ :=
  scale df * ∑ s : Equiv.Perm (Fin 4), (Equiv.Perm.sign s : ℝ) *
    (Matrix.trace (Fmunu NC L df lat i (s 0) (s 1) * Fmunu NC L df lat i (s 2) (s 3))).re

/-! ## The accumulated sums -/

/-- The array `a` holds the matrix `S`, a real combination of special unitary matrices as far as the two colour code
needs it. -/
def Sums (NC : ℕ) (a : Arr ℂ) (S : Matrix (Fin NC) (Fin NC) ℂ) : Prop := toM NC a = S ∧ QuatForm NC a

theorem sums_zero (NC : ℕ) (a : Arr ℂ) : Sums NC (zero_mat NC a) 0 := by
  refine ⟨C63_zero_mat NC a, fun h => ?_⟩
  subst h
  simp [zero_mat, zero_mat2, arr, conj]

theorem sums_add {NC : ℕ} {a b : Arr ℂ} {S B : Matrix (Fin NC) (Fin NC) ℂ} (ha : Sums NC a S) (hb : Holds NC b B) (w : ℝ) :
    Sums NC (a_plus_Sxb NC a b w) (S + (w : ℂ) • B) := by
  have h := C63_a_plus_Sxb NC a b w
  exact ⟨by rw [h, ha.1, hb.1], quatForm_add ha.2 (quatForm_su hb.2) h⟩

theorem sums_if {NC : ℕ} {a b : Arr ℂ} {S B : Matrix (Fin NC) (Fin NC) ℂ} (ha : Sums NC a S) (hb : Holds NC b B) (w : ℝ) :
    Sums NC (if |w| > CL_TOL then a_plus_Sxb NC a b w else a) (S + ((if |w| > 1e-8 then w else 0 : ℝ) : ℂ) • B) := by
  unfold CL_TOL
  split
  · exact sums_add ha hb w
  · simpa using ha

theorem sums_if2 {NC : ℕ} {a b c : Arr ℂ} {S B C : Matrix (Fin NC) (Fin NC) ℂ} (ha : Sums NC a S) (hb : Holds NC b B)
    (hc : Holds NC c C) (w : ℝ) :
    Sums NC (if |w| > CL_TOL then a_plus_Sxb NC (a_plus_Sxb NC a b w) c w else a)
      (S + ((if |w| > 1e-8 then w else 0 : ℝ) : ℂ) • B + ((if |w| > 1e-8 then w else 0 : ℝ) : ℂ) • C) := by
  unfold CL_TOL
  split
  · exact sums_add (sums_add ha hb w) hc w
  · simpa using ha

theorem cloverSum_eq {NC : ℕ} (hN : NC = 2 ∨ NC = 3) {L : Latt} (hL : Valid L) (df : FmunuDef) {lat : Gauge}
    (hU : SUField NC L lat) {i mu nu : ℕ} (hi : i < volume L) (hmu : mu < L.ND) (hnu : nu < L.ND) :
    Sums NC (cloverSum NC L df lat i mu nu) (leafSum NC L df lat i mu nu) := by
  cases df with
  | standard =>
    have h := sums_add (sums_add (sums_add (sums_add (sums_zero NC scratch) (s1_1x1_eq hL hU hi hmu hnu) 1)
      (s2_1x1_eq hL hU hi hmu hnu) 1) (s3_1x1_eq hN hL hU hi hmu hnu) 1) (s4_1x1_eq hL hU hi hmu hnu) 1
    refine ⟨h.1.trans ?_, h.2⟩
    simp [leafSum, loops, shapes, leaves, add_assoc]
  | plaquette =>
    have h := sums_add (sums_zero NC scratch) (s1_1x1_eq hL hU hi hmu hnu) 1
    refine ⟨h.1.trans ?_, h.2⟩
    simp [leafSum, loops]
  | improved w =>
    have h1 := sums_if (sums_if2 (sums_if2 (sums_if (sums_if (sums_zero NC scratch) (s1_1x1_eq hL hU hi hmu hnu) w.k1)
      (s1_2x2_eq hL hU hi hmu hnu) w.k2) (s1_1x2_eq hL hU hi hmu hnu) (s1_2x1_eq hL hU hi hmu hnu) w.k3)
      (s1_1x3_eq hL hU hi hmu hnu) (s1_3x1_eq hL hU hi hmu hnu) w.k4) (s1_3x3_eq hL hU hi hmu hnu) w.k5
    have h2 := sums_if (sums_if2 (sums_if2 (sums_if (sums_if h1 (s2_1x1_eq hL hU hi hmu hnu) w.k1)
      (s2_2x2_eq hN hL hU hi hmu hnu) w.k2) (s2_1x2_eq hN hL hU hi hmu hnu) (s2_2x1_eq hL hU hi hmu hnu) w.k3)
      (s2_1x3_eq hN hL hU hi hmu hnu) (s2_3x1_eq hL hU hi hmu hnu) w.k4) (s2_3x3_eq hN hL hU hi hmu hnu) w.k5
    have h3 := sums_if (sums_if2 (sums_if2 (sums_if (sums_if h2 (s3_1x1_eq hN hL hU hi hmu hnu) w.k1)
      (s3_2x2_eq hN hL hU hi hmu hnu) w.k2) (s3_1x2_eq hN hL hU hi hmu hnu) (s3_2x1_eq hN hL hU hi hmu hnu) w.k3)
      (s3_1x3_eq hN hL hU hi hmu hnu) (s3_3x1_eq hN hL hU hi hmu hnu) w.k4) (s3_3x3_eq hN hL hU hi hmu hnu) w.k5
    have h4 := sums_if (sums_if2 (sums_if2 (sums_if (sums_if h3 (s4_1x1_eq hL hU hi hmu hnu) w.k1)
      (s4_2x2_eq hL hU hi hmu hnu) w.k2) (s4_1x2_eq hL hU hi hmu hnu) (s4_2x1_eq hL hU hi hmu hnu) w.k3)
      (s4_1x3_eq hL hU hi hmu hnu) (s4_3x1_eq hL hU hi hmu hnu) w.k4) (s4_3x3_eq hN hL hU hi hmu hnu) w.k5
    clear h1 h2 h3
    refine ⟨h4.1.trans ?_, h4.2⟩
    clear h4
    unfold leafSum loops shapes leaves
    simp only [List.map_cons, List.map_nil, List.flatMap_cons, List.flatMap_nil, List.sum_cons, List.sum_nil,
      List.cons_append, List.nil_append]
    abel

/-! ## Symmetry of the field strength -/

theorem along_rect_swap {NC : ℕ} {L : Latt} (hL : Valid L) (lat : Gauge) {i : ℕ} (hi : i < volume L) {a b : Step}
    (ha : a.1 < L.ND) (hb : b.1 < L.ND) (m n : ℕ) :
    along NC L lat i (rect b n a m) = (along NC L lat i (rect a m b n))ᴴ := by
  rw [← along_backwards hL lat (rect_inDirs ha hb m n) hi, rect_closed hL ha hb m n hi, backwards_rect]

theorem leafSum_swap {NC : ℕ} {L : Latt} (hL : Valid L) (df : FmunuDef) (lat : Gauge) {i mu nu : ℕ} (hi : i < volume L)
    (hmu : mu < L.ND) (hnu : nu < L.ND) : leafSum NC L df lat i nu mu = (leafSum NC L df lat i mu nu)ᴴ := by
  have e1 : ∀ m n, along NC L lat i (rect (nu, true) n (mu, true) m) = _ := fun m n =>
    along_rect_swap hL lat hi (a := (mu, true)) (b := (nu, true)) hmu hnu m n
  have e2 : ∀ m n, along NC L lat i (rect (mu, true) m (nu, false) n) = _ := fun m n =>
    along_rect_swap hL lat hi (a := (nu, false)) (b := (mu, true)) hnu hmu n m
  have e3 : ∀ m n, along NC L lat i (rect (nu, false) n (mu, false) m) = _ := fun m n =>
    along_rect_swap hL lat hi (a := (mu, false)) (b := (nu, false)) hmu hnu m n
  have e4 : ∀ m n, along NC L lat i (rect (mu, false) m (nu, true) n) = _ := fun m n =>
    along_rect_swap hL lat hi (a := (nu, true)) (b := (mu, false)) hnu hmu n m
  cases df <;>
  · unfold leafSum loops
    try unfold shapes leaves
    simp only [List.map_cons, List.map_nil, List.flatMap_cons, List.flatMap_nil, List.sum_cons, List.sum_nil,
      List.cons_append, List.nil_append, e1, e2, e3, e4, conjTranspose_add, conjTranspose_smul, conjTranspose_zero,
      Complex.star_def, Complex.conj_ofReal, conjTranspose_conjTranspose]
    try abel

theorem lieHerm_star {n : ℕ} (A : Matrix (Fin n) (Fin n) ℂ) : lieHerm Aᴴ = -lieHerm A := by
  unfold lieHerm
  rw [conjTranspose_conjTranspose, ← neg_sub A Aᴴ, Matrix.trace_neg]
  simp only [smul_neg, mul_neg, neg_div, neg_smul]
  abel

/-- The field strength is antisymmetric. -/
theorem Fmunu_swap {NC : ℕ} {L : Latt} (hL : Valid L) (df : FmunuDef) (lat : Gauge) {i mu nu : ℕ} (hi : i < volume L)
    (hmu : mu < L.ND) (hnu : nu < L.ND) : Fmunu NC L df lat i nu mu = -Fmunu NC L df lat i mu nu := by
  unfold Fmunu
  rw [leafSum_swap hL df lat hi hmu hnu, lieHerm_star]

theorem planeAction_swap {NC : ℕ} {L : Latt} (hL : Valid L) (df : FmunuDef) (lat : Gauge) {i mu nu : ℕ} (hi : i < volume L)
    (hmu : mu < L.ND) (hnu : nu < L.ND) : planeAction NC L df lat i nu mu = planeAction NC L df lat i mu nu := by
  cases df with
  | plaquette =>
    simp only [planeAction]
    rw [along_rect_swap hL lat hi (a := (mu, true)) (b := (nu, true)) hmu hnu, re_trace_star]
  | _ =>
    simp only [planeAction]
    rw [Fmunu_swap hL _ lat hi hmu hnu, neg_mul_neg]

/-! ## The kernel -/

theorem hermitian_proj_Fmunu {NC : ℕ} (hN : NC = 2 ∨ NC = 3) {L : Latt} (hL : Valid L) (df : FmunuDef) {lat : Gauge}
    (hU : SUField NC L lat) {i mu nu : ℕ} (hi : i < volume L) (hmu : mu < L.ND) (hnu : nu < L.ND) :
    toM NC (Hermitian_proj NC scratch (cloverSum NC L df lat i mu nu)) = Fmunu NC L df lat i mu nu := by
  have h := cloverSum_eq hN hL df hU hi hmu hnu
  rw [C70_hermitian (by omega) _ h.2, h.1, Fmunu]

theorem kernel_eq {NC : ℕ} (hN : NC = 2 ∨ NC = 3) {L : Latt} (hL : Valid L) (df : FmunuDef) {lat : Gauge}
    (hU : SUField NC L lat) {i mu nu rho delta : ℕ} (hi : i < volume L) (hmu : mu < L.ND) (hnu : nu < L.ND)
    (hrho : rho < L.ND) (hdelta : delta < L.ND) :
    compute_Gmunu_kernel NC L df lat i mu nu rho delta =
      ⟨planeAction NC L df lat i rho delta, planeAction NC L df lat i mu nu,
        (Matrix.trace (Fmunu NC L df lat i mu nu * Fmunu NC L df lat i rho delta)).re⟩ := by
  have h1 := hermitian_proj_Fmunu hN hL df hU hi hmu hnu
  have h2 := hermitian_proj_Fmunu hN hL df hU hi hrho hdelta
  unfold compute_Gmunu_kernel compute_GG_q
  cases df with
  | plaquette =>
    have s1 := (cloverSum_eq hN hL .plaquette hU hi hmu hnu).1
    have s2 := (cloverSum_eq hN hL .plaquette hU hi hrho hdelta).1
    simp only [planeAction, C12_trace_ab, C12_trace, h1, h2, s1, s2]
    simp [leafSum, loops]
  | _ => simp only [planeAction, C12_trace_ab, h1, h2]

theorem six_planes (f : ℕ → ℕ → ℝ) (h : ∀ a < 4, ∀ b < 4, f a b = f b a) :
    ∑ mu ∈ range 4, ∑ nu ∈ range mu, f mu nu = (f 3 0 + f 1 2) + (f 3 1 + f 2 0) + (f 3 2 + f 0 1) := by
  simp only [sum_range_succ, range_zero, sum_empty]
  rw [h 1 (by norm_num) 2 (by norm_num), h 0 (by norm_num) 1 (by norm_num)]
  ring

/-! ## The sum over permutations -/

open Equiv in
/-- The permutations of the four directions that do not change `tr F(μ,ν) F(ρ,σ)` up to the sign of the permutation. -/
def keep : List (Perm (Fin 4)) :=
  [1, swap 0 1, swap 2 3, swap 2 3 * swap 0 1, swap 0 2 * swap 1 3, swap 0 2 * swap 1 3 * swap 0 1,
    swap 0 2 * swap 1 3 * swap 2 3, swap 0 2 * swap 1 3 * (swap 2 3 * swap 0 1)]

open Equiv in
/-- The three ways of splitting the four directions in two planes, in the order the code uses. -/
def splits : List (Perm (Fin 4)) := [swap 0 1 * swap 0 2 * swap 0 3, swap 0 3, swap 0 2 * swap 0 1 * swap 0 3]

theorem splits_apply :
    (splits.map fun s => (s 0, s 1, s 2, s 3)) = [(3, 0, 1, 2), (3, 1, 2, 0), (3, 2, 0, 1)] := by decide

theorem univ_perm4 : (univ : Finset (Equiv.Perm (Fin 4))) = (splits.flatMap fun r => keep.map fun h => r * h).toFinset := by
  decide +kernel

theorem sum_perm4 (g : Equiv.Perm (Fin 4) → ℝ) (h1 : ∀ s, g (s * Equiv.swap 0 1) = g s) (h2 : ∀ s, g (s * Equiv.swap 2 3) = g s)
    (h3 : ∀ s, g (s * (Equiv.swap 0 2 * Equiv.swap 1 3)) = g s) : ∑ s, g s = 8 * (splits.map g).sum := by
  have hn : (splits.flatMap fun r => keep.map fun h => r * h).Nodup := by decide +kernel
  rw [univ_perm4, List.sum_toFinset g hn]
  have hk : ∀ s, ((keep.map fun h => s * h).map g).sum = 8 * g s := by
    intro s
    simp only [keep, List.map_cons, List.map_nil, List.sum_cons, List.sum_nil, ← mul_assoc, h1, h2, mul_one]
    have h3' : ∀ s, g (s * Equiv.swap 0 2 * Equiv.swap 1 3) = g s := fun s => by rw [mul_assoc]; exact h3 s
    rw [h3']
    ring
  simp only [splits, List.flatMap_cons, List.flatMap_nil, List.map_append, List.sum_append, hk, List.map_cons, List.map_nil,
    List.sum_cons, List.sum_nil]
  ring

/-- The contraction with the totally antisymmetric tensor in terms of the three pairs of planes of the code. -/
theorem siteCharge_planes {NC : ℕ} {L : Latt} (hL : Valid L) (h4 : L.ND = 4) (df : FmunuDef) (lat : Gauge) {i : ℕ}
    (hi : i < volume L) :
    siteCharge NC L df lat i = scale df * (-8 * ((Matrix.trace (Fmunu NC L df lat i 3 0 * Fmunu NC L df lat i 1 2)).re +
      (Matrix.trace (Fmunu NC L df lat i 3 1 * Fmunu NC L df lat i 2 0)).re +
      (Matrix.trace (Fmunu NC L df lat i 3 2 * Fmunu NC L df lat i 0 1)).re)) := by
  have hd : ∀ a : Fin 4, (a : ℕ) < L.ND := fun a => by rw [h4]; exact a.2
  have hsw : ∀ a b : Fin 4, Fmunu NC L df lat i b a = -Fmunu NC L df lat i a b := fun a b =>
    Fmunu_swap hL df lat hi (hd a) (hd b)
  unfold siteCharge
  congr 1
  rw [sum_perm4]
  · have hs := splits_apply
    simp only [splits, List.map_cons, List.map_nil, List.cons.injEq, Prod.mk.injEq, and_true] at hs
    obtain ⟨⟨a0, a1, a2, a3⟩, ⟨b0, b1, b2, b3⟩, ⟨c0, c1, c2, c3⟩⟩ := hs
    simp only [splits, List.map_cons, List.map_nil, List.sum_cons, List.sum_nil, a0, a1, a2, a3, b0, b1, b2, b3, c0, c1, c2, c3]
    have s1 : Equiv.Perm.sign (Equiv.swap (0 : Fin 4) 1 * Equiv.swap 0 2 * Equiv.swap 0 3) = -1 := by decide
    have s2 : Equiv.Perm.sign (Equiv.swap (0 : Fin 4) 3) = -1 := by decide
    have s3 : Equiv.Perm.sign (Equiv.swap (0 : Fin 4) 2 * Equiv.swap 0 1 * Equiv.swap 0 3) = -1 := by decide
    rw [s1, s2, s3]
    have f2 : ((2 : Fin 4) : ℕ) = 2 := rfl
    have f3 : ((3 : Fin 4) : ℕ) = 3 := rfl
    simp only [Fin.val_zero, Fin.val_one, f2, f3]
    push_cast
    ring
  · intro s
    rw [Equiv.Perm.sign_mul, Equiv.Perm.sign_swap (by decide)]
    simp only [Equiv.Perm.mul_apply, Equiv.swap_apply_left, Equiv.swap_apply_right]
    rw [show Equiv.swap (0 : Fin 4) 1 2 = 2 by decide, show Equiv.swap (0 : Fin 4) 1 3 = 3 by decide, hsw (s 0) (s 1),
      Matrix.neg_mul, Matrix.trace_neg]
    push_cast
    simp
  · intro s
    rw [Equiv.Perm.sign_mul, Equiv.Perm.sign_swap (by decide)]
    simp only [Equiv.Perm.mul_apply, Equiv.swap_apply_left, Equiv.swap_apply_right]
    rw [show Equiv.swap (2 : Fin 4) 3 0 = 0 by decide, show Equiv.swap (2 : Fin 4) 3 1 = 1 by decide, hsw (s 2) (s 3),
      Matrix.mul_neg, Matrix.trace_neg]
    push_cast
    simp
  · intro s
    rw [Equiv.Perm.sign_mul, Equiv.Perm.sign_mul, Equiv.Perm.sign_swap (by decide), Equiv.Perm.sign_swap (by decide)]
    have e0 : (Equiv.swap (0 : Fin 4) 2 * Equiv.swap 1 3 : Equiv.Perm (Fin 4)) 0 = 2 := by decide
    have e1 : (Equiv.swap (0 : Fin 4) 2 * Equiv.swap 1 3 : Equiv.Perm (Fin 4)) 1 = 3 := by decide
    have e2 : (Equiv.swap (0 : Fin 4) 2 * Equiv.swap 1 3 : Equiv.Perm (Fin 4)) 2 = 0 := by decide
    have e3 : (Equiv.swap (0 : Fin 4) 2 * Equiv.swap 1 3 : Equiv.Perm (Fin 4)) 3 = 1 := by decide
    rw [Equiv.Perm.mul_apply s, Equiv.Perm.mul_apply s, Equiv.Perm.mul_apply s, Equiv.Perm.mul_apply s, e0, e1, e2, e3,
      Matrix.trace_mul_comm]
    simp

theorem siteAction_planes {NC : ℕ} {L : Latt} (hL : Valid L) (h4 : L.ND = 4) (df : FmunuDef) (lat : Gauge) {i : ℕ}
    (hi : i < volume L) :
    siteAction NC L df lat i = scale df * ((planeAction NC L df lat i 3 0 + planeAction NC L df lat i 1 2) +
      (planeAction NC L df lat i 3 1 + planeAction NC L df lat i 2 0) +
      (planeAction NC L df lat i 3 2 + planeAction NC L df lat i 0 1)) := by
  unfold siteAction
  rw [six_planes]
  intro a ha b hb
  exact planeAction_swap hL df lat hi (by omega) (by omega)

/-! ## C76 -/

theorem forN_triple (n : ℕ) (f g h : ℕ → ℝ) (s : ℝ × ℝ × ℝ) :
    forN n (fun i s => (s.1 + f i, s.2.1 + g i, s.2.2 + h i)) s =
      (s.1 + ∑ i ∈ range n, f i, s.2.1 + ∑ i ∈ range n, g i, s.2.2 + ∑ i ∈ range n, h i) := by
  induction n with
  | zero => simp [forN]
  | succ n ih => rw [forN, ih, sum_range_succ, sum_range_succ, sum_range_succ]; simp [add_assoc]

/-- **C76**, two and three colours: on every lattice of four dimensions, for each of the three definitions of the field
strength, the measured action is the sum over sites and planes of `tr F²`, and the measured charge is the sum over sites
of `tr F F̃`, where `F` is the traceless Hermitian part of the sum of the Wilson loops of the definition, and `F̃` its
contraction with the totally antisymmetric tensor. -/
theorem C76_value_partial {NC : ℕ} (hN : NC = 2 ∨ NC = 3) {L : Latt} (hL : Valid L) (h4 : L.ND = 4) (df : FmunuDef)
    {lat : Gauge} (hU : SUField NC L lat) :
    compute_Gmunu NC L df lat = some (∑ i ∈ range (volume L), siteAction NC L df lat i,
      -(1 / 8) * ∑ i ∈ range (volume L), siteCharge NC L df lat i) := by
  have hd : ∀ a < 4, a < L.ND := fun a ha => by omega
  unfold compute_Gmunu
  rw [if_neg (by omega)]
  have hs : forN (volume L) (siteGmunu NC L df lat) ((0, 0, 0) : ℝ × ℝ × ℝ) =
      forN (volume L) (fun i s => (s.1 + (planeAction NC L df lat i 3 0 + planeAction NC L df lat i 3 1 +
        planeAction NC L df lat i 3 2), s.2.1 + (planeAction NC L df lat i 1 2 + planeAction NC L df lat i 2 0 +
        planeAction NC L df lat i 0 1), s.2.2 + ((Matrix.trace (Fmunu NC L df lat i 3 0 * Fmunu NC L df lat i 1 2)).re +
        (Matrix.trace (Fmunu NC L df lat i 3 1 * Fmunu NC L df lat i 2 0)).re +
        (Matrix.trace (Fmunu NC L df lat i 3 2 * Fmunu NC L df lat i 0 1)).re))) (0, 0, 0) := by
    refine forN_congr (fun i hi s => ?_) _
    unfold siteGmunu
    rw [kernel_eq hN hL df hU hi (hd 3 (by norm_num)) (hd 0 (by norm_num)) (hd 1 (by norm_num)) (hd 2 (by norm_num)),
      kernel_eq hN hL df hU hi (hd 3 (by norm_num)) (hd 1 (by norm_num)) (hd 2 (by norm_num)) (hd 0 (by norm_num)),
      kernel_eq hN hL df hU hi (hd 3 (by norm_num)) (hd 2 (by norm_num)) (hd 0 (by norm_num)) (hd 1 (by norm_num))]
    simp only [add_assoc]
  rw [hs, forN_triple]
  dsimp only
  have e1 : ∑ i ∈ range (volume L), siteAction NC L df lat i = _ :=
    sum_congr rfl fun i hi => siteAction_planes hL h4 df lat (mem_range.1 hi)
  have e2 : ∑ i ∈ range (volume L), siteCharge NC L df lat i = _ :=
    sum_congr rfl fun i hi => siteCharge_planes hL h4 df lat (mem_range.1 hi)
  rw [e1, e2, ← mul_sum, ← mul_sum, ← mul_sum]
  cases df <;>
  · simp only [scale, sum_add_distrib, Option.some.injEq, Prod.mk.injEq]
    constructor <;> ring

/-! ### Gauge invariance -/

theorem loops_inDirs {L : Latt} (df : FmunuDef) {mu nu : ℕ} (hmu : mu < L.ND) (hnu : nu < L.ND) :
    ∀ t ∈ loops df mu nu, ∃ a m b n, t.2 = rect a m b n ∧ a.1 < L.ND ∧ b.1 < L.ND := by
  intro t ht
  have key : ∀ s ∈ shapes df, ∀ p ∈ leaves mu nu s.2.1 s.2.2, ∃ a m b n, p = rect a m b n ∧ a.1 < L.ND ∧ b.1 < L.ND := by
    intro s _ p hp
    simp only [leaves, List.mem_cons, List.not_mem_nil, or_false] at hp
    rcases hp with rfl | rfl | rfl | rfl
    · exact ⟨_, _, _, _, rfl, hmu, hnu⟩
    · exact ⟨_, _, _, _, rfl, hnu, hmu⟩
    · exact ⟨_, _, _, _, rfl, hmu, hnu⟩
    · exact ⟨_, _, _, _, rfl, hnu, hmu⟩
  cases df with
  | plaquette =>
    simp only [loops, List.mem_singleton] at ht
    subst ht
    exact ⟨_, _, _, _, rfl, hmu, hnu⟩
  | _ =>
    simp only [loops, List.mem_flatMap, List.mem_map] at ht
    obtain ⟨s, hs, p, hp, rfl⟩ := ht
    exact key s hs p hp

theorem list_sum_conj {n : ℕ} (G H : Matrix (Fin n) (Fin n) ℂ) {X : Type*} (l : List X) (w : X → ℂ)
    (A : X → Matrix (Fin n) (Fin n) ℂ) :
    (l.map fun t => w t • (G * A t * H)).sum = G * (l.map fun t => w t • A t).sum * H := by
  induction l with
  | nil => simp
  | cons t l ih =>
    rw [List.map_cons, List.sum_cons, ih, List.map_cons, List.sum_cons, Matrix.mul_add, Matrix.add_mul, Matrix.mul_smul,
      Matrix.smul_mul]

theorem leafSum_transformed {NC : ℕ} {L : Latt} (hL : Valid L) (df : FmunuDef) {g : ℕ → Arr ℂ} (hg : SUGauge NC L g)
    {lat lat' : Gauge} (h : Transformed NC L g lat lat') {i mu nu : ℕ} (hi : i < volume L) (hmu : mu < L.ND)
    (hnu : nu < L.ND) :
    leafSum NC L df lat' i mu nu = toM NC (g i) * leafSum NC L df lat i mu nu * (toM NC (g i))ᴴ := by
  unfold leafSum
  rw [← list_sum_conj]
  congr 1
  refine List.map_congr_left fun t ht => ?_
  obtain ⟨a, m, b, n, e, ha, hb⟩ := loops_inDirs df hmu hnu t ht
  rw [e, along_transformed hL hg h (rect_inDirs ha hb m n) hi, rect_closed hL ha hb m n hi]

theorem Fmunu_transformed {NC : ℕ} {L : Latt} (hL : Valid L) (df : FmunuDef) {g : ℕ → Arr ℂ} (hg : SUGauge NC L g)
    {lat lat' : Gauge} (h : Transformed NC L g lat lat') {i mu nu : ℕ} (hi : i < volume L) (hmu : mu < L.ND)
    (hnu : nu < L.ND) :
    Fmunu NC L df lat' i mu nu = toM NC (g i) * Fmunu NC L df lat i mu nu * (toM NC (g i))ᴴ := by
  unfold Fmunu
  rw [leafSum_transformed hL df hg h hi hmu hnu, lieHerm_conj (su_star_mul (hg i hi)) (su_mul_star (hg i hi))]

theorem trace_FF_transformed {NC : ℕ} {L : Latt} (hL : Valid L) (df : FmunuDef) {g : ℕ → Arr ℂ} (hg : SUGauge NC L g)
    {lat lat' : Gauge} (h : Transformed NC L g lat lat') {i mu nu rho delta : ℕ} (hi : i < volume L) (hmu : mu < L.ND)
    (hnu : nu < L.ND) (hrho : rho < L.ND) (hdelta : delta < L.ND) :
    Matrix.trace (Fmunu NC L df lat' i mu nu * Fmunu NC L df lat' i rho delta) =
      Matrix.trace (Fmunu NC L df lat i mu nu * Fmunu NC L df lat i rho delta) := by
  rw [Fmunu_transformed hL df hg h hi hmu hnu, Fmunu_transformed hL df hg h hi hrho hdelta]
  have hs := su_star_mul (hg i hi)
  have e : toM NC (g i) * Fmunu NC L df lat i mu nu * (toM NC (g i))ᴴ *
      (toM NC (g i) * Fmunu NC L df lat i rho delta * (toM NC (g i))ᴴ) =
      toM NC (g i) * (Fmunu NC L df lat i mu nu * Fmunu NC L df lat i rho delta) * (toM NC (g i))ᴴ := by
    simp only [Matrix.mul_assoc]
    rw [cancel_left hs]
  rw [e, trace_conj hs]

/-- **C76**: the action and the charge at every site are gauge invariant. -/
theorem C76_gauge_site {NC : ℕ} {L : Latt} (hL : Valid L) (h4 : L.ND = 4) (df : FmunuDef) {g : ℕ → Arr ℂ}
    (hg : SUGauge NC L g) {lat lat' : Gauge} (h : Transformed NC L g lat lat') {i : ℕ} (hi : i < volume L) :
    siteAction NC L df lat' i = siteAction NC L df lat i ∧ siteCharge NC L df lat' i = siteCharge NC L df lat i := by
  constructor
  · unfold siteAction
    congr 1
    refine sum_congr rfl fun mu hmu => sum_congr rfl fun nu hnu => ?_
    have hmu : mu < L.ND := by have := mem_range.1 hmu; omega
    have hnu : nu < L.ND := by have := mem_range.1 hnu; omega
    cases df with
    | plaquette =>
      simp only [planeAction]
      rw [along_transformed hL hg h (rect_inDirs hmu hnu 1 1) hi, rect_closed hL hmu hnu 1 1 hi, trace_conj (su_star_mul (hg i hi))]
    | _ =>
      simp only [planeAction]
      rw [trace_FF_transformed hL _ hg h hi hmu hnu hmu hnu]
  · unfold siteCharge
    congr 1
    refine sum_congr rfl fun s _ => ?_
    have hd : ∀ a : Fin 4, (a : ℕ) < L.ND := fun a => by rw [h4]; exact a.2
    rw [trace_FF_transformed hL df hg h hi (hd _) (hd _) (hd _) (hd _)]

/-- **C76**: the measured action and charge are gauge invariant (two and three colours). -/
theorem C76_gauge_invariant_partial {NC : ℕ} (hN : NC = 2 ∨ NC = 3) {L : Latt} (hL : Valid L) (h4 : L.ND = 4) (df : FmunuDef)
    {g : ℕ → Arr ℂ} {lat : Gauge} (hU : SUField NC L lat) (hg : SUGauge NC L g) :
    compute_Gmunu NC L df (gtransform NC L g lat) = compute_Gmunu NC L df lat := by
  have h := gtransform_transformed hL hg hU
  rw [C76_value_partial hN hL h4 df hU, C76_value_partial hN hL h4 df h.2]
  have e1 : ∑ i ∈ range (volume L), siteAction NC L df (gtransform NC L g lat) i = _ :=
    sum_congr rfl fun i hi => (C76_gauge_site hL h4 df hg h.1 (mem_range.1 hi)).1
  have e2 : ∑ i ∈ range (volume L), siteCharge NC L df (gtransform NC L g lat) i = _ :=
    sum_congr rfl fun i hi => (C76_gauge_site hL h4 df hg h.1 (mem_range.1 hi)).2
  rw [e1, e2]

/-! ### Bounds -/

theorem Fmunu_hermitian (NC : ℕ) (L : Latt) (df : FmunuDef) (lat : Gauge) (i mu nu : ℕ) :
    (Fmunu NC L df lat i mu nu)ᴴ = Fmunu NC L df lat i mu nu := lieHerm_hermitian _

theorem re_trace_mul_star {n : ℕ} (A : Matrix (Fin n) (Fin n) ℂ) : 0 ≤ (Matrix.trace (A * Aᴴ)).re := by
  rw [Matrix.trace, Complex.re_sum]
  refine sum_nonneg fun i _ => ?_
  rw [Matrix.diag_apply, Matrix.mul_apply, Complex.re_sum]
  refine sum_nonneg fun j _ => ?_
  rw [conjTranspose_apply, Complex.star_def, Complex.mul_conj]
  exact Complex.normSq_nonneg _

theorem re_trace_sq {n : ℕ} {A : Matrix (Fin n) (Fin n) ℂ} (h : Aᴴ = A) : 0 ≤ (Matrix.trace (A * A)).re := by
  have := re_trace_mul_star A
  rwa [h] at this

/-- Twice the trace of a product of Hermitian matrices is at most the sum of the traces of the squares. -/
theorem re_trace_mul_le {n : ℕ} {A B : Matrix (Fin n) (Fin n) ℂ} (hA : Aᴴ = A) (hB : Bᴴ = B) :
    2 * |(Matrix.trace (A * B)).re| ≤ (Matrix.trace (A * A)).re + (Matrix.trace (B * B)).re := by
  have h1 := re_trace_sq (A := A + B) (by rw [conjTranspose_add, hA, hB])
  have h2 := re_trace_sq (A := A - B) (by rw [conjTranspose_sub, hA, hB])
  rw [Matrix.add_mul, Matrix.mul_add, Matrix.mul_add, Matrix.trace_add, Matrix.trace_add, Matrix.trace_add,
    Matrix.trace_mul_comm B A] at h1
  rw [Matrix.sub_mul, Matrix.mul_sub, Matrix.mul_sub, Matrix.trace_sub, Matrix.trace_sub, Matrix.trace_sub,
    Matrix.trace_mul_comm B A] at h2
  simp only [Complex.add_re, Complex.sub_re] at h1 h2
  rcases abs_cases ((Matrix.trace (A * B)).re) with ⟨h, _⟩ | ⟨h, _⟩ <;> rw [h] <;> linarith

/-- For a unitary matrix, the square of the Hermitian projection is bounded by the Wilson action. -/
theorem lieHerm_sq_le {n : ℕ} {U : Matrix (Fin n) (Fin n) ℂ} (h : U * Uᴴ = 1) (h' : Uᴴ * U = 1) :
    (Matrix.trace (lieHerm U * lieHerm U)).re ≤ 2 * (n - (Matrix.trace U).re) := by
  set H : Matrix (Fin n) (Fin n) ℂ := (-I / 2) • (U - Uᴴ) with hH
  set C : Matrix (Fin n) (Fin n) ℂ := (1 / 2 : ℂ) • (U + Uᴴ) with hC
  have hHH : Hᴴ = H := by
    rw [hH, conjTranspose_smul, conjTranspose_sub, conjTranspose_conjTranspose, ← neg_sub U Uᴴ, smul_neg, ← neg_smul]
    congr 1
    simp [neg_div]
  have hCC : Cᴴ = C := by
    rw [hC, conjTranspose_smul, conjTranspose_add, conjTranspose_conjTranspose, add_comm]
    congr 1
    simp
  have hsum : H * H + C * C = 1 := by
    rw [hH, hC]
    simp only [Matrix.smul_mul, Matrix.mul_smul, smul_smul, Matrix.sub_mul, Matrix.mul_sub, Matrix.add_mul, Matrix.mul_add, h, h']
    have e1 : (-I / 2 * (-I / 2) : ℂ) = -(1 / 4) := by ring_nf; rw [I_sq]; norm_num
    have e2 : (1 / 2 * (1 / 2) : ℂ) = 1 / 4 := by norm_num
    ext i j
    simp only [Matrix.add_apply, Matrix.smul_apply, Matrix.sub_apply, smul_eq_mul]
    linear_combination ((U * U) i j - 2 * (1 : Matrix (Fin n) (Fin n) ℂ) i j + (Uᴴ * Uᴴ) i j) * e1
  have hlie : (Matrix.trace (lieHerm U * lieHerm U)).re ≤ (Matrix.trace (H * H)).re := by
    set t : ℂ := (-I / 2) * Matrix.trace (U - Uᴴ) with ht
    have htr : Matrix.trace H = t := by rw [hH, Matrix.trace_smul, smul_eq_mul]
    have hti : t.im = 0 := by
      have : star t = t := by rw [← htr, ← Matrix.trace_conjTranspose, hHH]
      have := congrArg Complex.im this
      simp at this
      linarith
    have e : lieHerm U = H - (t / n) • 1 := rfl
    rw [e]
    clear_value H t
    rw [ Matrix.sub_mul, Matrix.mul_sub, Matrix.mul_sub, Matrix.smul_mul, Matrix.mul_smul, Matrix.one_mul, Matrix.mul_one,
      Matrix.mul_smul, Matrix.mul_one, Matrix.trace_sub, Matrix.trace_sub, Matrix.trace_sub, Matrix.trace_smul, Matrix.trace_smul,
      Matrix.trace_smul, Matrix.trace_one, htr, Fintype.card_fin]
    obtain ⟨x, hx⟩ : ∃ x : ℝ, t = x := ⟨t.re, by apply Complex.ext <;> simp [hti]⟩
    rw [hx]
    rcases Nat.eq_zero_or_pos n with h0 | h0
    · subst h0; simp
    have hn : (n : ℝ) ≠ 0 := by exact_mod_cast h0.ne'
    have : (Matrix.trace (H * H) - ((x : ℂ) / (n : ℂ)) • (x : ℂ) -
        (((x : ℂ) / (n : ℂ)) • (x : ℂ) - ((x : ℂ) / (n : ℂ)) • ((x : ℂ) / (n : ℂ)) • (n : ℂ))) =
        Matrix.trace (H * H) - ((x * x / n : ℝ) : ℂ) := by
      simp only [smul_eq_mul]
      push_cast
      have hn' : (n : ℂ) ≠ 0 := by exact_mod_cast h0.ne'
      field_simp
      ring
    rw [this, Complex.sub_re, Complex.ofReal_re]
    have : 0 ≤ x * x / n := div_nonneg (mul_self_nonneg x) (Nat.cast_nonneg n)
    linarith
  have hgap := re_trace_sq (A := 1 - C) (by rw [conjTranspose_sub, conjTranspose_one, hCC])
  rw [Matrix.sub_mul, Matrix.mul_sub, Matrix.mul_sub, Matrix.one_mul, Matrix.one_mul, Matrix.mul_one, Matrix.trace_sub,
    Matrix.trace_sub, Matrix.trace_sub, Matrix.trace_one, Fintype.card_fin] at hgap
  have ht := congrArg (fun M => (Matrix.trace M).re) hsum
  simp only [Matrix.trace_add, Matrix.trace_one, Fintype.card_fin, Complex.add_re, Complex.natCast_re] at ht
  have hCt : (Matrix.trace C).re = (Matrix.trace U).re := by
    rw [hC, Matrix.trace_smul, Matrix.trace_add, Matrix.trace_conjTranspose]
    simp
    ring
  simp only [Complex.sub_re, Complex.natCast_re] at hgap
  linarith

theorem planeAction_ge {NC : ℕ} {L : Latt} (hL : Valid L) (df : FmunuDef) {lat : Gauge} (hU : SUField NC L lat)
    {i mu nu : ℕ} (hi : i < volume L) (hmu : mu < L.ND) (hnu : nu < L.ND) :
    (Matrix.trace (Fmunu NC L df lat i mu nu * Fmunu NC L df lat i mu nu)).re ≤ planeAction NC L df lat i mu nu := by
  cases df with
  | plaquette =>
    have hm := (mem_specialUnitaryGroup_iff.1 (along_mem hL hU (rect_inDirs (a := (mu, true)) (b := (nu, true)) hmu hnu 1 1) hi)).1
    have h := lieHerm_sq_le (mem_unitaryGroup_iff.1 hm) (mem_unitaryGroup_iff'.1 hm)
    simpa [planeAction, Fmunu, leafSum, loops] using h
  | _ => exact le_rfl

/-- **C76**: the action is not negative and bounds the charge at every site. -/
theorem C76_bounds_site {NC : ℕ} {L : Latt} (hL : Valid L) (h4 : L.ND = 4) (df : FmunuDef) {lat : Gauge}
    (hU : SUField NC L lat) {i : ℕ} (hi : i < volume L) :
    0 ≤ siteAction NC L df lat i ∧ |siteCharge NC L df lat i| ≤ 4 * siteAction NC L df lat i := by
  have hs : 0 ≤ scale df := by cases df <;> norm_num [scale]
  have hge : ∀ a < 4, ∀ b < 4, (Matrix.trace (Fmunu NC L df lat i a b * Fmunu NC L df lat i a b)).re ≤
      planeAction NC L df lat i a b := fun a ha b hb => planeAction_ge hL df hU hi (by omega) (by omega)
  have h0 : ∀ a b, 0 ≤ (Matrix.trace (Fmunu NC L df lat i a b * Fmunu NC L df lat i a b)).re := fun a b =>
    re_trace_sq (Fmunu_hermitian NC L df lat i a b)
  have hc : ∀ a b c d, 2 * |(Matrix.trace (Fmunu NC L df lat i a b * Fmunu NC L df lat i c d)).re| ≤ _ := fun a b c d =>
    re_trace_mul_le (Fmunu_hermitian NC L df lat i a b) (Fmunu_hermitian NC L df lat i c d)
  rw [siteAction_planes hL h4 df lat hi, siteCharge_planes hL h4 df lat hi]
  have g1 := hge 3 (by norm_num) 0 (by norm_num)
  have g2 := hge 1 (by norm_num) 2 (by norm_num)
  have g3 := hge 3 (by norm_num) 1 (by norm_num)
  have g4 := hge 2 (by norm_num) 0 (by norm_num)
  have g5 := hge 3 (by norm_num) 2 (by norm_num)
  have g6 := hge 0 (by norm_num) 1 (by norm_num)
  have b1 := hc 3 0 1 2
  have b2 := hc 3 1 2 0
  have b3 := hc 3 2 0 1
  have p := h0 3 0
  have p2 := h0 1 2
  have p3 := h0 3 1
  have p4 := h0 2 0
  have p5 := h0 3 2
  have p6 := h0 0 1
  constructor
  · exact mul_nonneg hs (by linarith)
  · rw [abs_mul, abs_of_nonneg hs, abs_mul, abs_neg, abs_of_pos (by norm_num : (0 : ℝ) < 8)]
    rw [show ∀ x : ℝ, 4 * (scale df * x) = scale df * (4 * x) from fun x => by ring]
    refine mul_le_mul_of_nonneg_left ?_ hs
    have t1 := abs_add_le ((Matrix.trace (Fmunu NC L df lat i 3 0 * Fmunu NC L df lat i 1 2)).re +
      (Matrix.trace (Fmunu NC L df lat i 3 1 * Fmunu NC L df lat i 2 0)).re)
      ((Matrix.trace (Fmunu NC L df lat i 3 2 * Fmunu NC L df lat i 0 1)).re)
    have t2 := abs_add_le ((Matrix.trace (Fmunu NC L df lat i 3 0 * Fmunu NC L df lat i 1 2)).re)
      ((Matrix.trace (Fmunu NC L df lat i 3 1 * Fmunu NC L df lat i 2 0)).re)
    linarith

/-- **C76**: the measured action is not negative and the measured charge is at most half of it in absolute value. -/
theorem C76_bounds_partial {NC : ℕ} (hN : NC = 2 ∨ NC = 3) {L : Latt} (hL : Valid L) (h4 : L.ND = 4) (df : FmunuDef)
    {lat : Gauge} (hU : SUField NC L lat) :
    ∃ GG Q, compute_Gmunu NC L df lat = some (GG, Q) ∧ 0 ≤ GG ∧ 2 * |Q| ≤ GG := by
  refine ⟨_, _, C76_value_partial hN hL h4 df hU, ?_, ?_⟩
  · exact sum_nonneg fun i hi => (C76_bounds_site hL h4 df hU (mem_range.1 hi)).1
  · rw [abs_mul, show |(-(1 / 8) : ℝ)| = 1 / 8 by norm_num [abs_div]]
    have h1 := Finset.abs_sum_le_sum_abs (fun i => siteCharge NC L df lat i) (range (volume L))
    have h2 : ∑ i ∈ range (volume L), |siteCharge NC L df lat i| ≤ ∑ i ∈ range (volume L), 4 * siteAction NC L df lat i :=
      sum_le_sum fun i hi => (C76_bounds_site hL h4 df hU (mem_range.1 hi)).2
    rw [← mul_sum] at h2
    linarith

/-! ### Unit links -/

theorem lieHerm_real {n : ℕ} {A : Matrix (Fin n) (Fin n) ℂ} (h : Aᴴ = A) : lieHerm A = 0 := by
  unfold lieHerm
  rw [h, sub_self, Matrix.trace_zero]
  simp

theorem list_sum_hermitian {n : ℕ} {X : Type*} (l : List X) (f : X → Matrix (Fin n) (Fin n) ℂ) (h : ∀ t ∈ l, (f t)ᴴ = f t) :
    ((l.map f).sum)ᴴ = (l.map f).sum := by
  induction l with
  | nil => simp
  | cons t l ih =>
    rw [List.map_cons, List.sum_cons, conjTranspose_add, h t List.mem_cons_self,
      ih fun s hs => h s (List.mem_cons_of_mem _ hs)]

/-- **C76**: on unit links action and charge vanish at every site. -/
theorem C76_trivial_site {NC : ℕ} {L : Latt} (hL : Valid L) (h4 : L.ND = 4) (df : FmunuDef) {lat : Gauge}
    (h : Trivial NC L lat) {i : ℕ} (hi : i < volume L) :
    siteAction NC L df lat i = 0 ∧ siteCharge NC L df lat i = 0 := by
  have hF : ∀ mu < 4, ∀ nu < 4, Fmunu NC L df lat i mu nu = 0 := by
    intro mu hmu nu hnu
    refine lieHerm_real (list_sum_hermitian _ _ fun t ht => ?_)
    obtain ⟨a, m, b, n, e, ha, hb⟩ := loops_inDirs (L := L) df (mu := mu) (nu := nu) (by omega) (by omega) t ht
    rw [e, along_trivial hL h (rect_inDirs ha hb m n) hi, conjTranspose_smul, conjTranspose_one]
    simp
  constructor
  · unfold siteAction
    rw [sum_eq_zero, mul_zero]
    intro mu hmu
    refine sum_eq_zero fun nu hnu => ?_
    have hmu := mem_range.1 hmu
    have hnu := mem_range.1 hnu
    cases df with
    | plaquette =>
      simp only [planeAction]
      rw [along_trivial hL h (rect_inDirs (a := (mu, true)) (b := (nu, true)) (by omega) (by omega) 1 1) hi]
      simp
    | _ =>
      simp only [planeAction]
      rw [hF mu hmu nu (by omega)]
      simp
  · unfold siteCharge
    rw [sum_eq_zero, mul_zero]
    intro s _
    rw [hF _ (s 0).2 _ (s 1).2]
    simp

/-- **C76**: on every gauge transform of unit links the measured action and charge are zero. -/
theorem C76_pure_gauge_partial {NC : ℕ} (hN : NC = 2 ∨ NC = 3) {L : Latt} (hL : Valid L) (h4 : L.ND = 4) (df : FmunuDef)
    {g : ℕ → Arr ℂ} {lat : Gauge} (h : Trivial NC L lat) (hg : SUGauge NC L g) :
    compute_Gmunu NC L df (gtransform NC L g lat) = some (0, 0) := by
  have hU := trivial_su h
  rw [C76_gauge_invariant_partial hN hL h4 df hU hg, C76_value_partial hN hL h4 df hU,
    sum_eq_zero fun i hi => (C76_trivial_site hL h4 df h (mem_range.1 hi)).1,
    sum_eq_zero fun i hi => (C76_trivial_site hL h4 df h (mem_range.1 hi)).2, mul_zero]

end GLU.Field
