import Mathlib.LinearAlgebra.UnitaryGroup
import Mathlib.Analysis.CStarAlgebra.Matrix
import Mathlib.Topology.Instances.Matrix
import Mathlib.MeasureTheory.Measure.Haar.Basic
import Mathlib.MeasureTheory.Group.LIntegral
import Mathlib.MeasureTheory.Group.Prod
import Mathlib.MeasureTheory.Constructions.BorelSpace.Complex
import Verif.Update.Lemmas

/-!
# The invariant measure of the group and its SU(2) subgroups
-/

namespace GLU.Update.Haar

open MeasureTheory Set ENNReal Matrix

/-- The group of the links. -/
abbrev SU (n : ℕ) := specialUnitaryGroup (Fin n) ℂ

instance (n : ℕ) : SecondCountableTopology (Matrix (Fin n) (Fin n) ℂ) :=
  inferInstanceAs (SecondCountableTopology (Fin n → Fin n → ℂ))

instance (n : ℕ) : SecondCountableTopology (SU n) :=
  TopologicalSpace.Subtype.secondCountableTopology {A : Matrix (Fin n) (Fin n) ℂ | A ∈ specialUnitaryGroup (Fin n) ℂ}

instance (n : ℕ) : IsTopologicalGroup (SU n) where
  continuous_mul := (continuous_subtype_val.comp continuous_fst).matrix_mul
    (continuous_subtype_val.comp continuous_snd) |>.subtype_mk _
  continuous_inv := by
    have : Continuous fun A : SU n => (A.1)ᴴ := continuous_subtype_val.matrix_conjTranspose
    exact this.subtype_mk _

instance (n : ℕ) : CompactSpace (SU n) := by
  refine (isCompact_iff_compactSpace (s := {A : Matrix (Fin n) (Fin n) ℂ | A ∈ specialUnitaryGroup (Fin n) ℂ})).1 ?_
  have hc : IsClosed {A : Matrix (Fin n) (Fin n) ℂ | A ∈ specialUnitaryGroup (Fin n) ℂ} := by
    have e : {A : Matrix (Fin n) (Fin n) ℂ | A ∈ specialUnitaryGroup (Fin n) ℂ} =
        {A | Aᴴ * A = 1} ∩ ({A | A * Aᴴ = 1} ∩ {A | A.det = 1}) := by
      ext A
      simp only [mem_setOf_eq, mem_specialUnitaryGroup_iff, mem_inter_iff]
      rw [show A ∈ unitaryGroup (Fin n) ℂ ↔ star A * A = 1 ∧ A * star A = 1 from Iff.rfl, star_eq_conjTranspose]
      tauto
    rw [e]
    refine IsClosed.inter ?_ (IsClosed.inter ?_ ?_)
    · exact isClosed_eq (by fun_prop) continuous_const
    · exact isClosed_eq (by fun_prop) continuous_const
    · exact isClosed_eq (by fun_prop) continuous_const
  have hb : {A : Matrix (Fin n) (Fin n) ℂ | A ∈ specialUnitaryGroup (Fin n) ℂ} ⊆
      (univ.pi fun _ : Fin n => univ.pi fun _ : Fin n => Metric.closedBall (0 : ℂ) 1) := by
    intro A hA i _ j _
    rw [mem_closedBall_zero_iff]
    exact entry_norm_bound_of_unitary hA.1 i j
  have hk : IsCompact (univ.pi fun _ : Fin n => univ.pi fun _ : Fin n => Metric.closedBall (0 : ℂ) 1) :=
    isCompact_univ_pi fun _ => isCompact_univ_pi fun _ => isCompact_closedBall 0 1
  exact hk.of_isClosed_subset hc hb

noncomputable instance (n : ℕ) : MeasurableSpace (SU n) := borel _
instance (n : ℕ) : BorelSpace (SU n) := ⟨rfl⟩

/-- The invariant measure, with total one. -/
noncomputable def haar (n : ℕ) : Measure (SU n) := Measure.haarMeasure ⟨⟨univ, isCompact_univ⟩, by simp⟩

instance (n : ℕ) : IsProbabilityMeasure (haar n) := ⟨Measure.haarMeasure_self⟩
instance (n : ℕ) : (haar n).IsMulLeftInvariant := by unfold haar; infer_instance

/-- A measure of total one that does not change under multiplication from the left does not change under inversion. -/
theorem haar_inv (n : ℕ) {f : SU n → ℝ≥0∞} (hf : Measurable f) : ∫⁻ x, f x⁻¹ ∂haar n = ∫⁻ x, f x ∂haar n := by
  have h1 : ∀ y : SU n, ∫⁻ x, f (x⁻¹ * y) ∂haar n = ∫⁻ x, f x⁻¹ ∂haar n := by
    intro y
    rw [← lintegral_mul_left_eq_self (μ := haar n) (fun x => f (x⁻¹ * y)) y]
    simp
  have h2 : ∀ x : SU n, ∫⁻ y, f (x⁻¹ * y) ∂haar n = ∫⁻ y, f y ∂haar n := fun x => lintegral_mul_left_eq_self f x⁻¹
  have h3 : ∫⁻ y, ∫⁻ x, f (x⁻¹ * y) ∂haar n ∂haar n = ∫⁻ x, ∫⁻ y, f (x⁻¹ * y) ∂haar n ∂haar n := by
    refine lintegral_lintegral_swap ?_
    exact (hf.comp (measurable_snd.inv.mul measurable_fst)).aemeasurable
  simp only [h1, h2, lintegral_const, measure_univ, mul_one] at h3
  exact h3

theorem haar_right (n : ℕ) {f : SU n → ℝ≥0∞} (hf : Measurable f) (g : SU n) :
    ∫⁻ x, f (x * g) ∂haar n = ∫⁻ x, f x ∂haar n := by
  rw [← haar_inv n (f := fun x => f (x * g)) (hf.comp (by fun_prop)), ← haar_inv n hf,
    ← lintegral_mul_left_eq_self (μ := haar n) (fun x => f (x⁻¹ * g)) g]
  simp

theorem measurable_entry {n : ℕ} (i j : Fin n) : Measurable fun A : SU n => A.1 i j :=
  (continuous_subtype_val.matrix_elem i j).measurable

theorem measurable_of_entries {n : ℕ} {X : Type*} [MeasurableSpace X] {F : X → SU n}
    (h : ∀ i j, Measurable fun x => (F x).1 i j) : Measurable F := by
  have hc : Continuous fun (A : SU n) (i j : Fin n) => A.1 i j :=
    continuous_pi fun i => continuous_pi fun j => continuous_subtype_val.matrix_elem i j
  have he : MeasurableEmbedding fun (A : SU n) (i j : Fin n) => A.1 i j := by
    refine (hc.isClosedEmbedding fun A B hAB => ?_).measurableEmbedding
    exact Subtype.ext hAB
  rw [← he.measurable_comp_iff]
  exact measurable_pi_iff.2 fun i => measurable_pi_iff.2 fun j => h i j

/-! ## The SU(2) subgroups -/

theorem subgroup_two (a b : ℂ) : subgroupMatrix (0 : Fin 2) 1 a b = su2M a b := by
  ext i j
  fin_cases i <;> fin_cases j <;> simp [subgroupMatrix, su2M]

/-- An element of SU(2) from its first row. -/
def pair (a b : ℂ) (h : Complex.normSq a + Complex.normSq b = 1) : SU 2 :=
  ⟨su2M a b, by rw [← subgroup_two]; exact subgroup_su (by decide) h⟩

theorem su2_form (x : SU 2) : x.1 1 1 = star (x.1 0 0) ∧ x.1 1 0 = -star (x.1 0 1) := by
  have h1 : (x.1)ᴴ * x.1 = 1 := x.2.1.1
  have h2 : x.1.det = 1 := x.2.2
  have h3 : (x.1)ᴴ = adjugate x.1 := by
    have : x.1 * adjugate x.1 = 1 := by rw [mul_adjugate, h2, one_smul]
    calc (x.1)ᴴ = (x.1)ᴴ * (x.1 * adjugate x.1) := by rw [this, Matrix.mul_one]
      _ = adjugate x.1 := by rw [← Matrix.mul_assoc, h1, Matrix.one_mul]
  have e0 := congrFun (congrFun h3 0) 0
  have e1 := congrFun (congrFun h3 1) 0
  rw [adjugate_fin_two] at e0 e1
  simp only [conjTranspose_apply, of_apply, cons_val', cons_val_zero, cons_val_one, cons_val_fin_one] at e0 e1
  exact ⟨e0.symm, by rw [e1, neg_neg]⟩

theorem su2_norm (x : SU 2) : Complex.normSq (x.1 0 0) + Complex.normSq (x.1 0 1) = 1 := by
  have h2 : x.1.det = 1 := x.2.2
  rw [det_fin_two, (su2_form x).1, (su2_form x).2, mul_neg, sub_neg_eq_add, Complex.star_def,
    Complex.mul_conj, Complex.mul_conj] at h2
  exact_mod_cast h2

/-- The element of SU(2) in the rows and columns `p` and `q`. -/
def embSU {NC : ℕ} {p q : Fin NC} (h : p ≠ q) (x : SU 2) : SU NC :=
  ⟨subgroupMatrix p q (x.1 0 0) (x.1 0 1), subgroup_su h (su2_norm x)⟩

theorem embSU_mul {NC : ℕ} {p q : Fin NC} (h : p ≠ q) (x y : SU 2) : embSU h (x * y) = embSU h x * embSU h y := by
  apply Subtype.ext
  ext i j
  show subgroupMatrix p q ((x.1 * y.1) 0 0) ((x.1 * y.1) 0 1) i j =
    (subgroupMatrix p q (x.1 0 0) (x.1 0 1) * subgroupMatrix p q (y.1 0 0) (y.1 0 1)) i j
  rw [subgroup_mul h]
  simp only [Matrix.mul_apply, Fin.sum_univ_two, (su2_form y).1, (su2_form y).2, subgroupMatrix, of_apply, if_true,
    if_neg h.symm]
  by_cases hi : i = p
  · simp only [hi, if_true]
    by_cases hj : j = p
    · simp only [hj, if_true]
    · simp only [hj, if_false]
      by_cases hj' : j = q
      · simp only [hj', if_true]
      · simp only [hj', if_false, mul_zero, add_zero]
  · simp only [hi, if_false]
    by_cases hi' : i = q
    · simp only [hi', if_true]
      by_cases hj : j = p
      · simp only [hj, if_true, star_add, star_mul', star_neg, star_star]; ring
      · simp only [hj, if_false]
        by_cases hj' : j = q
        · simp only [hj', if_true, star_add, star_mul', star_neg, star_star]; ring
        · simp only [hj', if_false, mul_zero, add_zero]
    · simp only [hi', if_false]

theorem embSU_measurable {NC : ℕ} {p q : Fin NC} (h : p ≠ q) : Measurable (embSU h) := by
  refine measurable_of_entries fun i j => ?_
  have h0 := measurable_entry (n := 2) 0 0
  have h1 := measurable_entry (n := 2) 0 1
  simp only [embSU, subgroupMatrix, of_apply]
  split_ifs <;> first | exact h0 | exact h1 | exact measurable_const | exact Complex.continuous_conj.measurable.comp h0 |
    exact (Complex.continuous_conj.measurable.comp h1).neg

/-- The part of the block of a matrix in the rows `p` and `q` that is a multiple of an element of SU(2). -/
def quat {NC : ℕ} (p q : Fin NC) (W : Matrix (Fin NC) (Fin NC) ℂ) : ℂ × ℂ :=
  (W p p + star (W q q), W p q - star (W q p))

theorem quat_mul {NC : ℕ} {p q : Fin NC} (h : p ≠ q) (a b : ℂ) (W : Matrix (Fin NC) (Fin NC) ℂ) :
    quat p q (subgroupMatrix p q a b * W) =
      (a * (quat p q W).1 - b * star (quat p q W).2, a * (quat p q W).2 + b * star (quat p q W).1) := by
  unfold quat
  simp only [subgroup_mul h, if_true, if_neg h.symm, star_add, star_sub, star_mul', star_neg, star_star, Prod.mk.injEq]
  constructor <;> ring

theorem quat_norm {NC : ℕ} {p q : Fin NC} (h : p ≠ q) (g : SU 2) (W : Matrix (Fin NC) (Fin NC) ℂ) :
    Complex.normSq (quat p q ((embSU h g).1 * W)).1 + Complex.normSq (quat p q ((embSU h g).1 * W)).2 =
      Complex.normSq (quat p q W).1 + Complex.normSq (quat p q W).2 := by
  have hn := su2_norm g
  show Complex.normSq (quat p q (subgroupMatrix p q (g.1 0 0) (g.1 0 1) * W)).1 +
    Complex.normSq (quat p q (subgroupMatrix p q (g.1 0 0) (g.1 0 1) * W)).2 = _
  rw [quat_mul h]
  generalize g.1 0 0 = a at *
  generalize g.1 0 1 = b at *
  generalize quat p q W = z
  simp only [Complex.normSq_apply] at *
  simp
  linear_combination (z.1.re * z.1.re + z.1.im * z.1.im + (z.2.re * z.2.re + z.2.im * z.2.im)) * hn

theorem unit_norm {z : ℂ × ℂ} (h : z ≠ 0) :
    Complex.normSq (z.1 * ((1 / √(Complex.normSq z.1 + Complex.normSq z.2) : ℝ) : ℂ)) +
      Complex.normSq (z.2 * ((1 / √(Complex.normSq z.1 + Complex.normSq z.2) : ℝ) : ℂ)) = 1 := by
  have hp : 0 < Complex.normSq z.1 + Complex.normSq z.2 := by
    have h1 := Complex.normSq_nonneg z.1
    have h2 := Complex.normSq_nonneg z.2
    rcases eq_or_ne z.1 0 with e | e
    · have : z.2 ≠ 0 := fun e' => h (Prod.ext e e')
      have := Complex.normSq_pos.2 this
      linarith
    · have := Complex.normSq_pos.2 e
      linarith
  have hs := Real.mul_self_sqrt hp.le
  have hs0 := (Real.sqrt_pos.2 hp).ne'
  rw [Complex.normSq_mul, Complex.normSq_mul, Complex.normSq_ofReal, ← add_mul]
  rw [show (1 / √(Complex.normSq z.1 + Complex.normSq z.2)) * (1 / √(Complex.normSq z.1 + Complex.normSq z.2)) =
    1 / (√(Complex.normSq z.1 + Complex.normSq z.2) * √(Complex.normSq z.1 + Complex.normSq z.2)) by field_simp, hs]
  field_simp

open Classical in
/-- The element of SU(2) that a non-zero multiple of one is a multiple of. -/
noncomputable def proj (z : ℂ × ℂ) : SU 2 :=
  if h : z ≠ 0 then pair (z.1 * ((1 / √(Complex.normSq z.1 + Complex.normSq z.2) : ℝ) : ℂ))
    (z.2 * ((1 / √(Complex.normSq z.1 + Complex.normSq z.2) : ℝ) : ℂ)) (unit_norm h)
  else 1

theorem quat_ne {NC : ℕ} {p q : Fin NC} (h : p ≠ q) (g : SU 2) (W : Matrix (Fin NC) (Fin NC) ℂ) :
    quat p q ((embSU h g).1 * W) ≠ 0 ↔ quat p q W ≠ 0 := by
  have key : ∀ z : ℂ × ℂ, z ≠ 0 ↔ Complex.normSq z.1 + Complex.normSq z.2 ≠ 0 := by
    intro z
    have h1 := Complex.normSq_nonneg z.1
    have h2 := Complex.normSq_nonneg z.2
    rw [not_iff_not]
    constructor
    · rintro rfl; simp
    · intro e
      exact Prod.ext (Complex.normSq_eq_zero.1 (by linarith)) (Complex.normSq_eq_zero.1 (by linarith))
  rw [key, key, quat_norm]

theorem proj_mul {NC : ℕ} {p q : Fin NC} (h : p ≠ q) (g : SU 2) {W : Matrix (Fin NC) (Fin NC) ℂ} (hW : quat p q W ≠ 0) :
    proj (quat p q ((embSU h g).1 * W)) = g * proj (quat p q W) := by
  have hn := quat_norm h g W
  unfold proj
  rw [dif_pos ((quat_ne h g W).2 hW), dif_pos hW]
  apply Subtype.ext
  simp only [hn]
  show su2M _ _ = g.1 * su2M _ _
  have e : quat p q ((embSU h g).1 * W) = _ := quat_mul h (g.1 0 0) (g.1 0 1) W
  rw [e]
  generalize ((1 / √(Complex.normSq (quat p q W).1 + Complex.normSq (quat p q W).2) : ℝ)) = k
  generalize quat p q W = z
  have h1 := (su2_form g).1
  have h2 := (su2_form g).2
  ext i j
  fin_cases i <;> fin_cases j <;>
    simp [su2M, Matrix.mul_apply, Fin.sum_univ_two, h1, h2] <;> ring

theorem quat_measurable {NC : ℕ} (p q : Fin NC) (S : Matrix (Fin NC) (Fin NC) ℂ) :
    Measurable fun V : SU NC => quat p q (V.1 * S) := by
  have : ∀ i j, Measurable fun V : SU NC => (V.1 * S) i j := fun i j =>
    ((continuous_subtype_val.matrix_mul continuous_const).matrix_elem i j).measurable
  exact ((this p p).add (Complex.continuous_conj.measurable.comp (this q q))).prodMk
    ((this p q).sub (Complex.continuous_conj.measurable.comp (this q p)))

theorem proj_measurable : Measurable proj := by
  have hs : MeasurableSet {z : ℂ × ℂ | z ≠ 0} := (measurableSet_singleton (0 : ℂ × ℂ)).compl
  have hk : Measurable fun z : ℂ × ℂ => ((1 / √(Complex.normSq z.1 + Complex.normSq z.2) : ℝ) : ℂ) := by
    have h1 : Measurable fun z : ℂ × ℂ => Complex.normSq z.1 := (Complex.continuous_normSq.comp continuous_fst).measurable
    have h2 : Measurable fun z : ℂ × ℂ => Complex.normSq z.2 := (Complex.continuous_normSq.comp continuous_snd).measurable
    fun_prop
  refine measurable_of_entries fun i j => ?_
  have e : (fun z => (proj z).1 i j) = fun z : ℂ × ℂ => if z ≠ 0 then
      su2M (z.1 * ((1 / √(Complex.normSq z.1 + Complex.normSq z.2) : ℝ) : ℂ))
        (z.2 * ((1 / √(Complex.normSq z.1 + Complex.normSq z.2) : ℝ) : ℂ)) i j
      else (1 : Matrix (Fin 2) (Fin 2) ℂ) i j := by
    funext z
    unfold proj
    split
    · rfl
    · rfl
  rw [e]
  refine Measurable.ite hs ?_ measurable_const
  have h1 := measurable_fst.mul hk
  have h2 := measurable_snd.mul hk
  have hc := Complex.continuous_conj.measurable
  fin_cases i <;> fin_cases j
  · exact h1
  · exact h2
  · exact (hc.comp h2).neg
  · exact hc.comp h1

/-! ## Averaging over a subgroup -/

/-- An integral over the group is an integral over the cosets of the subgroup. -/
theorem coset {NC : ℕ} {p q : Fin NC} (h : p ≠ q) {f : SU NC → ℝ≥0∞} (hf : Measurable f) :
    ∫⁻ V, f V ∂haar NC = ∫⁻ V, ∫⁻ g, f (embSU h g * V) ∂haar 2 ∂haar NC := by
  have h1 : ∫⁻ V, ∫⁻ g, f (embSU h g * V) ∂haar 2 ∂haar NC = ∫⁻ g, ∫⁻ V, f (embSU h g * V) ∂haar NC ∂haar 2 := by
    refine lintegral_lintegral_swap ?_
    exact (hf.comp (((embSU_measurable h).comp measurable_snd).mul measurable_fst)).aemeasurable
  rw [h1]
  simp only [lintegral_mul_left_eq_self, lintegral_const, measure_univ, mul_one]

end GLU.Update.Haar
