import Verif.Field.InstantonLemmas
import Verif.Geom.Props

/-!
# C105: the instanton configuration
-/

namespace GLU.Field

open Complex Matrix Finset GLU.Mat GLU.Geom

/-! ### Specification -/

/-- The totally antisymmetric symbol of three indices. -/
noncomputable def eps3 (a b c : ℕ) : ℝ := ((b : ℝ) - a) * ((c : ℝ) - a) * ((c : ℝ) - b) / 2

/-- 't Hooft's symbol; the directions are counted from 0 and 3 is the time. -/
noncomputable def eta (a mu nu : ℕ) : ℝ :=
  if mu = 3 then (if nu = a then -1 else 0)
  else if nu = 3 then (if mu = a then 1 else 0) else eps3 a mu nu

/-- The Pauli matrices in the upper left corner. -/
noncomputable def pauli (NC a : ℕ) : Matrix (Fin NC) (Fin NC) ℂ := fun i j =>
  if a = 0 then (if (i.1 = 0 ∧ j.1 = 1) ∨ (i.1 = 1 ∧ j.1 = 0) then 1 else 0)
  else if a = 1 then (if i.1 = 0 ∧ j.1 = 1 then -I else if i.1 = 1 ∧ j.1 = 0 then I else 0)
  else if i.1 = 0 ∧ j.1 = 0 then 1 else if i.1 = 1 ∧ j.1 = 1 then -1 else 0

/-- The gauge field of an instanton of size `rho` in the singular gauge, Belavin et al. and 't Hooft. -/
noncomputable def bpst (NC : ℕ) (rho : ℝ) (y : ℕ → ℝ) (mu : ℕ) : Matrix (Fin NC) (Fin NC) ℂ :=
  let N := ∑ nu ∈ range 4, y nu ^ 2
  ((rho ^ 2 / (N * (N + rho ^ 2)) : ℝ) : ℂ) •
    ∑ a ∈ range 3, ((∑ nu ∈ range 4, eta a mu nu * y nu : ℝ) : ℂ) • pauli NC a

/-- `W t` is the parallel transporter of the field `A` from the point `t` of a line to its start. -/
def IsTransport {NC : ℕ} (A W : ℝ → Matrix (Fin NC) (Fin NC) ℂ) : Prop :=
  W 0 = 1 ∧ ∀ t i j, HasDerivAt (fun t => W t i j) ((-(I • (W t * A t))) i j) t

/-- The points of the line in the direction `mu`. -/
def alongLink (y : ℕ → ℝ) (mu : ℕ) (t : ℝ) (nu : ℕ) : ℝ := y nu + if nu = mu then t else 0

/-- `W 1` is the transporter of the instanton of size 4 along the link in the direction `mu`. -/
def IsInstanton {NC : ℕ} (y : ℕ → ℝ) (mu : ℕ) (W : ℝ → Matrix (Fin NC) (Fin NC) ℂ) : Prop :=
  IsTransport (fun t => bpst NC 4 (alongLink y mu t) mu) W

/-- The position of a site with respect to the centre of the instanton. -/
noncomputable def position (L : Latt) (x : ℕ → ℤ) (nu : ℕ) : ℝ := (x nu : ℝ) - (L.dims nu / 2 : ℕ) + 1 / 2

/-- The sum of the components of the position across the link. -/
noncomputable def across (y : ℕ → ℝ) (mu : ℕ) : ℝ := ∑ nu ∈ (range 4).erase mu, y nu

/-! ### The matrices -/

/-- `v . sigma`. -/
noncomputable def dotPauli (NC : ℕ) (v : ℕ → ℝ) : Matrix (Fin NC) (Fin NC) ℂ := ∑ a ∈ range 3, ((v a : ℝ) : ℂ) • pauli NC a

theorem dotPauli_facts {NC : ℕ} (hN : NC = 2 ∨ NC = 3) (v : ℕ → ℝ) :
    (dotPauli NC v).IsHermitian ∧ Matrix.trace (dotPauli NC v) = 0 ∧
    dotPauli NC v * dotPauli NC v * dotPauli NC v = ((v 0 ^ 2 + v 1 ^ 2 + v 2 ^ 2 : ℝ) : ℂ) • dotPauli NC v ∧
    Matrix.trace (dotPauli NC v * dotPauli NC v) = ((2 * (v 0 ^ 2 + v 1 ^ 2 + v 2 ^ 2) : ℝ) : ℂ) := by
  rcases hN with rfl | rfl
  · have hX : dotPauli 2 v = !![(v 2 : ℂ), v 0 - I * v 1; v 0 + I * v 1, -v 2] := by
      ext i j
      fin_cases i <;> fin_cases j <;> simp [dotPauli, pauli, sum_range_succ] <;> ring
    rw [hX]
    refine ⟨?_, ?_, ?_, ?_⟩
    · ext i j
      fin_cases i <;> fin_cases j <;> simp [conjTranspose_apply] <;> ring
    · simp [Matrix.trace, Fin.sum_univ_two]
    · ext i j
      fin_cases i <;> fin_cases j <;> simp [Matrix.mul_apply, Fin.sum_univ_two] <;> ring_nf <;> simp <;> ring
    · simp [Matrix.trace, Matrix.mul_apply, Fin.sum_univ_two]
      linear_combination (-2 * (v 1 : ℂ) ^ 2) * I_sq
  · have hX : dotPauli 3 v = !![(v 2 : ℂ), v 0 - I * v 1, 0; v 0 + I * v 1, -v 2, 0; 0, 0, 0] := by
      ext i j
      fin_cases i <;> fin_cases j <;> simp [dotPauli, pauli, sum_range_succ] <;> ring
    rw [hX]
    refine ⟨?_, ?_, ?_, ?_⟩
    · ext i j
      fin_cases i <;> fin_cases j <;> simp [conjTranspose_apply] <;> ring
    · simp [Matrix.trace, Fin.sum_univ_three]
    · ext i j
      fin_cases i <;> fin_cases j <;> simp [Matrix.mul_apply, Fin.sum_univ_three] <;> ring_nf <;> simp <;> ring
    · simp [Matrix.trace, Matrix.mul_apply, Fin.sum_univ_three]
      linear_combination (-2 * (v 1 : ℂ) ^ 2) * I_sq

/-- The squared distance from the line. -/
noncomputable def dist2 (y : ℕ → ℝ) (mu : ℕ) : ℝ := ∑ nu ∈ (range 4).erase mu, y nu ^ 2

theorem sum_erase4 (f : ℕ → ℝ) {mu : ℕ} (hmu : mu < 4) :
    ∑ nu ∈ (range 4).erase mu, f nu = f 0 + f 1 + f 2 + f 3 - f mu := by
  have := add_sum_erase (range 4) f (mem_range.2 hmu)
  simp only [sum_range_succ, range_zero, sum_empty, zero_add] at this
  linarith

theorem instB_sq (y : ℕ → ℝ) {mu : ℕ} (hmu : mu < 4) :
    instB 1 y mu 0 ^ 2 + instB 1 y mu 1 ^ 2 + instB 1 y mu 2 ^ 2 = dist2 y mu := by
  unfold dist2
  rw [sum_erase4 _ hmu]
  interval_cases mu <;> simp [instB] <;> ring

theorem Asing_eq (y : ℕ → ℝ) {mu : ℕ} (hmu : mu < 4) (rho : ℝ) (hpos : 0 < dist2 y mu) :
    Asing y rho mu = some (atan2 (√(dist2 y mu + rho ^ 2)) (∑ nu ∈ range 4, (y nu ^ 2 + y nu) + rho ^ 2) /
      √(dist2 y mu + rho ^ 2)) := by
  have hs : forN 4 (fun nu (s : ℝ × ℝ) => ((if nu ≠ mu then s.1 + y nu * y nu else s.1), s.2 + (y nu * y nu + y nu))) (0, 0) =
      (dist2 y mu, ∑ nu ∈ range 4, (y nu ^ 2 + y nu)) := by
    unfold dist2
    rw [sum_erase4 _ hmu]
    refine Prod.ext ?_ ?_
    · interval_cases mu <;> simp [forN] <;> ring
    · simp [forN, sum_range_succ]
      ring
  unfold Asing
  rw [hs]
  dsimp only
  have : √(dist2 y mu + rho * rho) ≠ 0 := (Real.sqrt_pos.2 (by nlinarith [mul_self_nonneg rho])).ne'
  rw [if_neg this, ← sq]

theorem toM_pauliArr {NC : ℕ} (hN : NC = 2 ∨ NC = 3) {j : ℕ} (hj : j < 3) : toM NC (pauliArr NC j) = pauli NC j := by
  rcases hN with rfl | rfl <;> ext a b <;> interval_cases j <;> fin_cases a <;> fin_cases b <;>
    simp [toM_apply, pauliArr, pauli, zero_mat, zero_mat2, zero_mat3, arr, Function.update_apply]

theorem instQ_eq {NC : ℕ} (hN : NC = 2 ∨ NC = 3) (y : ℕ → ℝ) {mu : ℕ} (hmu : mu < 4) (hpos : 0 < dist2 y mu) :
    ∃ Q, instQ NC 4 1 y mu = some Q ∧
      toM NC Q = ((angle √(dist2 y mu) √(dist2 y mu + 16) (∑ nu ∈ range 4, (y nu ^ 2 + y nu)) : ℝ) : ℂ) •
        dotPauli NC (instB 1 y mu) := by
  have e0 := Asing_eq y hmu 0 hpos
  have e1 := Asing_eq y hmu 4 hpos
  norm_num at e0 e1
  refine ⟨_, by unfold instQ; rw [e0, e1]; rfl, ?_⟩
  ext a b
  have hk : (b : ℕ) + NC * (a : ℕ) < NC * NC := index_lt a.2 b.2
  have hmap : ∀ (c : ℝ) (T : Arr ℂ), forN (NC * NC) (fun j (temp : Arr ℂ) => Function.update temp j (temp j * c)) T =
      mapN (NC * NC) (fun _ (z : ℂ) => z * c) T := fun _ _ => rfl
  have hadd : ∀ (f : ℕ → ℂ) (T : Arr ℂ), forN (NC * NC) (fun k (temp : Arr ℂ) => Function.update temp k (temp k + f k)) T =
      mapN (NC * NC) (fun k z => z + f k) T := fun _ _ => rfl
  rw [toM_apply]
  dsimp only
  rw [hmap, mapN_apply, if_pos hk]
  simp only [forN, hadd, mapN_apply, if_pos hk]
  rw [Matrix.smul_apply, dotPauli]
  simp only [sum_range_succ, range_zero, sum_empty, zero_add, Matrix.add_apply, Matrix.smul_apply]
  rw [← toM_pauliArr hN (by norm_num : 0 < 3), ← toM_pauliArr hN (by norm_num : 1 < 3),
    ← toM_pauliArr hN (by norm_num : 2 < 3)]
  have hz : zero_mat NC scratch ((b : ℕ) + NC * (a : ℕ)) = 0 := by
    rcases hN with rfl | rfl <;> fin_cases a <;> fin_cases b <;> simp [zero_mat, zero_mat2, zero_mat3, arr]
  simp only [toM_apply, smul_eq_mul, hz]
  unfold angle
  push_cast
  ring

/-! ### Transporters along a line on which the field keeps its direction -/

theorem exp_deriv {NC : ℕ} {X : Matrix (Fin NC) (Fin NC) ℂ} (hX : X.IsHermitian) {r : ℝ} (hr : 0 < r)
    (h3 : X * X * X = ((r : ℂ) ^ 2) • X) {G : ℝ → ℝ} {g t : ℝ} (hG : HasDerivAt G g t) (i j : Fin NC) :
    HasDerivAt (fun t => NormedSpace.exp (I • ((G t : ℂ) • X)) i j)
      ((I * g) * (X * NormedSpace.exp (I • ((G t : ℂ) • X))) i j) t := by
  have hrc : (r : ℂ) ≠ 0 := by exact_mod_cast hr.ne'
  simp only [exp_cubic hX hr h3]
  have e1 : X * ((1 : ℂ) • (1 : Matrix (Fin NC) (Fin NC) ℂ) + (I * (Real.sin (G t * r) / r : ℝ)) • X +
      (((Real.cos (G t * r) - 1) / r ^ 2 : ℝ) : ℂ) • (X * X)) =
      ((Real.cos (G t * r) : ℝ) : ℂ) • X + (I * (Real.sin (G t * r) / r : ℝ)) • (X * X) := by
    rw [Matrix.mul_add, Matrix.mul_add, mul_smul_comm, mul_smul_comm, mul_smul_comm, Matrix.mul_one, ← Matrix.mul_assoc, h3,
      smul_smul]
    have : ((((Real.cos (G t * r) - 1) / r ^ 2 : ℝ) : ℂ) * (r : ℂ) ^ 2) = (Real.cos (G t * r) : ℝ) - 1 := by
      push_cast
      field_simp
    rw [this]
    module
  rw [e1]
  have hs : HasDerivAt (fun t => ((Real.sin (G t * r) / r : ℝ) : ℂ)) ((Real.cos (G t * r) * (g * r) / r : ℝ) : ℂ) t :=
    ((hG.mul_const r).sin.div_const r).ofReal_comp
  have hc : HasDerivAt (fun t => (((Real.cos (G t * r) - 1) / r ^ 2 : ℝ) : ℂ))
      ((-Real.sin (G t * r) * (g * r) / r ^ 2 : ℝ) : ℂ) t :=
    (((hG.mul_const r).cos.sub_const 1).div_const (r ^ 2)).ofReal_comp
  have := (((hs.const_mul I).mul_const (X i j)).const_add ((1 : ℂ) * (1 : Matrix (Fin NC) (Fin NC) ℂ) i j)).add
    (hc.mul_const ((X * X) i j))
  refine (this.congr_deriv ?_).congr_of_eventuallyEq (Filter.Eventually.of_forall fun t => ?_)
  · simp only [Matrix.add_apply, Matrix.smul_apply, smul_eq_mul]
    push_cast
    field_simp
    linear_combination (-(g : ℂ) * Complex.sin (G t * r) * (X * X) i j) * I_sq
  · simp only [Matrix.add_apply, Matrix.smul_apply, smul_eq_mul]
    rfl

theorem transport_eq {NC : ℕ} {X : Matrix (Fin NC) (Fin NC) ℂ} (hX : X.IsHermitian) {r : ℝ} (hr : 0 < r)
    (h3 : X * X * X = ((r : ℂ) ^ 2) • X) {f F : ℝ → ℝ} (hF : ∀ t, HasDerivAt F (f t) t) (hF0 : F 0 = 0)
    {A : ℝ → Matrix (Fin NC) (Fin NC) ℂ} (hA : ∀ t, A t = -((f t : ℂ) • X)) (W : ℝ → Matrix (Fin NC) (Fin NC) ℂ) :
    IsTransport A W ↔ ∀ t, W t = NormedSpace.exp (I • ((F t : ℂ) • X)) := by
  have hcomm : ∀ s : ℝ, X * NormedSpace.exp (I • ((s : ℂ) • X)) = NormedSpace.exp (I • ((s : ℂ) • X)) * X := by
    intro s
    rw [exp_cubic hX hr h3]
    simp only [Matrix.mul_add, Matrix.add_mul, mul_smul_comm, smul_mul_assoc, Matrix.mul_one, Matrix.one_mul, Matrix.mul_assoc]
  have hinv : ∀ s : ℝ, NormedSpace.exp (I • (((-s : ℝ) : ℂ) • X)) * NormedSpace.exp (I • ((s : ℂ) • X)) = 1 := by
    intro s
    have e : I • (((-s : ℝ) : ℂ) • X) = -(I • ((s : ℂ) • X)) := by push_cast; module
    rw [e, ← Matrix.exp_add_of_commute _ _ ((Commute.refl (I • ((s : ℂ) • X))).neg_left), neg_add_cancel, NormedSpace.exp_zero]
  constructor
  · rintro ⟨h0, hW⟩
    have hconst : ∀ t, W t * NormedSpace.exp (I • (((-F t : ℝ) : ℂ) • X)) = 1 := by
      intro t
      ext i j
      have hd : ∀ t, HasDerivAt (fun t => (W t * NormedSpace.exp (I • (((-F t : ℝ) : ℂ) • X))) i j) 0 t := by
        intro t
        have := HasDerivAt.fun_sum (u := Finset.univ) fun k (_ : k ∈ Finset.univ) =>
          (hW t i k).mul (exp_deriv hX hr h3 (hF t).neg k j)
        refine (this.congr_deriv ?_).congr_of_eventuallyEq (Filter.Eventually.of_forall fun t => ?_)
        · rw [sum_add_distrib]
          have l1 : ∑ k, (-(I • (W t * A t))) i k * NormedSpace.exp (I • (((-F) t : ℝ) : ℂ) • X) k j =
              ((-(I • (W t * A t))) * NormedSpace.exp (I • (((-F) t : ℝ) : ℂ) • X)) i j := (Matrix.mul_apply).symm
          have l2 : ∑ k, W t i k * (I * ((-f t : ℝ) : ℂ) * (X * NormedSpace.exp (I • (((-F) t : ℝ) : ℂ) • X)) k j) =
              (W t * ((I * ((-f t : ℝ) : ℂ)) • (X * NormedSpace.exp (I • (((-F) t : ℝ) : ℂ) • X)))) i j := by
            rw [Matrix.mul_apply]
            rfl
          rw [l1, l2, ← Matrix.add_apply, hA]
          have : -(I • (W t * -((f t : ℂ) • X))) * NormedSpace.exp (I • (((-F) t : ℝ) : ℂ) • X) +
              W t * ((I * ((-f t : ℝ) : ℂ)) • (X * NormedSpace.exp (I • (((-F) t : ℝ) : ℂ) • X))) = 0 := by
            rw [Matrix.mul_neg, smul_neg, neg_neg, mul_smul_comm, mul_smul_comm, smul_smul, smul_mul_assoc, Matrix.mul_assoc]
            push_cast
            module
          rw [this]
          rfl
        · exact Matrix.mul_apply
      have hc := is_const_of_deriv_eq_zero (fun t => (hd t).differentiableAt) (fun t => (hd t).deriv) t 0
      rw [hc, h0, hF0]
      simp
    intro t
    have := congrArg (· * NormedSpace.exp (I • ((F t : ℂ) • X))) (hconst t)
    simp only [Matrix.mul_assoc, hinv, Matrix.mul_one, Matrix.one_mul] at this
    exact this
  · intro h
    obtain rfl : W = fun t => NormedSpace.exp (I • ((F t : ℂ) • X)) := funext h
    refine ⟨by simp [hF0], fun t i j => ?_⟩
    refine (exp_deriv hX hr h3 (hF t) i j).congr_deriv ?_
    rw [hA, hcomm, Matrix.mul_neg, smul_neg, neg_neg, mul_smul_comm]
    simp only [Matrix.smul_apply, smul_eq_mul, mul_assoc]

theorem eta_line (y : ℕ → ℝ) {a mu : ℕ} (ha : a < 3) (hmu : mu < 4) (t : ℝ) :
    ∑ nu ∈ range 4, eta a mu nu * alongLink y mu t nu = -instB 1 y mu a := by
  simp only [sum_range_succ, range_zero, sum_empty, zero_add]
  interval_cases a <;> interval_cases mu <;> simp [eta, eps3, alongLink, instB] <;> norm_num

theorem bpst_line (NC : ℕ) (y : ℕ → ℝ) {mu : ℕ} (hmu : mu < 4) (t : ℝ) :
    bpst NC 4 (alongLink y mu t) mu = -(((16 / ((dist2 y mu + (y mu + t) ^ 2) * (dist2 y mu + (y mu + t) ^ 2 + 16)) : ℝ) : ℂ) •
      dotPauli NC (instB 1 y mu)) := by
  have hN : ∑ nu ∈ range 4, alongLink y mu t nu ^ 2 = dist2 y mu + (y mu + t) ^ 2 := by
    unfold dist2
    rw [sum_erase4 _ hmu]
    simp only [sum_range_succ, range_zero, sum_empty, zero_add]
    interval_cases mu <;> simp [alongLink] <;> ring
  unfold bpst dotPauli
  dsimp only
  have hsum : ∑ a ∈ range 3, ((∑ nu ∈ range 4, eta a mu nu * alongLink y mu t nu : ℝ) : ℂ) • pauli NC a =
      -∑ a ∈ range 3, ((instB 1 y mu a : ℝ) : ℂ) • pauli NC a := by
    rw [← sum_neg_distrib]
    exact sum_congr rfl fun a ha => by rw [eta_line y (mem_range.1 ha) hmu t, ofReal_neg, neg_smul]
  rw [hN, hsum, smul_neg]
  norm_num

/-- The exponent of the transporter. -/
theorem transporter_eq {NC : ℕ} (hN : NC = 2 ∨ NC = 3) (y : ℕ → ℝ) {mu : ℕ} (hmu : mu < 4) (hpos : 0 < dist2 y mu) :
    (∃ W : ℝ → Matrix (Fin NC) (Fin NC) ℂ, IsInstanton y mu W) ∧
    ∀ W : ℝ → Matrix (Fin NC) (Fin NC) ℂ, IsInstanton y mu W →
      W 1 = NormedSpace.exp (I • (((angle √(dist2 y mu) √(dist2 y mu + 16) (dist2 y mu + y mu ^ 2 + y mu) : ℝ) : ℂ) •
        dotPauli NC (instB 1 y mu))) := by
  set s0 := √(dist2 y mu) with hs0
  set s1 := √(dist2 y mu + 16) with hs1
  have h0 : 0 < s0 := Real.sqrt_pos.2 hpos
  have h1 : 0 < s1 := Real.sqrt_pos.2 (by linarith)
  have q0 : s0 ^ 2 = dist2 y mu := Real.sq_sqrt hpos.le
  have q1 : s1 ^ 2 = dist2 y mu + 16 := Real.sq_sqrt (by linarith)
  obtain ⟨hX, -, h3, -⟩ := dotPauli_facts hN (instB 1 y mu)
  rw [instB_sq y hmu, ← q0] at h3
  push_cast at h3
  let F : ℝ → ℝ := fun t => (Real.arctan ((y mu + t) / s0) - Real.arctan (y mu / s0)) / s0 -
    (Real.arctan ((y mu + t) / s1) - Real.arctan (y mu / s1)) / s1
  have hF : ∀ t, HasDerivAt F (16 / ((dist2 y mu + (y mu + t) ^ 2) * (dist2 y mu + (y mu + t) ^ 2 + 16))) t := by
    intro t
    have e : ∀ s : ℝ, HasDerivAt (fun t : ℝ => (Real.arctan ((y mu + t) / s) - Real.arctan (y mu / s)) / s)
        (1 / (1 + ((y mu + t) / s) ^ 2) * (1 / s) / s) t := fun s =>
      (((((hasDerivAt_id t).const_add (y mu)).div_const s).arctan).sub_const _).div_const s
    refine ((e s0).sub (e s1)).congr_deriv ?_
    have p0 : 0 < dist2 y mu + (y mu + t) ^ 2 := by positivity
    have a0 : 1 / (1 + ((y mu + t) / s0) ^ 2) * (1 / s0) / s0 = 1 / (dist2 y mu + (y mu + t) ^ 2) := by
      rw [← q0]; field_simp
    have a1 : 1 / (1 + ((y mu + t) / s1) ^ 2) * (1 / s1) / s1 = 1 / (dist2 y mu + (y mu + t) ^ 2 + 16) := by
      have : dist2 y mu + (y mu + t) ^ 2 + 16 = s1 ^ 2 + (y mu + t) ^ 2 := by rw [q1]; ring
      rw [this]; field_simp
    rw [a0, a1]
    field_simp
    ring
  have hF0 : F 0 = 0 := by simp [F]
  have hF1 : F 1 = angle s0 s1 (dist2 y mu + y mu ^ 2 + y mu) := by
    unfold angle
    have b1 : dist2 y mu + y mu ^ 2 + y mu + 16 = s1 ^ 2 + y mu ^ 2 + y mu := by rw [q1]; ring
    rw [b1, ← q0, atan2_sub h0, atan2_sub h1]
  have key := fun W => transport_eq hX h0 h3 hF hF0 (fun t => bpst_line NC y hmu t) W
  refine ⟨⟨_, (key _).2 fun _ => rfl⟩, fun W hW => ?_⟩
  rw [(key W).1 hW 1, hF1]

/-! ### The links -/

theorem get_inRange {L : Latt} (hL : Valid L) (h4 : L.ND = 4) {x : ℕ → ℤ} (hx : InRange L x) :
    ∃ x', get_mom_2piBZ L (gen_site L x) 4 = some x' ∧ ∀ nu < 4, x' nu = x nu := by
  refine ⟨_, if_pos ?_, fun nu hnu => ?_⟩
  · intro mu hmu _
    exact ⟨hL.pos mu hmu, by rw [subvol_eq L _ _ (by omega)]; exact hL.radix_lt hmu.le⟩
  · have := coord_gen_site hL hx (by omega : nu < L.ND)
    rw [h4] at this
    exact this

theorem position_half (L : Latt) (x : ℕ → ℤ) (nu : ℕ) : 0 < position L x nu ^ 2 := by
  have : position L x nu ≠ 0 := by
    unfold position
    intro h
    generalize L.dims nu / 2 = n at h
    have h' : ((2 * x nu + 1 : ℤ) : ℝ) = ((2 * (n : ℤ) : ℤ) : ℝ) := by push_cast; linarith
    have := Int.cast_injective h'
    omega
  positivity

theorem dist2_pos (L : Latt) (x : ℕ → ℤ) {mu : ℕ} (hmu : mu < 4) : 0 < dist2 (position L x) mu := by
  unfold dist2
  refine sum_pos (fun nu _ => position_half L x nu) ?_
  rcases Nat.eq_zero_or_pos mu with rfl | h
  · exact ⟨1, by simp⟩
  · exact ⟨0, by simp; omega⟩

theorem exponentiate_close {NC : ℕ} (hN : NC = 2 ∨ NC = 3) {Q : Arr ℂ} (hQ : HermTraceless NC Q) (g : Arr ℂ) :
    ∃ U, exponentiate NC Q g = some U ∧ ∀ a b, ‖toM NC U a b - NormedSpace.exp (I • toM NC Q) a b‖ ≤ 2 / 10 ^ 9 := by
  rcases hN with rfl | rfl
  · obtain ⟨U, h1, h2, -⟩ := C20_two_partial hQ g
    exact ⟨U, h1, h2⟩
  · obtain ⟨U, h1, h2, -⟩ := C20_three_partial hQ g
    exact ⟨U, h1, fun a b => (h2 a b).trans (by norm_num)⟩

/-- What a link is. -/
theorem link_eq {NC : ℕ} (hN : NC = 2 ∨ NC = 3) {L : Latt} (hL : Valid L) (h4 : L.ND = 4) {x : ℕ → ℤ} (hx : InRange L x)
    {mu : ℕ} (hmu : mu < 4) (lat : Gauge) :
    let y := position L x
    ∃ U, (instanton_config NC L lat).2 (gen_site L x, mu) = some U ∧
      ∀ a b, ‖toM NC U a b - NormedSpace.exp (I • (((angle √(dist2 y mu) √(dist2 y mu + 16)
        (∑ nu ∈ range 4, (y nu ^ 2 + y nu)) : ℝ) : ℂ) • dotPauli NC (instB 1 y mu))) a b‖ ≤ 2 / 10 ^ 9 := by
  intro y
  obtain ⟨x', hx', hxx⟩ := get_inRange hL h4 hx
  have hy : ∀ nu < 4, instY L x' nu = y nu := by
    intro nu hnu
    unfold instY
    rw [hxx nu hnu]
    show _ = position L x nu
    unfold position
    norm_num
    ring
  have hd : dist2 (instY L x') mu = dist2 y mu := sum_congr rfl fun nu hnu => by
    rw [hy nu (mem_range.1 (mem_of_mem_erase hnu))]
  have hsum : ∑ nu ∈ range 4, (instY L x' nu ^ 2 + instY L x' nu) = ∑ nu ∈ range 4, (y nu ^ 2 + y nu) :=
    sum_congr rfl fun nu hnu => by rw [hy nu (mem_range.1 hnu)]
  have hB : instB 1 (instY L x') mu = instB 1 y mu := by
    funext j
    unfold instB
    rw [hy 0 (by norm_num), hy 1 (by norm_num), hy 2 (by norm_num), hy 3 (by norm_num)]
  obtain ⟨Q, hQ, hQ'⟩ := instQ_eq hN (instY L x') hmu (by rw [hd]; exact dist2_pos L x hmu)
  rw [hd, hsum, hB] at hQ'
  obtain ⟨hX, hT, -, -⟩ := dotPauli_facts hN (instB 1 y mu)
  have hH : HermTraceless NC Q := by
    constructor
    · rw [hQ', IsHermitian, conjTranspose_smul, hX]
      simp
    · rw [hQ', Matrix.trace_smul, hT, smul_zero]
  obtain ⟨U, hU, hU'⟩ := exponentiate_close hN hH (lat (gen_site L x, mu))
  refine ⟨U, ?_, ?_⟩
  · unfold instanton_config
    rw [if_neg (by simpa using h4)]
    dsimp only
    rw [if_pos ⟨gen_site_lt hL hx, by omega⟩]
    unfold instLink
    rw [hx', Option.bind_some, hQ, Option.bind_some, hU]
  · rw [hQ'] at hU'
    exact hU'

/-! ### The properties -/

/-- C105: in four dimensions every link is set, whatever the array held, and is a special unitary matrix up to the error
of `exponentiate`. -/
theorem C105_links_partial {NC : ℕ} (hN : NC = 2 ∨ NC = 3) {L : Latt} (hL : Valid L) (h4 : L.ND = 4) (lat : Gauge)
    {i mu : ℕ} (hi : i < volume L) (hmu : mu < 4) :
    (readInstanton NC L lat).1 = 0 ∧ ∃ U, (readInstanton NC L lat).2 (i, mu) = some U ∧
      ∃ V ∈ specialUnitaryGroup (Fin NC) ℂ, ∀ a b, ‖toM NC U a b - V a b‖ ≤ 2 / 10 ^ 9 := by
  refine ⟨rfl, ?_⟩
  obtain ⟨x, -, hx, rfl⟩ := C01_index_coords_index hL hi
  obtain ⟨U, hU, hU'⟩ := link_eq hN hL h4 hx hmu lat
  obtain ⟨hX, hT, -, -⟩ := dotPauli_facts hN (instB 1 (position L x) mu)
  refine ⟨U, hU, _, exp_su ?_ ?_, hU'⟩
  · rw [IsHermitian, conjTranspose_smul, hX]
    simp
  · rw [Matrix.trace_smul, hT, smul_zero]

theorem trace_exp {NC : ℕ} (hN : NC = 2 ∨ NC = 3) (y : ℕ → ℝ) {mu : ℕ} (hmu : mu < 4) (hpos : 0 < dist2 y mu) (c : ℝ) :
    Matrix.trace (NormedSpace.exp (I • ((c : ℂ) • dotPauli NC (instB 1 y mu)))) =
      ((NC + 2 * (Real.cos (c * √(dist2 y mu)) - 1) : ℝ) : ℂ) := by
  have h0 : 0 < √(dist2 y mu) := Real.sqrt_pos.2 hpos
  have q0 : √(dist2 y mu) ^ 2 = dist2 y mu := Real.sq_sqrt hpos.le
  obtain ⟨hX, hT, h3, h2⟩ := dotPauli_facts hN (instB 1 y mu)
  rw [instB_sq y hmu, ← q0] at h3 h2
  push_cast at h3
  rw [exp_cubic hX h0 h3, Matrix.trace_add, Matrix.trace_add, Matrix.trace_smul, Matrix.trace_smul, Matrix.trace_smul, hT, h2,
    Matrix.trace_one, Fintype.card_fin]
  have : (√(dist2 y mu) : ℂ) ≠ 0 := by exact_mod_cast h0.ne'
  simp only [smul_eq_mul]
  push_cast
  field_simp
  ring

/-- C105: for any position off the line of the link, `exp( i Q )` with the matrix `Q` that is exponentiated is the
parallel transporter of the instanton in the singular gauge exactly when the components of the position across the link
add up to zero. -/
theorem C105_where {NC : ℕ} (hN : NC = 2 ∨ NC = 3) (y : ℕ → ℝ) {mu : ℕ} (hmu : mu < 4) (hoff : ∃ nu < 4, nu ≠ mu ∧ y nu ≠ 0)
    {W : ℝ → Matrix (Fin NC) (Fin NC) ℂ} (hW : IsInstanton y mu W) :
    ∃ Q, instQ NC 4 1 y mu = some Q ∧ (NormedSpace.exp (I • toM NC Q) = W 1 ↔ across y mu = 0) := by
  have hpos : 0 < dist2 y mu := by
    obtain ⟨nu, hnu, hne, h0⟩ := hoff
    exact sum_pos' (fun _ _ => sq_nonneg _) ⟨nu, mem_erase.2 ⟨hne, mem_range.2 hnu⟩, by positivity⟩
  obtain ⟨Q, hQ, hQ'⟩ := instQ_eq hN y hmu hpos
  refine ⟨Q, hQ, ?_⟩
  rw [hQ', (transporter_eq hN y hmu hpos).2 W hW]
  have h0 : 0 < √(dist2 y mu) := Real.sqrt_pos.2 hpos
  have h1 : 0 < √(dist2 y mu + 16) := Real.sqrt_pos.2 (by linarith)
  have hq : √(dist2 y mu + 16) ^ 2 = √(dist2 y mu) ^ 2 + 16 := by
    rw [Real.sq_sqrt hpos.le, Real.sq_sqrt (by linarith)]
  have hs : ∑ nu ∈ range 4, (y nu ^ 2 + y nu) = dist2 y mu + y mu ^ 2 + y mu + across y mu := by
    unfold across dist2
    rw [sum_erase4 _ hmu, sum_erase4 _ hmu]
    simp only [sum_range_succ, range_zero, sum_empty, zero_add]
    ring
  have g1 : -1 ≤ ∑ nu ∈ range 4, (y nu ^ 2 + y nu) := by
    simp only [sum_range_succ, range_zero, sum_empty, zero_add]
    nlinarith [sq_nonneg (y 0 + 1 / 2), sq_nonneg (y 1 + 1 / 2), sq_nonneg (y 2 + 1 / 2), sq_nonneg (y 3 + 1 / 2)]
  have g2 : -1 ≤ dist2 y mu + y mu ^ 2 + y mu := by nlinarith [sq_nonneg (y mu + 1 / 2)]
  constructor
  · intro h
    have ht := congrArg Matrix.trace h
    rw [trace_exp hN y hmu hpos, trace_exp hN y hmu hpos] at ht
    have ht := ofReal_injective ht
    have hc : Real.cos (√(dist2 y mu) * angle √(dist2 y mu) √(dist2 y mu + 16) (∑ nu ∈ range 4, (y nu ^ 2 + y nu))) =
        Real.cos (√(dist2 y mu) * angle √(dist2 y mu) √(dist2 y mu + 16) (dist2 y mu + y mu ^ 2 + y mu)) := by
      rw [mul_comm, mul_comm (√(dist2 y mu))]
      linarith
    have hinj := Real.injOn_cos ⟨(mul_pos h0 (angle_pos h0 h1 hq g1)).le, (angle_lt h0 h1 _).le⟩
      ⟨(mul_pos h0 (angle_pos h0 h1 hq g2)).le, (angle_lt h0 h1 _).le⟩ hc
    have := (angle_anti h0 h1 hq).injOn (Set.mem_Ici.2 g1) (Set.mem_Ici.2 g2) (mul_left_cancel₀ h0.ne' hinj)
    linarith
  · intro h
    rw [hs, h, add_zero]

/-- Both cases of `C105_where` occur. -/
example : ∃ y : ℕ → ℝ, (∃ nu < 4, nu ≠ 0 ∧ y nu ≠ 0) ∧ across y 0 = 0 ∧ across y 1 ≠ 0 ∧
    ∃ W : ℝ → Matrix (Fin 3) (Fin 3) ℂ, IsInstanton y 0 W := by
  refine ⟨fun nu => if nu = 1 then 1 else if nu = 2 then -1 else 0, ⟨1, by norm_num, by norm_num, by norm_num⟩, ?_, ?_,
    (transporter_eq (Or.inr rfl) _ (by norm_num) ?_).1⟩
  · unfold across
    rw [sum_erase4 _ (by norm_num)]
    norm_num
  · unfold across
    rw [sum_erase4 _ (by norm_num)]
    norm_num
  · unfold dist2
    rw [sum_erase4 _ (by norm_num)]
    norm_num

/-- C105: the centre is half a lattice spacing off the sites in every direction, so that this never happens: there is no
link on any lattice for which the matrix that is exponentiated is that of the transporter. -/
theorem C105_nowhere {NC : ℕ} (hN : NC = 2 ∨ NC = 3) (L : Latt) (x : ℕ → ℤ) {mu : ℕ} (hmu : mu < 4) :
    (∃ W : ℝ → Matrix (Fin NC) (Fin NC) ℂ, IsInstanton (position L x) mu W) ∧
    ∀ W : ℝ → Matrix (Fin NC) (Fin NC) ℂ, IsInstanton (position L x) mu W →
      ∃ Q, instQ NC 4 1 (position L x) mu = some Q ∧ NormedSpace.exp (I • toM NC Q) ≠ W 1 := by
  refine ⟨(transporter_eq hN (position L x) hmu (dist2_pos L x hmu)).1, fun W hW => ?_⟩
  have hne : ∀ nu, position L x nu ≠ 0 := fun nu h => by have := position_half L x nu; rw [h] at this; norm_num at this
  obtain ⟨Q, hQ, h⟩ := C105_where hN (position L x) hmu (by
    rcases Nat.eq_zero_or_pos mu with rfl | h
    · exact ⟨1, by norm_num, by norm_num, hne 1⟩
    · exact ⟨0, by norm_num, by omega, hne 0⟩) hW
  refine ⟨Q, hQ, fun he => ?_⟩
  have h0 := h.1 he
  have hint : ∃ k : ℤ, across (position L x) mu = k + 3 / 2 := by
    refine ⟨∑ nu ∈ (range 4).erase mu, (x nu - ((L.dims nu / 2 : ℕ) : ℤ)), ?_⟩
    unfold across position
    have hc : ((range 4).erase mu).card = 3 := by rw [card_erase_of_mem (mem_range.2 hmu), card_range]
    rw [sum_add_distrib, sum_const, hc, Int.cast_sum]
    congr 1
    · exact sum_congr rfl fun nu _ => by rw [Int.cast_sub, Int.cast_natCast]
    · norm_num
  obtain ⟨k, hk⟩ := hint
  rw [h0] at hk
  have h' : ((2 * k + 3 : ℤ) : ℝ) = ((0 : ℤ) : ℝ) := by push_cast; linarith
  have := Int.cast_injective h'
  omega

/-- C105: what a user relies on fails.  On every lattice with extents of at least two, next to the centre of the instanton
all four links are far away from the transporters. -/
theorem C105_fails {NC : ℕ} (hN : NC = 2 ∨ NC = 3) {L : Latt} (hL : Valid L) (h4 : L.ND = 4) (hd : ∀ nu < 4, 2 ≤ L.dims nu)
    (lat : Gauge) :
    let x : ℕ → ℤ := fun nu => (L.dims nu / 2 : ℕ) - 1
    InRange L x ∧ ∀ mu < 4, ∃ U, (readInstanton NC L lat).2 (gen_site L x, mu) = some U ∧
      (∃ W : ℝ → Matrix (Fin NC) (Fin NC) ℂ, IsInstanton (position L x) mu W) ∧
      ∀ W, IsInstanton (position L x) mu W → ∃ a, 1 / 4 < ‖toM NC U a a - W 1 a a‖ := by
  intro x
  have hx : InRange L x := by
    intro nu hnu
    have := hd nu (by omega)
    show 0 ≤ ((L.dims nu / 2 : ℕ) : ℤ) - 1 ∧ ((L.dims nu / 2 : ℕ) : ℤ) - 1 < L.dims nu
    omega
  refine ⟨hx, fun mu hmu => ?_⟩
  obtain ⟨U, hU, hU'⟩ := link_eq hN hL h4 hx hmu lat
  obtain ⟨hex, hW⟩ := transporter_eq hN (position L x) hmu (dist2_pos L x hmu)
  refine ⟨U, hU, hex, fun W hW' => ?_⟩
  have hy : ∀ nu, position L x nu = -(1 / 2) := by
    intro nu
    show ((((L.dims nu / 2 : ℕ) : ℤ) - 1 : ℤ) : ℝ) - ((L.dims nu / 2 : ℕ) : ℝ) + 1 / 2 = _
    generalize L.dims nu / 2 = n
    push_cast
    ring
  have hdist : dist2 (position L x) mu = 3 / 4 := by
    unfold dist2
    rw [sum_erase4 _ hmu]
    simp only [hy]
    norm_num
  have hsum : ∑ nu ∈ range 4, (position L x nu ^ 2 + position L x nu) = -1 := by
    simp only [hy, sum_range_succ, range_zero, sum_empty, zero_add]
    norm_num
  have hpos := dist2_pos L x hmu
  have hex' : Matrix.trace (NormedSpace.exp (I • (((angle √(dist2 (position L x) mu) √(dist2 (position L x) mu + 16)
      (∑ nu ∈ range 4, (position L x nu ^ 2 + position L x nu)) : ℝ) : ℂ) • dotPauli NC (instB 1 (position L x) mu)))) = _ :=
    trace_exp hN (position L x) hmu hpos _
  have hexW := congrArg Matrix.trace (hW W hW')
  rw [trace_exp hN (position L x) hmu hpos] at hexW
  have hhalf : dist2 (position L x) mu + position L x mu ^ 2 + position L x mu = 1 / 2 := by
    rw [hdist, hy]
    norm_num
  rw [hhalf] at hexW
  rw [hsum] at hex' hU'
  rw [hdist] at hex' hexW hU'
  set s0 := √(3 / 4) with hs0
  set s1 := √(3 / 4 + 16) with hs1
  have h0 : 0 < s0 := Real.sqrt_pos.2 (by norm_num)
  have h1 : 0 < s1 := Real.sqrt_pos.2 (by norm_num)
  have q0 : s0 ^ 2 = 3 / 4 := Real.sq_sqrt (by norm_num)
  have q1 : s1 ^ 2 = 3 / 4 + 16 := Real.sq_sqrt (by norm_num)
  have hq : s1 ^ 2 = s0 ^ 2 + 16 := by rw [q0, q1]
  have hcosW : 1 / 2 ≤ Real.cos (angle s0 s1 (1 / 2) * s0) := by
    have hle : angle s0 s1 (1 / 2) * s0 ≤ atan2 s0 (1 / 2) := by
      unfold angle
      rw [sub_mul, div_mul_cancel₀ _ h0.ne']
      have := mul_pos (div_pos (atan2_range h1 (1 / 2 + 16)).1 h1) h0
      linarith
    have hc : Real.cos (atan2 s0 (1 / 2)) = 1 / 2 := by
      have hn : ‖(⟨1 / 2, s0⟩ : ℂ)‖ = 1 := by
        rw [Complex.norm_def, normSq_mk, Real.sqrt_eq_one]
        nlinarith
      unfold atan2
      rw [cos_arg (by rw [← norm_pos_iff, hn]; norm_num), hn]
      simp
    refine hc.ge.trans ?_
    exact Real.cos_le_cos_of_nonneg_of_le_pi (mul_pos (angle_pos h0 h1 hq (by norm_num)) h0).le (atan2_range h0 _).2.le hle
  have hcosU : Real.cos (angle s0 s1 (-1) * s0) ≤ 0 := by
    have hlt := angle_lt h0 h1 (-1)
    refine Real.cos_nonpos_of_pi_div_two_le_of_le ?_ (by linarith [Real.pi_pos])
    unfold angle
    rw [sub_mul, div_mul_cancel₀ _ h0.ne', atan2_arctan h0]
    have e1 : Real.pi / 4 ≤ Real.arctan (1 / s0) := by
      rw [← Real.arctan_one]
      refine Real.arctan_strictMono.monotone ?_
      rw [le_div_iff₀ h0]
      nlinarith
    have e2 : Real.arctan (-1 / s0) = -Real.arctan (1 / s0) := by rw [neg_div, Real.arctan_neg]
    have e3 : atan2 s1 (-1 + 16) / s1 * s0 ≤ Real.pi / 4 := by
      have a1 : atan2 s1 (-1 + 16) ≤ Real.pi := (atan2_range h1 _).2.le
      have a2 : s0 ≤ s1 / 4 := by nlinarith
      rw [div_mul_eq_mul_div, div_le_iff₀ h1]
      have a3 : atan2 s1 (-1 + 16) * s0 ≤ Real.pi * (s1 / 4) := mul_le_mul a1 a2 h0.le Real.pi_pos.le
      linarith
    rw [e2]
    linarith
  by_contra hcon
  push Not at hcon
  have hdiff : ‖∑ a, (toM NC U a a - W 1 a a) - ∑ a, (toM NC U a a -
      NormedSpace.exp (I • (((angle s0 s1 (-1) : ℝ) : ℂ) • dotPauli NC (instB 1 (position L x) mu))) a a)‖ ≤
      NC * (1 / 4) + NC * (2 / 10 ^ 9) := by
    refine (norm_sub_le _ _).trans (add_le_add ?_ ?_)
    · refine (norm_sum_le _ _).trans ((sum_le_sum fun a _ => hcon a).trans ?_)
      simp
    · refine (norm_sum_le _ _).trans ((sum_le_sum fun a _ => hU' a a).trans ?_)
      simp
  rw [← sum_sub_distrib] at hdiff
  simp only [sub_sub_sub_cancel_left] at hdiff
  rw [sum_sub_distrib] at hdiff
  change ‖Matrix.trace _ - Matrix.trace _‖ ≤ _ at hdiff
  rw [hex', hexW, ← ofReal_sub, norm_real, Real.norm_eq_abs] at hdiff
  have hNC : (NC : ℝ) ≤ 3 := by rcases hN with rfl | rfl <;> norm_num
  have := (abs_le.1 hdiff).1
  norm_num at this
  linarith

/-- The hypotheses are met on `4 x 4 x 6 x 8`. -/
example (lat : Gauge) : ∃ x, InRange L4468 x ∧ ∀ mu < 4, ∃ U, (readInstanton 3 L4468 lat).2 (gen_site L4468 x, mu) = some U := by
  obtain ⟨hx, h⟩ := C105_fails (Or.inr rfl) valid_L4468 rfl (by decide) lat
  exact ⟨_, hx, fun mu hmu => (h mu hmu).imp fun U hU => hU.1⟩

/-- C105: in another number of dimensions the routine fails, which is not noticed: success is reported for a field that
was never set. -/
theorem C105_unsupported (NC : ℕ) {L : Latt} (h4 : L.ND ≠ 4) (lat : Gauge) :
    (instanton_config NC L lat).1 = -1 ∧ (readInstanton NC L lat).1 = 0 ∧ ∀ l, (readInstanton NC L lat).2 l = some (lat l) := by
  unfold readInstanton instanton_config
  rw [if_pos h4]
  exact ⟨rfl, rfl, fun _ => rfl⟩

end GLU.Field
