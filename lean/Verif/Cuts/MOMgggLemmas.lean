import Verif.Cuts.MOMggg
import Verif.Cuts.MOMggLemmas
import Verif.Cuts.TripProps
import Mathlib.Tactic.LinearCombination

/-!
# Lemmas about the three-gluon vertex at the symmetric point
-/

namespace GLU.Cuts

open Complex GLU.Mat GLU.Geom GLU.Field Finset

/-- `p . q` -/
def dot (d : ℕ) (p q : ℕ → ℝ) : ℝ := ∑ mu ∈ range d, p mu * q mu

theorem sum2_mul (d : ℕ) (c : ℝ) (G : ℕ → ℕ → ℝ) :
    ∑ m ∈ range d, ∑ r ∈ range d, c * G m r = c * ∑ m ∈ range d, ∑ r ∈ range d, G m r := by
  simp only [mul_sum]

theorem sum2_add (d : ℕ) (F G : ℕ → ℕ → ℝ) : ∑ m ∈ range d, ∑ r ∈ range d, (F m r + G m r) =
    ∑ m ∈ range d, ∑ r ∈ range d, F m r + ∑ m ∈ range d, ∑ r ∈ range d, G m r := by
  simp only [sum_add_distrib]

theorem sum2_sub (d : ℕ) (F G : ℕ → ℕ → ℝ) : ∑ m ∈ range d, ∑ r ∈ range d, (F m r - G m r) =
    ∑ m ∈ range d, ∑ r ∈ range d, F m r - ∑ m ∈ range d, ∑ r ∈ range d, G m r := by
  simp only [sum_sub_distrib]

theorem contract12 (d : ℕ) (F : ℕ → ℕ → ℕ → ℝ) (V : ℕ → ℝ) :
    ∑ m ∈ range d, ∑ n ∈ range d, ∑ r ∈ range d, F m n r * (delta m n * V r) =
      ∑ m ∈ range d, ∑ r ∈ range d, F m m r * V r := by
  refine sum_congr rfl fun m hm => ?_
  rw [sum_eq_single m]
  · simp [delta]
  · intro n _ hn
    simp [delta, Ne.symm hn]
  · intro h; exact absurd hm h

theorem contract23 (d : ℕ) (F : ℕ → ℕ → ℕ → ℝ) (V : ℕ → ℝ) :
    ∑ m ∈ range d, ∑ n ∈ range d, ∑ r ∈ range d, F m n r * (delta n r * V m) =
      ∑ m ∈ range d, ∑ n ∈ range d, F m n n * V m := by
  refine sum_congr rfl fun m _ => sum_congr rfl fun n hn => ?_
  rw [sum_eq_single n]
  · simp [delta]
  · intro r _ hr
    simp [delta, Ne.symm hr]
  · intro h; exact absurd hn h

theorem contract31 (d : ℕ) (F : ℕ → ℕ → ℕ → ℝ) (V : ℕ → ℝ) :
    ∑ m ∈ range d, ∑ n ∈ range d, ∑ r ∈ range d, F m n r * (delta r m * V n) =
      ∑ m ∈ range d, ∑ n ∈ range d, F m n m * V n := by
  refine sum_congr rfl fun m hm => sum_congr rfl fun n _ => ?_
  rw [sum_eq_single m]
  · simp [delta]
  · intro r _ hr
    simp [delta, hr]
  · intro h; exact absurd hm h

theorem sum_free (d : ℕ) (X V : ℕ → ℝ) : ∑ _m ∈ range d, ∑ r ∈ range d, X r * V r = d * dot d X V := by
  simp [dot]

theorem sum_free' (d : ℕ) (X V : ℕ → ℝ) : ∑ m ∈ range d, ∑ _r ∈ range d, X m * V m = d * dot d X V := by
  simp [dot, mul_sum]

theorem sum_delta (d : ℕ) (G : ℕ → ℕ → ℝ) :
    ∑ m ∈ range d, ∑ r ∈ range d, delta m r * G m r = ∑ m ∈ range d, G m m := by
  refine sum_congr rfl fun m hm => ?_
  rw [sum_eq_single m]
  · simp [delta]
  · intro r _ hr
    simp [delta, Ne.symm hr]
  · intro h; exact absurd hm h

theorem sum_cubic (d : ℕ) (u v w V : ℕ → ℝ) :
    ∑ m ∈ range d, ∑ r ∈ range d, (u m * v m) * (w r * V r) = dot d u v * dot d w V := by
  unfold dot
  rw [sum_mul_sum]

theorem delta_comm (m n : ℕ) : delta m n = delta n m := by
  unfold delta; simp only [eq_comm]

theorem delta_self (m : ℕ) : delta m m = 1 := by simp [delta]

/-- The projector as a combination of its three kinds of terms. -/
theorem gracey_eq (d : ℕ) (tol : ℝ) (p q : ℕ → ℝ) (htol : tol ≤ dot d p p) (m n r : ℕ) :
    get_proj_gracey d tol p q m n r = 3 / 2 * (1 / (27 * ((d : ℝ) - 2))) *
      (delta m n * (2 * q r - 2 * p r) + delta n r * (-5 * p m - 4 * q m) + delta r m * (4 * p n + 5 * q n)
        + 1 / dot d p p * (4 * p m * p n * p r - 2 * p m * p n * q r - 2 * p m * q n * p r + 4 * q m * p n * p r
          + 2 * p m * q n * q r - 4 * q m * p n * q r + 2 * q m * q n * p r - 4 * q m * q n * q r)) := by
  unfold get_proj_gracey
  dsimp only
  unfold dot at *
  rw [acc_eq, if_neg (not_lt.2 htol)]
  ring

section
variable {d : ℕ} {tol : ℝ} {p q : ℕ → ℝ} (V : ℕ → ℝ)

/-- The partial contraction over the first two indices. -/
theorem gracey12 (htol : tol ≤ dot d p p) :
    ∑ m ∈ range d, ∑ n ∈ range d, ∑ r ∈ range d, get_proj_gracey d tol p q m n r * (delta m n * V r) =
      3 / 2 * (1 / (27 * ((d : ℝ) - 2))) * (d * (2 * dot d q V - 2 * dot d p V) + (-5 * dot d p V - 4 * dot d q V)
        + (4 * dot d p V + 5 * dot d q V) + 1 / dot d p p * (dot d p p * (4 * dot d p V - 2 * dot d q V)
          + dot d p q * (-2 * dot d p V + 4 * dot d p V + 2 * dot d q V - 4 * dot d q V)
          + dot d q q * (2 * dot d p V - 4 * dot d q V))) := by
  rw [contract12]
  have h : ∀ m r, get_proj_gracey d tol p q m m r * V r = 3 / 2 * (1 / (27 * ((d : ℝ) - 2))) *
      (2 * (q r * V r) - 2 * (p r * V r) + (delta m r * (-5 * (p m * V r) - 4 * (q m * V r)))
        + (delta m r * (4 * (p m * V r) + 5 * (q m * V r)))
        + 1 / dot d p p * (4 * ((p m * p m) * (p r * V r)) - 2 * ((p m * p m) * (q r * V r))
          + 2 * ((p m * q m) * (p r * V r)) - 2 * ((p m * q m) * (q r * V r))
          + 2 * ((q m * q m) * (p r * V r)) - 4 * ((q m * q m) * (q r * V r)))) := by
    intro m r
    rw [gracey_eq d tol p q htol, delta_self, delta_comm r m]
    ring
  simp only [h, sum2_mul, sum2_add, sum2_sub, sum_free, sum_cubic, sum_delta]
  simp only [dot, sum_add_distrib, sum_sub_distrib, ← mul_sum]
  ring

theorem gracey23 (htol : tol ≤ dot d p p) :
    ∑ m ∈ range d, ∑ n ∈ range d, ∑ r ∈ range d, get_proj_gracey d tol p q m n r * (delta n r * V m) =
      3 / 2 * (1 / (27 * ((d : ℝ) - 2))) * (d * (-5 * dot d p V - 4 * dot d q V) + (2 * dot d q V - 2 * dot d p V)
        + (4 * dot d p V + 5 * dot d q V) + 1 / dot d p p * (dot d p p * (4 * dot d p V + 4 * dot d q V)
          + dot d p q * (-2 * dot d p V - 2 * dot d p V - 4 * dot d q V + 2 * dot d q V)
          + dot d q q * (2 * dot d p V - 4 * dot d q V))) := by
  rw [contract23]
  have h : ∀ m n, get_proj_gracey d tol p q m n n * V m = 3 / 2 * (1 / (27 * ((d : ℝ) - 2))) *
      (-5 * (p m * V m) - 4 * (q m * V m) + (delta m n * (2 * (q n * V m) - 2 * (p n * V m)))
        + (delta m n * (4 * (p n * V m) + 5 * (q n * V m)))
        + 1 / dot d p p * (4 * ((p m * V m) * (p n * p n)) + 4 * ((q m * V m) * (p n * p n))
          - 4 * ((p m * V m) * (p n * q n)) - 2 * ((q m * V m) * (p n * q n))
          + 2 * ((p m * V m) * (q n * q n)) - 4 * ((q m * V m) * (q n * q n)))) := by
    intro m n
    rw [gracey_eq d tol p q htol, delta_self, delta_comm n m]
    ring
  simp only [h, sum2_mul, sum2_add, sum2_sub, sum_free', sum_cubic, sum_delta]
  simp only [dot, sum_add_distrib, sum_sub_distrib, ← mul_sum]
  ring

theorem gracey31 (htol : tol ≤ dot d p p) :
    ∑ m ∈ range d, ∑ n ∈ range d, ∑ r ∈ range d, get_proj_gracey d tol p q m n r * (delta r m * V n) =
      3 / 2 * (1 / (27 * ((d : ℝ) - 2))) * (d * (4 * dot d p V + 5 * dot d q V) + (2 * dot d q V - 2 * dot d p V)
        + (-5 * dot d p V - 4 * dot d q V) + 1 / dot d p p * (dot d p p * (4 * dot d p V - 2 * dot d q V)
          + dot d p q * (-2 * dot d p V + 4 * dot d p V + 2 * dot d q V + 2 * dot d q V)
          + dot d q q * (-4 * dot d p V - 4 * dot d q V))) := by
  rw [contract31]
  have h : ∀ m n, get_proj_gracey d tol p q m n m * V n = 3 / 2 * (1 / (27 * ((d : ℝ) - 2))) *
      (4 * (p n * V n) + 5 * (q n * V n) + (delta m n * (2 * (q m * V n) - 2 * (p m * V n)))
        + (delta m n * (-5 * (p m * V n) - 4 * (q m * V n)))
        + 1 / dot d p p * (4 * ((p m * p m) * (p n * V n)) - 2 * ((p m * p m) * (q n * V n))
          + 2 * ((p m * q m) * (p n * V n)) + 4 * ((p m * q m) * (q n * V n))
          - 4 * ((q m * q m) * (p n * V n)) - 4 * ((q m * q m) * (q n * V n)))) := by
    intro m n
    rw [gracey_eq d tol p q htol, delta_self, delta_comm n m]
    ring
  simp only [h, sum2_mul, sum2_add, sum2_sub, sum_free, sum_cubic, sum_delta]
  simp only [dot, sum_add_distrib, sum_sub_distrib, ← mul_sum]
  ring

theorem sum3_cubic (d : ℕ) (a b c : ℕ → ℝ) : ∑ m ∈ range d, ∑ n ∈ range d, ∑ r ∈ range d, a m * b n * c r =
    (∑ m ∈ range d, a m) * (∑ n ∈ range d, b n) * ∑ r ∈ range d, c r := by
  rw [sum_mul_sum, sum_mul]
  refine sum_congr rfl fun m _ => ?_
  rw [sum_mul]
  refine sum_congr rfl fun n _ => ?_
  rw [mul_sum]

theorem sum3_mul (d : ℕ) (c : ℝ) (G : ℕ → ℕ → ℕ → ℝ) :
    ∑ m ∈ range d, ∑ n ∈ range d, ∑ r ∈ range d, c * G m n r =
      c * ∑ m ∈ range d, ∑ n ∈ range d, ∑ r ∈ range d, G m n r := by
  simp only [mul_sum]

theorem sum3_add (d : ℕ) (F G : ℕ → ℕ → ℕ → ℝ) :
    ∑ m ∈ range d, ∑ n ∈ range d, ∑ r ∈ range d, (F m n r + G m n r) =
      ∑ m ∈ range d, ∑ n ∈ range d, ∑ r ∈ range d, F m n r + ∑ m ∈ range d, ∑ n ∈ range d, ∑ r ∈ range d, G m n r := by
  simp only [sum_add_distrib]

theorem sum3_sub (d : ℕ) (F G : ℕ → ℕ → ℕ → ℝ) :
    ∑ m ∈ range d, ∑ n ∈ range d, ∑ r ∈ range d, (F m n r - G m n r) =
      ∑ m ∈ range d, ∑ n ∈ range d, ∑ r ∈ range d, F m n r - ∑ m ∈ range d, ∑ n ∈ range d, ∑ r ∈ range d, G m n r := by
  simp only [sum_sub_distrib]

/-- The contraction with three vectors. -/
theorem gracey_cubic (htol : tol ≤ dot d p p) (u v w : ℕ → ℝ) :
    ∑ m ∈ range d, ∑ n ∈ range d, ∑ r ∈ range d, get_proj_gracey d tol p q m n r * (u m * v n * w r) =
      3 / 2 * (1 / (27 * ((d : ℝ) - 2))) * (dot d u v * (2 * dot d q w - 2 * dot d p w)
        + dot d v w * (-5 * dot d p u - 4 * dot d q u) + dot d u w * (4 * dot d p v + 5 * dot d q v)
        + 1 / dot d p p * (4 * (dot d p u * dot d p v * dot d p w) - 2 * (dot d p u * dot d p v * dot d q w)
          - 2 * (dot d p u * dot d q v * dot d p w) + 4 * (dot d q u * dot d p v * dot d p w)
          + 2 * (dot d p u * dot d q v * dot d q w) - 4 * (dot d q u * dot d p v * dot d q w)
          + 2 * (dot d q u * dot d q v * dot d p w) - 4 * (dot d q u * dot d q v * dot d q w))) := by
  have h : ∀ m n r, get_proj_gracey d tol p q m n r * (u m * v n * w r) = 3 / 2 * (1 / (27 * ((d : ℝ) - 2))) *
      ((u m * v n) * (delta m n * (2 * (q r * w r) - 2 * (p r * w r)))
        + (v n * w r) * (delta n r * (-5 * (p m * u m) - 4 * (q m * u m)))
        + (u m * w r) * (delta r m * (4 * (p n * v n) + 5 * (q n * v n)))
        + 1 / dot d p p * (4 * ((p m * u m) * (p n * v n) * (p r * w r)) - 2 * ((p m * u m) * (p n * v n) * (q r * w r))
          - 2 * ((p m * u m) * (q n * v n) * (p r * w r)) + 4 * ((q m * u m) * (p n * v n) * (p r * w r))
          + 2 * ((p m * u m) * (q n * v n) * (q r * w r)) - 4 * ((q m * u m) * (p n * v n) * (q r * w r))
          + 2 * ((q m * u m) * (q n * v n) * (p r * w r)) - 4 * ((q m * u m) * (q n * v n) * (q r * w r)))) := by
    intro m n r
    rw [gracey_eq d tol p q htol]
    ring
  simp only [h, sum3_mul, sum3_add, sum3_sub, sum3_cubic]
  rw [contract12 d (fun m n _ => u m * v n) fun r => 2 * (q r * w r) - 2 * (p r * w r),
    contract23 d (fun _ n r => v n * w r) fun m => -5 * (p m * u m) - 4 * (q m * u m),
    contract31 d (fun m _ r => u m * w r) fun n => 4 * (p n * v n) + 5 * (q n * v n)]
  have e2 : ∑ m ∈ range d, ∑ n ∈ range d, v n * w n * (-5 * (p m * u m) - 4 * (q m * u m)) =
      dot d v w * (-5 * dot d p u - 4 * dot d q u) := by
    rw [sum_comm]
    simp only [dot, ← sum_mul, ← mul_sum, sum_sub_distrib]
  rw [e2]
  congr 4
  · simp only [dot, ← sum_mul, ← mul_sum, sum_sub_distrib]
  · simp only [dot, ← sum_mul, ← mul_sum, sum_add_distrib]

end

/-- A loop over `a b` values is a double loop. -/
theorem sum_range_mul (a b : ℕ) (f : ℕ → ℝ) :
    ∑ z ∈ range (a * b), f z = ∑ i ∈ range a, ∑ j ∈ range b, f (j + b * i) := by
  induction a with
  | zero => simp
  | succ a ih =>
    rw [Nat.succ_mul, sum_range_add, ih, sum_range_succ]
    congr 1
    exact sum_congr rfl fun j _ => by rw [mul_comm a b, add_comm]

theorem sum_range_cube (d : ℕ) (f : ℕ → ℝ) : ∑ z ∈ range (d * d * d), f z =
    ∑ mu ∈ range d, ∑ nu ∈ range d, ∑ rho ∈ range d, f (rho + d * (nu + d * mu)) := by
  rw [sum_range_mul, sum_range_mul]

theorem decode {d mu nu rho : ℕ} (hmu : mu < d) (hnu : nu < d) (hrho : rho < d) :
    let z := rho + d * (nu + d * mu)
    z % d = rho ∧ z / d % d = nu ∧ z / (d * d) % d = mu ∧ (z - z % d) / d % d = nu ∧
      (z - z % (d * d)) / (d * d) % d = mu := by
  intro z
  have hd : 0 < d := by omega
  have h1 : z % d = rho := by
    rw [Nat.add_mul_mod_self_left, Nat.mod_eq_of_lt hrho]
  have h2 : z / d = nu + d * mu := by
    rw [Nat.add_mul_div_left _ _ hd, Nat.div_eq_of_lt hrho, Nat.zero_add]
  have h3 : z / (d * d) = mu := by
    rw [← Nat.div_div_eq_div_mul, h2, Nat.add_mul_div_left _ _ hd, Nat.div_eq_of_lt hnu, Nat.zero_add]
  have h4 : (z - z % d) / d = z / d := by
    rw [← Nat.mul_div_cancel_left (z / d) hd]
    congr 1
    have := Nat.mod_add_div z d
    omega
  have h5 : (z - z % (d * d)) / (d * d) = z / (d * d) := by
    rw [← Nat.mul_div_cancel_left (z / (d * d)) (Nat.mul_pos hd hd)]
    congr 1
    have := Nat.mod_add_div z (d * d)
    omega
  refine ⟨h1, ?_, ?_, ?_, ?_⟩
  · rw [h2, Nat.add_mul_mod_self_left, Nat.mod_eq_of_lt hnu]
  · rw [h3, Nat.mod_eq_of_lt hmu]
  · rw [h4, h2, Nat.add_mul_mod_self_left, Nat.mod_eq_of_lt hnu]
  · rw [h5, h3, Nat.mod_eq_of_lt hmu]

/-- The part of a number that is above the tolerance. -/
noncomputable def above (tol x : ℝ) : ℝ := open Classical in if tol < |x| then x else 0

/-- The two- and three-point functions of a triplet of momenta. -/
noncomputable def vertexSpec {N : ℕ} (tol : ℝ) (sinMom : Bool) (L : Latt) (sign : ℝ)
    (A : ℕ → ℕ → Matrix (Fin N) (Fin N) ℂ) (psq : ℝ) (n0 n1 n2 : ℕ → ℤ) : ℝ × ℝ :=
  (2 / (3 * ((N : ℝ) ^ 2 - 1) * ((L.ND : ℝ) - 1) * volume L) * ∑ mu ∈ range L.ND,
      (corr (fieldFT L sign A n0) mu mu + corr (fieldFT L sign A n1) mu mu + corr (fieldFT L sign A n2) mu mu),
    -(4 / (volume L * N * ((N : ℝ) ^ 2 - 1))) / psq * ∑ mu ∈ range L.ND, ∑ nu ∈ range L.ND, ∑ rho ∈ range L.ND,
      above tol (get_proj_gracey L.ND tol (projector_mom sinMom L n0) (projector_mom sinMom L n1) mu nu rho) *
        (Matrix.trace (fieldFT L sign A n0 mu * fieldFT L sign A n1 nu * fieldFT L sign A n2 rho)).re)

theorem vertexEntry_eq {NC : ℕ} (tol : ℝ) (sinMom : Bool) (L : Latt) (sign : ℝ) (B : Gauge)
    (A : ℕ → ℕ → Matrix (Fin NC) (Fin NC) ℂ) (psq : ℝ) (v : Vec × Vec × Vec)
    (h0 : ∀ mu < L.ND, toM NC (B (v.1.idx, mu)) = fieldFT L sign A v.1.MOM mu)
    (h1 : ∀ mu < L.ND, toM NC (B (v.2.1.idx, mu)) = fieldFT L sign A v.2.1.MOM mu)
    (h2 : ∀ mu < L.ND, toM NC (B (v.2.2.idx, mu)) = fieldFT L sign A v.2.2.MOM mu) :
    vertexEntry NC tol sinMom L B psq v = vertexSpec tol sinMom L sign A psq v.1.MOM v.2.1.MOM v.2.2.MOM := by
  unfold vertexEntry vertexSpec
  dsimp only
  refine Prod.ext ?_ ?_
  · dsimp only
    rw [acc_eq, mul_comm, pow_two]
    congr 1
    refine sum_congr rfl fun mu hmu => ?_
    have hm := mem_range.1 hmu
    rw [C12_trace_ab_dag, C12_trace_ab_dag, C12_trace_ab_dag, h0 mu hm, h1 mu hm, h2 mu hm]
    rfl
  · dsimp only
    have hfun : (fun z (s : ℝ) => open Classical in
        if |compute_projector tol sinMom L v.1.MOM v.2.1.MOM z| > tol then
          s - compute_projector tol sinMom L v.1.MOM v.2.1.MOM z *
            (trace_abc NC (B (v.1.idx, (z - z % (L.ND * L.ND)) / (L.ND * L.ND) % L.ND))
              (B (v.2.1.idx, (z - z % L.ND) / L.ND % L.ND)) (B (v.2.2.idx, z % L.ND))).re
        else s) = fun z (s : ℝ) => s + -(above tol (compute_projector tol sinMom L v.1.MOM v.2.1.MOM z) *
            (trace_abc NC (B (v.1.idx, (z - z % (L.ND * L.ND)) / (L.ND * L.ND) % L.ND))
              (B (v.2.1.idx, (z - z % L.ND) / L.ND % L.ND)) (B (v.2.2.idx, z % L.ND))).re) := by
      funext z s
      unfold above
      by_cases h : tol < |compute_projector tol sinMom L v.1.MOM v.2.1.MOM z|
      · rw [if_pos h, if_pos h]; ring
      · rw [if_neg h, if_neg h]; ring
    rw [hfun, forN_sum, zero_add, sum_neg_distrib, sum_range_cube, neg_mul, mul_comm (∑ _ ∈ _, _), neg_div, neg_mul,
      pow_two]
    congr 2
    refine sum_congr rfl fun mu hmu => sum_congr rfl fun nu hnu => sum_congr rfl fun rho hrho => ?_
    have hm := mem_range.1 hmu
    have hn := mem_range.1 hnu
    have hr := mem_range.1 hrho
    obtain ⟨e1, e2, e3, e4, e5⟩ := decode hm hn hr
    unfold compute_projector
    rw [e2, e3, e4, e5, e1, C12_trace_abc, h0 mu hm, h1 nu hn, h2 rho hr]

/-- The momentum as a function of the direction. -/
def momFun (p : Mom) (mu : ℕ) : ℤ := p.reverse.getD mu 0

theorem momFun_momOf {ND : ℕ} (v : Vec) {mu : ℕ} (h : mu < ND) : momFun (momOf ND v) mu = v.MOM mu := by
  unfold momFun momOf
  rw [List.reverse_reverse, List.getD_eq_getElem?_getD, List.getElem?_map, List.getElem?_range h]
  rfl

theorem gracey_congr {d : ℕ} (tol : ℝ) {p q p' q' : ℕ → ℝ} (hp : ∀ mu < d, p mu = p' mu) (hq : ∀ mu < d, q mu = q' mu)
    {mu nu rho : ℕ} (hmu : mu < d) (hnu : nu < d) (hrho : rho < d) :
    get_proj_gracey d tol p q mu nu rho = get_proj_gracey d tol p' q' mu nu rho := by
  unfold get_proj_gracey
  dsimp only
  rw [acc_eq, acc_eq, sum_congr rfl fun i hi => by rw [hp i (mem_range.1 hi)], hp mu hmu, hp nu hnu, hp rho hrho,
    hq mu hmu, hq nu hnu, hq rho hrho]

theorem projector_mom_congr (sinMom : Bool) (L : Latt) {n n' : ℕ → ℤ} (h : ∀ mu < L.ND, n mu = n' mu) {mu : ℕ}
    (hmu : mu < L.ND) : projector_mom sinMom L n mu = projector_mom sinMom L n' mu := by
  unfold projector_mom; rw [h mu hmu]

theorem vertexSpec_congr {N : ℕ} (tol : ℝ) (sinMom : Bool) (L : Latt) (sign : ℝ)
    (A : ℕ → ℕ → Matrix (Fin N) (Fin N) ℂ) (psq : ℝ) {n0 n1 n2 m0 m1 m2 : ℕ → ℤ}
    (h0 : ∀ mu < L.ND, n0 mu = m0 mu) (h1 : ∀ mu < L.ND, n1 mu = m1 mu) (h2 : ∀ mu < L.ND, n2 mu = m2 mu) :
    vertexSpec tol sinMom L sign A psq n0 n1 n2 = vertexSpec tol sinMom L sign A psq m0 m1 m2 := by
  unfold vertexSpec
  have e0 := fieldFT_congr L sign A h0
  have e1 := fieldFT_congr L sign A h1
  have e2 := fieldFT_congr L sign A h2
  refine Prod.ext ?_ ?_
  · dsimp only
    congr 1
    refine sum_congr rfl fun mu _ => ?_
    unfold corr
    rw [e0, e1, e2]
  · dsimp only
    congr 1
    refine sum_congr rfl fun mu hmu => sum_congr rfl fun nu hnu => sum_congr rfl fun rho hrho => ?_
    rw [gracey_congr tol (fun i hi => projector_mom_congr sinMom L h0 hi)
      (fun i hi => projector_mom_congr sinMom L h1 hi) (mem_range.1 hmu) (mem_range.1 hnu) (mem_range.1 hrho)]
    rw [e0, e1, e2]

theorem vertex_psq_congr (tol : ℝ) (sinMom : Bool) (L : Latt) {n n' : ℕ → ℤ} (h : ∀ mu < L.ND, n mu = n' mu) :
    vertex_psq tol sinMom L n = vertex_psq tol sinMom L n' := by
  unfold vertex_psq
  dsimp only
  rw [acc_eq, acc_eq, sum_congr rfl fun i hi => by rw [h i (mem_range.1 hi)]]

/-- `psq` of the first triplet of an orbit. -/
noncomputable def firstPsq (tol : ℝ) (sinMom : Bool) (L : Latt) (l : List (Vec × Vec × Vec)) : ℝ :=
  match l with
  | [] => 1
  | v :: _ => vertex_psq tol sinMom L v.1.MOM

/-- The loop over the orbits fills the arrays from `c` on and leaves the rest. -/
theorem orbits_eq (NC : ℕ) (tol : ℝ) (sinMom : Bool) (L : Latt) (A : Gauge) (ls : List (List (Vec × Vec × Vec)))
    (pre post : List (Vec × Vec × Vec)) (g : ℕ → ℝ × ℝ) :
    ∃ g', orbits NC tol sinMom L A (pre ++ ls.flatten ++ post) (ls.map List.length) pre.length g = some g' ∧
      (∀ j, g' (pre.length + j) = ((ls.flatMap fun l => l.map fun v =>
        vertexEntry NC tol sinMom L A (firstPsq tol sinMom L l) v)[j]?).getD (g (pre.length + j))) ∧
      ∀ j < pre.length, g' j = g j := by
  induction ls generalizing pre g with
  | nil => exact ⟨g, rfl, fun j => by simp, fun _ _ => rfl⟩
  | cons l ls ih =>
    rw [List.map_cons]
    unfold orbits
    match hl : l with
    | [] =>
      rw [if_neg (by simp)]
      obtain ⟨g', h1, h2, h3⟩ := ih pre g
      exact ⟨g', by simpa using h1, fun j => by rw [h2 j]; simp, h3⟩
    | v :: w =>
      rw [if_pos (by simp)]
      have hget : (pre ++ ((v :: w) :: ls).flatten ++ post)[pre.length]? = some v := by
        rw [List.append_assoc, List.getElem?_append_right le_rfl]
        simp
      rw [hget]
      dsimp only
      rw [if_pos (by simp only [List.length_append, List.flatten_cons]; omega)]
      set G : ℕ → ℝ × ℝ := fun place => if pre.length ≤ place ∧ place < pre.length + (v :: w).length then
          match (pre ++ ((v :: w) :: ls).flatten ++ post)[place]? with
          | some u => vertexEntry NC tol sinMom L A (vertex_psq tol sinMom L v.1.MOM) u
          | none => g place
        else g place with hG
      obtain ⟨g', h1, h2, h3⟩ := ih (pre ++ (v :: w)) G
      refine ⟨g', ?_, ?_, ?_⟩
      · rw [← h1, List.length_append]
        congr 1
        simp only [List.flatten_cons, List.append_assoc]
      · intro j
        rw [List.flatMap_cons]
        by_cases hj : j < (v :: w).length
        · rw [h3 _ (by rw [List.length_append]; omega), hG]
          dsimp only
          rw [if_pos ⟨by omega, by omega⟩]
          have : (pre ++ ((v :: w) :: ls).flatten ++ post)[pre.length + j]? = some ((v :: w)[j]) := by
            rw [List.append_assoc, List.getElem?_append_right (by omega), List.flatten_cons, List.append_assoc,
              List.getElem?_append_left (by omega), Nat.add_sub_cancel_left, List.getElem?_eq_getElem hj]
          rw [this, List.getElem?_append_left (by simpa using hj), List.getElem?_map, List.getElem?_eq_getElem hj]
          rfl
        · obtain ⟨i, rfl⟩ : ∃ i, j = (v :: w).length + i := ⟨j - (v :: w).length, by omega⟩
          have := h2 i
          rw [List.length_append] at this
          rw [← add_assoc, this, List.getElem?_append_right (by simp), List.length_map, Nat.add_sub_cancel_left]
          congr 1
          rw [hG]
          dsimp only
          rw [if_neg (by omega)]
      · intro j hj
        rw [h3 j (by rw [List.length_append]; omega), hG]
        dsimp only
        rw [if_neg (by omega)]

theorem mapM_none {α β : Type*} {f : α → Option β} {l : List α} {x : α} (hx : x ∈ l) (h : f x = none) :
    l.mapM f = none := by
  induction l with
  | nil => simp at hx
  | cons y l ih =>
    rw [List.mapM_cons]
    rcases List.mem_cons.1 hx with rfl | hx
    · rw [h]; rfl
    · rw [ih hx]
      cases f y <;> rfl

end GLU.Cuts
