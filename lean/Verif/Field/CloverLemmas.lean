import Verif.Field.Clover
import Verif.Field.Path
import Verif.Mat.ProjProps

/-!
# The loops of the clover leaves are the rectangles

Each transcribed loop of `clover.c` is compared with the transporter around the rectangle it is meant to be.
-/

namespace GLU.Field

open Complex GLU.Mat GLU.Geom GLU.Sched Matrix

/-- The array `a` holds the special unitary matrix `A`. -/
def Holds (NC : ℕ) (a : Arr ℂ) (A : Matrix (Fin NC) (Fin NC) ℂ) : Prop := toM NC a = A ∧ IsSU NC a

theorem holds_mul {NC : ℕ} {a b : Arr ℂ} {A B : Matrix (Fin NC) (Fin NC) ℂ} (ha : Holds NC a A) (hb : Holds NC b B)
    (s : Arr ℂ) : Holds NC (multab_suNC NC a b s) (A * B) := by
  have h := C11_multab_suNC ha.2 hb.2 s
  exact ⟨by rw [h.1, ha.1, hb.1], h.2⟩

theorem holds_dag {NC : ℕ} {a b : Arr ℂ} {A B : Matrix (Fin NC) (Fin NC) ℂ} (ha : Holds NC a A) (hb : Holds NC b B)
    (s : Arr ℂ) : Holds NC (multab_dag_suNC NC a b s) (A * Bᴴ) := by
  have h := C11_multab_dag_suNC ha.2 hb.2 s
  exact ⟨by rw [h.1, ha.1, hb.1], h.2⟩

theorem holds_ldag {NC : ℕ} {a b : Arr ℂ} {A B : Matrix (Fin NC) (Fin NC) ℂ} (ha : Holds NC a A) (hb : Holds NC b B)
    (s : Arr ℂ) : Holds NC (multabdag_suNC NC a b s) (Aᴴ * B) := by
  have h := C11_multabdag_suNC ha.2 hb.2 s
  exact ⟨by rw [h.1, ha.1, hb.1], h.2⟩

theorem holds_dagdag {NC : ℕ} (hN : NC = 2 ∨ NC = 3) {a b : Arr ℂ} {A B : Matrix (Fin NC) (Fin NC) ℂ} (ha : Holds NC a A)
    (hb : Holds NC b B) (s : Arr ℂ) : Holds NC (multab_dagdag_suNC NC a b s) (Aᴴ * Bᴴ) := by
  have h := C11_multab_dagdag_suNC_partial hN ha.2 hb.2 s
  exact ⟨by rw [h.1, ha.1, hb.1], h.2⟩

theorem holds_link {NC : ℕ} {L : Latt} {lat : Gauge} (hU : SUField NC L lat) {i mu : ℕ} (hi : i < volume L)
    (hmu : mu < L.ND) : Holds NC (lat (i, mu)) (link NC lat i mu) := ⟨rfl, hU i hi mu hmu⟩

/-- The rules that put the moves in direction `mu` first and cancel opposite moves. -/
theorem norm_rules {L : Latt} (hL : Valid L) {mu nu : ℕ} (hmu : mu < L.ND) (hnu : nu < L.ND) :
    (∀ x, neighbor L (neighbor L x nu) mu = neighbor L (neighbor L x mu) nu) ∧
    (∀ x, neighbor L (back L x nu) mu = back L (neighbor L x mu) nu) ∧
    (∀ x, back L (neighbor L x nu) mu = neighbor L (back L x mu) nu) ∧
    (∀ x, back L (back L x nu) mu = back L (back L x mu) nu) :=
  ⟨fun _ => (C02_commute hL hnu hmu).1, fun _ => (C02_commute hL hnu hmu).2.1, fun _ => (C02_commute hL hmu hnu).2.1.symm,
    fun _ => (C02_commute hL hnu hmu).2.2⟩

theorem cancel_rules {L : Latt} (hL : Valid L) {mu : ℕ} (hmu : mu < L.ND) :
    (∀ x, x < volume L → back L (neighbor L x mu) mu = x) ∧ (∀ x, x < volume L → neighbor L (back L x mu) mu = x) :=
  ⟨fun _ hx => (C02_inverse hL hx hmu).1, fun _ hx => (C02_inverse hL hx hmu).2⟩

theorem lt_rules {L : Latt} (hL : Valid L) {mu : ℕ} (hmu : mu < L.ND) :
    (∀ x, neighbor L x mu < volume L) ∧ (∀ x, back L x mu < volume L) :=
  ⟨fun x => neighbor_lt hL x hmu, fun x => back_lt hL x hmu⟩

/-- Writes out the transporter along a rectangle. -/
macro "path_simp" : tactic => `(tactic| simp only [rect, rev, List.replicate, List.cons_append, List.nil_append, along, hop,
  hopLink, Bool.not_true, Bool.not_false, if_true, Bool.false_eq_true, if_false, Matrix.mul_one])

theorem s1_1x1_eq {NC : ℕ} {L : Latt} (hL : Valid L) {lat : Gauge}
    (hU : SUField NC L lat) {i mu nu : ℕ} (hi : i < volume L) (hmu : mu < L.ND) (hnu : nu < L.ND) :
    Holds NC (s1_1x1 NC L lat i mu nu) (along NC L lat i (rect (mu, true) 1 (nu, true) 1)) := by
  obtain ⟨n1, n2, n3, n4⟩ := norm_rules hL hmu hnu
  obtain ⟨c1, c2⟩ := cancel_rules hL hmu
  obtain ⟨d1, d2⟩ := cancel_rules hL hnu
  obtain ⟨l1, l2⟩ := lt_rules hL hmu
  obtain ⟨l3, l4⟩ := lt_rules hL hnu
  have h : Holds NC (s1_1x1 NC L lat i mu nu) _ :=
    (holds_dag (holds_dag (holds_mul (holds_link hU hi hmu) (holds_link hU (l1 _) hnu) scratch) (holds_link hU
      (l3 _) hmu) scratch) (holds_link hU hi hnu) scratch)
  refine ⟨h.1.trans ?_, h.2⟩
  clear h
  path_simp
  simp only [n1, n2, n3, n4, c1, c2, d1, d2, l1, l2, l3, l4, hi, conjTranspose_mul, conjTranspose_conjTranspose,
    Matrix.mul_assoc]

theorem s1_2x2_eq {NC : ℕ} {L : Latt} (hL : Valid L) {lat : Gauge}
    (hU : SUField NC L lat) {i mu nu : ℕ} (hi : i < volume L) (hmu : mu < L.ND) (hnu : nu < L.ND) :
    Holds NC (s1_2x2 NC L lat i mu nu) (along NC L lat i (rect (mu, true) 2 (nu, true) 2)) := by
  obtain ⟨n1, n2, n3, n4⟩ := norm_rules hL hmu hnu
  obtain ⟨c1, c2⟩ := cancel_rules hL hmu
  obtain ⟨d1, d2⟩ := cancel_rules hL hnu
  obtain ⟨l1, l2⟩ := lt_rules hL hmu
  obtain ⟨l3, l4⟩ := lt_rules hL hnu
  have h : Holds NC (s1_2x2 NC L lat i mu nu) _ :=
    (holds_dag (holds_dag (holds_dag (holds_dag (holds_mul (holds_mul (holds_mul (holds_link hU hi hmu)
      (holds_link hU (l1 _) hmu) scratch) (holds_link hU (l1 _) hnu) scratch) (holds_link hU (l3 _) hnu) scratch)
      (holds_link hU (l1 _) hmu) scratch) (holds_link hU (l3 _) hmu) scratch) (holds_link hU (l3 _) hnu) scratch)
      (holds_link hU hi hnu) scratch)
  refine ⟨h.1.trans ?_, h.2⟩
  clear h
  path_simp
  simp only [n1, n2, n3, n4, c1, c2, d1, d2, l1, l2, l3, l4, hi, conjTranspose_mul, conjTranspose_conjTranspose,
    Matrix.mul_assoc]

theorem s1_1x2_eq {NC : ℕ} {L : Latt} (hL : Valid L) {lat : Gauge}
    (hU : SUField NC L lat) {i mu nu : ℕ} (hi : i < volume L) (hmu : mu < L.ND) (hnu : nu < L.ND) :
    Holds NC (s1_1x2 NC L lat i mu nu) (along NC L lat i (rect (mu, true) 1 (nu, true) 2)) := by
  obtain ⟨n1, n2, n3, n4⟩ := norm_rules hL hmu hnu
  obtain ⟨c1, c2⟩ := cancel_rules hL hmu
  obtain ⟨d1, d2⟩ := cancel_rules hL hnu
  obtain ⟨l1, l2⟩ := lt_rules hL hmu
  obtain ⟨l3, l4⟩ := lt_rules hL hnu
  have h : Holds NC (s1_1x2 NC L lat i mu nu) _ :=
    (holds_dag (holds_dag (holds_dag (holds_mul (holds_mul (holds_link hU hi hmu) (holds_link hU (l1 _) hnu)
      scratch) (holds_link hU (l3 _) hnu) scratch) (holds_link hU (l3 _) hmu) scratch) (holds_link hU (l3 _) hnu)
      scratch) (holds_link hU hi hnu) scratch)
  refine ⟨h.1.trans ?_, h.2⟩
  clear h
  path_simp
  simp only [n1, n2, n3, n4, c1, c2, d1, d2, l1, l2, l3, l4, hi, conjTranspose_mul, conjTranspose_conjTranspose,
    Matrix.mul_assoc]

theorem s1_2x1_eq {NC : ℕ} {L : Latt} (hL : Valid L) {lat : Gauge}
    (hU : SUField NC L lat) {i mu nu : ℕ} (hi : i < volume L) (hmu : mu < L.ND) (hnu : nu < L.ND) :
    Holds NC (s1_2x1 NC L lat i mu nu) (along NC L lat i (rect (mu, true) 2 (nu, true) 1)) := by
  obtain ⟨n1, n2, n3, n4⟩ := norm_rules hL hmu hnu
  obtain ⟨c1, c2⟩ := cancel_rules hL hmu
  obtain ⟨d1, d2⟩ := cancel_rules hL hnu
  obtain ⟨l1, l2⟩ := lt_rules hL hmu
  obtain ⟨l3, l4⟩ := lt_rules hL hnu
  have h : Holds NC (s1_2x1 NC L lat i mu nu) _ :=
    (holds_dag (holds_dag (holds_dag (holds_mul (holds_mul (holds_link hU hi hmu) (holds_link hU (l1 _) hmu)
      scratch) (holds_link hU (l1 _) hnu) scratch) (holds_link hU (l1 _) hmu) scratch) (holds_link hU (l3 _) hmu)
      scratch) (holds_link hU hi hnu) scratch)
  refine ⟨h.1.trans ?_, h.2⟩
  clear h
  path_simp
  simp only [n1, n2, n3, n4, c1, c2, d1, d2, l1, l2, l3, l4, hi, conjTranspose_mul, conjTranspose_conjTranspose,
    Matrix.mul_assoc]

theorem s1_1x3_eq {NC : ℕ} {L : Latt} (hL : Valid L) {lat : Gauge}
    (hU : SUField NC L lat) {i mu nu : ℕ} (hi : i < volume L) (hmu : mu < L.ND) (hnu : nu < L.ND) :
    Holds NC (s1_1x3 NC L lat i mu nu) (along NC L lat i (rect (mu, true) 1 (nu, true) 3)) := by
  obtain ⟨n1, n2, n3, n4⟩ := norm_rules hL hmu hnu
  obtain ⟨c1, c2⟩ := cancel_rules hL hmu
  obtain ⟨d1, d2⟩ := cancel_rules hL hnu
  obtain ⟨l1, l2⟩ := lt_rules hL hmu
  obtain ⟨l3, l4⟩ := lt_rules hL hnu
  have h : Holds NC (s1_1x3 NC L lat i mu nu) _ :=
    (holds_dag (holds_dag (holds_dag (holds_dag (holds_mul (holds_mul (holds_mul (holds_link hU hi hmu)
      (holds_link hU (l1 _) hnu) scratch) (holds_link hU (l3 _) hnu) scratch) (holds_link hU (l3 _) hnu) scratch)
      (holds_link hU (l2 _) hmu) scratch) (holds_link hU (l4 _) hnu) scratch) (holds_link hU (l4 _) hnu) scratch)
      (holds_link hU hi hnu) scratch)
  refine ⟨h.1.trans ?_, h.2⟩
  clear h
  path_simp
  simp only [n1, n2, n3, n4, c1, c2, d1, d2, l1, l2, l3, l4, hi, conjTranspose_mul, conjTranspose_conjTranspose,
    Matrix.mul_assoc]

theorem s1_3x1_eq {NC : ℕ} {L : Latt} (hL : Valid L) {lat : Gauge}
    (hU : SUField NC L lat) {i mu nu : ℕ} (hi : i < volume L) (hmu : mu < L.ND) (hnu : nu < L.ND) :
    Holds NC (s1_3x1 NC L lat i mu nu) (along NC L lat i (rect (mu, true) 3 (nu, true) 1)) := by
  obtain ⟨n1, n2, n3, n4⟩ := norm_rules hL hmu hnu
  obtain ⟨c1, c2⟩ := cancel_rules hL hmu
  obtain ⟨d1, d2⟩ := cancel_rules hL hnu
  obtain ⟨l1, l2⟩ := lt_rules hL hmu
  obtain ⟨l3, l4⟩ := lt_rules hL hnu
  have h : Holds NC (s1_3x1 NC L lat i mu nu) _ :=
    (holds_dag (holds_dag (holds_dag (holds_dag (holds_mul (holds_mul (holds_mul (holds_link hU hi hmu)
      (holds_link hU (l1 _) hmu) scratch) (holds_link hU (l1 _) hmu) scratch) (holds_link hU (l1 _) hnu) scratch)
      (holds_link hU (l2 _) hmu) scratch) (holds_link hU (l2 _) hmu) scratch) (holds_link hU (l2 _) hmu) scratch)
      (holds_link hU hi hnu) scratch)
  refine ⟨h.1.trans ?_, h.2⟩
  clear h
  path_simp
  simp only [n1, n2, n3, n4, c1, c2, d1, d2, l1, l2, l3, l4, hi, conjTranspose_mul, conjTranspose_conjTranspose,
    Matrix.mul_assoc]

theorem s1_3x3_eq {NC : ℕ} {L : Latt} (hL : Valid L) {lat : Gauge}
    (hU : SUField NC L lat) {i mu nu : ℕ} (hi : i < volume L) (hmu : mu < L.ND) (hnu : nu < L.ND) :
    Holds NC (s1_3x3 NC L lat i mu nu) (along NC L lat i (rect (mu, true) 3 (nu, true) 3)) := by
  obtain ⟨n1, n2, n3, n4⟩ := norm_rules hL hmu hnu
  obtain ⟨c1, c2⟩ := cancel_rules hL hmu
  obtain ⟨d1, d2⟩ := cancel_rules hL hnu
  obtain ⟨l1, l2⟩ := lt_rules hL hmu
  obtain ⟨l3, l4⟩ := lt_rules hL hnu
  have h : Holds NC (s1_3x3 NC L lat i mu nu) _ :=
    (holds_dag (holds_mul (holds_mul (holds_mul (holds_link hU hi hmu) (holds_link hU (l1 _) hmu) scratch)
      (holds_mul (holds_link hU (l1 _) hmu) (holds_link hU (l1 _) hnu) scratch) scratch) (holds_mul (holds_link
      hU (l3 _) hnu) (holds_link hU (l3 _) hnu) scratch) scratch) (holds_mul (holds_mul (holds_mul (holds_link hU
      hi hnu) (holds_link hU (l3 _) hnu) scratch) (holds_mul (holds_link hU (l3 _) hnu) (holds_link hU (l3 _)
      hmu) scratch) scratch) (holds_mul (holds_link hU (l1 _) hmu) (holds_link hU (l1 _) hmu) scratch) scratch)
      scratch)
  refine ⟨h.1.trans ?_, h.2⟩
  clear h
  path_simp
  simp only [n1, n2, n3, n4, c1, c2, d1, d2, l1, l2, l3, l4, hi, conjTranspose_mul, conjTranspose_conjTranspose,
    Matrix.mul_assoc]

theorem s2_1x1_eq {NC : ℕ} {L : Latt} (hL : Valid L) {lat : Gauge}
    (hU : SUField NC L lat) {i mu nu : ℕ} (hi : i < volume L) (hmu : mu < L.ND) (hnu : nu < L.ND) :
    Holds NC (s2_1x1 NC L lat i mu nu) (along NC L lat i (rect (nu, false) 1 (mu, true) 1)) := by
  obtain ⟨n1, n2, n3, n4⟩ := norm_rules hL hmu hnu
  obtain ⟨c1, c2⟩ := cancel_rules hL hmu
  obtain ⟨d1, d2⟩ := cancel_rules hL hnu
  obtain ⟨l1, l2⟩ := lt_rules hL hmu
  obtain ⟨l3, l4⟩ := lt_rules hL hnu
  have h : Holds NC (s2_1x1 NC L lat i mu nu) _ :=
    (holds_dag (holds_mul (holds_ldag (holds_link hU (l4 _) hnu) (holds_link hU (l4 _) hmu) scratch) (holds_link
      hU (l1 _) hnu) scratch) (holds_link hU hi hmu) scratch)
  refine ⟨h.1.trans ?_, h.2⟩
  clear h
  path_simp
  simp only [n1, n2, n3, n4, c1, c2, d1, d2, l1, l2, l3, l4, hi, conjTranspose_mul, conjTranspose_conjTranspose,
    Matrix.mul_assoc]

theorem s2_2x2_eq {NC : ℕ} (hN : NC = 2 ∨ NC = 3) {L : Latt} (hL : Valid L) {lat : Gauge}
    (hU : SUField NC L lat) {i mu nu : ℕ} (hi : i < volume L) (hmu : mu < L.ND) (hnu : nu < L.ND) :
    Holds NC (s2_2x2 NC L lat i mu nu) (along NC L lat i (rect (nu, false) 2 (mu, true) 2)) := by
  obtain ⟨n1, n2, n3, n4⟩ := norm_rules hL hmu hnu
  obtain ⟨c1, c2⟩ := cancel_rules hL hmu
  obtain ⟨d1, d2⟩ := cancel_rules hL hnu
  obtain ⟨l1, l2⟩ := lt_rules hL hmu
  obtain ⟨l3, l4⟩ := lt_rules hL hnu
  have h : Holds NC (s2_2x2 NC L lat i mu nu) _ :=
    (holds_dag (holds_dag (holds_mul (holds_mul (holds_mul (holds_mul (holds_dagdag hN (holds_link hU (l4 _) hnu)
      (holds_link hU (l4 _) hnu) scratch) (holds_link hU (l4 _) hmu) scratch) (holds_link hU (l1 _) hmu) scratch)
      (holds_link hU (l1 _) hnu) scratch) (holds_link hU (l3 _) hnu) scratch) (holds_link hU (l1 _) hmu) scratch)
      (holds_link hU hi hmu) scratch)
  refine ⟨h.1.trans ?_, h.2⟩
  clear h
  path_simp
  simp only [n1, n2, n3, n4, c1, c2, d1, d2, l1, l2, l3, l4, hi, conjTranspose_mul, conjTranspose_conjTranspose,
    Matrix.mul_assoc]

theorem s2_1x2_eq {NC : ℕ} (hN : NC = 2 ∨ NC = 3) {L : Latt} (hL : Valid L) {lat : Gauge}
    (hU : SUField NC L lat) {i mu nu : ℕ} (hi : i < volume L) (hmu : mu < L.ND) (hnu : nu < L.ND) :
    Holds NC (s2_1x2 NC L lat i mu nu) (along NC L lat i (rect (nu, false) 2 (mu, true) 1)) := by
  obtain ⟨n1, n2, n3, n4⟩ := norm_rules hL hmu hnu
  obtain ⟨c1, c2⟩ := cancel_rules hL hmu
  obtain ⟨d1, d2⟩ := cancel_rules hL hnu
  obtain ⟨l1, l2⟩ := lt_rules hL hmu
  obtain ⟨l3, l4⟩ := lt_rules hL hnu
  have h : Holds NC (s2_1x2 NC L lat i mu nu) _ :=
    (holds_dag (holds_mul (holds_mul (holds_mul (holds_dagdag hN (holds_link hU (l4 _) hnu) (holds_link hU (l4 _)
      hnu) scratch) (holds_link hU (l4 _) hmu) scratch) (holds_link hU (l1 _) hnu) scratch) (holds_link hU (l3 _)
      hnu) scratch) (holds_link hU hi hmu) scratch)
  refine ⟨h.1.trans ?_, h.2⟩
  clear h
  path_simp
  simp only [n1, n2, n3, n4, c1, c2, d1, d2, l1, l2, l3, l4, hi, conjTranspose_mul, conjTranspose_conjTranspose,
    Matrix.mul_assoc]

theorem s2_2x1_eq {NC : ℕ} {L : Latt} (hL : Valid L) {lat : Gauge}
    (hU : SUField NC L lat) {i mu nu : ℕ} (hi : i < volume L) (hmu : mu < L.ND) (hnu : nu < L.ND) :
    Holds NC (s2_2x1 NC L lat i mu nu) (along NC L lat i (rect (nu, false) 1 (mu, true) 2)) := by
  obtain ⟨n1, n2, n3, n4⟩ := norm_rules hL hmu hnu
  obtain ⟨c1, c2⟩ := cancel_rules hL hmu
  obtain ⟨d1, d2⟩ := cancel_rules hL hnu
  obtain ⟨l1, l2⟩ := lt_rules hL hmu
  obtain ⟨l3, l4⟩ := lt_rules hL hnu
  have h : Holds NC (s2_2x1 NC L lat i mu nu) _ :=
    (holds_dag (holds_dag (holds_mul (holds_mul (holds_ldag (holds_link hU (l4 _) hnu) (holds_link hU (l4 _) hmu)
      scratch) (holds_link hU (l1 _) hmu) scratch) (holds_link hU (l1 _) hnu) scratch) (holds_link hU (l2 _) hmu)
      scratch) (holds_link hU hi hmu) scratch)
  refine ⟨h.1.trans ?_, h.2⟩
  clear h
  path_simp
  simp only [n1, n2, n3, n4, c1, c2, d1, d2, l1, l2, l3, l4, hi, conjTranspose_mul, conjTranspose_conjTranspose,
    Matrix.mul_assoc]

theorem s2_1x3_eq {NC : ℕ} (hN : NC = 2 ∨ NC = 3) {L : Latt} (hL : Valid L) {lat : Gauge}
    (hU : SUField NC L lat) {i mu nu : ℕ} (hi : i < volume L) (hmu : mu < L.ND) (hnu : nu < L.ND) :
    Holds NC (s2_1x3 NC L lat i mu nu) (along NC L lat i (rect (nu, false) 3 (mu, true) 1)) := by
  obtain ⟨n1, n2, n3, n4⟩ := norm_rules hL hmu hnu
  obtain ⟨c1, c2⟩ := cancel_rules hL hmu
  obtain ⟨d1, d2⟩ := cancel_rules hL hnu
  obtain ⟨l1, l2⟩ := lt_rules hL hmu
  obtain ⟨l3, l4⟩ := lt_rules hL hnu
  have h : Holds NC (s2_1x3 NC L lat i mu nu) _ :=
    (holds_dag (holds_mul (holds_mul (holds_mul (holds_mul (holds_dag (holds_dagdag hN (holds_link hU (l4 _) hnu)
      (holds_link hU (l4 _) hnu) scratch) (holds_link hU (l4 _) hnu) scratch) (holds_link hU (l4 _) hmu) scratch)
      (holds_link hU (l1 _) hnu) scratch) (holds_link hU (l3 _) hnu) scratch) (holds_link hU (l3 _) hnu) scratch)
      (holds_link hU hi hmu) scratch)
  refine ⟨h.1.trans ?_, h.2⟩
  clear h
  path_simp
  simp only [n1, n2, n3, n4, c1, c2, d1, d2, l1, l2, l3, l4, hi, conjTranspose_mul, conjTranspose_conjTranspose,
    Matrix.mul_assoc]

theorem s2_3x1_eq {NC : ℕ} {L : Latt} (hL : Valid L) {lat : Gauge}
    (hU : SUField NC L lat) {i mu nu : ℕ} (hi : i < volume L) (hmu : mu < L.ND) (hnu : nu < L.ND) :
    Holds NC (s2_3x1 NC L lat i mu nu) (along NC L lat i (rect (nu, false) 1 (mu, true) 3)) := by
  obtain ⟨n1, n2, n3, n4⟩ := norm_rules hL hmu hnu
  obtain ⟨c1, c2⟩ := cancel_rules hL hmu
  obtain ⟨d1, d2⟩ := cancel_rules hL hnu
  obtain ⟨l1, l2⟩ := lt_rules hL hmu
  obtain ⟨l3, l4⟩ := lt_rules hL hnu
  have h : Holds NC (s2_3x1 NC L lat i mu nu) _ :=
    (holds_dag (holds_dag (holds_dag (holds_mul (holds_mul (holds_mul (holds_ldag (holds_link hU (l4 _) hnu)
      (holds_link hU (l4 _) hmu) scratch) (holds_link hU (l1 _) hmu) scratch) (holds_link hU (l1 _) hmu) scratch)
      (holds_link hU (l1 _) hnu) scratch) (holds_link hU (l2 _) hmu) scratch) (holds_link hU (l2 _) hmu) scratch)
      (holds_link hU hi hmu) scratch)
  refine ⟨h.1.trans ?_, h.2⟩
  clear h
  path_simp
  simp only [n1, n2, n3, n4, c1, c2, d1, d2, l1, l2, l3, l4, hi, conjTranspose_mul, conjTranspose_conjTranspose,
    Matrix.mul_assoc]

theorem s2_3x3_eq {NC : ℕ} (hN : NC = 2 ∨ NC = 3) {L : Latt} (hL : Valid L) {lat : Gauge}
    (hU : SUField NC L lat) {i mu nu : ℕ} (hi : i < volume L) (hmu : mu < L.ND) (hnu : nu < L.ND) :
    Holds NC (s2_3x3 NC L lat i mu nu) (along NC L lat i (rect (nu, false) 3 (mu, true) 3)) := by
  obtain ⟨n1, n2, n3, n4⟩ := norm_rules hL hmu hnu
  obtain ⟨c1, c2⟩ := cancel_rules hL hmu
  obtain ⟨d1, d2⟩ := cancel_rules hL hnu
  obtain ⟨l1, l2⟩ := lt_rules hL hmu
  obtain ⟨l3, l4⟩ := lt_rules hL hnu
  have h : Holds NC (s2_3x3 NC L lat i mu nu) _ :=
    (holds_dag (holds_mul (holds_mul (holds_dagdag hN (holds_link hU (l4 _) hnu) (holds_link hU (l4 _) hnu)
      scratch) (holds_ldag (holds_link hU (l4 _) hnu) (holds_link hU (l4 _) hmu) scratch) scratch) (holds_mul
      (holds_link hU (l1 _) hmu) (holds_link hU (l1 _) hmu) scratch) scratch) (holds_mul (holds_mul (holds_mul
      (holds_link hU hi hmu) (holds_link hU (l1 _) hmu) scratch) (holds_dag (holds_link hU (l1 _) hmu)
      (holds_link hU (l4 _) hnu) scratch) scratch) (holds_dagdag hN (holds_link hU (l4 _) hnu) (holds_link hU (l4
      _) hnu) scratch) scratch) scratch)
  refine ⟨h.1.trans ?_, h.2⟩
  clear h
  path_simp
  simp only [n1, n2, n3, n4, c1, c2, d1, d2, l1, l2, l3, l4, hi, conjTranspose_mul, conjTranspose_conjTranspose,
    Matrix.mul_assoc]

theorem s3_1x1_eq {NC : ℕ} (hN : NC = 2 ∨ NC = 3) {L : Latt} (hL : Valid L) {lat : Gauge}
    (hU : SUField NC L lat) {i mu nu : ℕ} (hi : i < volume L) (hmu : mu < L.ND) (hnu : nu < L.ND) :
    Holds NC (s3_1x1 NC L lat i mu nu) (along NC L lat i (rect (mu, false) 1 (nu, false) 1)) := by
  obtain ⟨n1, n2, n3, n4⟩ := norm_rules hL hmu hnu
  obtain ⟨c1, c2⟩ := cancel_rules hL hmu
  obtain ⟨d1, d2⟩ := cancel_rules hL hnu
  obtain ⟨l1, l2⟩ := lt_rules hL hmu
  obtain ⟨l3, l4⟩ := lt_rules hL hnu
  have h : Holds NC (s3_1x1 NC L lat i mu nu) _ :=
    (holds_mul (holds_mul (holds_dagdag hN (holds_link hU (l2 _) hmu) (holds_link hU (l4 _) hnu) scratch)
      (holds_link hU (l4 _) hmu) scratch) (holds_link hU (l4 _) hnu) scratch)
  refine ⟨h.1.trans ?_, h.2⟩
  clear h
  path_simp
  simp only [n1, n2, n3, n4, c1, c2, d1, d2, l1, l2, l3, l4, hi, conjTranspose_mul, conjTranspose_conjTranspose,
    Matrix.mul_assoc]

theorem s3_2x2_eq {NC : ℕ} (hN : NC = 2 ∨ NC = 3) {L : Latt} (hL : Valid L) {lat : Gauge}
    (hU : SUField NC L lat) {i mu nu : ℕ} (hi : i < volume L) (hmu : mu < L.ND) (hnu : nu < L.ND) :
    Holds NC (s3_2x2 NC L lat i mu nu) (along NC L lat i (rect (mu, false) 2 (nu, false) 2)) := by
  obtain ⟨n1, n2, n3, n4⟩ := norm_rules hL hmu hnu
  obtain ⟨c1, c2⟩ := cancel_rules hL hmu
  obtain ⟨d1, d2⟩ := cancel_rules hL hnu
  obtain ⟨l1, l2⟩ := lt_rules hL hmu
  obtain ⟨l3, l4⟩ := lt_rules hL hnu
  have h : Holds NC (s3_2x2 NC L lat i mu nu) _ :=
    (holds_mul (holds_mul (holds_mul (holds_mul (holds_dag (holds_dag (holds_dagdag hN (holds_link hU (l2 _) hmu)
      (holds_link hU (l2 _) hmu) scratch) (holds_link hU (l4 _) hnu) scratch) (holds_link hU (l4 _) hnu) scratch)
      (holds_link hU (l4 _) hmu) scratch) (holds_link hU (l1 _) hmu) scratch) (holds_link hU (l1 _) hnu) scratch)
      (holds_link hU (l3 _) hnu) scratch)
  refine ⟨h.1.trans ?_, h.2⟩
  clear h
  path_simp
  simp only [n1, n2, n3, n4, c1, c2, d1, d2, l1, l2, l3, l4, hi, conjTranspose_mul, conjTranspose_conjTranspose,
    Matrix.mul_assoc]

theorem s3_1x2_eq {NC : ℕ} (hN : NC = 2 ∨ NC = 3) {L : Latt} (hL : Valid L) {lat : Gauge}
    (hU : SUField NC L lat) {i mu nu : ℕ} (hi : i < volume L) (hmu : mu < L.ND) (hnu : nu < L.ND) :
    Holds NC (s3_1x2 NC L lat i mu nu) (along NC L lat i (rect (mu, false) 1 (nu, false) 2)) := by
  obtain ⟨n1, n2, n3, n4⟩ := norm_rules hL hmu hnu
  obtain ⟨c1, c2⟩ := cancel_rules hL hmu
  obtain ⟨d1, d2⟩ := cancel_rules hL hnu
  obtain ⟨l1, l2⟩ := lt_rules hL hmu
  obtain ⟨l3, l4⟩ := lt_rules hL hnu
  have h : Holds NC (s3_1x2 NC L lat i mu nu) _ :=
    (holds_mul (holds_mul (holds_mul (holds_dag (holds_dagdag hN (holds_link hU (l2 _) hmu) (holds_link hU (l4 _)
      hnu) scratch) (holds_link hU (l4 _) hnu) scratch) (holds_link hU (l4 _) hmu) scratch) (holds_link hU (l1 _)
      hnu) scratch) (holds_link hU (l3 _) hnu) scratch)
  refine ⟨h.1.trans ?_, h.2⟩
  clear h
  path_simp
  simp only [n1, n2, n3, n4, c1, c2, d1, d2, l1, l2, l3, l4, hi, conjTranspose_mul, conjTranspose_conjTranspose,
    Matrix.mul_assoc]

theorem s3_2x1_eq {NC : ℕ} (hN : NC = 2 ∨ NC = 3) {L : Latt} (hL : Valid L) {lat : Gauge}
    (hU : SUField NC L lat) {i mu nu : ℕ} (hi : i < volume L) (hmu : mu < L.ND) (hnu : nu < L.ND) :
    Holds NC (s3_2x1 NC L lat i mu nu) (along NC L lat i (rect (mu, false) 2 (nu, false) 1)) := by
  obtain ⟨n1, n2, n3, n4⟩ := norm_rules hL hmu hnu
  obtain ⟨c1, c2⟩ := cancel_rules hL hmu
  obtain ⟨d1, d2⟩ := cancel_rules hL hnu
  obtain ⟨l1, l2⟩ := lt_rules hL hmu
  obtain ⟨l3, l4⟩ := lt_rules hL hnu
  have h : Holds NC (s3_2x1 NC L lat i mu nu) _ :=
    (holds_mul (holds_mul (holds_mul (holds_dag (holds_dagdag hN (holds_link hU (l2 _) hmu) (holds_link hU (l2 _)
      hmu) scratch) (holds_link hU (l4 _) hnu) scratch) (holds_link hU (l4 _) hmu) scratch) (holds_link hU (l1 _)
      hmu) scratch) (holds_link hU (l1 _) hnu) scratch)
  refine ⟨h.1.trans ?_, h.2⟩
  clear h
  path_simp
  simp only [n1, n2, n3, n4, c1, c2, d1, d2, l1, l2, l3, l4, hi, conjTranspose_mul, conjTranspose_conjTranspose,
    Matrix.mul_assoc]

theorem s3_1x3_eq {NC : ℕ} (hN : NC = 2 ∨ NC = 3) {L : Latt} (hL : Valid L) {lat : Gauge}
    (hU : SUField NC L lat) {i mu nu : ℕ} (hi : i < volume L) (hmu : mu < L.ND) (hnu : nu < L.ND) :
    Holds NC (s3_1x3 NC L lat i mu nu) (along NC L lat i (rect (mu, false) 1 (nu, false) 3)) := by
  obtain ⟨n1, n2, n3, n4⟩ := norm_rules hL hmu hnu
  obtain ⟨c1, c2⟩ := cancel_rules hL hmu
  obtain ⟨d1, d2⟩ := cancel_rules hL hnu
  obtain ⟨l1, l2⟩ := lt_rules hL hmu
  obtain ⟨l3, l4⟩ := lt_rules hL hnu
  have h : Holds NC (s3_1x3 NC L lat i mu nu) _ :=
    (holds_mul (holds_mul (holds_mul (holds_mul (holds_dag (holds_dag (holds_dagdag hN (holds_link hU (l2 _) hmu)
      (holds_link hU (l4 _) hnu) scratch) (holds_link hU (l4 _) hnu) scratch) (holds_link hU (l4 _) hnu) scratch)
      (holds_link hU (l4 _) hmu) scratch) (holds_link hU (l1 _) hnu) scratch) (holds_link hU (l3 _) hnu) scratch)
      (holds_link hU (l3 _) hnu) scratch)
  refine ⟨h.1.trans ?_, h.2⟩
  clear h
  path_simp
  simp only [n1, n2, n3, n4, c1, c2, d1, d2, l1, l2, l3, l4, hi, conjTranspose_mul, conjTranspose_conjTranspose,
    Matrix.mul_assoc]

theorem s3_3x1_eq {NC : ℕ} (hN : NC = 2 ∨ NC = 3) {L : Latt} (hL : Valid L) {lat : Gauge}
    (hU : SUField NC L lat) {i mu nu : ℕ} (hi : i < volume L) (hmu : mu < L.ND) (hnu : nu < L.ND) :
    Holds NC (s3_3x1 NC L lat i mu nu) (along NC L lat i (rect (mu, false) 3 (nu, false) 1)) := by
  obtain ⟨n1, n2, n3, n4⟩ := norm_rules hL hmu hnu
  obtain ⟨c1, c2⟩ := cancel_rules hL hmu
  obtain ⟨d1, d2⟩ := cancel_rules hL hnu
  obtain ⟨l1, l2⟩ := lt_rules hL hmu
  obtain ⟨l3, l4⟩ := lt_rules hL hnu
  have h : Holds NC (s3_3x1 NC L lat i mu nu) _ :=
    (holds_mul (holds_mul (holds_mul (holds_mul (holds_dag (holds_dag (holds_dagdag hN (holds_link hU (l2 _) hmu)
      (holds_link hU (l2 _) hmu) scratch) (holds_link hU (l2 _) hmu) scratch) (holds_link hU (l4 _) hnu) scratch)
      (holds_link hU (l4 _) hmu) scratch) (holds_link hU (l1 _) hmu) scratch) (holds_link hU (l1 _) hmu) scratch)
      (holds_link hU (l1 _) hnu) scratch)
  refine ⟨h.1.trans ?_, h.2⟩
  clear h
  path_simp
  simp only [n1, n2, n3, n4, c1, c2, d1, d2, l1, l2, l3, l4, hi, conjTranspose_mul, conjTranspose_conjTranspose,
    Matrix.mul_assoc]

theorem s3_3x3_eq {NC : ℕ} (hN : NC = 2 ∨ NC = 3) {L : Latt} (hL : Valid L) {lat : Gauge}
    (hU : SUField NC L lat) {i mu nu : ℕ} (hi : i < volume L) (hmu : mu < L.ND) (hnu : nu < L.ND) :
    Holds NC (s3_3x3 NC L lat i mu nu) (along NC L lat i (rect (mu, false) 3 (nu, false) 3)) := by
  obtain ⟨n1, n2, n3, n4⟩ := norm_rules hL hmu hnu
  obtain ⟨c1, c2⟩ := cancel_rules hL hmu
  obtain ⟨d1, d2⟩ := cancel_rules hL hnu
  obtain ⟨l1, l2⟩ := lt_rules hL hmu
  obtain ⟨l3, l4⟩ := lt_rules hL hnu
  have h : Holds NC (s3_3x3 NC L lat i mu nu) _ :=
    (holds_mul (holds_mul (holds_mul (holds_dagdag hN (holds_link hU (l2 _) hmu) (holds_link hU (l2 _) hmu)
      scratch) (holds_dagdag hN (holds_link hU (l2 _) hmu) (holds_link hU (l4 _) hnu) scratch) scratch)
      (holds_dagdag hN (holds_link hU (l4 _) hnu) (holds_link hU (l4 _) hnu) scratch) scratch) (holds_mul
      (holds_mul (holds_mul (holds_link hU (l4 _) hmu) (holds_link hU (l1 _) hmu) scratch) (holds_mul (holds_link
      hU (l1 _) hmu) (holds_link hU (l1 _) hnu) scratch) scratch) (holds_mul (holds_link hU (l3 _) hnu)
      (holds_link hU (l3 _) hnu) scratch) scratch) scratch)
  refine ⟨h.1.trans ?_, h.2⟩
  clear h
  path_simp
  simp only [n1, n2, n3, n4, c1, c2, d1, d2, l1, l2, l3, l4, hi, conjTranspose_mul, conjTranspose_conjTranspose,
    Matrix.mul_assoc]

theorem s4_1x1_eq {NC : ℕ} {L : Latt} (hL : Valid L) {lat : Gauge}
    (hU : SUField NC L lat) {i mu nu : ℕ} (hi : i < volume L) (hmu : mu < L.ND) (hnu : nu < L.ND) :
    Holds NC (s4_1x1 NC L lat i mu nu) (along NC L lat i (rect (nu, true) 1 (mu, false) 1)) := by
  obtain ⟨n1, n2, n3, n4⟩ := norm_rules hL hmu hnu
  obtain ⟨c1, c2⟩ := cancel_rules hL hmu
  obtain ⟨d1, d2⟩ := cancel_rules hL hnu
  obtain ⟨l1, l2⟩ := lt_rules hL hmu
  obtain ⟨l3, l4⟩ := lt_rules hL hnu
  have h : Holds NC (s4_1x1 NC L lat i mu nu) _ :=
    (holds_mul (holds_dag (holds_dag (holds_link hU hi hnu) (holds_link hU (l3 _) hmu) scratch) (holds_link hU
      (l2 _) hnu) scratch) (holds_link hU (l2 _) hmu) scratch)
  refine ⟨h.1.trans ?_, h.2⟩
  clear h
  path_simp
  simp only [n1, n2, n3, n4, c1, c2, d1, d2, l1, l2, l3, l4, hi, conjTranspose_mul, conjTranspose_conjTranspose,
    Matrix.mul_assoc]

theorem s4_2x2_eq {NC : ℕ} {L : Latt} (hL : Valid L) {lat : Gauge}
    (hU : SUField NC L lat) {i mu nu : ℕ} (hi : i < volume L) (hmu : mu < L.ND) (hnu : nu < L.ND) :
    Holds NC (s4_2x2 NC L lat i mu nu) (along NC L lat i (rect (nu, true) 2 (mu, false) 2)) := by
  obtain ⟨n1, n2, n3, n4⟩ := norm_rules hL hmu hnu
  obtain ⟨c1, c2⟩ := cancel_rules hL hmu
  obtain ⟨d1, d2⟩ := cancel_rules hL hnu
  obtain ⟨l1, l2⟩ := lt_rules hL hmu
  obtain ⟨l3, l4⟩ := lt_rules hL hnu
  have h : Holds NC (s4_2x2 NC L lat i mu nu) _ :=
    (holds_mul (holds_mul (holds_dag (holds_dag (holds_dag (holds_dag (holds_mul (holds_link hU hi hnu)
      (holds_link hU (l3 _) hnu) scratch) (holds_link hU (l2 _) hmu) scratch) (holds_link hU (l2 _) hmu) scratch)
      (holds_link hU (l4 _) hnu) scratch) (holds_link hU (l4 _) hnu) scratch) (holds_link hU (l4 _) hmu) scratch)
      (holds_link hU (l1 _) hmu) scratch)
  refine ⟨h.1.trans ?_, h.2⟩
  clear h
  path_simp
  simp only [n1, n2, n3, n4, c1, c2, d1, d2, l1, l2, l3, l4, hi, conjTranspose_mul, conjTranspose_conjTranspose,
    Matrix.mul_assoc]

theorem s4_1x2_eq {NC : ℕ} {L : Latt} (hL : Valid L) {lat : Gauge}
    (hU : SUField NC L lat) {i mu nu : ℕ} (hi : i < volume L) (hmu : mu < L.ND) (hnu : nu < L.ND) :
    Holds NC (s4_1x2 NC L lat i mu nu) (along NC L lat i (rect (nu, true) 2 (mu, false) 1)) := by
  obtain ⟨n1, n2, n3, n4⟩ := norm_rules hL hmu hnu
  obtain ⟨c1, c2⟩ := cancel_rules hL hmu
  obtain ⟨d1, d2⟩ := cancel_rules hL hnu
  obtain ⟨l1, l2⟩ := lt_rules hL hmu
  obtain ⟨l3, l4⟩ := lt_rules hL hnu
  have h : Holds NC (s4_1x2 NC L lat i mu nu) _ :=
    (holds_mul (holds_dag (holds_dag (holds_dag (holds_mul (holds_link hU hi hnu) (holds_link hU (l3 _) hnu)
      scratch) (holds_link hU (l2 _) hmu) scratch) (holds_link hU (l4 _) hnu) scratch) (holds_link hU (l4 _) hnu)
      scratch) (holds_link hU (l4 _) hmu) scratch)
  refine ⟨h.1.trans ?_, h.2⟩
  clear h
  path_simp
  simp only [n1, n2, n3, n4, c1, c2, d1, d2, l1, l2, l3, l4, hi, conjTranspose_mul, conjTranspose_conjTranspose,
    Matrix.mul_assoc]

theorem s4_2x1_eq {NC : ℕ} {L : Latt} (hL : Valid L) {lat : Gauge}
    (hU : SUField NC L lat) {i mu nu : ℕ} (hi : i < volume L) (hmu : mu < L.ND) (hnu : nu < L.ND) :
    Holds NC (s4_2x1 NC L lat i mu nu) (along NC L lat i (rect (nu, true) 1 (mu, false) 2)) := by
  obtain ⟨n1, n2, n3, n4⟩ := norm_rules hL hmu hnu
  obtain ⟨c1, c2⟩ := cancel_rules hL hmu
  obtain ⟨d1, d2⟩ := cancel_rules hL hnu
  obtain ⟨l1, l2⟩ := lt_rules hL hmu
  obtain ⟨l3, l4⟩ := lt_rules hL hnu
  have h : Holds NC (s4_2x1 NC L lat i mu nu) _ :=
    (holds_mul (holds_mul (holds_dag (holds_dag (holds_dag (holds_link hU hi hnu) (holds_link hU (l2 _) hmu)
      scratch) (holds_link hU (l2 _) hmu) scratch) (holds_link hU (l4 _) hnu) scratch) (holds_link hU (l4 _) hmu)
      scratch) (holds_link hU (l1 _) hmu) scratch)
  refine ⟨h.1.trans ?_, h.2⟩
  clear h
  path_simp
  simp only [n1, n2, n3, n4, c1, c2, d1, d2, l1, l2, l3, l4, hi, conjTranspose_mul, conjTranspose_conjTranspose,
    Matrix.mul_assoc]

theorem s4_1x3_eq {NC : ℕ} {L : Latt} (hL : Valid L) {lat : Gauge}
    (hU : SUField NC L lat) {i mu nu : ℕ} (hi : i < volume L) (hmu : mu < L.ND) (hnu : nu < L.ND) :
    Holds NC (s4_1x3 NC L lat i mu nu) (along NC L lat i (rect (nu, true) 3 (mu, false) 1)) := by
  obtain ⟨n1, n2, n3, n4⟩ := norm_rules hL hmu hnu
  obtain ⟨c1, c2⟩ := cancel_rules hL hmu
  obtain ⟨d1, d2⟩ := cancel_rules hL hnu
  obtain ⟨l1, l2⟩ := lt_rules hL hmu
  obtain ⟨l3, l4⟩ := lt_rules hL hnu
  have h : Holds NC (s4_1x3 NC L lat i mu nu) _ :=
    (holds_mul (holds_dag (holds_dag (holds_dag (holds_dag (holds_mul (holds_mul (holds_link hU hi hnu)
      (holds_link hU (l3 _) hnu) scratch) (holds_link hU (l3 _) hnu) scratch) (holds_link hU (l2 _) hmu) scratch)
      (holds_link hU (l4 _) hnu) scratch) (holds_link hU (l4 _) hnu) scratch) (holds_link hU (l4 _) hnu) scratch)
      (holds_link hU (l4 _) hmu) scratch)
  refine ⟨h.1.trans ?_, h.2⟩
  clear h
  path_simp
  simp only [n1, n2, n3, n4, c1, c2, d1, d2, l1, l2, l3, l4, hi, conjTranspose_mul, conjTranspose_conjTranspose,
    Matrix.mul_assoc]

theorem s4_3x1_eq {NC : ℕ} {L : Latt} (hL : Valid L) {lat : Gauge}
    (hU : SUField NC L lat) {i mu nu : ℕ} (hi : i < volume L) (hmu : mu < L.ND) (hnu : nu < L.ND) :
    Holds NC (s4_3x1 NC L lat i mu nu) (along NC L lat i (rect (nu, true) 1 (mu, false) 3)) := by
  obtain ⟨n1, n2, n3, n4⟩ := norm_rules hL hmu hnu
  obtain ⟨c1, c2⟩ := cancel_rules hL hmu
  obtain ⟨d1, d2⟩ := cancel_rules hL hnu
  obtain ⟨l1, l2⟩ := lt_rules hL hmu
  obtain ⟨l3, l4⟩ := lt_rules hL hnu
  have h : Holds NC (s4_3x1 NC L lat i mu nu) _ :=
    (holds_mul (holds_mul (holds_mul (holds_dag (holds_dag (holds_dag (holds_dag (holds_link hU hi hnu)
      (holds_link hU (l2 _) hmu) scratch) (holds_link hU (l2 _) hmu) scratch) (holds_link hU (l2 _) hmu) scratch)
      (holds_link hU (l4 _) hnu) scratch) (holds_link hU (l4 _) hmu) scratch) (holds_link hU (l1 _) hmu) scratch)
      (holds_link hU (l1 _) hmu) scratch)
  refine ⟨h.1.trans ?_, h.2⟩
  clear h
  path_simp
  simp only [n1, n2, n3, n4, c1, c2, d1, d2, l1, l2, l3, l4, hi, conjTranspose_mul, conjTranspose_conjTranspose,
    Matrix.mul_assoc]

theorem s4_3x3_eq {NC : ℕ} (hN : NC = 2 ∨ NC = 3) {L : Latt} (hL : Valid L) {lat : Gauge}
    (hU : SUField NC L lat) {i mu nu : ℕ} (hi : i < volume L) (hmu : mu < L.ND) (hnu : nu < L.ND) :
    Holds NC (s4_3x3 NC L lat i mu nu) (along NC L lat i (rect (nu, true) 3 (mu, false) 3)) := by
  obtain ⟨n1, n2, n3, n4⟩ := norm_rules hL hmu hnu
  obtain ⟨c1, c2⟩ := cancel_rules hL hmu
  obtain ⟨d1, d2⟩ := cancel_rules hL hnu
  obtain ⟨l1, l2⟩ := lt_rules hL hmu
  obtain ⟨l3, l4⟩ := lt_rules hL hnu
  have h : Holds NC (s4_3x3 NC L lat i mu nu) _ :=
    (holds_mul (holds_mul (holds_mul (holds_mul (holds_link hU hi hnu) (holds_link hU (l3 _) hnu) scratch)
      (holds_dag (holds_link hU (l3 _) hnu) (holds_link hU (l2 _) hmu) scratch) scratch) (holds_dagdag hN
      (holds_link hU (l2 _) hmu) (holds_link hU (l2 _) hmu) scratch) scratch) (holds_mul (holds_mul (holds_dagdag
      hN (holds_link hU (l4 _) hnu) (holds_link hU (l4 _) hnu) scratch) (holds_ldag (holds_link hU (l4 _) hnu)
      (holds_link hU (l4 _) hmu) scratch) scratch) (holds_mul (holds_link hU (l1 _) hmu) (holds_link hU (l1 _)
      hmu) scratch) scratch) scratch)
  refine ⟨h.1.trans ?_, h.2⟩
  clear h
  path_simp
  simp only [n1, n2, n3, n4, c1, c2, d1, d2, l1, l2, l3, l4, hi, conjTranspose_mul, conjTranspose_conjTranspose,
    Matrix.mul_assoc]

end GLU.Field
