import Verif.Field.Model
import Verif.Geom.Props
import Verif.Mat.UNopsProps
import Verif.Mat.MMulProps

/-!
# Helper lemmas for the gauge field model, and the objects the statements use
-/

namespace GLU.Field

open Complex Matrix GLU.Mat GLU.Geom GLU.Sched Finset

/-! ## Specification -/

/-- Every link is special unitary. -/
def SUField (NC : ℕ) (L : Latt) (lat : Gauge) : Prop :=
  ∀ i < volume L, ∀ mu < L.ND, IsSU NC (lat (i, mu))

/-- Every matrix of a gauge transformation is special unitary. -/
def SUGauge (NC : ℕ) (L : Latt) (g : ℕ → Arr ℂ) : Prop := ∀ i < volume L, IsSU NC (g i)

/-- The matrix stored on a link. -/
def link (NC : ℕ) (lat : Gauge) (i mu : ℕ) : Matrix (Fin NC) (Fin NC) ℂ := toM NC (lat (i, mu))

/-- Product of the links around the elementary square at `i` in the plane `mu`, `nu`. -/
def square (NC : ℕ) (L : Latt) (lat : Gauge) (i mu nu : ℕ) : Matrix (Fin NC) (Fin NC) ℂ :=
  link NC lat i mu * link NC lat (neighbor L i mu) nu * (link NC lat (neighbor L i nu) mu)ᴴ *
    (link NC lat i nu)ᴴ

/-- `lat'` is the field `lat` transformed by `g`:
`U'_mu(x) = g(x) U_mu(x) g(x+mu)^dagger` on every link. -/
def Transformed (NC : ℕ) (L : Latt) (g : ℕ → Arr ℂ) (lat lat' : Gauge) : Prop :=
  ∀ i < volume L, ∀ mu < L.ND,
    link NC lat' i mu = toM NC (g i) * link NC lat i mu * (toM NC (g (neighbor L i mu)))ᴴ

/-! ## Special unitary matrices -/

theorem su_star_mul {NC : ℕ} {a : Arr ℂ} (h : IsSU NC a) : (toM NC a)ᴴ * toM NC a = 1 := by
  have := (mem_specialUnitaryGroup_iff.1 h).1
  exact mem_unitaryGroup_iff'.1 this

theorem su_mul_star {NC : ℕ} {a : Arr ℂ} (h : IsSU NC a) : toM NC a * (toM NC a)ᴴ = 1 := by
  have := (mem_specialUnitaryGroup_iff.1 h).1
  exact mem_unitaryGroup_iff.1 this

/-! ## Loops over links -/

theorem update_loop {M : Type*} (m i : ℕ) (F : ℕ → M → M) (lat : Loc → M) (l : Loc) :
    forN m (fun mu lat => Function.update lat (i, mu) (F mu (lat (i, mu)))) lat l =
      if l.1 = i ∧ l.2 < m then F l.2 (lat l) else lat l := by
  induction m with
  | zero => simp [forN]
  | succ m ih =>
    obtain ⟨a, b⟩ := l
    have ih' : ∀ l' : Loc, l' = (i, m) → forN m (fun mu lat => Function.update lat (i, mu) (F mu (lat (i, mu)))) lat l' = lat l' := by
      rintro l' rfl
      clear ih
      have H := forN_inv (fun k (s : Loc → M) => ∀ b, k ≤ b → s (i, b) = lat (i, b)) (n := m)
        (body := fun mu lat => Function.update lat (i, mu) (F mu (lat (i, mu)))) (s := lat)
        (fun _ _ => rfl) (by
          intro k _ s hs b hb
          rw [Function.update_of_ne (by simp; omega)]
          exact hs b (by omega))
      exact H m (le_refl _)
    rw [forN, Function.update_apply]
    split
    · next h =>
      rw [ih' _ rfl, h]
      simp
    · next h =>
      rw [ih]
      simp only [Prod.mk.injEq, not_and] at h
      by_cases ha : a = i
      · have := h ha
        have e : (b < m) = (b < m + 1) := by
          apply propext; omega
        simp [ha, e]
      · simp [ha]

theorem update_loops {M : Type*} (n m o : ℕ) (F : ℕ → ℕ → M → M) (lat : Loc → M) (l : Loc) :
    forN n (fun i lat => forN m (fun mu lat => Function.update lat (o + i, mu) (F i mu (lat (o + i, mu)))) lat)
      lat l = if o ≤ l.1 ∧ l.1 < o + n ∧ l.2 < m then F (l.1 - o) l.2 (lat l) else lat l := by
  induction n generalizing l with
  | zero =>
    have : ¬ (o ≤ l.1 ∧ l.1 < o + 0 ∧ l.2 < m) := by omega
    rw [if_neg this]; rfl
  | succ n ih =>
    rw [forN, update_loop, ih]
    by_cases h1 : l.1 = o + n
    · have : ¬ (o ≤ l.1 ∧ l.1 < o + n ∧ l.2 < m) := by omega
      rw [if_neg this]
      by_cases h2 : l.2 < m
      · rw [if_pos ⟨h1, h2⟩, if_pos ⟨by omega, by omega, h2⟩, show l.1 - o = n by omega]
      · rw [if_neg (by tauto), if_neg (by tauto)]
    · rw [if_neg (by tauto)]
      have : (o ≤ l.1 ∧ l.1 < o + n ∧ l.2 < m) = (o ≤ l.1 ∧ l.1 < o + (n + 1) ∧ l.2 < m) := by
        apply propext; constructor <;> (rintro ⟨_, _, _⟩; refine ⟨?_, ?_, ?_⟩ <;> omega)
      simp only [this]

/-! ## Gauge transformation -/

theorem gtransform_local_eq {NC : ℕ} {a b c : Arr ℂ} (ha : IsSU NC a) (hb : IsSU NC b) (hc : IsSU NC c) :
    toM NC (gtransform_local NC a b c) = toM NC a * toM NC b * (toM NC c)ᴴ ∧
      IsSU NC (gtransform_local NC a b c) := by
  unfold gtransform_local
  obtain ⟨h1, h2⟩ := C11_multab_dag_suNC hb hc scratch
  obtain ⟨h3, h4⟩ := C11_multab_suNC ha h2 b
  exact ⟨by simp only; rw [h3, h1, Matrix.mul_assoc], h4⟩

theorem gtransform_apply (NC : ℕ) (L : Latt) (g : ℕ → Arr ℂ) (lat : Gauge) (i mu : ℕ) :
    gtransform NC L g lat (i, mu) = if i < volume L ∧ mu < L.ND then
      gtransform_local NC (g i) (lat (i, mu)) (g (neighbor L i mu)) else lat (i, mu) := by
  unfold gtransform
  have := update_loops (volume L) L.ND 0
    (fun i mu U => gtransform_local NC (g i) U (g (neighbor L i mu))) lat (i, mu)
  simp only [Nat.zero_add, Nat.zero_le, true_and, Nat.sub_zero] at this
  exact this

theorem gtransform_transformed {NC : ℕ} {L : Latt} (hL : Valid L) {g : ℕ → Arr ℂ} {lat : Gauge}
    (hg : SUGauge NC L g) (hU : SUField NC L lat) :
    Transformed NC L g lat (gtransform NC L g lat) ∧ SUField NC L (gtransform NC L g lat) := by
  constructor
  · intro i hi mu hmu
    unfold link
    rw [gtransform_apply, if_pos ⟨hi, hmu⟩]
    exact (gtransform_local_eq (hg i hi) (hU i hi mu hmu) (hg _ (neighbor_lt hL i hmu))).1
  · intro i hi mu hmu
    rw [gtransform_apply, if_pos ⟨hi, hmu⟩]
    exact (gtransform_local_eq (hg i hi) (hU i hi mu hmu) (hg _ (neighbor_lt hL i hmu))).2

/-! ## Plaquettes -/

theorem complete_plaquette_eq {NC : ℕ} {a b c : Arr ℂ} (ha : IsSU NC a) (hb : IsSU NC b)
    (hc : IsSU NC c) (d : Arr ℂ) :
    complete_plaquette NC a b c d =
      (Matrix.trace (toM NC a * toM NC b * (toM NC c)ᴴ * (toM NC d)ᴴ)).re := by
  unfold complete_plaquette
  split
  · next h =>
    subst h
    simp only [Matrix.trace, diag_apply, Fin.sum_univ_three, Matrix.mul_apply, conjTranspose_apply, toM_apply,
      ← add_re]
    congr 1
  split
  · next h =>
    subst h
    simp only [Matrix.trace, diag_apply, Fin.sum_univ_two, Matrix.mul_apply, conjTranspose_apply, toM_apply]
    congr 1
    simp
    ring
  · have hm : IsSU NC (multab_dag NC b c scratch) := by
      unfold IsSU
      rw [C10_multab_dag]
      exact isSU_mul hb (isSU_star hc)
    rw [C12_Re_trace_abc_dag_suNC ha hm, C10_multab_dag]
    simp only [Matrix.mul_assoc]

theorem face_eq {NC : ℕ} {L : Latt} (hL : Valid L) {lat : Gauge} (hU : SUField NC L lat) {i mu nu : ℕ}
    (hi : i < volume L) (hmu : mu < L.ND) (hnu : nu < L.ND) :
    face NC L lat i mu nu = (Matrix.trace (square NC L lat i mu nu)).re := by
  unfold face square link
  exact complete_plaquette_eq (hU i hi mu hmu) (hU _ (neighbor_lt hL i hmu) nu hnu)
    (hU _ (neighbor_lt hL i hnu) mu hmu) _

theorem link_mul_star {NC : ℕ} {L : Latt} {lat : Gauge} (hU : SUField NC L lat) {i mu : ℕ}
    (hi : i < volume L) (hmu : mu < L.ND) : link NC lat i mu * (link NC lat i mu)ᴴ = 1 :=
  su_mul_star (hU i hi mu hmu)

/-- Cancelling adjacent factors. -/
theorem cancel_left {n : ℕ} {A B : Matrix (Fin n) (Fin n) ℂ} (h : A * B = 1) (C : Matrix (Fin n) (Fin n) ℂ) :
    A * (B * C) = C := by
  rw [← Matrix.mul_assoc, h, Matrix.one_mul]

theorem square_transformed {NC : ℕ} {L : Latt} (hL : Valid L) {g : ℕ → Arr ℂ} {lat lat' : Gauge}
    (hg : SUGauge NC L g) (h : Transformed NC L g lat lat') {i mu nu : ℕ} (hi : i < volume L)
    (hmu : mu < L.ND) (hnu : nu < L.ND) :
    square NC L lat' i mu nu = toM NC (g i) * square NC L lat i mu nu * (toM NC (g i))ᴴ := by
  unfold square
  rw [h i hi mu hmu, h _ (neighbor_lt hL i hmu) nu hnu, h _ (neighbor_lt hL i hnu) mu hmu, h i hi nu hnu,
    (C02_commute hL hmu hnu).1]
  have c1 := cancel_left (su_star_mul (hg _ (neighbor_lt hL i hmu)))
  have c2 := cancel_left (su_star_mul (hg _ (neighbor_lt hL (neighbor L i nu) hmu)))
  have c3 := cancel_left (su_star_mul (hg _ (neighbor_lt hL i hnu)))
  simp only [conjTranspose_mul, conjTranspose_conjTranspose, Matrix.mul_assoc, c1, c2, c3]

theorem trace_conj {n : ℕ} {G A : Matrix (Fin n) (Fin n) ℂ} (h : Gᴴ * G = 1) :
    Matrix.trace (G * A * Gᴴ) = Matrix.trace A := by
  rw [Matrix.trace_mul_comm, ← Matrix.mul_assoc, h, Matrix.one_mul]

theorem face_transformed {NC : ℕ} {L : Latt} (hL : Valid L) {g : ℕ → Arr ℂ} {lat : Gauge}
    (hg : SUGauge NC L g) (hU : SUField NC L lat) {i mu nu : ℕ} (hi : i < volume L)
    (hmu : mu < L.ND) (hnu : nu < L.ND) :
    face NC L (gtransform NC L g lat) i mu nu = face NC L lat i mu nu := by
  obtain ⟨ht, hsu⟩ := gtransform_transformed hL hg hU
  rw [face_eq hL hsu hi hmu hnu, face_eq hL hU hi hmu hnu, square_transformed hL hg ht hi hmu hnu,
    trace_conj (su_star_mul (hg i hi))]

theorem sitePlaq_eq (NC : ℕ) (L : Latt) (lat : Gauge) (dirs i : ℕ) :
    sitePlaq NC L lat dirs i = ∑ mu ∈ range dirs, ∑ nu ∈ range mu, face NC L lat i mu nu := by
  unfold sitePlaq
  simp only [forN_sum, zero_add]

theorem siteTimePlaq_eq (NC : ℕ) (L : Latt) (lat : Gauge) (i : ℕ) :
    siteTimePlaq NC L lat i = ∑ nu ∈ range (L.ND - 1), face NC L lat i (L.ND - 1) nu := by
  unfold siteTimePlaq
  rw [forN_sum, zero_add]

/-! ## Staples -/

theorem foldl_range_sum {M R : Type*} [AddCommMonoid R] (f : M → R) (step : M → ℕ → M) (d : ℕ → R)
    (h : ∀ s j, f (step s j) = f s + d j) (n : ℕ) (s : M) :
    f ((List.range n).foldl step s) = f s + ∑ j ∈ range n, d j := by
  induction n with
  | zero => simp
  | succ n ih => rw [List.range_succ, List.foldl_append, List.foldl_cons, List.foldl_nil, h, ih, sum_range_succ, add_assoc]

/-- The two staples of direction `nu` around the link `(i, mu)`. -/
def stapleTerm (NC : ℕ) (L : Latt) (lat : Gauge) (i mu nu : ℕ) : Matrix (Fin NC) (Fin NC) ℂ :=
  link NC lat i nu * link NC lat (neighbor L i nu) mu * (link NC lat (neighbor L i mu) nu)ᴴ +
  (link NC lat (back L i nu) nu)ᴴ * link NC lat (back L i nu) mu *
    link NC lat (neighbor L (back L i nu) mu) nu

theorem sum_stapleDir {R : Type*} [AddCommMonoid R] {mu dir : ℕ} (h : mu < dir) (f : ℕ → R) :
    ∑ j ∈ range (dir - 1), f (stapleDir mu j) = ∑ nu ∈ (range dir).erase mu, f nu := by
  refine sum_bij (fun j _ => stapleDir mu j) ?_ ?_ ?_ ?_
  · intro j hj
    rw [mem_range] at hj
    rw [mem_erase, mem_range]
    unfold stapleDir; split <;> omega
  · intro a _ b _ hab
    unfold stapleDir at hab; split at hab <;> split at hab <;> omega
  · intro nu hnu
    rw [mem_erase, mem_range] at hnu
    rcases lt_or_gt_of_ne hnu.1 with hlt | hgt
    · exact ⟨nu, mem_range.2 (by omega), by unfold stapleDir; rw [if_pos hlt]⟩
    · exact ⟨nu - 1, mem_range.2 (by omega), by unfold stapleDir; rw [if_neg (by omega)]; omega⟩
  · intro j _; rfl

theorem staple_eq {NC : ℕ} {L : Latt} (hL : Valid L) {lat : Gauge} (hU : SUField NC L lat) {i mu dir : ℕ}
    (hi : i < volume L) (hmu : mu < dir) (hdir : dir ≤ L.ND) :
    toM NC (staple NC L lat i mu dir) = ∑ nu ∈ (range dir).erase mu, stapleTerm NC L lat i mu nu := by
  have hmu' : mu < L.ND := by omega
  rw [← sum_stapleDir hmu]
  unfold staple all_staples
  have key : ∀ (n : ℕ), n ≤ dir - 1 → toM NC ((List.range n).foldl (fun stap j =>
      let nu := stapleDir mu j
      let t1 := neighbor L i nu
      let t2 := neighbor L i mu
      let b1 := back L i nu
      let b2 := neighbor L b1 mu
      let top := (ops NC).multab_dag ((ops NC).multab (lat (i, nu)) (lat (t1, mu))) (lat (t2, nu))
      let bot := (ops NC).multab ((ops NC).multabdag (lat (b1, nu)) (lat (b1, mu))) (lat (b2, nu))
      (ops NC).a_plus_b ((ops NC).a_plus_b stap top) bot) (zero_mat NC scratch)) =
      ∑ j ∈ range n, stapleTerm NC L lat i mu (stapleDir mu j) := by
    intro n
    induction n with
    | zero => intro _; simp [C63_zero_mat]
    | succ n ih =>
      intro hn
      rw [List.range_succ, List.foldl_append, List.foldl_cons, List.foldl_nil, sum_range_succ]
      have hnu : stapleDir mu n < L.ND := by unfold stapleDir; split <;> omega
      set nu := stapleDir mu n with hnudef
      simp only [ops] at ih ⊢
      rw [C63_a_plus_b, C63_a_plus_b, ih (by omega), add_assoc]
      congr 1
      unfold stapleTerm link
      obtain ⟨e1, s1⟩ := C11_multab_suNC (hU i hi nu hnu) (hU _ (neighbor_lt hL i hnu) mu hmu') scratch
      obtain ⟨e2, -⟩ := C11_multab_dag_suNC s1 (hU _ (neighbor_lt hL i hmu') nu hnu) scratch
      obtain ⟨e3, s3⟩ := C11_multabdag_suNC (hU _ (back_lt hL i hnu) nu hnu) (hU _ (back_lt hL i hnu) mu hmu') scratch
      obtain ⟨e4, -⟩ := C11_multab_suNC s3 (hU _ (neighbor_lt hL (back L i nu) hmu') nu hnu) scratch
      rw [e2, e1, e4, e3]
  exact key (dir - 1) (le_refl _)

theorem stapleTerm_transformed {NC : ℕ} {L : Latt} (hL : Valid L) {g : ℕ → Arr ℂ} {lat lat' : Gauge}
    (hg : SUGauge NC L g) (h : Transformed NC L g lat lat') {i mu nu : ℕ} (hi : i < volume L)
    (hmu : mu < L.ND) (hnu : nu < L.ND) :
    stapleTerm NC L lat' i mu nu =
      toM NC (g i) * stapleTerm NC L lat i mu nu * (toM NC (g (neighbor L i mu)))ᴴ := by
  unfold stapleTerm
  have hb := back_lt hL i hnu
  rw [h i hi nu hnu, h _ (neighbor_lt hL i hnu) mu hmu, h _ (neighbor_lt hL i hmu) nu hnu,
    h _ hb nu hnu, h _ hb mu hmu, h _ (neighbor_lt hL _ hmu) nu hnu, (C02_inverse hL hi hnu).2,
    (C02_commute hL hmu hnu).1]
  have e : neighbor L (neighbor L (back L i nu) mu) nu = neighbor L i mu := by
    rw [(C02_commute hL hmu hnu).1, (C02_inverse hL hi hnu).2]
  rw [e]
  have c1 := cancel_left (su_star_mul (hg _ (neighbor_lt hL i hnu)))
  have c2 := cancel_left (su_star_mul (hg _ (neighbor_lt hL (neighbor L i nu) hmu)))
  have c3 := cancel_left (su_star_mul (hg _ hb))
  have c4 := cancel_left (su_star_mul (hg _ (neighbor_lt hL (back L i nu) hmu)))
  simp only [conjTranspose_mul, conjTranspose_conjTranspose, Matrix.mul_assoc, c1, c2, c3, c4,
    Matrix.mul_add, Matrix.add_mul]

theorem re_trace_star {n : ℕ} (A : Matrix (Fin n) (Fin n) ℂ) : (Matrix.trace Aᴴ).re = (Matrix.trace A).re := by
  rw [trace_conjTranspose]; simp

/-- `Re Tr( U S^dagger )` for the staples of one direction: two squares. -/
theorem link_staple {NC : ℕ} {L : Latt} (hL : Valid L) (lat : Gauge) {i mu nu : ℕ} (hi : i < volume L)
    (hmu : mu < L.ND) (hnu : nu < L.ND) :
    (Matrix.trace (link NC lat i mu * (stapleTerm NC L lat i mu nu)ᴴ)).re =
      (Matrix.trace (square NC L lat i mu nu)).re +
      (Matrix.trace (square NC L lat (back L i nu) mu nu)).re := by
  unfold stapleTerm
  rw [conjTranspose_add, Matrix.mul_add, Matrix.trace_add, add_re]
  congr 1
  · unfold square
    simp only [conjTranspose_mul, conjTranspose_conjTranspose, Matrix.mul_assoc]
  · have e : neighbor L (back L i nu) nu = i := (C02_inverse hL hi hnu).2
    unfold square
    rw [e]
    rw [← re_trace_star]
    simp only [conjTranspose_mul, conjTranspose_conjTranspose, Matrix.mul_assoc]
    rw [Matrix.trace_mul_comm]
    simp only [Matrix.mul_assoc]

/-- Summing over sites is invariant under a shift. -/
theorem sum_back {L : Latt} (hL : Valid L) {nu : ℕ} (hnu : nu < L.ND) (f : ℕ → ℝ) :
    ∑ i ∈ range (volume L), f (back L i nu) = ∑ i ∈ range (volume L), f i := by
  refine sum_bij (fun i _ => back L i nu) ?_ ?_ ?_ ?_
  · intro i _; exact mem_range.2 (back_lt hL i hnu)
  · intro a ha b hb hab
    rw [← (C02_inverse hL (mem_range.1 ha) hnu).2, ← (C02_inverse hL (mem_range.1 hb) hnu).2]
    exact congrArg (fun x => neighbor L x nu) hab
  · intro b hb
    exact ⟨neighbor L b nu, mem_range.2 (neighbor_lt hL b hnu), (C02_inverse hL (mem_range.1 hb) hnu).1⟩
  · intro i _; rfl

/-- The square with the two directions exchanged has the same real trace. -/
theorem square_swap {NC : ℕ} (L : Latt) (lat : Gauge) (i mu nu : ℕ) :
    (Matrix.trace (square NC L lat i nu mu)).re = (Matrix.trace (square NC L lat i mu nu)).re := by
  unfold square
  rw [← re_trace_star]
  simp only [conjTranspose_mul, conjTranspose_conjTranspose, Matrix.mul_assoc]

/-- A sum over ordered pairs of a symmetric function. -/
theorem sum_erase_symm (n : ℕ) (f : ℕ → ℕ → ℝ) (hf : ∀ a b, f a b = f b a) :
    ∑ mu ∈ range n, ∑ nu ∈ (range n).erase mu, f mu nu = 2 * ∑ mu ∈ range n, ∑ nu ∈ range mu, f mu nu := by
  have h1 : ∀ mu ∈ range n, ∑ nu ∈ (range n).erase mu, f mu nu = ∑ nu ∈ range n, f mu nu - f mu mu := by
    intro mu hmu
    rw [← Finset.add_sum_erase _ _ hmu]; ring
  rw [sum_congr rfl h1]
  clear h1
  induction n with
  | zero => simp
  | succ n ih =>
    rw [sum_range_succ, sum_range_succ (fun mu => ∑ nu ∈ range mu, f mu nu), mul_add, ← ih, sum_range_succ]
    have : ∑ x ∈ range n, (∑ nu ∈ range (n + 1), f x nu - f x x) =
        ∑ x ∈ range n, (∑ nu ∈ range n, f x nu - f x x) + ∑ x ∈ range n, f n x := by
      rw [← sum_add_distrib]
      refine sum_congr rfl fun x _ => ?_
      rw [sum_range_succ, hf x n]; ring
    rw [this]; ring

end GLU.Field
