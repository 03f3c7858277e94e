import Verif.Smear.Improve
import Mathlib.Data.List.Rotate

/-! # Improved staples: the paths and their products -/

namespace GLU.Smear

open GLU.Geom GLU.Sched GLU.Mat GLU.Field Complex Matrix

/-! ## The paths -/

/-- The parallelogram of three directions. -/
def para (a b c : Step) : List Step := [a, b, c, rev a, rev b, rev c]

/-- The path completes the link of direction `mu`, passed backwards, to a square: a rotation of it is one of the elementary
squares of the first `dir` directions. -/
def SquareStaple (dir mu : ℕ) (w : List Step) : Prop :=
  ∃ a b : Step, a.1 < dir ∧ b.1 < dir ∧ a.1 ≠ b.1 ∧ (w ++ [(mu, false)]) ~r rect a 1 b 1

/-- The same for rectangles of sides two and one. -/
def RectStaple (dir mu : ℕ) (w : List Step) : Prop :=
  ∃ a b : Step, a.1 < dir ∧ b.1 < dir ∧ a.1 ≠ b.1 ∧ (w ++ [(mu, false)]) ~r rect a 2 b 1

/-- The same for parallelograms. -/
def ParaStaple (dir mu : ℕ) (w : List Step) : Prop :=
  ∃ a b c : Step, a.1 < dir ∧ b.1 < dir ∧ c.1 < dir ∧ a.1 ≠ b.1 ∧ a.1 ≠ c.1 ∧ b.1 ≠ c.1 ∧
    (w ++ [(mu, false)]) ~r para a b c

/-- The other directions. -/
def others (dir mu : ℕ) : List ℕ := (List.range dir).filter (· ≠ mu)

/-- Paths of the square staples. -/
def squareWords (dir mu : ℕ) : List (List Step) :=
  (others dir mu).flatMap fun nu => [[(nu, true), (mu, true), (nu, false)], [(nu, false), (mu, true), (nu, true)]]

/-- Paths of the rectangle staples. -/
def rectWords (dir mu : ℕ) : List (List Step) :=
  (others dir mu).flatMap fun nu =>
    [[(nu, true), (nu, true), (mu, true), (nu, false), (nu, false)],
     [(nu, false), (nu, false), (mu, true), (nu, true), (nu, true)],
     [(nu, true), (mu, true), (mu, true), (nu, false), (mu, false)],
     [(nu, false), (mu, true), (mu, true), (nu, true), (mu, false)],
     [(mu, false), (nu, true), (mu, true), (mu, true), (nu, false)],
     [(mu, false), (nu, false), (mu, true), (mu, true), (nu, true)]]

/-- Paths of the staples with three directions in the code. -/
def loopWords (dir mu : ℕ) : List (List Step) :=
  (others dir mu).flatMap fun nu => ((List.range dir).filter fun rho => rho ≠ mu ∧ rho ≠ nu).flatMap fun rho =>
    [[(nu, true), (rho, true), (mu, true), (nu, false), (rho, false)],
     [(nu, false), (rho, false), (mu, true), (nu, true), (rho, true)]]

theorem mem_others {dir mu nu : ℕ} : nu ∈ others dir mu ↔ nu < dir ∧ nu ≠ mu := by simp [others]

theorem step_cases (s : Step) : s = (s.1, true) ∨ s = (s.1, false) := by
  obtain ⟨a, b⟩ := s; cases b <;> simp

theorem squareStaple_iff {dir mu : ℕ} (hmu : mu < dir) (w : List Step) : SquareStaple dir mu w ↔ w ∈ squareWords dir mu := by
  constructor
  · rintro ⟨⟨a, s⟩, ⟨b, t⟩, ha, hb, hab, h⟩
    obtain ⟨n, hn, e⟩ := List.isRotated_iff_mod.1 h.symm
    simp only [rect, List.length_append, List.length_replicate] at hn
    have hw : w = ((rect (a, s) 1 (b, t) 1).rotate n).dropLast := by rw [e, List.dropLast_concat]
    have hl : ((rect (a, s) 1 (b, t) 1).rotate n).getLast? = some (mu, false) := by rw [e, List.getLast?_concat]
    simp only [squareWords, List.mem_flatMap, mem_others]
    have : n = 0 ∨ n = 1 ∨ n = 2 ∨ n = 3 ∨ n = 4 := by omega
    simp only at ha hb hab
    rcases this with rfl | rfl | rfl | rfl | rfl <;> cases s <;> cases t <;>
      simp [rect, rev, List.rotate] at hw hl <;> subst hw <;> subst hl <;>
      first
        | exact ⟨a, ⟨ha, hab⟩, by simp⟩
        | exact ⟨b, ⟨hb, Ne.symm hab⟩, by simp⟩
  · simp only [squareWords, List.mem_flatMap, mem_others]
    rintro ⟨nu, ⟨h1, h2⟩, h⟩
    simp only [List.mem_cons, List.not_mem_nil, or_false] at h
    rcases h with rfl | rfl
    · exact ⟨(nu, true), (mu, true), h1, hmu, h2, ⟨0, rfl⟩⟩
    · exact ⟨(nu, false), (mu, true), h1, hmu, h2, ⟨0, rfl⟩⟩

theorem rectStaple_iff {dir mu : ℕ} (hmu : mu < dir) (w : List Step) : RectStaple dir mu w ↔ w ∈ rectWords dir mu := by
  constructor
  · rintro ⟨⟨a, s⟩, ⟨b, t⟩, ha, hb, hab, h⟩
    obtain ⟨n, hn, e⟩ := List.isRotated_iff_mod.1 h.symm
    simp only [rect, List.length_append, List.length_replicate] at hn
    have hw : w = ((rect (a, s) 2 (b, t) 1).rotate n).dropLast := by rw [e, List.dropLast_concat]
    have hl : ((rect (a, s) 2 (b, t) 1).rotate n).getLast? = some (mu, false) := by rw [e, List.getLast?_concat]
    simp only [rectWords, List.mem_flatMap, mem_others]
    have : n = 0 ∨ n = 1 ∨ n = 2 ∨ n = 3 ∨ n = 4 ∨ n = 5 ∨ n = 6 := by omega
    simp only at ha hb hab
    rcases this with rfl | rfl | rfl | rfl | rfl | rfl | rfl <;> cases s <;> cases t <;>
      simp [rect, rev, List.rotate, List.replicate] at hw hl <;> subst hw <;> subst hl <;>
      first
        | exact ⟨a, ⟨ha, hab⟩, by simp⟩
        | exact ⟨b, ⟨hb, Ne.symm hab⟩, by simp⟩
  · simp only [rectWords, List.mem_flatMap, mem_others]
    rintro ⟨nu, ⟨h1, h2⟩, h⟩
    simp only [List.mem_cons, List.not_mem_nil, or_false] at h
    rcases h with rfl | rfl | rfl | rfl | rfl | rfl
    · exact ⟨(nu, true), (mu, true), h1, hmu, h2, ⟨0, rfl⟩⟩
    · exact ⟨(nu, false), (mu, true), h1, hmu, h2, ⟨0, rfl⟩⟩
    · exact ⟨(mu, true), (nu, false), hmu, h1, h2.symm, ⟨1, rfl⟩⟩
    · exact ⟨(mu, true), (nu, true), hmu, h1, h2.symm, ⟨1, rfl⟩⟩
    · exact ⟨(mu, true), (nu, false), hmu, h1, h2.symm, ⟨2, rfl⟩⟩
    · exact ⟨(mu, true), (nu, true), hmu, h1, h2.symm, ⟨2, rfl⟩⟩

theorem others_nodup (dir mu : ℕ) : (others dir mu).Nodup := List.nodup_range.filter _

theorem squareWords_nodup (dir mu : ℕ) : (squareWords dir mu).Nodup := by
  unfold squareWords
  rw [List.nodup_flatMap]
  refine ⟨fun nu _ => by simp, ?_⟩
  refine (others_nodup dir mu).imp fun {a b} h => ?_
  simp [Function.onFun, List.disjoint_left, h]

theorem rectWords_nodup (dir mu : ℕ) : (rectWords dir mu).Nodup := by
  unfold rectWords
  rw [List.nodup_flatMap]
  refine ⟨fun nu h => by have := (mem_others.1 h).2; simp [this], ?_⟩
  refine (others_nodup dir mu).imp_of_mem fun {a b} ha hb h => ?_
  have := (mem_others.1 ha).2
  have := (mem_others.1 hb).2
  simp [Function.onFun, List.disjoint_left, *]

/-! ## The products -/

/-- The sum over paths from `i`. -/
noncomputable def pathSum (NC : ℕ) (L : Latt) (lat : Gauge) (i : ℕ) (ws : List (List Step)) : Matrix (Fin NC) (Fin NC) ℂ :=
  (ws.map (along NC L lat i)).sum

theorem pathSum_append (NC : ℕ) (L : Latt) (lat : Gauge) (i : ℕ) (v w : List (List Step)) :
    pathSum NC L lat i (v ++ w) = pathSum NC L lat i v + pathSum NC L lat i w := by simp [pathSum]

theorem back_nn {L : Latt} (hL : Valid L) {x mu nu : ℕ} (hx : x < volume L) (hmu : mu < L.ND) (hnu : nu < L.ND) :
    back L (neighbor L (neighbor L x nu) mu) nu = neighbor L x mu := by
  rw [(C02_commute hL hnu hmu).1, (C02_inverse hL (neighbor_lt hL x hmu) hnu).1]

theorem nn_back {L : Latt} (hL : Valid L) {x mu nu : ℕ} (hx : x < volume L) (hmu : mu < L.ND) (hnu : nu < L.ND) :
    neighbor L (neighbor L (back L x nu) mu) nu = neighbor L x mu := by
  rw [(C02_commute hL hmu hnu).1, (C02_inverse hL hx hnu).2]

variable {NC : ℕ} {L : Latt} {lat : Gauge}

theorem dir_words (hL : Valid L) (hN : NC = 2 ∨ NC = 3) (hU : SUField NC L lat) (loop : Bool) {i mu nu : ℕ} (dir : ℕ) (hi : i < volume L)
    (hmu : mu < L.ND) (hnu : nu < L.ND) (hne : nu ≠ mu) (s : Sums) :
    toM NC (improveDir NC L lat loop i mu dir nu s).c0 = toM NC s.c0 + pathSum NC L lat i
      [[(nu, true), (mu, true), (nu, false)], [(nu, false), (mu, true), (nu, true)]] ∧
    toM NC (improveDir NC L lat loop i mu dir nu s).c1 = toM NC s.c1 + pathSum NC L lat i
      [[(nu, true), (nu, true), (mu, true), (nu, false), (nu, false)],
       [(nu, false), (nu, false), (mu, true), (nu, true), (nu, true)],
       [(nu, true), (mu, true), (mu, true), (nu, false), (mu, false)],
       [(nu, false), (mu, true), (mu, true), (nu, true), (mu, false)],
       [(mu, false), (nu, true), (mu, true), (mu, true), (nu, false)],
       [(mu, false), (nu, false), (mu, true), (mu, true), (nu, true)]] := by
  have N := fun x (_ : x < volume L) => neighbor_lt hL x hmu
  have N' := fun x (_ : x < volume L) => neighbor_lt hL x hnu
  have U := fun x hx => hU x hx mu hmu
  have U' := fun x hx => hU x hx nu hnu
  -- sites
  have t1 := neighbor_lt hL i hnu
  have t2 := neighbor_lt hL i hmu
  have b1 := back_lt hL i hnu
  have b2 := neighbor_lt hL (back L i nu) hmu
  have tv2 := neighbor_lt hL (neighbor L i nu) hnu
  have tv4 := neighbor_lt hL (neighbor L i mu) hnu
  have bv2 := back_lt hL (back L i nu) hnu
  have bv3 := neighbor_lt hL (back L (back L i nu) nu) hmu
  have bv4 := neighbor_lt hL (neighbor L (back L (back L i nu) nu) mu) hnu
  have tf2 := neighbor_lt hL (neighbor L i nu) hmu
  have tf4 := neighbor_lt hL (neighbor L i mu) hmu
  have bf3 := neighbor_lt hL (neighbor L (back L i nu) mu) hmu
  have tb1 := back_lt hL i hmu
  have tb2 := neighbor_lt hL (back L i mu) hnu
  have tb3 := neighbor_lt hL (neighbor L (back L i mu) nu) hmu
  have bb2 := back_lt hL (back L i mu) hnu
  have bb3 := neighbor_lt hL (back L (back L i mu) nu) hmu
  have bb4 := neighbor_lt hL (neighbor L (back L (back L i mu) nu) mu) hmu
  -- products
  have p1 := C11_multab_suNC (U' _ hi) (U _ t1) scratch
  have p2 := C11_multab_dag_suNC p1.2 (U' _ t2) scratch
  have p3 := C11_multabdag_suNC (U' _ b1) (U _ b1) scratch
  have p4 := C11_multab_suNC p3.2 (U' _ b2) scratch
  have p5 := C11_multab_suNC (U' _ hi) (U' _ t1) scratch
  have p6 := C11_multab_suNC p5.2 (U _ tv2) scratch
  have p7 := C11_multab_dag_suNC p6.2 (U' _ tv4) scratch
  have p8 := C11_multab_dag_suNC p7.2 (U' _ t2) scratch
  have p9 := C11_multab_dagdag_suNC_partial hN (U' _ b1) (U' _ bv2) scratch
  have p10 := C11_multab_suNC p9.2 (U _ bv2) scratch
  have p11 := C11_multab_suNC p10.2 (U' _ bv3) scratch
  have p12 := C11_multab_suNC p11.2 (U' _ bv4) scratch
  have p13 := C11_multab_suNC p1.2 (U _ tf2) scratch
  have p14 := C11_multab_dag_suNC p13.2 (U' _ tf4) scratch
  have p15 := C11_multab_suNC p3.2 (U _ b2) scratch
  have p16 := C11_multab_suNC p15.2 (U' _ bf3) scratch
  have p17 := C11_multab_suNC (U' _ tb1) (U _ tb2) scratch
  have p18 := C11_multab_suNC p17.2 (U _ tb3) scratch
  have p19 := C11_multab_dag_suNC p18.2 (U' _ t2) scratch
  have p20 := C11_multabdag_suNC (U' _ bb2) (U _ bb2) scratch
  have p21 := C11_multab_suNC p20.2 (U _ bb3) scratch
  have p22 := C11_multab_suNC p21.2 (U' _ bb4) scratch
  unfold improveDir
  rw [if_neg hne]
  refine ⟨?_, ?_⟩
  · simp only [C63_a_plus_b, p2.1, p1.1, p4.1, p3.1, pathSum, List.map_cons, List.map_nil, List.sum_cons, List.sum_nil, along,
      hopLink, hop, if_true, Bool.false_eq_true, if_false, Matrix.mul_one, add_zero, link]
    rw [back_nn hL hi hmu hnu]
    simp only [Matrix.mul_assoc, add_assoc]
  · simp only [C63_a_plus_b, C63_equiv, C10_multab_dag, C10_multabdag, p22.1, p21.1, p20.1, p19.1, p18.1, p17.1, p16.1, p15.1, p14.1,
      p13.1, p12.1, p11.1, p10.1, p9.1, p8.1, p7.1, p6.1, p5.1, p1.1, p3.1, pathSum, List.map_cons, List.map_nil, List.sum_cons,
      List.sum_nil, along, hopLink, hop, if_true, Bool.false_eq_true, if_false, Matrix.mul_one, add_zero, link]
    have e1 : back L (neighbor L (neighbor L (neighbor L i nu) nu) mu) nu = neighbor L (neighbor L i nu) mu := back_nn hL t1 hmu hnu
    have e2 := back_nn hL hi hmu hnu
    have e3 : neighbor L (neighbor L i nu) mu = neighbor L (neighbor L i mu) nu := (C02_commute hL hnu hmu).1
    have e4 : back L (neighbor L (neighbor L (neighbor L i nu) mu) mu) nu = neighbor L (neighbor L i mu) mu := by
      rw [e3, back_nn hL t2 hmu hnu]
    have e5 : back L (neighbor L (neighbor L i mu) mu) mu = neighbor L i mu := (C02_inverse hL t2 hmu).1
    have e6 : neighbor L (neighbor L (neighbor L (back L i nu) mu) mu) nu = neighbor L (neighbor L i mu) mu := by
      rw [← nn_back hL hi hmu hnu, (C02_commute hL hnu hmu).1]
    have e7 : neighbor L (neighbor L (back L i mu) nu) mu = neighbor L i nu := nn_back hL hi hnu hmu
    have e8 : back L (neighbor L (neighbor L (neighbor L (back L i mu) nu) mu) mu) nu = neighbor L i mu := by rw [e7, e2]
    simp only [e1, e2, e4, e5, e6, e8, ← e3, Matrix.mul_add, Matrix.add_mul, Matrix.mul_assoc, add_assoc]

theorem oneLoop_words (hL : Valid L) (hN : NC = 2 ∨ NC = 3) (hU : SUField NC L lat) {i mu nu dir : ℕ} (hd : dir ≤ L.ND)
    (hi : i < volume L) (hmu : mu < L.ND) (hnu : nu < L.ND) (c2 : Arr ℂ) :
    toM NC (oneLoop NC L lat i mu dir nu c2) = toM NC c2 + pathSum NC L lat i
      (((List.range dir).filter fun rho => rho ≠ mu ∧ rho ≠ nu).flatMap fun rho =>
        [[(nu, true), (rho, true), (mu, true), (nu, false), (rho, false)],
         [(nu, false), (rho, false), (mu, true), (nu, true), (rho, true)]]) := by
  unfold oneLoop
  induction dir with
  | zero => simp [forN, pathSum]
  | succ k ih =>
    rw [forN]
    have ih := ih (by omega)
    generalize forN k _ c2 = c at ih ⊢
    rw [List.range_succ, List.filter_append, List.flatMap_append, pathSum_append, ← add_assoc, ← ih]
    by_cases hk : k ≠ mu ∧ k ≠ nu
    · rw [if_pos hk]
      have hk' : k < L.ND := by omega
      have e : List.filter (fun rho => decide (rho ≠ mu ∧ rho ≠ nu)) [k] = [k] := by simp [hk]
      rw [e]
      have U := fun x hx => hU x hx mu hmu
      have U' := fun x hx => hU x hx nu hnu
      have U'' := fun x hx => hU x hx k hk'
      have t1 := neighbor_lt hL i hnu
      have t2 := neighbor_lt hL (neighbor L i nu) hk'
      have t3 := neighbor_lt hL i hmu
      have t4 := neighbor_lt hL (neighbor L i mu) hk'
      have b1 := back_lt hL i hnu
      have b2 := back_lt hL (back L i nu) hk'
      have b3 := neighbor_lt hL (back L (back L i nu) k) hmu
      have b4 := neighbor_lt hL (neighbor L (back L (back L i nu) k) mu) hnu
      have p1 := C11_multab_suNC (U' _ hi) (U'' _ t1) scratch
      have p2 := C11_multab_suNC p1.2 (U _ t2) scratch
      have p3 := C11_multab_dag_suNC p2.2 (U' _ t4) scratch
      have p4 := C11_multab_dag_suNC p3.2 (U'' _ t3) scratch
      have p5 := C11_multab_dagdag_suNC_partial hN (U' _ b1) (U'' _ b2) scratch
      have p6 := C11_multab_suNC p5.2 (U _ b2) scratch
      have p7 := C11_multab_suNC p6.2 (U' _ b3) scratch
      have p8 := C11_multab_suNC p7.2 (U'' _ b4) scratch
      simp only [C63_a_plus_b, p8.1, p7.1, p6.1, p5.1, p4.1, p3.1, p2.1, p1.1, pathSum, List.flatMap_cons, List.flatMap_nil,
        List.append_nil, List.map_cons, List.map_nil, List.sum_cons, List.sum_nil, along, hopLink, hop, if_true,
        Bool.false_eq_true, if_false, Matrix.mul_one, add_zero, link]
      have e1 : back L (neighbor L (neighbor L (neighbor L i nu) k) mu) nu = neighbor L (neighbor L i mu) k := by
        rw [(C02_commute hL hnu hk').1, back_nn hL (neighbor_lt hL i hk') hmu hnu, (C02_commute hL hk' hmu).1]
      have e2 : back L (neighbor L (neighbor L i mu) k) k = neighbor L i mu := (C02_inverse hL t3 hk').1
      simp only [e1, e2, Matrix.mul_assoc, add_assoc]
    · rw [if_neg hk]
      have e : List.filter (fun rho => decide (rho ≠ mu ∧ rho ≠ nu)) [k] = [] := by simp [hk]
      rw [e]
      simp [pathSum]

theorem improveDir_c2 (loop : Bool) (i mu dir nu : ℕ) (hne : nu ≠ mu) (s : Sums) :
    (improveDir NC L lat loop i mu dir nu s).c2 = if loop then oneLoop NC L lat i mu dir nu s.c2 else s.c2 := by
  unfold improveDir
  rw [if_neg hne]

theorem sums_words (hL : Valid L) (hN : NC = 2 ∨ NC = 3) (hU : SUField NC L lat) (loop : Bool) {i mu dir : ℕ} (hd : dir ≤ L.ND)
    (hi : i < volume L) (hmu : mu < L.ND) :
    toM NC (improveSums NC L lat loop i mu dir).c0 = pathSum NC L lat i (squareWords dir mu) ∧
    toM NC (improveSums NC L lat loop i mu dir).c1 = pathSum NC L lat i (rectWords dir mu) ∧
    (loop = true → toM NC (improveSums NC L lat loop i mu dir).c2 = pathSum NC L lat i (loopWords dir mu)) := by
  unfold improveSums squareWords rectWords loopWords others
  have key : ∀ k ≤ dir, ∀ r, r = forN k (improveDir NC L lat loop i mu dir)
      ⟨zero_mat NC scratch, zero_mat NC scratch, zero_mat NC scratch⟩ →
    toM NC r.c0 = pathSum NC L lat i (((List.range k).filter (· ≠ mu)).flatMap fun nu =>
      [[(nu, true), (mu, true), (nu, false)], [(nu, false), (mu, true), (nu, true)]]) ∧
    toM NC r.c1 = pathSum NC L lat i (((List.range k).filter (· ≠ mu)).flatMap fun nu =>
      [[(nu, true), (nu, true), (mu, true), (nu, false), (nu, false)],
       [(nu, false), (nu, false), (mu, true), (nu, true), (nu, true)],
       [(nu, true), (mu, true), (mu, true), (nu, false), (mu, false)],
       [(nu, false), (mu, true), (mu, true), (nu, true), (mu, false)],
       [(mu, false), (nu, true), (mu, true), (mu, true), (nu, false)],
       [(mu, false), (nu, false), (mu, true), (mu, true), (nu, true)]]) ∧
    (loop = true → toM NC r.c2 = pathSum NC L lat i (((List.range k).filter (· ≠ mu)).flatMap fun nu =>
      ((List.range dir).filter fun rho => rho ≠ mu ∧ rho ≠ nu).flatMap fun rho =>
        [[(nu, true), (rho, true), (mu, true), (nu, false), (rho, false)],
         [(nu, false), (rho, false), (mu, true), (nu, true), (rho, true)]])) := by
    intro k
    induction k with
    | zero =>
      rintro _ r rfl
      simp only [forN, C63_zero_mat]
      simp [pathSum]
    | succ k ih =>
      rintro hk r rfl
      have ih := ih (by omega) _ rfl
      rw [forN]
      generalize forN k (improveDir NC L lat loop i mu dir) _ = r at ih ⊢
      obtain ⟨h0, h1, h2⟩ := ih
      rw [List.range_succ, List.filter_append]
      simp only [List.flatMap_append, pathSum_append, ← h0, ← h1]
      by_cases hm : k = mu
      · have e : List.filter (fun x => decide (x ≠ mu)) [k] = [] := by simp [hm]
        rw [e]
        have e2 : improveDir NC L lat loop i mu dir k r = r := by unfold improveDir; rw [if_pos hm]
        rw [e2]
        refine ⟨by simp [pathSum], by simp [pathSum], fun hl => ?_⟩
        rw [h2 hl]
        simp [pathSum]
      · have e : List.filter (fun x => decide (x ≠ mu)) [k] = [k] := by simp [hm]
        rw [e]
        have := dir_words hL hN hU loop dir hi hmu (show k < L.ND by omega) hm r
        rw [this.1, this.2, improveDir_c2 loop i mu dir k hm]
        refine ⟨by simp, by simp, fun hl => ?_⟩
        rw [if_pos hl, oneLoop_words hL hN hU hd hi hmu (show k < L.ND by omega), h2 hl]
        simp
  exact key dir le_rfl _ rfl

end GLU.Smear
