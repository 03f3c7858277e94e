import Verif.Field.RandomModel
import Verif.Field.PolyProps
import Verif.Field.Props
import Verif.Field.LinksProps
import Verif.Mat.GramProps
import Verif.Field.CloverProps

/-!
# C108: random, unit and reunitarised configurations
-/

namespace GLU.Field

open Complex Matrix GLU.Mat GLU.Geom GLU.Sched GLU.Rng Finset
open scoped Classical

/-! ## Specification -/

/-- The pairs of a stream that lie inside the unit circle, in order. -/
noncomputable def used (l : List (ℝ × ℝ)) : List (ℝ × ℝ) := l.filter fun p => Accepted p

/-- The complex number the polar method makes from a pair. -/
noncomputable def gauss (p : ℝ × ℝ) : ℂ :=
  let s := (2 * p.1 - 1) ^ 2 + (2 * p.2 - 1) ^ 2
  Real.sqrt (-Real.log s / s) * ((2 * p.1 - 1 : ℝ) + I * (2 * p.2 - 1 : ℝ))

/-- Matrix number `n` of a thread: its numbers are made from the pairs `n * NC * NC`, ... used. -/
noncomputable def entries (NC : ℕ) (a : List (ℝ × ℝ)) (n : ℕ) : Arr ℂ := fun i =>
  if i < NC * NC then (a[n * (NC * NC) + i]?).elim 0 gauss else 0

/-- Matrix number `n` of a thread after the Gram-Schmidt process; `none` when one of the pairs is the
centre of the circle or when vectors are linearly dependent. -/
noncomputable def drawn (NC : ℕ) (a : List (ℝ × ℝ)) (n : ℕ) : Option (Arr ℂ) :=
  if ∃ i < NC * NC, a[n * (NC * NC) + i]? = some (1 / 2, 1 / 2) then none
  else gram_reunit NC (entries NC a n) scratch

/-- The iterations of thread `t`, in order. -/
def tasks {ι : Type} (sched : List (ι × ℕ)) (t : ℕ) : List ι :=
  (sched.filter fun it => it.2 = t).map Prod.fst

/-! ## One matrix -/

theorem accepted_iff (x y : ℝ) : (2 * x - 1) * (2 * x - 1) + (2 * y - 1) * (2 * y - 1) < 1 ↔ Accepted (x, y) := by
  unfold Accepted
  rw [sq, sq]

theorem centre_iff (x y : ℝ) :
    (2 * x - 1) * (2 * x - 1) + (2 * y - 1) * (2 * y - 1) = 0 ↔ ((x, y) : ℝ × ℝ) = (1 / 2, 1 / 2) := by
  rw [Prod.mk.injEq]
  constructor
  · intro h
    have h1 : (2 * x - 1) * (2 * x - 1) = 0 := by nlinarith [mul_self_nonneg (2 * x - 1), mul_self_nonneg (2 * y - 1)]
    have h2 : (2 * y - 1) * (2 * y - 1) = 0 := by nlinarith [mul_self_nonneg (2 * x - 1), mul_self_nonneg (2 * y - 1)]
    have h1 := mul_self_eq_zero.1 h1
    have h2 := mul_self_eq_zero.1 h2
    exact ⟨by linarith, by linarith⟩
  · rintro ⟨rfl, rfl⟩
    norm_num

/-- The number made from a pair, `none` at the centre. -/
noncomputable def value (p : ℝ × ℝ) : Option ℂ := if p = (1 / 2, 1 / 2) then none else some (gauss p)

theorem box_nil {l : List (ℝ × ℝ)} (h : used l = []) : box_rest l = none := by
  induction l with
  | nil => rfl
  | cons p l ih =>
    obtain ⟨x, y⟩ := p
    unfold used at h ih
    rw [List.filter_cons] at h
    by_cases ha : Accepted (x, y)
    · simp [ha] at h
    · simp only [ha, decide_false, Bool.false_eq_true, if_false] at h
      rw [box_rest]
      rw [if_neg (by rw [accepted_iff]; exact ha)]
      exact ih h

theorem box_cons {l r : List (ℝ × ℝ)} {p : ℝ × ℝ} (h : used l = p :: r) :
    ∃ l', box_rest l = some (value p, l') ∧ used l' = r := by
  induction l with
  | nil => simp [used] at h
  | cons q l ih =>
    obtain ⟨x, y⟩ := q
    unfold used at h ih
    rw [List.filter_cons] at h
    rw [box_rest]
    by_cases ha : Accepted (x, y)
    · simp only [ha, decide_true, if_true, List.cons.injEq] at h
      rw [if_pos (by rw [accepted_iff]; exact ha)]
      refine ⟨l, ?_, h.2⟩
      congr 2
      rw [← h.1]
      unfold value gauss
      by_cases hc : ((x, y) : ℝ × ℝ) = (1 / 2, 1 / 2)
      · rw [if_pos hc, if_pos ((centre_iff x y).2 hc)]
      · rw [if_neg hc, if_neg (fun e => hc ((centre_iff x y).1 e))]
        simp only [sq, Complex.ofReal_sub, Complex.ofReal_mul, Complex.ofReal_ofNat, Complex.ofReal_one]
    · simp only [ha, decide_false, Bool.false_eq_true, if_false] at h
      rw [if_neg (by rw [accepted_iff]; exact ha)]
      exact ih h

/-- The matrix after `k` numbers. -/
noncomputable def filled (a : List (ℝ × ℝ)) (k : ℕ) : Option (Arr ℂ) :=
  if ∃ i < k, a[i]? = some (1 / 2, 1 / 2) then none
  else some fun i => if i < k then (a[i]?).elim 0 gauss else 0

theorem generate_aux (l : List (ℝ × ℝ)) (k : ℕ) (hk : k ≤ (used l).length) :
    ∃ l', forN k (fun i (st : Option (Option (Arr ℂ) × List (ℝ × ℝ))) =>
      st.bind fun st => (box_rest st.2).map fun r =>
        (st.1.bind fun U => r.1.map fun z => Function.update U i z, r.2)) (some (some scratch, l)) =
        some (filled (used l) k, l') ∧ used l' = (used l).drop k := by
  induction k with
  | zero => exact ⟨l, by simp [forN, filled, scratch]; rfl, by simp⟩
  | succ k ih =>
    obtain ⟨l', h1, h2⟩ := ih (by omega)
    have hd : used l' = (used l)[k] :: (used l).drop (k + 1) := by
      rw [h2, List.drop_eq_getElem_cons (by omega)]
    obtain ⟨l'', h3, h4⟩ := box_cons hd
    refine ⟨l'', ?_, h4⟩
    rw [forN, h1]
    simp only [Option.bind_some, h3, Option.map_some]
    congr 2
    have hg : (used l)[k]? = some (used l)[k] := List.getElem?_eq_getElem (by omega)
    unfold filled value
    by_cases hb : ∃ i < k, (used l)[i]? = some (1 / 2, 1 / 2)
    · obtain ⟨i, hi, he⟩ := hb
      rw [if_pos ⟨i, hi, he⟩, Option.bind_none, if_pos ⟨i, by omega, he⟩]
    · rw [if_neg hb, Option.bind_some]
      by_cases hc : (used l)[k] = (1 / 2, 1 / 2)
      · rw [if_pos hc, if_pos ⟨k, by omega, by rw [hg, hc]⟩]
        rfl
      · rw [if_neg hc, if_neg, Option.map_some]
        · congr 1
          funext i
          by_cases hi : i = k
          · subst hi
            rw [Function.update_self, if_pos (by omega), hg]
            rfl
          · rw [Function.update_of_ne hi]
            by_cases hl : i < k
            · rw [if_pos hl, if_pos (by omega)]
            · rw [if_neg hl, if_neg (by omega)]
        · rintro ⟨i, hi, he⟩
          by_cases hik : i = k
          · subst hik
            rw [hg, Option.some.injEq] at he
            exact hc he
          · exact hb ⟨i, by omega, he⟩

theorem generate_none (l : List (ℝ × ℝ)) (k : ℕ) (hk : (used l).length < k) :
    forN k (fun i (st : Option (Option (Arr ℂ) × List (ℝ × ℝ))) =>
      st.bind fun st => (box_rest st.2).map fun r =>
        (st.1.bind fun U => r.1.map fun z => Function.update U i z, r.2)) (some (some scratch, l)) = none := by
  induction k with
  | zero => omega
  | succ k ih =>
    rw [forN]
    by_cases h : (used l).length < k
    · rw [ih h]; rfl
    · have e : k = (used l).length := by omega
      obtain ⟨l', h1, h2⟩ := generate_aux l k (by omega)
      rw [h1, Option.bind_some, box_nil (by rw [h2, e, List.drop_length])]
      rfl

theorem gen_some {NC : ℕ} {l : List (ℝ × ℝ)} (h : NC * NC ≤ (used l).length) :
    ∃ l', Sunitary_gen NC l = some (drawn NC (used l) 0, l') ∧ used l' = (used l).drop (NC * NC) := by
  obtain ⟨l', h1, h2⟩ := generate_aux l (NC * NC) h
  refine ⟨l', ?_, h2⟩
  unfold Sunitary_gen par_generate_NCxNC
  rw [h1, Option.map_some]
  congr 2
  unfold filled drawn entries
  simp only [Nat.zero_mul, Nat.zero_add]
  split <;> rfl

theorem gen_none {NC : ℕ} {l : List (ℝ × ℝ)} (h : (used l).length < NC * NC) : Sunitary_gen NC l = none := by
  unfold Sunitary_gen par_generate_NCxNC
  rw [generate_none l _ h]
  rfl

theorem drawn_drop (NC : ℕ) (a : List (ℝ × ℝ)) (n : ℕ) : drawn NC (a.drop (NC * NC)) n = drawn NC a (n + 1) := by
  have e : ∀ i, (a.drop (NC * NC))[n * (NC * NC) + i]? = a[(n + 1) * (NC * NC) + i]? := by
    intro i
    rw [List.getElem?_drop]
    congr 1
    ring
  unfold drawn entries
  simp only [e]

theorem drawn_su {NC : ℕ} (hN : 1 < NC) {a : List (ℝ × ℝ)} {n : ℕ} {U : Arr ℂ} (h : drawn NC a n = some U) :
    IsSU NC U := by
  unfold drawn at h
  split at h
  · cases h
  · exact C15_special_unitary hN h

/-! ## The loops -/

section loops

variable {ι : Type} [DecidableEq ι]

theorem genAll_cons (NC : ℕ) (it : ι × ℕ) (sched : List (ι × ℕ)) (st : RState ι) :
    genAll NC (it :: sched) st = (genStep NC st it).bind (genAll NC sched) := rfl

theorem genAll_keeps {NC : ℕ} {sched : List (ι × ℕ)} {st r : RState ι} (h : genAll NC sched st = some r) {x : ι}
    (hx : x ∉ sched.map Prod.fst) : r.mat x = st.mat x := by
  induction sched generalizing st with
  | nil => cases h; rfl
  | cons it sched ih =>
    rw [genAll_cons] at h
    rw [List.map_cons, List.mem_cons, not_or] at hx
    unfold genStep at h
    cases hs : Sunitary_gen NC (st.str it.2) with
    | none => rw [hs] at h; cases h
    | some r' =>
      rw [hs, Option.map_some, Option.bind_some] at h
      rw [ih h hx.2]
      exact Function.update_of_ne hx.1 _ _

/-- C108: every matrix is the one made from the numbers of the thread that made it: matrix number `n` of a thread from
the `n`-th block of its pairs inside the unit circle. -/
theorem C108_values {NC : ℕ} {sched : List (ι × ℕ)} (hnd : (sched.map Prod.fst).Nodup) {st r : RState ι}
    (h : genAll NC sched st = some r) {t n : ℕ} {x : ι} (hx : (tasks sched t)[n]? = some x) :
    r.mat x = drawn NC (used (st.str t)) n := by
  induction sched generalizing st n with
  | nil => simp [tasks] at hx
  | cons it sched ih =>
    rw [genAll_cons] at h
    rw [List.map_cons, List.nodup_cons] at hnd
    unfold genStep at h
    by_cases hlen : NC * NC ≤ (used (st.str it.2)).length
    · obtain ⟨l', h1, h2⟩ := gen_some hlen
      rw [h1, Option.map_some, Option.bind_some] at h
      unfold tasks at hx
      rw [List.filter_cons] at hx
      by_cases ht : it.2 = t
      · simp only [ht, decide_true, if_true, List.map_cons] at hx
        cases n with
        | zero =>
          rw [List.getElem?_cons_zero, Option.some.injEq] at hx
          subst hx
          rw [genAll_keeps h hnd.1]
          dsimp only
          rw [Function.update_self, ht]
        | succ n =>
          rw [List.getElem?_cons_succ] at hx
          have := ih hnd.2 h hx
          rw [this]
          dsimp only
          rw [← ht, Function.update_self, h2, drawn_drop]
      · simp only [ht, decide_false, Bool.false_eq_true, if_false] at hx
        rw [ih hnd.2 h hx]
        dsimp only
        rw [Function.update_of_ne (Ne.symm ht)]
    · rw [gen_none (by omega)] at h
      cases h

/-- C108: the loop ends exactly when the stream of every thread has enough pairs inside the unit circle. -/
theorem C108_ends {NC : ℕ} (sched : List (ι × ℕ)) (st : RState ι) :
    (genAll NC sched st).isSome ↔
      ∀ t, NC * NC * (tasks sched t).length ≤ (used (st.str t)).length := by
  induction sched generalizing st with
  | nil => simp [genAll, tasks]
  | cons it sched ih =>
    rw [genAll_cons]
    unfold genStep
    have hcount : ∀ t, (tasks (it :: sched) t).length = (tasks sched t).length + if it.2 = t then 1 else 0 := by
      intro t
      unfold tasks
      rw [List.filter_cons]
      by_cases ht : it.2 = t <;> simp [ht]
    by_cases hlen : NC * NC ≤ (used (st.str it.2)).length
    · obtain ⟨l', h1, h2⟩ := gen_some hlen
      rw [h1, Option.map_some, Option.bind_some, ih]
      refine forall_congr' fun t => ?_
      rw [hcount]
      dsimp only
      by_cases ht : it.2 = t
      · subst ht
        rw [Function.update_self, h2, List.length_drop, if_pos rfl, Nat.mul_add, Nat.mul_one]
        omega
      · rw [Function.update_of_ne (Ne.symm ht), if_neg ht, Nat.add_zero]
    · rw [gen_none (by omega)]
      simp only [Option.map_none, Option.bind_none, Option.isSome_none, Bool.false_eq_true, false_iff]
      intro hall
      have := hall it.2
      rw [hcount, if_pos rfl, Nat.mul_add, Nat.mul_one] at this
      omega

theorem genStep_comm (NC : ℕ) (st : RState ι) {a b : ι × ℕ} (h1 : a.1 ≠ b.1) (h2 : a.2 ≠ b.2) :
    ((genStep NC st a).bind fun s => genStep NC s b) = (genStep NC st b).bind fun s => genStep NC s a := by
  unfold genStep
  cases ha : Sunitary_gen NC (st.str a.2) with
  | none =>
    cases hb : Sunitary_gen NC (st.str b.2) with
    | none => rfl
    | some rb => simp [Function.update_of_ne h2, ha]
  | some ra =>
    cases hb : Sunitary_gen NC (st.str b.2) with
    | none => simp [Function.update_of_ne h2.symm, hb]
    | some rb =>
      simp only [Option.map_some, Option.bind_some, Function.update_of_ne h2.symm, Function.update_of_ne h2, ha, hb]
      rw [Function.update_comm h1, Function.update_comm h2]

theorem genAll_front (NC : ℕ) (a : ι × ℕ) (p q : List (ι × ℕ)) (h1 : ∀ b ∈ p, a.1 ≠ b.1) (h2 : ∀ b ∈ p, a.2 ≠ b.2)
    (st : RState ι) : genAll NC (p ++ a :: q) st = genAll NC (a :: (p ++ q)) st := by
  induction p generalizing st with
  | nil => rfl
  | cons b p ih =>
    rw [List.cons_append, genAll_cons]
    have e : (fun s => genAll NC (p ++ a :: q) s) = fun s => (genStep NC s a).bind (genAll NC (p ++ q)) := by
      funext s
      rw [ih (fun c hc => h1 c (List.mem_cons_of_mem _ hc)) (fun c hc => h2 c (List.mem_cons_of_mem _ hc)) s, genAll_cons]
    show (genStep NC st b).bind (fun s => genAll NC (p ++ a :: q) s) = _
    rw [e, ← Option.bind_assoc,
      ← genStep_comm NC st (h1 b List.mem_cons_self) (h2 b List.mem_cons_self), Option.bind_assoc]
    rfl

/-- C108: the matrices and the final streams depend only on which thread makes which matrices in which order, not on
how the threads run relative to each other. -/
theorem C108_order (NC : ℕ) {a b : List (ι × ℕ)} (ha : (a.map Prod.fst).Nodup) (hb : (b.map Prod.fst).Nodup)
    (h : ∀ t, tasks a t = tasks b t) (st : RState ι) : genAll NC a st = genAll NC b st := by
  induction a generalizing b st with
  | nil =>
    cases b with
    | nil => rfl
    | cons it b =>
      have := h it.2
      simp [tasks] at this
  | cons it a ih =>
    obtain ⟨x, t⟩ := it
    have ht := h t
    have hta : tasks ((x, t) :: a) t = x :: tasks a t := by simp [tasks]
    rw [hta] at ht
    have hf : ∃ f r, b.filter (fun it => it.2 = t) = f :: r ∧ f = (x, t) := by
      unfold tasks at ht
      cases hb' : b.filter (fun it => it.2 = t) with
      | nil => rw [hb'] at ht; simp at ht
      | cons f r =>
        refine ⟨f, r, rfl, ?_⟩
        rw [hb', List.map_cons] at ht
        injection ht with h1 h2
        have : f ∈ b.filter (fun it => it.2 = t) := by rw [hb']; exact List.mem_cons_self
        rw [List.mem_filter] at this
        exact Prod.ext h1.symm (by simpa using this.2)
    obtain ⟨f, r, hf, rfl⟩ := hf
    rw [List.filter_eq_cons_iff] at hf
    obtain ⟨p, q, rfl, hp, -, -⟩ := hf
    have hp' : ∀ c ∈ p, t ≠ c.2 := fun c hc e => hp c hc (by simp [e])
    have hnd : (((x, t) :: (p ++ q)).map Prod.fst).Nodup := by
      refine (List.Perm.nodup_iff ?_).1 hb
      exact List.Perm.map _ List.perm_middle
    rw [genAll_front NC (x, t) p q (fun c hc e => by
      rw [List.map_cons, List.nodup_cons] at hnd
      exact hnd.1 (by rw [List.map_append, List.mem_append]; exact Or.inl (List.mem_map.2 ⟨c, hc, e.symm⟩))) hp',
      genAll_cons, genAll_cons]
    rw [List.map_cons, List.nodup_cons] at ha hnd
    congr 1
    funext s
    refine ih ha.2 hnd.2 (fun u => ?_) s
    have hu := h u
    unfold tasks at hu ⊢
    rw [List.filter_append, List.filter_cons, List.filter_cons] at hu
    rw [List.filter_append]
    by_cases e : t = u
    · subst e
      have hp0 : p.filter (fun it => decide (it.2 = t)) = [] :=
        List.filter_eq_nil_iff.2 fun c hc => by simpa using Ne.symm (hp' c hc)
      simp only [decide_true, if_true, hp0, List.nil_append, List.map_cons, List.cons.injEq, true_and] at hu ⊢
      exact hu
    · simpa only [e, decide_false, Bool.false_eq_true, if_false] using hu

end loops

/-! ## Random start -/

/-- The matrix is finite and special unitary when no pair is the centre of the circle and the vectors that are kept are
linearly independent. -/
theorem C108_drawn {NC : ℕ} (hN : 1 < NC) {a : List (ℝ × ℝ)} {n : ℕ}
    (hc : ∀ i < NC * NC, a[n * (NC * NC) + i]? ≠ some (1 / 2, 1 / 2))
    (hl : LinearIndependent ℂ (leading NC (entries NC a n))) : ∃ U, drawn NC a n = some U ∧ IsSU NC U := by
  obtain ⟨U, hU⟩ := C15_defined hN scratch hl
  have h : drawn NC a n = some U := by
    unfold drawn
    rw [if_neg (by rintro ⟨i, hi, he⟩; exact hc i hi he), hU]
  exact ⟨U, h, drawn_su hN h⟩

theorem mem_tasks {ι : Type} {sched : List (ι × ℕ)} {x : ι} (hx : x ∈ sched.map Prod.fst) :
    ∃ t n : ℕ, (tasks sched t)[n]? = some x := by
  rw [List.mem_map] at hx
  obtain ⟨it, hit, rfl⟩ := hx
  have hm : it.1 ∈ tasks sched it.2 := List.mem_map.2 ⟨it, List.mem_filter.2 ⟨hit, by simp⟩, rfl⟩
  obtain ⟨n, hn, e⟩ := List.mem_iff_getElem.1 hm
  exact ⟨it.2, n, by rw [List.getElem?_eq_getElem hn, e]⟩

/-- C108: after a random start every link is special unitary or was made from unusable numbers. -/
theorem C108_start_partial {NC : ℕ} (hN : 1 < NC) {sched : List (Loc × ℕ)} (hnd : (sched.map Prod.fst).Nodup)
    {st r : RState Loc} (h : random_suNC NC sched st = some r) {x : Loc} (hx : x ∈ sched.map Prod.fst) :
    (∃ U, r.mat x = some U ∧ IsSU NC U) ∨
      (r.mat x = none ∧ ∃ t n : ℕ, (tasks sched t)[n]? = some x ∧ drawn NC (used (st.str t)) n = none) := by
  obtain ⟨t, n, hn⟩ := mem_tasks hx
  have e := C108_values hnd h hn
  cases hd : drawn NC (used (st.str t)) n with
  | none => exact Or.inr ⟨by rw [e, hd], t, n, hn, hd⟩
  | some U => exact Or.inl ⟨U, by rw [e, hd], drawn_su hN hd⟩

/-- C108: a random start from usable numbers is a field of special unitary matrices. -/
theorem C108_field_partial {NC : ℕ} (hN : 1 < NC) {L : Latt} {sched : List (Loc × ℕ)}
    (hnd : (sched.map Prod.fst).Nodup) (hall : ∀ i < volume L, ∀ mu < L.ND, (i, mu) ∈ sched.map Prod.fst)
    {st r : RState Loc} (h : random_suNC NC sched st = some r)
    (hgood : ∀ t, ∀ n < (tasks sched t).length, (drawn NC (used (st.str t)) n).isSome) :
    ∃ lat : Gauge, SUField NC L lat ∧ ∀ i < volume L, ∀ mu < L.ND, r.mat (i, mu) = some (lat (i, mu)) := by
  have key : ∀ i < volume L, ∀ mu < L.ND, ∃ U, r.mat (i, mu) = some U ∧ IsSU NC U := by
    intro i hi mu hmu
    rcases C108_start_partial hN hnd h (hall i hi mu hmu) with h1 | ⟨-, t, n, hn, hd⟩
    · exact h1
    · have hlt : n < (tasks sched t).length := (List.getElem?_eq_some_iff.1 hn).1
      have := hgood t n hlt
      rw [hd] at this
      cases this
  refine ⟨fun x => (r.mat x).getD scratch, fun i hi mu hmu => ?_, fun i hi mu hmu => ?_⟩
  · obtain ⟨U, h1, h2⟩ := key i hi mu hmu
    dsimp only
    rw [h1]
    exact h2
  · obtain ⟨U, h1, -⟩ := key i hi mu hmu
    dsimp only
    rw [h1]
    rfl

/-- C108 fails for other numbers: when the pairs are at the centre of the circle, the start ends, nothing is reported
and no link is a matrix of finite numbers. -/
theorem C108_start_fails {NC : ℕ} (hN : 1 < NC) {sched : List (Loc × ℕ)} (hnd : (sched.map Prod.fst).Nodup)
    (mat : Loc → Option (Arr ℂ)) :
    ∃ r, random_suNC NC sched ⟨mat, fun _ => List.replicate (NC * NC * sched.length) (1 / 2, 1 / 2)⟩ = some r ∧
      ∀ x ∈ sched.map Prod.fst, r.mat x = none := by
  have hacc : Accepted ((1 / 2, 1 / 2) : ℝ × ℝ) := by unfold Accepted; norm_num
  have hu : ∀ n, used (List.replicate n ((1 / 2, 1 / 2) : ℝ × ℝ)) = List.replicate n (1 / 2, 1 / 2) := by
    intro n
    unfold used
    rw [List.filter_replicate, if_pos (by simpa using hacc)]
  have hlen : ∀ t, (tasks sched t).length ≤ sched.length := by
    intro t
    unfold tasks
    rw [List.length_map]
    exact List.length_filter_le _ _
  have hs := (C108_ends (NC := NC) sched
    (⟨mat, fun _ => List.replicate (NC * NC * sched.length) (1 / 2, 1 / 2)⟩ : RState Loc)).2 (fun t => by
      rw [hu, List.length_replicate]
      exact Nat.mul_le_mul_left _ (hlen t))
  obtain ⟨r, hr⟩ := Option.isSome_iff_exists.1 hs
  refine ⟨r, hr, fun x hx => ?_⟩
  obtain ⟨t, n, hn⟩ := mem_tasks hx
  rw [C108_values hnd hr hn]
  dsimp only
  rw [hu]
  unfold drawn
  have hlt : n < (tasks sched t).length := (List.getElem?_eq_some_iff.1 hn).1
  have := hlen t
  rw [if_pos]
  refine ⟨0, by positivity, ?_⟩
  rw [List.getElem?_replicate, if_pos]
  calc n * (NC * NC) + 0 < (n + 1) * (NC * NC) := by nlinarith [Nat.mul_pos (show 0 < NC by omega) (show 0 < NC by omega)]
    _ ≤ sched.length * (NC * NC) := Nat.mul_le_mul_right _ (by omega)
    _ = _ := Nat.mul_comm _ _

/-! ## Random gauge transformation -/

/-- C108: a random gauge transformation of a special unitary field gives a special unitary field, related to it by
matrices `g` at the sites, and changes none of the plaquettes, the Polyakov loops, and (two and three colours, four
dimensions) the action density and the topological charge, whatever the random numbers. -/
theorem C108_transform_partial {NC : ℕ} (hN : 1 < NC) {L : Latt} (hL : Valid L) {sched : List (ℕ × ℕ)}
    (hnd : (sched.map Prod.fst).Nodup) (hall : ∀ i < volume L, i ∈ sched.map Prod.fst) {st r : RState ℕ}
    {lat lat' : Gauge} (hU : SUField NC L lat) (h : random_transform NC L sched st lat = some (some lat', r)) :
    SUField NC L lat' ∧
    (∃ g : ℕ → Arr ℂ, SUGauge NC L g ∧ ∀ i < volume L, ∀ mu < L.ND, toM NC (lat' (i, mu)) =
      toM NC (g i) * toM NC (lat (i, mu)) * (toM NC (g (neighbor L i mu)))ᴴ) ∧
    av_plaquette NC L lat' = av_plaquette NC L lat ∧ s_plaq NC L lat' = s_plaq NC L lat ∧
    t_plaq NC L lat' = t_plaq NC L lat ∧ all_plaquettes NC L lat' = all_plaquettes NC L lat ∧
    (∀ dir < L.ND, poly NC L lat' dir = poly NC L lat dir) ∧
    (NC = 2 ∨ NC = 3 → L.ND = 4 → ∀ df, compute_Gmunu NC L df lat' = compute_Gmunu NC L df lat) := by
  unfold random_transform at h
  cases hg : genAll NC sched st with
  | none => rw [hg] at h; cases h
  | some r' =>
    rw [hg, Option.map_some, Option.some.injEq, Prod.mk.injEq] at h
    obtain ⟨h, rfl⟩ := h
    split at h
    · next hs =>
      rw [Option.some.injEq] at h
      subst h
      have hgs : SUGauge NC L (fun i => (r'.mat i).getD scratch) := by
        intro i hi
        obtain ⟨t, n, hn⟩ := mem_tasks (hall i hi)
        have e := C108_values hnd hg hn
        have := hs i hi
        dsimp only
        rw [e] at this ⊢
        obtain ⟨U, hd⟩ := Option.isSome_iff_exists.1 this
        rw [hd]
        exact drawn_su hN hd
      have h31 := C31_action hL hgs hU
      have h29 := C29_gauge_invariant hL hgs hU
      exact ⟨h31.1, ⟨_, hgs, h31.2⟩, h29.1, h29.2.1, h29.2.2.1, h29.2.2.2,
        fun dir hd => C30_gauge_invariant hL hgs hU hd,
        fun h23 h4 df => C76_gauge_invariant_partial h23 hL h4 df hU hgs⟩
    · cases h

/-! ## Unit start -/

theorem write_loops {α : Type} (f : α → α) (V ND : ℕ) (lat : Loc → α) (x : Loc) :
    forN V (fun i (lat : Loc → α) =>
      forN ND (fun mu (lat : Loc → α) => Function.update lat (i, mu) (f (lat (i, mu)))) lat) lat x =
      if x.1 < V ∧ x.2 < ND then f (lat x) else lat x := by
  have inner : ∀ (n i : ℕ) (lat : Loc → α) (x : Loc),
      forN n (fun mu (lat : Loc → α) => Function.update lat (i, mu) (f (lat (i, mu)))) lat x =
        if x.1 = i ∧ x.2 < n then f (lat x) else lat x := by
    intro n i lat x
    induction n with
    | zero => rw [forN, if_neg (by omega)]
    | succ n ih =>
      rw [forN]
      by_cases e : x = (i, n)
      · rw [e, Function.update_self]
        rw [e] at ih
        rw [ih, if_neg (by simp), if_pos (by simp)]
      · rw [Function.update_of_ne e, ih]
        obtain ⟨a, b⟩ := x
        rw [Prod.mk.injEq] at e
        by_cases h : a = i ∧ b < n
        · rw [if_pos h, if_pos (by dsimp only; omega)]
        · rw [if_neg h, if_neg (by dsimp only; omega)]
  induction V with
  | zero => rw [forN, if_neg (by omega)]
  | succ V ih =>
    rw [forN, inner, ih]
    by_cases e : x.1 = V
    · by_cases h : x.2 < ND
      · rw [if_pos ⟨e, h⟩, if_neg (by omega), if_pos (by omega)]
      · rw [if_neg (by omega), if_neg (by omega), if_neg (by omega)]
    · rw [if_neg (by omega)]
      by_cases h : x.1 < V ∧ x.2 < ND
      · rw [if_pos h, if_pos (by omega)]
      · rw [if_neg h, if_neg (by omega)]

theorem line_trivial {NC : ℕ} {L : Latt} (hL : Valid L) {lat : Gauge} (h : Trivial NC L lat) {dir : ℕ} (hd : dir < L.ND)
    (n : ℕ) {x : ℕ} (hx : x < volume L) : line NC L lat dir n x = 1 := by
  induction n generalizing x with
  | zero => rfl
  | succ n ih =>
    rw [line_succ', ih (neighbor_lt hL x hd), mul_one]
    exact h x hx dir hd

/-- C108: after a unit start every link is the unit matrix, whatever was there before, the plaquette and the link trace
are one and every Polyakov loop is the number of colours. -/
theorem C108_unit {NC : ℕ} (hN : 1 ≤ NC) {L : Latt} (hL : Valid L) (lat : Gauge) :
    (∀ i < volume L, ∀ mu < L.ND, toM NC (trivial_links NC L lat (i, mu)) = 1) ∧
    av_plaquette NC L (trivial_links NC L lat) = some 1 ∧ links NC L (trivial_links NC L lat) = some 1 ∧
    (∀ dir < L.ND, poly NC L (trivial_links NC L lat) dir = some (NC : ℂ)) := by
  have ht : Trivial NC L (trivial_links NC L lat) := by
    intro i hi mu hmu
    unfold trivial_links
    rw [write_loops (identity NC), if_pos ⟨hi, hmu⟩, C63_identity]
  refine ⟨ht, (C29_trivial_average hN hL ht).1, ?_, fun dir hd => ?_⟩
  · obtain ⟨a, h1, -, -, h2⟩ := C66_range hN hL (trivial_su ht)
    rw [h1, h2.2 ht]
  rw [C30_average hL _ hd]
  have hmem : 0 ∈ (range (volume L)).filter (fun x => coord L L.ND x dir = 0) := by
    rw [mem_filter, mem_range]
    refine ⟨volume_pos hL, ?_⟩
    rw [coord_eq] <;> simp [hd]
  have hc : (((range (volume L)).filter (fun x => coord L L.ND x dir = 0)).card : ℂ) ≠ 0 := by
    rw [Nat.cast_ne_zero]
    exact (card_pos.2 ⟨0, hmem⟩).ne'
  congr 1
  rw [sum_congr rfl (fun x hx => by
    rw [line_trivial hL ht hd _ (mem_range.1 (mem_filter.1 hx).1), Matrix.trace_one, Fintype.card_fin]),
    sum_const, nsmul_eq_mul]
  field_simp

/-! ## Reunitarisation of a field -/

/-- C108: reunitarising a field treats every link on its own and leaves special unitary matrices, or numbers that are
not finite where the vectors of a link are linearly dependent; a special unitary field is unchanged. -/
theorem C108_reunit_partial {NC : ℕ} (hN : 1 < NC) {L : Latt} (lat : Gauge) {i mu : ℕ} (hi : i < volume L)
    (hmu : mu < L.ND) :
    latt_reunitU NC L lat (i, mu) = gram_reunit NC (lat (i, mu)) scratch ∧
    (∀ V, latt_reunitU NC L lat (i, mu) = some V → IsSU NC V) ∧
    (LinearIndependent ℂ (leading NC (lat (i, mu))) → (latt_reunitU NC L lat (i, mu)).isSome) ∧
    (IsSU NC (lat (i, mu)) → ∃ V, latt_reunitU NC L lat (i, mu) = some V ∧ toM NC V = toM NC (lat (i, mu))) := by
  have e : latt_reunitU NC L lat (i, mu) = gram_reunit NC (lat (i, mu)) scratch := by
    unfold latt_reunitU
    rw [write_loops (fun U : Option (Arr ℂ) => U.bind fun U => gram_reunit NC U scratch), if_pos ⟨hi, hmu⟩]
    rfl
  refine ⟨e, fun V hV => C15_special_unitary hN (e ▸ hV), fun hl => ?_, fun hU => ?_⟩
  · rw [e]
    obtain ⟨V, hV⟩ := C15_defined hN scratch hl
    rw [hV]; rfl
  · rw [e]
    exact C15_fixes hN scratch hU

/-! ## A case -/

/-- Pairs giving a positive number, except every ninth giving its negative. -/
noncomputable def plusMinus (N : ℕ) : List (ℝ × ℝ) :=
  (List.range (9 * N)).map fun k => if k % 9 = 4 then (1 / 4, 1 / 2) else (3 / 4, 1 / 2)

theorem used_plusMinus (N : ℕ) : used (plusMinus N) = plusMinus N := by
  unfold used plusMinus
  rw [List.filter_eq_self]
  intro p hp
  rw [List.mem_map] at hp
  obtain ⟨k, -, rfl⟩ := hp
  rw [decide_eq_true_eq]
  split <;> (unfold Accepted; norm_num)

theorem gauss_minus : gauss (1 / 4, 1 / 2) = -gauss (3 / 4, 1 / 2) := by
  unfold gauss
  norm_num

theorem gauss_plus : gauss (3 / 4, 1 / 2) ≠ 0 := by
  unfold gauss
  norm_num
  have : Real.log (1 / 4) < 0 := Real.log_neg (by norm_num) (by norm_num)
  rw [Real.sqrt_eq_zero']
  linarith

/-- The hypotheses of the theorems above are met: three colours, every lattice, one thread or two threads sharing the
links in any way. -/
theorem C108_case (L : Latt) (own : Loc → ℕ) : ∃ (sched : List (Loc × ℕ)) (st r : RState Loc),
    (sched.map Prod.fst).Nodup ∧ (∀ i < volume L, ∀ mu < L.ND, (i, mu) ∈ sched.map Prod.fst) ∧
    (∀ it ∈ sched, it.2 = own it.1) ∧
    random_suNC 3 sched st = some r ∧
    (∀ t, ∀ n < (tasks sched t).length, (drawn 3 (used (st.str t)) n).isSome) := by
  set locs : List Loc := (List.range (volume L)).flatMap fun i => (List.range L.ND).map fun mu => (i, mu) with hlocs
  set sched : List (Loc × ℕ) := locs.map fun x => (x, own x) with hsched
  have hmap : sched.map Prod.fst = locs := by
    rw [hsched, List.map_map]
    exact List.map_id _
  have hlen : ∀ t, (tasks sched t).length ≤ sched.length := by
    intro t
    unfold tasks
    rw [List.length_map]
    exact List.length_filter_le _ _
  set st : RState Loc := ⟨fun _ => none, fun _ => plusMinus sched.length⟩ with hst
  have hs := (C108_ends (NC := 3) sched st).2 (fun t => by
      show 3 * 3 * (tasks sched t).length ≤ (used (plusMinus sched.length)).length
      rw [used_plusMinus]
      unfold plusMinus
      rw [List.length_map, List.length_range]
      exact Nat.mul_le_mul_left _ (hlen t))
  obtain ⟨r, hr⟩ := Option.isSome_iff_exists.1 hs
  refine ⟨sched, st, r, ?_, ?_, ?_, hr, ?_⟩
  · rw [hmap, hlocs, List.nodup_flatMap]
    refine ⟨fun i _ => List.Nodup.map (fun a b e => (Prod.mk.inj e).2) List.nodup_range, ?_⟩
    refine List.Pairwise.imp (fun {a b} hab => ?_) (List.nodup_range (n := volume L))
    intro x hx hy
    rw [List.mem_map] at hx hy
    obtain ⟨_, -, rfl⟩ := hx
    obtain ⟨_, -, e⟩ := hy
    exact hab (Prod.mk.inj e).1.symm
  · intro i hi mu hmu
    rw [hmap, hlocs, List.mem_flatMap]
    exact ⟨i, List.mem_range.2 hi, List.mem_map.2 ⟨mu, List.mem_range.2 hmu, rfl⟩⟩
  · intro it hit
    rw [hsched, List.mem_map] at hit
    obtain ⟨x, -, rfl⟩ := hit
    rfl
  · intro t n hn
    show (drawn 3 (used (plusMinus sched.length)) n).isSome
    rw [used_plusMinus]
    have hn' := lt_of_lt_of_le hn (hlen t)
    have hget : ∀ i < 9, (plusMinus sched.length)[n * (3 * 3) + i]? =
        some (if i = 4 then (1 / 4, 1 / 2) else (3 / 4, 1 / 2)) := by
      intro i hi
      unfold plusMinus
      rw [List.getElem?_map, List.getElem?_range (by omega), Option.map_some,
        show (n * (3 * 3) + i) % 9 = i by omega]
    have hent : ∀ i < 9, entries 3 (plusMinus sched.length) n i =
        if i = 4 then -gauss (3 / 4, 1 / 2) else gauss (3 / 4, 1 / 2) := by
      intro i hi
      unfold entries
      rw [if_pos (by omega), hget i hi]
      split
      · exact gauss_minus
      · rfl
    obtain ⟨U, hU, -⟩ := C108_drawn (NC := 3) (by norm_num) (a := plusMinus sched.length) (n := n)
      (fun i hi => by
        rw [hget i (by omega)]
        intro e
        rw [Option.some.injEq] at e
        have e := congrArg Prod.fst e
        split at e <;> norm_num at e) (by
        have e : leading 3 (entries 3 (plusMinus sched.length) n) =
            ![![gauss (3 / 4, 1 / 2), gauss (3 / 4, 1 / 2), gauss (3 / 4, 1 / 2)],
              ![gauss (3 / 4, 1 / 2), -gauss (3 / 4, 1 / 2), gauss (3 / 4, 1 / 2)]] := by
          funext k c
          fin_cases k <;> fin_cases c <;> simp [leading, hent]
        rw [e, LinearIndependent.pair_iff]
        intro s t h
        have h0 := congrFun h 0
        have h1 := congrFun h 1
        simp only [Pi.add_apply, Pi.smul_apply, Matrix.cons_val_zero, Matrix.cons_val_one, smul_eq_mul, Pi.zero_apply] at h0 h1
        have g0 := gauss_plus
        have a0 : (s + t) * gauss (3 / 4, 1 / 2) = 0 := by linear_combination h0
        have a1 : (s - t) * gauss (3 / 4, 1 / 2) = 0 := by linear_combination h1
        have b0 := (mul_eq_zero.1 a0).resolve_right g0
        have b1 := (mul_eq_zero.1 a1).resolve_right g0
        constructor
        · linear_combination (b0 + b1) / 2
        · linear_combination (b0 - b1) / 2)
    rw [hU]
    rfl

end GLU.Field
