import Verif.Rng.StreamProps
import Mathlib.Data.BitVec

/-!
# C78: how soon a stream can repeat, and whether two threads can share one

The number of draws after which a generator can be back in the same state, and states that never coincide.
-/

namespace GLU.Rng

open GLU.IO

/-- The state after `n` draws. -/
def stateAfter {W O : Type} (step : Thread W → Option (O × Thread W)) (n : ℕ) (s : Thread W) : Option (Thread W) :=
  (draws step n s).map (·.2)

theorem stateAfter_zero {W O : Type} (step : Thread W → Option (O × Thread W)) (s : Thread W) : stateAfter step 0 s = some s := rfl

theorem stateAfter_succ {W O : Type} {step : Thread W → Option (O × Thread W)} {s t : Thread W} {x : O} (h : step s = some (x, t))
    (n : ℕ) : stateAfter step (n + 1) s = stateAfter step n t := by
  unfold stateAfter
  simp only [draws, h, Option.bind_eq_bind, Option.bind_some]
  cases draws step n t <;> rfl

theorem stateAfter_add {W O : Type} (step : Thread W → Option (O × Thread W)) (m n : ℕ) {s t : Thread W}
    (h : stateAfter step m s = some t) : stateAfter step (m + n) s = stateAfter step n t := by
  induction m generalizing s with
  | zero =>
    rw [stateAfter_zero, Option.some.injEq] at h
    rw [h, Nat.zero_add]
  | succ m ih =>
    cases hs : step s with
    | none =>
      unfold stateAfter at h
      simp [draws, hs] at h
    | some p =>
      obtain ⟨x, u⟩ := p
      rw [stateAfter_succ hs] at h
      rw [show m + 1 + n = (m + n) + 1 by omega, stateAfter_succ hs, ih h]

/-! ## KISS -/

/-- The three shifts of the second word. -/
def kissY (y : W32) : W32 :=
  let y := y ^^^ (y <<< 5)
  let y := y ^^^ (y >>> 7)
  y ^^^ (y <<< 22)

theorem kissY_inj {x y : W32} (h : kissY x = kissY y) : x = y :=
  xorshift_left_inj 5 (by norm_num) _ _ (xorshift_right_inj 7 (by norm_num) _ _ (xorshift_left_inj 22 (by norm_num) _ _ h))

theorem kiss_step (s : Thread W32) (hl : s.table.length = 5) : ∃ out t x y, JKISS32 s = some (out, t) ∧ t.table.length = 5 ∧
    s.table[0]? = some x ∧ t.table[0]? = some (x + 1411392427#32) ∧ s.table[1]? = some y ∧ t.table[1]? = some (kissY y) := by
  obtain ⟨T, i, c⟩ := s
  match T, hl with
  | [x, y, z, w, c], _ => exact ⟨_, _, x, y, rfl, rfl, rfl, rfl, rfl, rfl⟩

/-- The first word counts in steps of an odd constant; the second goes through a bijection. -/
theorem kiss_words (n : ℕ) : ∀ s : Thread W32, s.table.length = 5 → ∃ t x y, stateAfter JKISS32 n s = some t ∧ t.table.length = 5 ∧
    s.table[0]? = some x ∧ t.table[0]? = some (x + BitVec.ofNat 32 n * 1411392427#32) ∧
    s.table[1]? = some y ∧ t.table[1]? = some (kissY^[n] y) := by
  induction n with
  | zero =>
    intro s hl
    obtain ⟨_, _, x, y, _, _, hx, _, hy, _⟩ := kiss_step s hl
    exact ⟨s, x, y, rfl, hl, hx, by simpa using hx, hy, hy⟩
  | succ n ih =>
    intro s hl
    obtain ⟨out, t, x, y, hs, hl', hx, hx', hy, hy'⟩ := kiss_step s hl
    obtain ⟨u, x2, y2, hu, hul, hx2, hx2', hy2, hy2'⟩ := ih t hl'
    rw [hx', Option.some.injEq] at hx2
    rw [hy', Option.some.injEq] at hy2
    subst hx2 hy2
    refine ⟨u, x, y, by rw [stateAfter_succ hs, hu], hul, hx, ?_, hy, by rw [hy2', Function.iterate_succ_apply]⟩
    rw [hx2', Option.some.injEq]
    rw [BitVec.ofNat_add, show BitVec.ofNat 32 1 = 1 from rfl, add_mul, one_mul, add_comm (BitVec.ofNat 32 n * _), add_assoc]

/-- **C78, KISS**: the generator is never back in an earlier state before `2^32` draws have been made, whatever state it
is started from. -/
theorem C78_kiss_period (s : Thread W32) (hl : s.table.length = 5) {m n : ℕ} (hmn : m < n)
    (h : stateAfter JKISS32 m s = stateAfter JKISS32 n s) : 2 ^ 32 ≤ n - m := by
  obtain ⟨t, x, _, ht, _, hx, hx', _⟩ := kiss_words m s hl
  obtain ⟨t', x2, _, ht', _, hx2, hx2', _⟩ := kiss_words n s hl
  rw [hx, Option.some.injEq] at hx2
  subst hx2
  rw [ht, ht', Option.some.injEq] at h
  subst h
  rw [hx', Option.some.injEq] at hx2'
  have h1 : BitVec.ofNat 32 m = BitVec.ofNat 32 n := by
    have h2 : ∀ k : W32, ((x + k * 1411392427#32) - x) * 1477033731#32 = k := by
      intro k
      have h3 : 1411392427#32 * 1477033731#32 = 1#32 := by decide
      rw [BitVec.add_comm, BitVec.add_sub_cancel, BitVec.mul_assoc, h3, BitVec.mul_one]
    rw [← h2 (BitVec.ofNat 32 m), ← h2 (BitVec.ofNat 32 n), hx2']
  have h2 := congrArg BitVec.toNat h1
  rw [BitVec.toNat_ofNat, BitVec.toNat_ofNat] at h2
  omega

/-- **C78, KISS**: two threads with different seeds are in different states after every number of draws. -/
theorem C78_kiss_threads {seed seed' : W32} (h : seed ≠ seed') (n : ℕ) :
    stateAfter JKISS32 n (set_KISS seed) ≠ stateAfter JKISS32 n (set_KISS seed') := by
  obtain ⟨t, x, _, ht, _, hx, hx', _⟩ := kiss_words n (set_KISS seed) rfl
  obtain ⟨t', x', _, ht', _, hy, hy', _⟩ := kiss_words n (set_KISS seed') rfl
  have ex : seed = x := Option.some.inj hx
  have ey : seed' = x' := Option.some.inj hy
  subst ex ey
  rw [ht, ht']
  intro e
  rw [Option.some.injEq] at e
  subst e
  rw [hx', Option.some.injEq] at hy'
  exact h (add_right_cancel hy')

/-- **C78, KISS**: the second word never becomes zero, where it would stay. -/
theorem C78_kiss_nonzero (s : Thread W32) (hl : s.table.length = 5) (h0 : s.table[1]? ≠ some 0#32) (n : ℕ) :
    ∃ t, stateAfter JKISS32 n s = some t ∧ t.table[1]? ≠ some 0#32 := by
  obtain ⟨t, _, y, ht, _, _, _, hy, hy'⟩ := kiss_words n s hl
  refine ⟨t, ht, ?_⟩
  rw [hy', ne_eq, Option.some.injEq]
  intro e
  apply h0
  rw [hy, Option.some.injEq]
  have h00 : ∀ n, kissY^[n] 0#32 = 0#32 := by
    intro n
    induction n with
    | zero => rfl
    | succ n ih => rw [Function.iterate_succ_apply, show kissY 0#32 = 0#32 by decide, ih]
  rw [← h00 n] at e
  exact (Function.Injective.iterate (fun a b h => kissY_inj h) n) e

/-- A seed for which the second word starts, and stays, zero. -/
theorem C78_kiss_seed_fails : ∃ seed : W32, ∀ n, ∃ t, stateAfter JKISS32 n (set_KISS seed) = some t ∧
    t.table[1]? = some 0#32 := by
  refine ⟨1774682002#32, fun n => ?_⟩
  obtain ⟨t, _, y, ht, _, _, _, hy, hy'⟩ := kiss_words n (set_KISS 1774682002#32) rfl
  refine ⟨t, ht, ?_⟩
  have e : (set_KISS 1774682002#32).table[1]? = some 0#32 := by decide
  rw [e, Option.some.injEq] at hy
  subst hy
  rw [hy']
  congr 1
  clear * -
  induction n with
  | zero => rfl
  | succ n ih => rw [Function.iterate_succ_apply, show kissY 0#32 = 0#32 by decide, ih]

/-! ## Xorshift -/

/-- One draw changes one word only, by an injective function. -/
theorem xor_words (n : ℕ) : ∀ s s' : Thread W64, s.table.length = 16 → s'.table.length = 16 → s.idx.toNat < 16 → s.idx = s'.idx →
    ∃ t t', stateAfter par_XOR_1024 n s = some t ∧ stateAfter par_XOR_1024 n s' = some t' ∧ t.table.length = 16 ∧
      t'.table.length = 16 ∧ (t.table = t'.table → s.table = s'.table) := by
  induction n with
  | zero => exact fun s s' hl hl' _ _ => ⟨s, s', rfl, rfl, hl, hl', id⟩
  | succ n ih =>
    intro s s' hl hl' hi he
    obtain ⟨a, b, ha, hb, hs⟩ := xor_step s hl hi
    obtain ⟨a', b', ha', hb', hs'⟩ := xor_step s' hl' (he ▸ hi)
    rw [← he] at ha' hb' hs'
    obtain ⟨t, t', ht, ht', h1, h2, h3⟩ := ih
      ⟨s.table.set ((s.idx.toNat + 1) % 16) (xorF a ^^^ xorG b), (s.idx + 1#32) &&& 15#32, s.carry⟩
      ⟨s'.table.set ((s.idx.toNat + 1) % 16) (xorF a' ^^^ xorG b'), (s.idx + 1#32) &&& 15#32, s'.carry⟩ (by simpa using hl) (by simpa using hl') (by
      show ((s.idx + 1#32) &&& 15#32).toNat < 16
      rw [next_idx _ hi]
      exact Nat.mod_lt _ (by norm_num)) rfl
    refine ⟨t, t', by rw [stateAfter_succ hs]; exact ht, by rw [stateAfter_succ hs']; exact ht', h1, h2, fun e => ?_⟩
    have hset := h3 e
    have hlt : (s.idx.toNat + 1) % 16 < 16 := Nat.mod_lt _ (by norm_num)
    have hne : s.idx.toNat ≠ (s.idx.toNat + 1) % 16 := by omega
    have hword : ∀ j, j ≠ (s.idx.toNat + 1) % 16 → s.table[j]? = s'.table[j]? := by
      intro j hj
      have := congrArg (fun l : List W64 => l[j]?) hset
      simpa only [List.getElem?_set_ne (Ne.symm hj)] using this
    have haa : a = a' := by
      have := hword _ hne
      rwa [ha, ha', Option.some.injEq] at this
    have hbb : b = b' := by
      have := congrArg (fun l : List W64 => l[(s.idx.toNat + 1) % 16]?) hset
      simp only [List.getElem?_set_self (show (s.idx.toNat + 1) % 16 < s.table.length by omega),
        List.getElem?_set_self (show (s.idx.toNat + 1) % 16 < s'.table.length by omega), Option.some.injEq] at this
      rw [haa] at this
      have h4 := congrArg (xorF a' ^^^ ·) this
      simp only [← BitVec.xor_assoc, BitVec.xor_self, BitVec.zero_xor] at h4
      exact xorG_inj h4
    apply List.ext_getElem?
    intro j
    by_cases hj : j = (s.idx.toNat + 1) % 16
    · rw [hj, hb, hb', hbb]
    · exact hword j hj

theorem lcong64_length (big : Bool) (n : ℕ) : ∀ j prev, (lcong64 big n j prev).length = n := by
  induction n with
  | zero => intros; rfl
  | succ n ih => intro j prev; rw [lcong64, List.length_cons, ih]

theorem set_XOR_length (big : Bool) (seed : W32) : (set_XOR_1024 big seed).table.length = 16 := by
  rw [set_XOR_1024, List.length_cons, lcong64_length]

theorem word64_inj {big : Bool} {a b a' b' : W32} (h : word64 big a b = word64 big a' b') : a = a' ∧ b = b' := by
  have key : ∀ a b a' b' : W32, a ++ b = a' ++ b' → a = a' ∧ b = b' := by
    intro a b a' b' h
    have h1 := congrArg BitVec.toNat h
    rw [BitVec.toNat_append, BitVec.toNat_append, ← Nat.shiftLeft_add_eq_or_of_lt b.isLt, ← Nat.shiftLeft_add_eq_or_of_lt b'.isLt,
      Nat.shiftLeft_eq, Nat.shiftLeft_eq] at h1
    have hb := b.isLt
    have hb' := b'.isLt
    exact ⟨BitVec.eq_of_toNat_eq (by omega), BitVec.eq_of_toNat_eq (by omega)⟩
  unfold word64 at h
  cases big
  · exact (key _ _ _ _ h).symm
  · exact key _ _ _ _ h

theorem set_XOR_idx (big : Bool) (seed : W32) : (set_XOR_1024 big seed).idx = 15#32 := rfl

theorem set_XOR_head (big : Bool) (seed : W32) : ∃ t1 l, (set_XOR_1024 big seed).table = word64 big seed t1 :: l ∧
    t1 = (1812433253#64 * (seed ^^^ (seed >>> 30)).setWidth 64 + 1#64).setWidth 32 := ⟨_, _, rfl, rfl⟩

theorem lcong_length (n : ℕ) : ∀ j prev, (lcong n j prev).length = n := by
  induction n with
  | zero => intros; rfl
  | succ n ih => intro j prev; rw [lcong, List.length_cons, ih]

theorem set_MWC_length (seed : W32) : (set_MWC_1038 seed).table.length = 1038 := by
  simp only [set_MWC_1038, seed_table, List.length_cons, lcong_length]

/-- **C78, xorshift**: two threads with different seeds are in different states after every number of draws. -/
theorem C78_xor_threads (big : Bool) {seed seed' : W32} (h : seed ≠ seed') (n : ℕ) :
    stateAfter par_XOR_1024 n (set_XOR_1024 big seed) ≠ stateAfter par_XOR_1024 n (set_XOR_1024 big seed') := by
  obtain ⟨t, t', ht, ht', _, _, h3⟩ := xor_words n (set_XOR_1024 big seed) (set_XOR_1024 big seed') (set_XOR_length _ _)
    (set_XOR_length _ _) (by rw [set_XOR_idx]; decide) (by rw [set_XOR_idx, set_XOR_idx])
  rw [ht, ht']
  intro e
  rw [Option.some.injEq] at e
  subst e
  have h4 := h3 rfl
  obtain ⟨_, _, e1, _⟩ := set_XOR_head big seed
  obtain ⟨_, _, e2, _⟩ := set_XOR_head big seed'
  rw [e1, e2, List.cons.injEq] at h4
  exact h (word64_inj h4.1).1

/-- **C78, xorshift**: a seeded generator never reaches the table of zeros, from which every number would be zero. -/
theorem C78_xor_nonzero (big : Bool) (seed : W32) (n : ℕ) :
    ∃ t, stateAfter par_XOR_1024 n (set_XOR_1024 big seed) = some t ∧ t.table ≠ List.replicate 16 0#64 := by
  have hz : ∀ n, ∀ i : W32, i.toNat < 16 → ∃ j, stateAfter par_XOR_1024 n ⟨List.replicate 16 0#64, i, 0#32⟩ =
      some ⟨List.replicate 16 0#64, j, 0#32⟩ := by
    intro n
    induction n with
    | zero => exact fun i _ => ⟨i, rfl⟩
    | succ n ih =>
      intro i hi
      obtain ⟨a, b, ha, hb, hs⟩ := xor_step ⟨List.replicate 16 0#64, i, 0#32⟩ rfl hi
      have hm : (i.toNat + 1) % 16 < 16 := Nat.mod_lt _ (by norm_num)
      simp only [List.getElem?_replicate, hi, hm, if_true, Option.some.injEq] at ha hb
      subst ha hb
      have : (List.replicate 16 0#64).set ((i.toNat + 1) % 16) (xorF 0#64 ^^^ xorG 0#64) = List.replicate 16 0#64 := by
        rw [show xorF 0#64 ^^^ xorG 0#64 = 0#64 by decide]
        apply List.ext_getElem?
        intro j
        rw [List.getElem?_set]
        split
        · next h => subst h; rw [if_pos (by rw [List.length_replicate]; exact hm), List.getElem?_replicate, if_pos hm]
        · rfl
      rw [stateAfter_succ hs]
      simp only
      rw [this]
      exact ih _ (by rw [next_idx _ hi]; exact Nat.mod_lt _ (by norm_num))
  obtain ⟨t, t', ht, ht', _, _, h3⟩ := xor_words n (set_XOR_1024 big seed) ⟨List.replicate 16 0#64, 15#32, 0#32⟩ (set_XOR_length _ _)
    rfl (by rw [set_XOR_idx]; decide) (set_XOR_idx _ _)
  refine ⟨t, ht, fun e => ?_⟩
  obtain ⟨j, hj⟩ := hz n 15#32 (by decide)
  rw [hj, Option.some.injEq] at ht'
  subst ht'
  have h4 := h3 e
  obtain ⟨_, _, e1, e2⟩ := set_XOR_head big seed
  rw [e1, show List.replicate 16 0#64 = word64 big 0#32 0#32 :: List.replicate 15 0#64 by cases big <;> rfl,
    List.cons.injEq] at h4
  obtain ⟨h5, h6⟩ := word64_inj h4.1
  subst h5
  rw [e2] at h6
  exact absurd h6 (by decide)

/-! ## Multiply with carry -/

/-- The multiplier of `MWC_1038`. -/
theorem mwc1038_carry {q c : W32} (hc : c.toNat < 611373678) :
    ((611373678#64 * q.setWidth 64 + c.setWidth 64 : W64) >>> 32).setWidth 32 = BitVec.ofNat 32 ((611373678 * q.toNat + c.toNat) / 2 ^ 32) ∧
    (611373678 * q.toNat + c.toNat) / 2 ^ 32 < 611373678 := by
  have hq := q.isLt
  have hlt : 611373678 * q.toNat + c.toNat < 2 ^ 64 := by omega
  refine ⟨?_, by omega⟩
  apply BitVec.eq_of_toNat_eq
  simp only [BitVec.toNat_setWidth, BitVec.toNat_ushiftRight, BitVec.toNat_add, BitVec.toNat_mul, BitVec.toNat_ofNat,
    Nat.shiftRight_eq_div_pow]
  omega

/-- One pass through the table: the last word is as before, the index is back, and the carry is below the multiplier. -/
theorem mwc1038_pass (k : ℕ) : ∀ s : Thread W32, k + 1 ≤ 1037 → s.idx.toNat = k + 1 → s.table.length = 1038 → s.carry.toNat < 611373678 →
    ∃ t, stateAfter MWC_1038 (k + 1) s = some t ∧ t.idx = 1037#32 ∧ t.table.length = 1038 ∧ t.carry.toNat < 611373678 ∧
      t.table[1037]? = s.table[1037]? := by
  induction k with
  | zero =>
    intro s hk hi hl hc
    obtain ⟨T, i, c⟩ := s
    simp only at hi hl hc
    obtain ⟨q, hq⟩ : ∃ q, T[i.toNat]? = some q := ⟨T[i.toNat], List.getElem?_eq_getElem (by omega)⟩
    have h0 : i - 1#32 = 0#32 := by
      have : i = 1#32 := BitVec.eq_of_toNat_eq (by rw [hi]; rfl)
      rw [this]; rfl
    have hm := mwc1038_carry (q := q) hc
    have hstep : MWC_1038 ⟨T, i, c⟩ = some ((611373678#64 * q.setWidth 64 + c.setWidth 64 : W64).setWidth 32,
        ⟨T.set 0 ((611373678#64 * q.setWidth 64 + c.setWidth 64 : W64).setWidth 32), 1037#32,
          ((611373678#64 * q.setWidth 64 + c.setWidth 64 : W64) >>> 32).setWidth 32⟩) := by
      simp only [MWC_1038, hq, Option.bind_eq_bind, Option.bind_some, Option.pure_def, h0, ne_eq, not_true, if_false, hl]
      rfl
    refine ⟨_, stateAfter_succ hstep 0, rfl, ?_, ?_, ?_⟩
    · simpa using hl
    · show (((611373678#64 * q.setWidth 64 + c.setWidth 64 : W64) >>> 32).setWidth 32).toNat < _
      rw [hm.1, BitVec.toNat_ofNat]
      exact lt_of_le_of_lt (Nat.mod_le _ _) hm.2
    · rw [List.getElem?_set_ne (by decide)]
  | succ k ih =>
    intro s hk hi hl hc
    obtain ⟨T, i, c⟩ := s
    simp only at hi hl hc
    obtain ⟨q, hq⟩ : ∃ q, T[i.toNat]? = some q := ⟨T[i.toNat], List.getElem?_eq_getElem (by omega)⟩
    have e : (i - 1#32).toNat = k + 1 := by
      rw [BitVec.toNat_sub_of_le (by rw [BitVec.le_def]; show 1 ≤ _; omega), hi]
      rfl
    have h0 : i - 1#32 ≠ 0#32 := by
      intro h
      rw [h] at e
      simp at e
    have hm := mwc1038_carry (q := q) hc
    have hstep : MWC_1038 ⟨T, i, c⟩ = some ((611373678#64 * q.setWidth 64 + c.setWidth 64 : W64).setWidth 32,
        ⟨T.set (i - 1#32).toNat ((611373678#64 * q.setWidth 64 + c.setWidth 64 : W64).setWidth 32), i - 1#32,
          ((611373678#64 * q.setWidth 64 + c.setWidth 64 : W64) >>> 32).setWidth 32⟩) := by
      have hlt : (i - 1#32).toNat < 1038 := by omega
      simp only [MWC_1038, hq, Option.bind_eq_bind, Option.bind_some, Option.pure_def, ne_eq, h0, not_false_eq_true, if_true, hl, hlt]
    obtain ⟨t, h1, h2, h3, h4, h5⟩ := ih ⟨T.set (i - 1#32).toNat ((611373678#64 * q.setWidth 64 + c.setWidth 64 : W64).setWidth 32), i - 1#32,
          ((611373678#64 * q.setWidth 64 + c.setWidth 64 : W64) >>> 32).setWidth 32⟩ (by omega) e (by simpa using hl) (by
        show (((611373678#64 * q.setWidth 64 + c.setWidth 64 : W64) >>> 32).setWidth 32).toNat < _
        rw [hm.1, BitVec.toNat_ofNat]
        exact lt_of_le_of_lt (Nat.mod_le _ _) hm.2)
    refine ⟨t, by rw [stateAfter_succ hstep, h1], h2, h3, h4, ?_⟩
    rw [h5]
    exact List.getElem?_set_ne (by omega)

theorem mwc1038_passes (m : ℕ) (s : Thread W32) (hi : s.idx = 1037#32) (hl : s.table.length = 1038) (hc : s.carry.toNat < 611373678) :
    ∃ t, stateAfter MWC_1038 (1037 * m) s = some t ∧ t.idx = 1037#32 ∧ t.table.length = 1038 ∧ t.carry.toNat < 611373678 ∧
      t.table[1037]? = s.table[1037]? := by
  induction m with
  | zero => exact ⟨s, rfl, hi, hl, hc, rfl⟩
  | succ m ih =>
    obtain ⟨t, h1, h2, h3, h4, h5⟩ := ih
    obtain ⟨u, k1, k2, k3, k4, k5⟩ := mwc1038_pass 1036 t le_rfl (by rw [h2]; rfl) h3 h4
    exact ⟨u, by rw [Nat.mul_succ, stateAfter_add _ _ _ h1, k1], k2, k3, k4, k5.trans h5⟩

/-- **C78 fails for MWC_1038**: every stream of a seeded generator repeats itself for ever after less than
`1037 * 611373679 < 2^40` draws, whatever the seed. -/
theorem C78_mwc1038_fails (s : Thread W32) (hi : s.idx = 1037#32) (hl : s.table.length = 1038) (hc : s.carry.toNat < 611373678) :
    ∃ m n t t', m < n ∧ n < 2 ^ 40 ∧ stateAfter MWC_1038 m s = some t ∧ stateAfter MWC_1038 n s = some t' ∧
      ∀ k, SameStream MWC_1038 k t t' := by
  choose f hf using fun m => mwc1038_passes m s hi hl hc
  obtain ⟨a, ha, b, hb, hne, he⟩ := Finset.exists_ne_map_eq_of_card_lt_of_maps_to (s := Finset.range 611373679)
    (t := Finset.range 611373678) (f := fun m => (f m).carry.toNat) (by simp)
    (fun m _ => Finset.mem_coe.2 (Finset.mem_range.2 (hf m).2.2.2.1))
  have hs : ∀ a b, (f a).carry.toNat = (f b).carry.toNat → ∀ k, SameStream MWC_1038 k (f a) (f b) := fun a b e k =>
    C49_mwc1038_fails _ _ (hf a).2.2.1 (hf b).2.2.1 (hf a).2.1 (hf b).2.1 (by rw [(hf a).2.2.2.2, (hf b).2.2.2.2])
      (BitVec.eq_of_toNat_eq e) k
  rw [Finset.mem_range] at ha hb
  rcases Nat.lt_or_gt_of_ne hne with h | h
  · exact ⟨1037 * a, 1037 * b, f a, f b, by omega, by omega, (hf a).1, (hf b).1, hs a b he⟩
  · exact ⟨1037 * b, 1037 * a, f b, f a, by omega, by omega, (hf b).1, (hf a).1, hs b a he.symm⟩

/-- In particular for every seed. -/
theorem C78_mwc1038_seeded_fails (seed : W32) :
    ∃ m n t t', m < n ∧ n < 2 ^ 40 ∧ stateAfter MWC_1038 m (set_MWC_1038 seed) = some t ∧
      stateAfter MWC_1038 n (set_MWC_1038 seed) = some t' ∧ ∀ k, SameStream MWC_1038 k t t' := by
  refine C78_mwc1038_fails _ rfl (set_MWC_length seed) ?_
  show (_ % 61137367#32 : W32).toNat < _
  rw [BitVec.toNat_umod]
  exact lt_trans (Nat.mod_lt _ (by decide)) (by decide)

/-- One draw of `MWC_4096`: the first word and the carry decide, and the carry is small afterwards. -/
theorem mwc4096_step (s : Thread W32) (hl : s.table.length = 4096) : ∃ out t, par_MWC_4096 s = some (out, t) ∧
    t.table.length = 4096 ∧ t.carry.toNat < 18784 := by
  obtain ⟨T, i, c⟩ := s
  simp only at hl
  obtain ⟨q, hq⟩ : ∃ q, T[0]? = some q := ⟨T[0], List.getElem?_eq_getElem (by omega)⟩
  have hi : ((4095#32 + 1#32) &&& 4095#32).toNat = 0 := by decide
  simp only [par_MWC_4096, hi, hq, Option.bind_eq_bind, Option.bind_some, Option.pure_def]
  refine ⟨_, _, rfl, by simpa using hl, ?_⟩
  have h1 := q.isLt
  have h2 := c.isLt
  have hc : (((18782#64 * q.setWidth 64 + c.setWidth 64 : W64) >>> 32).setWidth 32 : W32).toNat ≤ 18782 := by
    simp only [BitVec.toNat_setWidth, BitVec.toNat_ushiftRight, BitVec.toNat_add, BitVec.toNat_mul, BitVec.toNat_ofNat,
      Nat.shiftRight_eq_div_pow]
    rw [Nat.mod_eq_of_lt (show q.toNat < 2 ^ 64 by omega), Nat.mod_eq_of_lt (show c.toNat < 2 ^ 64 by omega),
      Nat.mod_eq_of_lt (show 18782 < 2 ^ 64 by norm_num), Nat.mod_eq_of_lt (show 18782 * q.toNat < 2 ^ 64 by omega),
      Nat.mod_eq_of_lt (show 18782 * q.toNat + c.toNat < 2 ^ 64 by omega)]
    refine le_trans (Nat.mod_le _ _) ?_
    omega
  simp only
  split
  · rw [BitVec.toNat_add]
    exact lt_of_le_of_lt (Nat.mod_le _ _) (by simp only [BitVec.toNat_ofNat]; omega)
  · omega

theorem mwc4096_after (m : ℕ) (s : Thread W32) (hl : s.table.length = 4096) :
    ∃ t, stateAfter par_MWC_4096 (m + 1) s = some t ∧ t.table.length = 4096 ∧ t.carry.toNat < 18784 := by
  induction m generalizing s with
  | zero =>
    obtain ⟨_, t, h1, h2, h3⟩ := mwc4096_step s hl
    exact ⟨t, by rw [stateAfter_succ h1, stateAfter_zero], h2, h3⟩
  | succ m ih =>
    obtain ⟨_, t, h1, h2, _⟩ := mwc4096_step s hl
    obtain ⟨u, k⟩ := ih t h2
    exact ⟨u, by rw [stateAfter_succ h1]; exact k.1, k.2⟩

/-- **C78 fails for MWC_4096**, the default generator: every stream repeats itself for ever after less than `2^47` draws,
where a lag of 4096 words stands for about `2^131000`. -/
theorem C78_mwc4096_fails (s : Thread W32) (hl : s.table.length = 4096) :
    ∃ m n t t', m < n ∧ n < 2 ^ 47 ∧ stateAfter par_MWC_4096 m s = some t ∧ stateAfter par_MWC_4096 n s = some t' ∧
      ∀ k, SameStream par_MWC_4096 k t t' := by
  choose f hf using fun m => mwc4096_after m s hl
  have hw : ∀ m, ∃ q, (f m).table[0]? = some q := fun m =>
    ⟨(f m).table[0]'(by rw [(hf m).2.1]; norm_num), List.getElem?_eq_getElem _⟩
  choose w hw using hw
  obtain ⟨a, ha, b, hb, hne, he⟩ := Finset.exists_ne_map_eq_of_card_lt_of_maps_to (s := Finset.range (2 ^ 32 * 18784 + 1))
    (t := Finset.range (2 ^ 32) ×ˢ Finset.range 18784) (f := fun m => ((w m).toNat, (f m).carry.toNat)) (by
      rw [Finset.card_product, Finset.card_range, Finset.card_range, Finset.card_range]
      norm_num)
    (fun m _ => by
      rw [Finset.mem_coe, Finset.mem_product, Finset.mem_range, Finset.mem_range]
      exact ⟨(w m).isLt, (hf m).2.2⟩)
  rw [Prod.mk.injEq] at he
  have hs : ∀ a b, (w a).toNat = (w b).toNat → (f a).carry.toNat = (f b).carry.toNat →
      ∀ k, SameStream par_MWC_4096 k (f a) (f b) := fun a b e1 e2 k =>
    C49_mwc4096_fails _ _ (hf a).2.1 (hf b).2.1 (by rw [hw, hw, BitVec.eq_of_toNat_eq e1]) (BitVec.eq_of_toNat_eq e2) k
  rw [Finset.mem_range] at ha hb
  rcases Nat.lt_or_gt_of_ne hne with h | h
  · exact ⟨a + 1, b + 1, f a, f b, by omega, by omega, (hf a).1, (hf b).1, hs a b he.1 he.2⟩
  · exact ⟨b + 1, a + 1, f b, f a, by omega, by omega, (hf b).1, (hf a).1, hs b a he.1.symm he.2.symm⟩

/-- The seeded states meet the hypothesis. -/
theorem C78_mwc4096_seeded_fails (seed : W32) :
    ∃ m n t t', m < n ∧ n < 2 ^ 47 ∧ stateAfter par_MWC_4096 m (set_MWC_4096 seed) = some t ∧
      stateAfter par_MWC_4096 n (set_MWC_4096 seed) = some t' ∧ ∀ k, SameStream par_MWC_4096 k t t' :=
  C78_mwc4096_fails _ (by simp only [set_MWC_4096, seed_table, List.length_cons, lcong_length])

/-- A state `C78_kiss_period` and `C78_kiss_nonzero` apply to. -/
example : (set_KISS 1#32).table.length = 5 ∧ (set_KISS 1#32).table[1]? ≠ some 0#32 := by decide

end GLU.Rng
