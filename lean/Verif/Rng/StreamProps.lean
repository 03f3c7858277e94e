import Verif.Rng.Model

/-!
# The streams of the random number generators

C49 and C50.
-/

namespace GLU.Rng

open GLU.IO

/-! ## C50: range of the doubles -/

/-- **C50, 32-bit generators.** The uniform numbers lie in `[0, 1)`. -/
theorem C50_dbl32 (w : W32) : 0 ≤ dbl32 w ∧ dbl32 w < 1 := by
  have h : w.toNat < 2 ^ 32 := w.isLt
  have e : toDouble w.toNat = w.toNat := by
    rw [toDouble, if_pos (lt_trans h (by norm_num))]
  rw [dbl32, e]
  constructor
  · positivity
  · rw [div_lt_one (by positivity)]
    exact_mod_cast h

theorem mantissa_or (u : W64) : ((u >>> 12) ||| 0x3FF0000000000000#64).msb = false ∧
    (((u >>> 12) ||| 0x3FF0000000000000#64) >>> 52) &&& 0x7FF#64 = 0x3FF#64 := by
  constructor
  · rw [BitVec.msb_or, BitVec.msb_ushiftRight]
    simp only [Nat.zero_lt_succ, decide_true, Bool.not_true, Bool.false_and, Bool.false_or]
    decide
  · apply BitVec.eq_of_getLsbD_eq
    intro i hi
    rw [BitVec.getLsbD_and, BitVec.getLsbD_ushiftRight, BitVec.getLsbD_or, BitVec.getLsbD_ushiftRight]
    have : u.getLsbD (12 + (52 + i)) = false := BitVec.getLsbD_of_ge u _ (by omega)
    rw [this, Bool.false_or]
    clear this
    revert i
    decide

/-- **C50, FULL_DOUBLE.** The uniform numbers lie in `[0, 1)`. -/
theorem C50_dblFull (hi lo : W32) : 0 ≤ dblFull hi lo ∧ dblFull hi lo < 1 := by
  simp only [dblFull, ofBits]
  obtain ⟨h1, h2⟩ := mantissa_or ((hi.setWidth 64 <<< 32) ||| lo.setWidth 64)
  generalize (((hi.setWidth 64 <<< 32) ||| lo.setWidth 64) >>> 12) ||| 0x3FF0000000000000#64 = u at *
  rw [h1, h2]
  have hm : (u &&& 0xFFFFFFFFFFFFF#64).toNat < 2 ^ 52 := by
    rw [BitVec.toNat_and]
    exact lt_of_le_of_lt Nat.and_le_right (by decide)
  have e : (((0x3FF#64).toNat : ℤ) - 1023) = 0 := by decide
  rw [e]
  have hq : ((u &&& 0xFFFFFFFFFFFFF#64).toNat : ℚ) < 2 ^ 52 := by exact_mod_cast hm
  have h0 : (0 : ℚ) ≤ ((u &&& 0xFFFFFFFFFFFFF#64).toNat : ℚ) / 2 ^ 52 := by positivity
  have h3 : ((u &&& 0xFFFFFFFFFFFFF#64).toNat : ℚ) / 2 ^ 52 < 1 := by
    rwa [div_lt_one (by positivity)]
  simp only [Bool.false_eq_true, if_false, one_mul, zpow_zero, mul_one]
  constructor <;> linarith

theorem toDouble_le (n k : ℕ) (hk : 53 ≤ k) (hn : n < 2 ^ k) : toDouble n ≤ 2 ^ k := by
  rw [toDouble]
  split_ifs with h
  · exact hn.le
  · simp only
    have h0 : n ≠ 0 := by
      rintro rfl
      exact h (by positivity)
    have h53 : 53 ≤ Nat.log2 n := by
      rw [Nat.le_log2 h0]
      omega
    have hlt : n < 2 ^ (Nat.log2 n + 1) := Nat.lt_log2_self
    have hk' : Nat.log2 n + 1 ≤ k := by
      have := (Nat.log2_lt h0).2 hn
      omega
    set e := Nat.log2 n + 1 - 53 with he
    have hq : n / 2 ^ e + 1 ≤ 2 ^ 53 := by
      rw [Nat.succ_le_iff, Nat.div_lt_iff_lt_mul (by positivity), ← pow_add]
      convert hlt using 2
      omega
    have h2 : 2 ^ 53 * 2 ^ e ≤ 2 ^ k := by
      rw [← pow_add]
      exact Nat.pow_le_pow_right (by norm_num) (by omega)
    have hq' : n / 2 ^ e * 2 ^ e ≤ (n / 2 ^ e + 1) * 2 ^ e := Nat.mul_le_mul_right _ (Nat.le_succ _)
    split_ifs
    · exact le_trans (Nat.mul_le_mul_right _ hq) h2
    · exact le_trans (le_trans hq' (Nat.mul_le_mul_right _ hq)) h2

theorem toDouble_top (n : ℕ) (h : 2 ^ 63 ≤ n) (hn : n < 2 ^ 64) :
    toDouble n = 2 ^ 64 ↔ 2 ^ 64 - 1024 ≤ n := by
  have hl : Nat.log2 n = 63 := by
    rw [Nat.log2_eq_iff (by omega)]
    exact ⟨h, hn⟩
  rw [toDouble, if_neg (by omega), hl]
  simp only
  norm_num at *
  split_ifs with hc <;> omega

/-- **C50, xorshift.** The numbers are at least 0 and at most 1, and the value 1 is returned exactly
for the 1024 largest outputs of the generator. -/
theorem C50_dbl64_partial (w : W64) : 0 ≤ dbl64 w ∧ dbl64 w ≤ 1 ∧
    (dbl64 w = 1 ↔ 2 ^ 64 - 1024 ≤ w.toNat) := by
  have h : w.toNat < 2 ^ 64 := w.isLt
  have hle := toDouble_le w.toNat 64 (by norm_num) h
  refine ⟨by rw [dbl64]; positivity, ?_, ?_⟩
  · rw [dbl64, div_le_one (by positivity)]
    exact_mod_cast hle
  · rw [dbl64, div_eq_one_iff_eq (by positivity)]
    by_cases h63 : 2 ^ 63 ≤ w.toNat
    · rw [← toDouble_top w.toNat h63 h]
      exact_mod_cast Iff.rfl
    · have := toDouble_le w.toNat 63 (by norm_num) (by omega)
      constructor
      · intro hc
        have : toDouble w.toNat = 2 ^ 64 := by exact_mod_cast hc
        omega
      · intro hc
        omega

/-- **C50 fails for the xorshift generator**: a state whose next number is 1. -/
theorem C50_xor_fails : ∃ s : Thread W64, s.table.length = 16 ∧ s.idx.toNat < 16 ∧
    (par_XOR_1024 s).map (fun r => dbl64 r.1) = some 1 := by
  refine ⟨⟨List.replicate 15 0#64 ++ [0x446e0875348316b7#64], 15#32, 0#32⟩, rfl, by decide, ?_⟩
  have h : (par_XOR_1024 ⟨List.replicate 15 0#64 ++ [0x446e0875348316b7#64], 15#32, 0#32⟩).map (·.1) =
      some (BitVec.allOnes 64) := by decide
  rw [Option.map_eq_some_iff] at h ⊢
  obtain ⟨a, ha, hb⟩ := h
  refine ⟨a, ha, ?_⟩
  rw [hb]
  exact (C50_dbl64_partial _).2.2.2 (by decide)

/-! ## C49: use of the whole table -/

/-- Two threads with the same stream of `n` numbers. -/
def SameStream {W O : Type} (step : Thread W → Option (O × Thread W)) (n : ℕ) (s s' : Thread W) :
    Prop := (draws step n s).map (·.1) = (draws step n s').map (·.1)

/-- A relation preserved by the step, under which outputs agree, gives equal streams. -/
theorem sameStream_of_rel {W O : Type} {step : Thread W → Option (O × Thread W)}
    (R : Thread W → Thread W → Prop)
    (h : ∀ s s', R s s' → ∃ x t t', step s = some (x, t) ∧ step s' = some (x, t') ∧ R t t')
    (n : ℕ) : ∀ s s', R s s' → SameStream step n s s' := by
  induction n with
  | zero => intros; rfl
  | succ n ih =>
    intro s s' hR
    obtain ⟨x, t, t', h1, h2, hR'⟩ := h s s' hR
    have := ih t t' hR'
    simp only [SameStream, draws, h1, h2, Option.bind_eq_bind, Option.bind_some] at this ⊢
    revert this
    cases draws step n t <;> cases draws step n t' <;> simp

/-- **C49 fails for MWC_4096** (the default generator): the index is reset to zero at every draw, so
the whole infinite stream depends on the first table word and the carry only. -/
theorem C49_mwc4096_fails (s s' : Thread W32) (h : s.table.length = 4096) (h' : s'.table.length = 4096)
    (h0 : s.table[0]? = s'.table[0]?) (hc : s.carry = s'.carry) (n : ℕ) :
    SameStream par_MWC_4096 n s s' := by
  apply sameStream_of_rel (fun s s' => s.table.length = 4096 ∧ s'.table.length = 4096 ∧
    s.table[0]? = s'.table[0]? ∧ s.carry = s'.carry) _ n s s' ⟨h, h', h0, hc⟩
  rintro ⟨T, i, c⟩ ⟨T', i', c'⟩ ⟨h1, h2, h3, h4⟩
  simp only at h1 h2 h3 h4
  subst h4
  obtain ⟨q, hq⟩ : ∃ q, T[0]? = some q := ⟨T[0], List.getElem?_eq_getElem (by omega)⟩
  have hi : ((4095#32 + 1#32) &&& 4095#32).toNat = 0 := by decide
  simp only [par_MWC_4096, hi, hq, ← h3, Option.bind_eq_bind, Option.bind_some, Option.pure_def]
  refine ⟨_, _, _, rfl, rfl, by simpa using h1, by simpa using h2, ?_, rfl⟩
  simp only
  rw [List.getElem?_set_self (by omega), List.getElem?_set_self (by omega)]

/-- **C49 fails for MWC_1038**: a draw reads one word and overwrites the next one before that is
read, so the stream of a freshly seeded generator depends on the last table word and the carry
only. -/
theorem C49_mwc1038_fails (s s' : Thread W32) (h : s.table.length = 1038) (h' : s'.table.length = 1038)
    (hi : s.idx = 1037#32) (hi' : s'.idx = 1037#32) (h0 : s.table[1037]? = s'.table[1037]?)
    (hc : s.carry = s'.carry) (n : ℕ) : SameStream MWC_1038 n s s' := by
  apply sameStream_of_rel (fun s s' => s.table.length = 1038 ∧ s'.table.length = 1038 ∧
    s.idx = s'.idx ∧ 1 ≤ s.idx.toNat ∧ s.idx.toNat ≤ 1037 ∧ s.table[1037]? = s'.table[1037]? ∧
    s.table[s.idx.toNat]? = s'.table[s.idx.toNat]? ∧ s.carry = s'.carry) _ n s s'
    ⟨h, h', by rw [hi, hi'], by rw [hi]; decide, by rw [hi]; decide, h0, by rw [hi]; exact h0, hc⟩
  rintro ⟨T, i, c⟩ ⟨T', i', c'⟩ ⟨h1, h2, h3, h4, h5, h6, h7, h8⟩
  simp only at h1 h2 h3 h4 h5 h6 h7 h8
  subst h3 h8
  obtain ⟨q, hq⟩ : ∃ q, T[i.toNat]? = some q := ⟨T[i.toNat], List.getElem?_eq_getElem (by omega)⟩
  have e : (i - 1#32).toNat = i.toNat - 1 := by
    rw [BitVec.toNat_sub_of_le (by rw [BitVec.le_def]; exact h4)]
    rfl
  by_cases h0 : i - 1#32 = 0#32
  · simp only [MWC_1038, hq, ← h7, Option.bind_eq_bind, Option.bind_some, Option.pure_def, h0,
      ne_eq, not_true, if_false, h1, h2]
    refine ⟨_, _, _, rfl, rfl, by simpa using h1, by simpa using h2, rfl, show 1 ≤ (1037#32).toNat by decide,
      show (1037#32).toNat ≤ 1037 by decide, ?_, ?_, rfl⟩
    · rw [List.getElem?_set_ne (by decide), List.getElem?_set_ne (by decide), h6]
    · show (T.set 0 _)[1037]? = (T'.set 0 _)[1037]?
      rw [List.getElem?_set_ne (by decide), List.getElem?_set_ne (by decide), h6]
  · have hne : (i - 1#32).toNat ≠ 0 := fun hc => h0 (BitVec.eq_of_toNat_eq hc)
    have hlt : (i - 1#32).toNat < 1038 := by omega
    simp only [MWC_1038, hq, ← h7, Option.bind_eq_bind, Option.bind_some, Option.pure_def,
      ne_eq, h0, not_false_eq_true, if_true, h1, h2, hlt]
    refine ⟨_, _, _, rfl, rfl, by simpa using h1, by simpa using h2, rfl, by simp only; omega,
      by simp only; omega, ?_, ?_, rfl⟩
    · simp only
      rw [List.getElem?_set_ne (by omega), List.getElem?_set_ne (by omega), h6]
    · simp only
      rw [List.getElem?_set_self (by omega), List.getElem?_set_self (by omega)]

/-- Seeded states meet the hypotheses, and a single word changed anywhere else does not matter. -/
theorem C49_mwc1038_seeded_fails (seed w : W32) (j : ℕ) (hj : j < 1037) (n : ℕ) :
    SameStream MWC_1038 n (set_MWC_1038 seed)
      { set_MWC_1038 seed with table := (set_MWC_1038 seed).table.set j w } := by
  have hl : ∀ n j prev, (lcong n j prev).length = n := by
    intro n
    induction n with
    | zero => intros; rfl
    | succ n ih => intro j prev; rw [lcong, List.length_cons, ih]
  have h1 : (set_MWC_1038 seed).table.length = 1038 := by
    simp only [set_MWC_1038, seed_table, List.length_cons, hl]
  refine C49_mwc1038_fails _ ⟨(set_MWC_1038 seed).table.set j w, (set_MWC_1038 seed).idx,
    (set_MWC_1038 seed).carry⟩ h1 (by simpa using h1) rfl rfl ?_ rfl n
  simp only
  rw [List.getElem?_set_ne (by omega)]

/-! ### The xorshift generator -/

theorem xorshift_left_inj {w : ℕ} (k : ℕ) (hk : 0 < k) (x y : BitVec w)
    (h : x ^^^ (x <<< k) = y ^^^ (y <<< k)) : x = y := by
  apply BitVec.eq_of_getLsbD_eq
  intro i
  induction i using Nat.strong_induction_on with
  | _ i ih =>
    intro hi
    have hb := congrArg (fun v => v.getLsbD i) h
    simp only [BitVec.getLsbD_xor, BitVec.getLsbD_shiftLeft, hi, decide_true, Bool.true_and] at hb
    by_cases hik : i < k
    · simpa [hik] using hb
    · rw [ih (i - k) (by omega) (by omega)] at hb
      exact Bool.xor_left_inj.1 hb

theorem xorshift_right_inj {w : ℕ} (k : ℕ) (hk : 0 < k) (x y : BitVec w)
    (h : x ^^^ (x >>> k) = y ^^^ (y >>> k)) : x = y := by
  apply BitVec.eq_of_getLsbD_eq
  have key : ∀ d i, w - i ≤ d → x.getLsbD i = y.getLsbD i := by
    intro d
    induction d with
    | zero =>
      intro i hi
      rw [BitVec.getLsbD_of_ge x i (by omega), BitVec.getLsbD_of_ge y i (by omega)]
    | succ d ih =>
      intro i hi
      have hb := congrArg (fun v => v.getLsbD i) h
      by_cases hiw : w ≤ i
      · rw [BitVec.getLsbD_of_ge x i hiw, BitVec.getLsbD_of_ge y i hiw]
      · simp only [BitVec.getLsbD_xor, BitVec.getLsbD_ushiftRight] at hb
        rw [ih (k + i) (by omega)] at hb
        exact Bool.xor_left_inj.1 hb
  exact fun i _ => key _ i le_rfl

/-- The scrambling of the second word. -/
def xorG (s1 : W64) : W64 := (s1 ^^^ (s1 <<< 31)) ^^^ ((s1 ^^^ (s1 <<< 31)) >>> 11)

/-- The scrambling of the first word. -/
def xorF (s0 : W64) : W64 := s0 ^^^ (s0 >>> 30)

theorem xorG_inj {x y : W64} (h : xorG x = xorG y) : x = y :=
  xorshift_left_inj 31 (by norm_num) x y (xorshift_right_inj 11 (by norm_num) _ _ h)

theorem odd_mul_inj {x y : W64} (h : x * 1181783497276652981#64 = y * 1181783497276652981#64) :
    x = y := by
  have h2 := congrArg (· * 13515856136758413469#64) h
  simp only [BitVec.mul_assoc] at h2
  rw [show 1181783497276652981#64 * 13515856136758413469#64 = 1#64 by decide, BitVec.mul_one, BitVec.mul_one] at h2
  exact h2

theorem next_idx (i : W32) (hi : i.toNat < 16) : ((i + 1#32) &&& 15#32).toNat = (i.toNat + 1) % 16 := by
  rw [BitVec.toNat_and, show (15#32).toNat = 2 ^ 4 - 1 by decide, Nat.and_two_pow_sub_one_eq_mod,
    BitVec.toNat_add]
  have : (1#32).toNat = 1 := by decide
  rw [this]
  omega

/-- A draw in terms of the two words it uses. -/
theorem xor_step (s : Thread W64) (hl : s.table.length = 16) (hi : s.idx.toNat < 16) :
    ∃ a b, s.table[s.idx.toNat]? = some a ∧ s.table[(s.idx.toNat + 1) % 16]? = some b ∧
      par_XOR_1024 s = some ((xorF a ^^^ xorG b) * 1181783497276652981#64,
        ⟨s.table.set ((s.idx.toNat + 1) % 16) (xorF a ^^^ xorG b), (s.idx + 1#32) &&& 15#32, s.carry⟩) := by
  have h2 : (s.idx.toNat + 1) % 16 < 16 := Nat.mod_lt _ (by norm_num)
  obtain ⟨a, ha⟩ : ∃ a, s.table[s.idx.toNat]? = some a :=
    ⟨s.table[s.idx.toNat], List.getElem?_eq_getElem (by omega)⟩
  obtain ⟨b, hb⟩ : ∃ b, s.table[(s.idx.toNat + 1) % 16]? = some b :=
    ⟨s.table[(s.idx.toNat + 1) % 16], List.getElem?_eq_getElem (by omega)⟩
  refine ⟨a, b, ha, hb, ?_⟩
  simp only [par_XOR_1024, ha, next_idx s.idx hi, hb, Option.bind_eq_bind, Option.bind_some,
    Option.pure_def]
  rfl

theorem xor_observable (n : ℕ) : ∀ (m : ℕ) (s s' : Thread W64), 16 ≤ m + n → s.table.length = 16 →
    s'.table.length = 16 → s.idx.toNat < 16 → s.idx = s'.idx →
    (∀ j < m, s.table[(s.idx.toNat + 15 * j) % 16]? = s'.table[(s.idx.toNat + 15 * j) % 16]?) →
    SameStream par_XOR_1024 n s s' → s.table = s'.table := by
  induction n with
  | zero =>
    intro m s s' hm hl hl' hi he hA _
    apply List.ext_getElem?
    intro j
    by_cases hj : j < 16
    · have h1 := hA ((15 * j + s.idx.toNat) % 16) (lt_of_lt_of_le (Nat.mod_lt _ (by norm_num)) (by omega))
      have e : (s.idx.toNat + 15 * ((15 * j + s.idx.toNat) % 16)) % 16 = j := by omega
      rwa [e] at h1
    · rw [List.getElem?_eq_none (by omega), List.getElem?_eq_none (by omega)]
  | succ n ih =>
    intro m s s' hm hl hl' hi he hA hs
    obtain ⟨a, b, ha, hb, h1⟩ := xor_step s hl hi
    obtain ⟨a', b', ha', hb', h1'⟩ := xor_step s' hl' (he ▸ hi)
    rw [← he] at ha' hb' h1'
    simp only [SameStream, draws, h1, h1', Option.bind_eq_bind, Option.bind_some, Option.pure_def] at hs
    have hdef : ∀ (n : ℕ) (t : Thread W64), t.table.length = 16 → t.idx.toNat < 16 →
        ∃ r, draws par_XOR_1024 n t = some r := by
      intro n
      induction n with
      | zero => intro t _ _; exact ⟨_, rfl⟩
      | succ n ih =>
        intro t hl hi
        obtain ⟨a, b, -, -, h1⟩ := xor_step t hl hi
        obtain ⟨r, hr⟩ := ih ⟨t.table.set ((t.idx.toNat + 1) % 16) (xorF a ^^^ xorG b),
          (t.idx + 1#32) &&& 15#32, t.carry⟩ (by simpa using hl)
          (by simp only; rw [next_idx t.idx hi]; exact Nat.mod_lt _ (by norm_num))
        simp only [draws, h1, Option.bind_eq_bind, Option.bind_some, hr, Option.pure_def]
        exact ⟨_, rfl⟩
    have hni : ((s.idx + 1#32) &&& 15#32).toNat < 16 := by
      rw [next_idx s.idx hi]; exact Nat.mod_lt _ (by norm_num)
    obtain ⟨r, hr⟩ := hdef n ⟨s.table.set ((s.idx.toNat + 1) % 16) (xorF a ^^^ xorG b),
      (s.idx + 1#32) &&& 15#32, s.carry⟩ (by simpa using hl) hni
    obtain ⟨r', hr'⟩ := hdef n ⟨s'.table.set ((s.idx.toNat + 1) % 16) (xorF a' ^^^ xorG b'),
      (s.idx + 1#32) &&& 15#32, s'.carry⟩ (by simpa using hl') hni
    simp only [hr, hr', Option.bind_some, Option.map_some, Option.some.injEq, List.cons.injEq] at hs
    have hv := odd_mul_inj hs.1
    have hp : (s.idx.toNat + 1) % 16 < 16 := Nat.mod_lt _ (by norm_num)
    have ht := ih (m + 1) ⟨s.table.set ((s.idx.toNat + 1) % 16) (xorF a ^^^ xorG b),
      (s.idx + 1#32) &&& 15#32, s.carry⟩ ⟨s'.table.set ((s.idx.toNat + 1) % 16) (xorF a' ^^^ xorG b'),
      (s.idx + 1#32) &&& 15#32, s'.carry⟩ (by omega) (by simpa using hl) (by simpa using hl') hni rfl
      (by
        intro j hj
        simp only
        rw [next_idx s.idx hi]
        by_cases hj0 : ((s.idx.toNat + 1) % 16 + 15 * j) % 16 = (s.idx.toNat + 1) % 16
        · rw [hj0, List.getElem?_set_self (by omega), List.getElem?_set_self (by omega), hv]
        · rw [List.getElem?_set_ne (Ne.symm hj0), List.getElem?_set_ne (Ne.symm hj0)]
          cases j with
          | zero => exact absurd (by omega) hj0
          | succ j =>
            have := hA j (by omega)
            have e : ((s.idx.toNat + 1) % 16 + 15 * (j + 1)) % 16 = (s.idx.toNat + 15 * j) % 16 := by
              omega
            rwa [e])
      (by simp only [SameStream, hr, hr', Option.map_some, hs.2])
    simp only at ht
    have hne : s.idx.toNat ≠ (s.idx.toNat + 1) % 16 := by omega
    apply List.ext_getElem?
    intro j
    have hj := congrArg (fun l => l[j]?) ht
    have hia := congrArg (fun l => l[s.idx.toNat]?) ht
    rw [List.getElem?_set_ne hne.symm, List.getElem?_set_ne hne.symm, ha, ha', Option.some.injEq] at hia
    by_cases hjp : j = (s.idx.toNat + 1) % 16
    · rw [hjp, hb, hb', Option.some.injEq]
      subst hia
      exact xorG_inj (by
        have := congrArg (xorF a ^^^ ·) hv
        simpa [← BitVec.xor_assoc] using this)
    · rwa [List.getElem?_set_ne (Ne.symm hjp), List.getElem?_set_ne (Ne.symm hjp)] at hj

/-- **C49, xorshift.** Sixteen successive numbers determine the whole table: two states with the
same index whose tables differ in any word have different streams. -/
theorem C49_xor1024 (s s' : Thread W64) (hl : s.table.length = 16) (hl' : s'.table.length = 16)
    (hi : s.idx.toNat < 16) (he : s.idx = s'.idx) (hne : s.table ≠ s'.table) :
    ¬ SameStream par_XOR_1024 16 s s' :=
  fun h => hne (xor_observable 16 0 s s' (by norm_num) hl hl' hi he (by simp) h)

/-- **C49, KISS and WELL (existence).** Every table word can influence the stream: for every
position there are two states differing only there whose streams differ. -/
theorem C49_kiss_partial : ∀ j < 5, ∃ (s : Thread W32) (w : W32), s.table.length = 5 ∧
    ¬ SameStream JKISS32 1 s { s with table := s.table.set j w } := by
  intro j hj
  refine ⟨⟨[0, 0, 0, 0, 0], 0, 0⟩, 1, rfl, ?_⟩
  simp only [SameStream]
  interval_cases j <;> decide

theorem C49_well512_partial : ∀ j < 16, ∃ (s : Thread W32) (w : W32), s.table.length = 16 ∧
    s.idx.toNat < 16 ∧ ¬ SameStream par_WELL_512 16 s { s with table := s.table.set j w } := by
  intro j hj
  refine ⟨⟨List.replicate 16 0, 0, 0⟩, 1, rfl, by decide, ?_⟩
  simp only [SameStream]
  interval_cases j <;> decide +kernel

end GLU.Rng
