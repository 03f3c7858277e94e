import Verif.Mat.GramProps

/-!
# Which special unitary matrix the reunitarisation gives

The result of `gram_reunit` is the Gram-Schmidt orthonormalisation of the leading vectors, in their order.
-/

namespace GLU.Mat

open Complex Matrix Finset

theorem ip_add_right {n : ℕ} (x y w : Fin n → ℂ) : ip x (y + w) = ip x y + ip x w := by
  simp [ip]

theorem ip_sum_right {n : ℕ} {ι : Type*} (s : Finset ι) (x : Fin n → ℂ) (f : ι → Fin n → ℂ) :
    ip x (∑ j ∈ s, f j) = ∑ j ∈ s, ip x (f j) := by
  classical
  induction s using Finset.induction_on with
  | empty => simp [ip]
  | insert a s ha ih => rw [sum_insert ha, sum_insert ha, ip_add_right, ih]

/-- A vector in the span of orthonormal vectors is the sum of its projections. -/
theorem span_expand {n k : ℕ} {v : ℕ → Fin n → ℂ} (hv : ∀ i < k, ∀ j < k, ip (v i) (v j) = if i = j then 1 else 0)
    {x : Fin n → ℂ} (hx : x ∈ Submodule.span ℂ {x | ∃ i < k, x = v i}) : x = ∑ j ∈ range k, ip (v j) x • v j := by
  induction hx using Submodule.span_induction with
  | mem x h =>
    obtain ⟨i, hi, rfl⟩ := h
    rw [sum_eq_single i]
    · rw [hv i hi i hi, if_pos rfl, one_smul]
    · intro j hj hne
      rw [hv j (mem_range.1 hj) i hi, if_neg hne, zero_smul]
    · intro h
      exact absurd (mem_range.2 hi) h
  | zero => simp [ip]
  | add x y _ _ h1 h2 =>
    have h3 : ∀ j ∈ range k, ip (v j) (x + y) • v j = ip (v j) x • v j + ip (v j) y • v j := fun j _ => by
      rw [ip_add_right, add_smul]
    rw [sum_congr rfl h3, sum_add_distrib, ← h1, ← h2]
  | smul a x _ h =>
    have h3 : ∀ j ∈ range k, ip (v j) (a • x) • v j = a • (ip (v j) x • v j) := fun j _ => by
      rw [ip_smul_right, mul_smul]
    rw [sum_congr rfl h3, ← smul_sum, ← h]

/-- `v` is the Gram-Schmidt orthonormalisation of `u`, up to index `m`. -/
structure IsGramSchmidt {n : ℕ} (m : ℕ) (u v : ℕ → Fin n → ℂ) : Prop where
  unit : ∀ k < m, ip (v k) (v k) = 1
  step : ∀ k < m, ∃ r : ℝ, 0 < r ∧ (r : ℂ) • v k = u k - ∑ j ∈ range k, ip (v j) (u k) • v j

theorem normalise_step {n : ℕ} {w b : Fin n → ℂ} (hw : w ≠ 0)
    (hb : b = ((1 / Real.sqrt (∑ k, normSq (w k)) : ℝ) : ℂ) • w) : ∃ r : ℝ, 0 < r ∧ (r : ℂ) • b = w := by
  have h0 := Real.sqrt_pos.2 (ip_zero_iff hw)
  refine ⟨_, h0, ?_⟩
  rw [hb, smul_smul, ← ofReal_mul, mul_one_div_cancel h0.ne', ofReal_one, one_smul]

theorem gram_tri (NC : ℕ) (U0 : Arr ℂ) :
    ∀ s, forN (NC - 1) (fun k o => o.bind (gramStep NC k)) (some (fun i j => U0 (j + NC * i), U0)) = some s →
      ∀ i < NC - 1, ∃ r : ℝ, 0 < r ∧ (r : ℂ) • vec NC (s.1 i) =
        urow NC U0 i - ∑ j ∈ range i, ip (vec NC (s.1 j)) (urow NC U0 i) • vec NC (s.1 j) := by
  have := forN_inv (fun k (o : Option ((ℕ → Arr ℂ) × Arr ℂ)) => GramInv NC U0 k o ∧ ∀ s, o = some s →
      ∀ i < k, ∃ r : ℝ, 0 < r ∧ (r : ℂ) • vec NC (s.1 i) =
        urow NC U0 i - ∑ j ∈ range i, ip (vec NC (s.1 j)) (urow NC U0 i) • vec NC (s.1 j)) (n := NC - 1)
    (body := fun k o => o.bind (gramStep NC k)) (s := some (fun i j => U0 (j + NC * i), U0))
    ⟨⟨by simp, by simp, fun i _ => rfl, by simp⟩, fun s _ i hi => absurd hi (Nat.not_lt_zero i)⟩
    (fun k hk o ho => by
      obtain ⟨hI, hT⟩ := ho
      cases o with
      | none => exact ⟨hI, fun s h => by cases h⟩
      | some s =>
        refine ⟨gramStep_inv hk hI, fun s' hs' i hi => ?_⟩
        obtain ⟨h1, h2, h3, h4⟩ := hI
        obtain ⟨p1, p2⟩ := project_loop NC k s.1 h1 (s.1 k)
        rw [h3 k (le_refl _)] at p2
        change gramStep NC k s = some s' at hs'
        unfold gramStep at hs'
        set w := forN k (fun i vk => project NC vk (s.1 i)) (s.1 k) with hw
        rcases vect_norm2_vec NC w with ⟨hn, hz⟩ | ⟨b, hb, hne, hbv⟩
        · rw [hn] at hs'; cases hs'
        · rw [hb] at hs'
          obtain rfl := Option.some.inj hs'
          have old : ∀ j < k, Function.update s.1 k b j = s.1 j := fun j hj => Function.update_of_ne (by omega) _ _
          rcases Nat.lt_succ_iff_lt_or_eq.1 hi with hi' | rfl
          · obtain ⟨r, hr, hr2⟩ := hT s rfl i hi'
            refine ⟨r, hr, ?_⟩
            dsimp only
            rw [old i hi', hr2]
            congr 1
            refine sum_congr rfl fun j hj => ?_
            rw [old j (by have := mem_range.1 hj; omega)]
          · obtain ⟨r, hr, hr2⟩ := normalise_step hne hbv
            refine ⟨r, hr, ?_⟩
            dsimp only
            rw [Function.update_self, hr2]
            have e := span_expand (v := fun j => vec NC (s.1 j)) h1 p2
            rw [sub_eq_iff_eq_add] at e
            have e2 : ∑ j ∈ range i, ip (vec NC (s.1 j)) (urow NC U0 i - vec NC w) • vec NC (s.1 j) =
                ∑ j ∈ range i, ip (vec NC (s.1 j)) (urow NC U0 i) • vec NC (s.1 j) :=
              sum_congr rfl fun j hj => by rw [ip_sub_right, p1 j (mem_range.1 hj), sub_zero]
            rw [e2] at e
            have e3 : ∑ j ∈ range i, ip (vec NC (Function.update s.1 i b j)) (urow NC U0 i) •
                vec NC (Function.update s.1 i b j) =
                ∑ j ∈ range i, ip (vec NC (s.1 j)) (urow NC U0 i) • vec NC (s.1 j) :=
              sum_congr rfl fun j hj => by rw [old j (mem_range.1 hj)]
            rw [e3]
            exact (sub_eq_of_eq_add' e).symm)
  exact this.2

/-- The leading vectors by number: columns for two and three colours, rows otherwise. -/
def lead (NC : ℕ) (U : Arr ℂ) (k : ℕ) : Fin NC → ℂ := fun c => if NC ≤ 3 then U (k + NC * c) else U (c + NC * k)

/-- C15: the leading vectors of the result are the Gram-Schmidt orthonormalisation of the leading vectors given, in
their order; with the determinant one this fixes the result. -/
theorem C15_gram_schmidt {NC : ℕ} (hN : 1 < NC) {U array V : Arr ℂ} (h : gram_reunit NC U array = some V) :
    IsGramSchmidt (NC - 1) (lead NC U) (lead NC V) := by
  have hSU := C15_special_unitary hN h
  have unit : ∀ k < NC - 1, ip (lead NC V k) (lead NC V k) = 1 := by
    intro k hk
    have hk' : k < NC := by omega
    unfold lead ip
    split
    · have e := congrFun (congrFun (mem_unitaryGroup_iff'.1 (mem_specialUnitaryGroup_iff.1 hSU).1) ⟨k, hk'⟩) ⟨k, hk'⟩
      rw [one_apply_eq] at e
      rw [← e, mul_apply]
      rfl
    · have e := congrFun (congrFun (mem_unitaryGroup_iff.1 (mem_specialUnitaryGroup_iff.1 hSU).1) ⟨k, hk'⟩) ⟨k, hk'⟩
      rw [one_apply_eq] at e
      rw [← e, mul_apply]
      simp only [dotProduct]
      exact sum_congr rfl fun c _ => mul_comm _ _
  refine ⟨unit, ?_⟩
  unfold gram_reunit at h
  split at h
  · next h3 =>
    subst h3
    rcases gram3_cases U with ⟨h0, -⟩ | ⟨h0, -⟩ | ⟨V', hV, c0, -, ⟨w, hw, hne, c1⟩, -⟩
    · rw [h0] at h; cases h
    · rw [h0] at h; cases h
    · rw [hV] at h
      obtain rfl := Option.some.inj h
      have l0 : ∀ W : Arr ℂ, lead 3 W 0 = col3 W 0 := fun W => by
        funext c; fin_cases c <;> rfl
      have l1 : ∀ W : Arr ℂ, lead 3 W 1 = col3 W 1 := fun W => by
        funext c; fin_cases c <;> rfl
      intro k hk
      have : k = 0 ∨ k = 1 := by omega
      rcases this with rfl | rfl
      · rw [range_zero, sum_empty, sub_zero, l0, l0]
        refine normalise_step (fun h0 => ?_) c0
        have u0 := unit 0 (by norm_num)
        rw [l0, c0, h0] at u0
        simp [ip] at u0
      · rw [sum_range_one, l0, l1, l1, ← hw]
        exact normalise_step hne c1
  · split at h
    · next h2 =>
      subst h2
      intro k hk
      obtain rfl : k = 0 := by omega
      rw [range_zero, sum_empty, sub_zero]
      unfold gram_reunit2 at h
      simp only [] at h
      split at h
      · cases h
      · next hs =>
        obtain rfl := Option.some.inj h
        refine ⟨_, lt_of_le_of_ne (Real.sqrt_nonneg _) (Ne.symm hs), ?_⟩
        set q := Real.sqrt ((U 0).re * (U 0).re + (U 0).im * (U 0).im + (U 2).re * (U 2).re + (U 2).im * (U 2).im)
        funext c
        fin_cases c
        all_goals
          apply Complex.ext
          all_goals
            simp [lead]
            field_simp
    · next hn3 hn2 =>
      unfold gram_reunitN at h
      rw [Option.map_eq_some_iff] at h
      obtain ⟨s, hs, rfl⟩ := h
      have inv := gram_inv NC U
      have tri := gram_tri NC U s hs
      rw [hs] at inv
      obtain ⟨-, -, -, h4⟩ := inv
      have lU : ∀ k, lead NC U k = urow NC U k := fun k => by
        funext c; unfold lead urow; rw [if_neg (by omega)]
      have lV : ∀ k < NC - 1, lead NC (completeBottom NC s.2 array) k = vec NC (s.1 k) := fun k hk => by
        obtain ⟨m, rfl⟩ : ∃ m, NC = m + 1 := ⟨NC - 1, by omega⟩
        funext c
        unfold lead vec
        rw [if_neg (by omega)]
        have e := completeBottom_apply (m := m) (by omega) s.2 array ⟨k, by omega⟩ c
        rw [toM_apply, if_neg (by intro h; have := congrArg Fin.val h; simp at this; omega), toM_apply,
          h4 k c c.2, if_pos (by omega)] at e
        exact e
      intro k hk
      obtain ⟨r, hr, e⟩ := tri k hk
      refine ⟨r, hr, ?_⟩
      rw [lV k hk, lU, e]
      congr 1
      refine sum_congr rfl fun j hj => ?_
      rw [lV j (by have := mem_range.1 hj; omega)]

theorem gs_unique {n m : ℕ} {u v v' : ℕ → Fin n → ℂ} (h : IsGramSchmidt m u v) (h' : IsGramSchmidt m u v') :
    ∀ k < m, v k = v' k := by
  intro k
  induction k using Nat.strong_induction_on with
  | _ k ih =>
    intro hk
    obtain ⟨r, hr, e⟩ := h.step k hk
    obtain ⟨r', hr', e'⟩ := h'.step k hk
    have hs : ∑ j ∈ range k, ip (v j) (u k) • v j = ∑ j ∈ range k, ip (v' j) (u k) • v' j :=
      sum_congr rfl fun j hj => by rw [ih j (mem_range.1 hj) (by have := mem_range.1 hj; omega)]
    have e2 : (r : ℂ) • v k = (r' : ℂ) • v' k := by rw [e, e', hs]
    have n1 : ip ((r : ℂ) • v k) ((r : ℂ) • v k) = ((r * r : ℝ) : ℂ) := by
      rw [ip_smul_left, ip_smul_right, h.unit k hk, star_def, conj_ofReal]; push_cast; ring
    have n2 : ip ((r' : ℂ) • v' k) ((r' : ℂ) • v' k) = ((r' * r' : ℝ) : ℂ) := by
      rw [ip_smul_left, ip_smul_right, h'.unit k hk, star_def, conj_ofReal]; push_cast; ring
    rw [e2, n2] at n1
    have n3 : r' * r' = r * r := by exact_mod_cast n1
    have n4 : r' = r := by nlinarith
    rw [n4] at e2
    have hc : (r : ℂ) ≠ 0 := by exact_mod_cast hr.ne'
    funext c
    have := congrFun e2 c
    simp only [Pi.smul_apply, smul_eq_mul] at this
    exact mul_left_cancel₀ hc this

theorem su_last_row {m : ℕ} {A B : Matrix (Fin (m + 1)) (Fin (m + 1)) ℂ}
    (hA : A ∈ specialUnitaryGroup (Fin (m + 1)) ℂ) (hB : B ∈ specialUnitaryGroup (Fin (m + 1)) ℂ)
    (h : ∀ i j, i ≠ Fin.last m → A i j = B i j) : A = B := by
  ext i j
  by_cases hi : i = Fin.last m
  · subst hi
    have e := adjugate_last_congr h j
    rw [su_adjugate hA, su_adjugate hB, conjTranspose_apply, conjTranspose_apply] at e
    exact star_injective e
  · exact h i j hi

/-- C15: the result is the only special unitary matrix whose leading vectors are the Gram-Schmidt orthonormalisation
of the leading vectors given. -/
theorem C15_unique {NC : ℕ} (hN : 1 < NC) {U array V W : Arr ℂ} (h : gram_reunit NC U array = some V)
    (hW : IsSU NC W) (hgs : IsGramSchmidt (NC - 1) (lead NC U) (lead NC W)) : toM NC W = toM NC V := by
  have hV := C15_special_unitary hN h
  have e := gs_unique hgs (C15_gram_schmidt hN h)
  obtain ⟨m, rfl⟩ : ∃ m, NC = m + 1 := ⟨NC - 1, by omega⟩
  by_cases h3 : m + 1 ≤ 3
  · have := su_last_row (su_transpose hW) (su_transpose hV) (fun i j hi => by
      have hlt : (i : ℕ) < m + 1 - 1 := by
        have := i.2
        have : (i : ℕ) ≠ m := fun h => hi (Fin.ext h)
        omega
      have := congrFun (e i hlt) j
      unfold lead at this
      rw [if_pos h3, if_pos h3] at this
      exact this)
    exact transpose_injective this
  · refine su_last_row hW hV fun i j hi => ?_
    have hlt : (i : ℕ) < m + 1 - 1 := by
      have := i.2
      have : (i : ℕ) ≠ m := fun h => hi (Fin.ext h)
      omega
    have := congrFun (e i hlt) j
    unfold lead at this
    rw [if_neg h3, if_neg h3] at this
    exact this

/-- Only the leading vectors matter: two calls that agree on them give the same matrix, whatever the rest of the
matrix and of the temporary storage. -/
theorem gram_lead {NC : ℕ} (hN : 1 < NC) {U U' array array' V V' : Arr ℂ} (h : gram_reunit NC U array = some V)
    (h' : gram_reunit NC U' array' = some V') (hl : ∀ k < NC - 1, lead NC U k = lead NC U' k) :
    toM NC V = toM NC V' := by
  refine C15_unique hN h' (C15_special_unitary hN h) ⟨(C15_gram_schmidt hN h).unit, fun k hk => ?_⟩
  obtain ⟨r, hr, e⟩ := (C15_gram_schmidt hN h).step k hk
  exact ⟨r, hr, by rw [e, hl k hk]⟩

/-- The hypotheses are met by a matrix that is not unitary. -/
example : ∃ V, gram_reunit 2 (arr [2, 1, 0, 1]) (fun _ => 0) = some V ∧
    IsGramSchmidt 1 (lead 2 (arr [2, 1, 0, 1])) (lead 2 V) := by
  obtain ⟨V, hV⟩ : ∃ V, gram_reunit 2 (arr [2, 1, 0, 1]) (fun _ => 0) = some V := by
    simp [gram_reunit, gram_reunit2]
  exact ⟨V, hV, C15_gram_schmidt (by norm_num) hV⟩

end GLU.Mat
