import Verif.Mat.Proj
import Verif.Mat.UNopsProps
import Verif.Mat.PackProps

/-!
# C70: projections onto the Lie algebra
-/

namespace GLU.Mat

open Complex Matrix

/-! ## Specification -/

/-- Traceless Hermitian part of `A / i`: `(A - A†) / 2i` minus its trace. -/
noncomputable def lieHerm {n : ℕ} (A : Matrix (Fin n) (Fin n) ℂ) : Matrix (Fin n) (Fin n) ℂ :=
  (-I / 2) • (A - Aᴴ) - ((-I / 2) * Matrix.trace (A - Aᴴ) / n) • 1

/-- What the two colour code relies on: real combinations of special unitary matrices look like this. For other
numbers of colours nothing is required. -/
def QuatForm (NC : ℕ) (U : Arr ℂ) : Prop := NC = 2 → U 2 = -conj (U 1) ∧ U 3 = conj (U 0)

theorem lieHerm_hermitian {n : ℕ} (A : Matrix (Fin n) (Fin n) ℂ) : (lieHerm A)ᴴ = lieHerm A := by
  have ht : star (Matrix.trace (A - Aᴴ)) = -Matrix.trace (A - Aᴴ) := by
    rw [← Matrix.trace_conjTranspose, conjTranspose_sub, conjTranspose_conjTranspose, ← Matrix.trace_neg, neg_sub]
  unfold lieHerm
  rw [conjTranspose_sub, conjTranspose_smul, conjTranspose_smul, conjTranspose_one, conjTranspose_sub,
    conjTranspose_conjTranspose]
  congr 1
  · rw [← neg_sub A, smul_neg, ← neg_smul]
    congr 1
    simp
    ring
  · congr 1
    rw [star_div₀, star_mul', ht]
    simp
    ring

theorem lieHerm_traceless {n : ℕ} (A : Matrix (Fin n) (Fin n) ℂ) : Matrix.trace (lieHerm A) = 0 := by
  unfold lieHerm
  rcases Nat.eq_zero_or_pos n with rfl | h
  · simp [Matrix.trace]
  rw [Matrix.trace_sub, Matrix.trace_smul, Matrix.trace_smul, Matrix.trace_one, Fintype.card_fin]
  have : (n : ℂ) ≠ 0 := by exact_mod_cast h.ne'
  simp only [smul_eq_mul]
  field_simp
  ring

theorem lieHerm_conj {n : ℕ} {G : Matrix (Fin n) (Fin n) ℂ} (h : Gᴴ * G = 1) (h' : G * Gᴴ = 1) (A : Matrix (Fin n) (Fin n) ℂ) :
    lieHerm (G * A * Gᴴ) = G * lieHerm A * Gᴴ := by
  have e : G * A * Gᴴ - (G * A * Gᴴ)ᴴ = G * (A - Aᴴ) * Gᴴ := by
    simp only [conjTranspose_mul, conjTranspose_conjTranspose, mul_sub, sub_mul, Matrix.mul_assoc]
  have t : Matrix.trace (G * (A - Aᴴ) * Gᴴ) = Matrix.trace (A - Aᴴ) := by
    rw [Matrix.trace_mul_comm, ← Matrix.mul_assoc, h, Matrix.one_mul]
  unfold lieHerm
  rw [e, t, Matrix.mul_sub G (_ • _), Matrix.sub_mul (G * _ • _), Matrix.mul_smul, Matrix.mul_smul, Matrix.smul_mul, Matrix.smul_mul,
    Matrix.mul_one, h']

/-! ## Hermitian projection -/

theorem lieHerm_apply {n : ℕ} (A : Matrix (Fin n) (Fin n) ℂ) (i j : Fin n) :
    lieHerm A i j = -I / 2 * (A i j - star (A j i)) - (if i = j then ((∑ k, (A k k).im : ℝ) : ℂ) / n else 0) := by
  unfold lieHerm
  have : (-I / 2) * Matrix.trace (A - Aᴴ) = ((∑ k, (A k k).im : ℝ) : ℂ) := by
    rw [Matrix.trace, Finset.mul_sum, ofReal_sum]
    refine Finset.sum_congr rfl fun k _ => ?_
    apply Complex.ext <;> simp
    ring
  rw [this]
  simp [Matrix.sub_apply, Matrix.smul_apply, conjTranspose_apply, Matrix.one_apply]

theorem update_pos {R : Type*} {n a b a' b' : ℕ} (hb : b < n) (hb' : b' < n) (Q : Arr R) (v : R) :
    Function.update Q (b + n * a) v (b' + n * a') = if a' = a ∧ b' = b then v else Q (b' + n * a') := by
  rw [Function.update_apply]
  by_cases h : a' = a ∧ b' = b
  · rw [if_pos h, if_pos (by rw [h.1, h.2])]
  · rw [if_neg h, if_neg (fun e => h (index_inj hb' hb e))]

/-- Entry `(a, b)` after the first loop. -/
noncomputable def hermEntry (NC : ℕ) (U : Arr ℂ) (a b : ℕ) : ℂ :=
  if a = b then ((U (a + NC * a)).im : ℂ)
  else if a < b then -I * (U (b + NC * a) - conj (U (a + NC * b))) / 2
  else conj (-I * (U (a + NC * b) - conj (U (b + NC * a))) / 2)

theorem hermitian_projN1_eq (NC : ℕ) (Q U : Arr ℂ) :
    (Hermitian_projN1 NC Q U).2 = ∑ k ∈ Finset.range NC, (U (k + NC * k)).im ∧
    ∀ a < NC, ∀ b < NC, (Hermitian_projN1 NC Q U).1 (b + NC * a) = hermEntry NC U a b := by
  have key : (fun n (s : Arr ℂ × ℝ) => s.2 = ∑ k ∈ Finset.range n, (U (k + NC * k)).im ∧
      ∀ a < NC, ∀ b < NC, (a < n ∨ b < n) → s.1 (b + NC * a) = hermEntry NC U a b) NC (Hermitian_projN1 NC Q U) := by
    unfold Hermitian_projN1
    refine forN_inv (fun n (s : Arr ℂ × ℝ) => s.2 = ∑ k ∈ Finset.range n, (U (k + NC * k)).im ∧
      ∀ a < NC, ∀ b < NC, (a < n ∨ b < n) → s.1 (b + NC * a) = hermEntry NC U a b) ⟨by simp, by simp⟩ ?_
    rintro i hi ⟨Q, tr⟩ ⟨htr, hQ⟩
    dsimp only at htr hQ ⊢
    have hidx : i * (NC + 1) = i + NC * i := by ring
    rw [hidx, Function.update_self]
    refine ⟨by rw [htr, Finset.sum_range_succ, ofReal_re], ?_⟩
    have inner := forFrom_inv (fun j (Q' : Arr ℂ) => ∀ a < NC, ∀ b < NC,
        (a < i ∨ b < i ∨ (a = i ∧ b < j) ∨ (b = i ∧ a < j)) → Q' (b + NC * a) = hermEntry NC U a b)
      (lo := i + 1) (hi := NC) (by omega)
      (body := fun j Q => Function.update (Function.update Q (j + i * NC) (-I * (U (j + i * NC) - conj (U (i + j * NC))) / 2)) (i + j * NC)
        (conj ((Function.update Q (j + i * NC) (-I * (U (j + i * NC) - conj (U (i + j * NC))) / 2)) (j + i * NC))))
      (s := Function.update Q (i + NC * i) ((U (i + NC * i)).im : ℂ))
      (by
        intro a ha b hb h
        rw [update_pos hi hb]
        by_cases e : a = i ∧ b = i
        · rw [if_pos e, e.1, e.2, hermEntry, if_pos rfl]
        · rw [if_neg e]; exact hQ a ha b hb (by omega))
      (by
        intro j hj hj' Q' hQ' a ha b hb h
        rw [Function.update_self, Nat.mul_comm j NC, Nat.mul_comm i NC, update_pos hi hb, update_pos hj' hb]
        by_cases e : a = j ∧ b = i
        · rw [if_pos e, e.1, e.2, hermEntry, if_neg (by omega), if_neg (by omega)]
        · rw [if_neg e]
          by_cases e2 : a = i ∧ b = j
          · rw [if_pos e2, e2.1, e2.2, hermEntry, if_neg (by omega), if_pos (by omega)]
          · rw [if_neg e2]; exact hQ' a ha b hb (by omega))
    intro a ha b hb h
    exact inner a ha b hb (by omega)
  exact ⟨key.1, fun a ha b hb => key.2 a ha b hb (Or.inl ha)⟩

theorem diag_loop (NC : ℕ) (Q : Arr ℂ) (t : ℂ) {a b : ℕ} (ha : a < NC) (hb : b < NC) :
    forN NC (fun i Q => Function.update Q (i * (NC + 1)) (Q (i * (NC + 1)) - t)) Q (b + NC * a) =
      Q (b + NC * a) - if a = b then t else 0 := by
  have := forN_inv (fun n (Q' : Arr ℂ) => ∀ a < NC, ∀ b < NC,
      Q' (b + NC * a) = Q (b + NC * a) - if a = b ∧ a < n then t else 0) (n := NC) (s := Q)
    (body := fun i Q => Function.update Q (i * (NC + 1)) (Q (i * (NC + 1)) - t)) (by simp) (by
      intro i hi Q' hQ' a ha b hb
      have hidx : i * (NC + 1) = i + NC * i := by ring
      rw [hidx, update_pos hi hb, hQ' i hi i hi, hQ' a ha b hb]
      by_cases e : a = i ∧ b = i
      · rw [if_pos e, e.1, e.2, if_neg (by omega), if_pos (by omega), sub_zero]
      · rw [if_neg e]
        congr 1
        by_cases e2 : a = b ∧ a < i
        · rw [if_pos e2, if_pos (by omega)]
        · rw [if_neg e2, if_neg (by omega)])
  rw [this a ha b hb]
  congr 1
  by_cases e : a = b
  · rw [if_pos ⟨e, ha⟩, if_pos e]
  · rw [if_neg (fun h => e h.1), if_neg e]

/-- **C70**: `Hermitian_proj` is the traceless Hermitian part. -/
theorem C70_hermitian {NC : ℕ} (hN : 1 ≤ NC) (Q : Arr ℂ) {U : Arr ℂ} (hU : QuatForm NC U) :
    toM NC (Hermitian_proj NC Q U) = lieHerm (toM NC U) := by
  unfold Hermitian_proj
  split
  · next h =>
    subst h
    ext i j
    rw [lieHerm_apply]
    fin_cases i <;> fin_cases j <;>
      simp [Hermitian_proj3, toM_apply, arr, Fin.sum_univ_three, conj] <;>
      apply Complex.ext <;> simp <;> ring
  split
  · next h =>
    subst h
    obtain ⟨h2, h3⟩ := hU rfl
    ext i j
    rw [lieHerm_apply]
    fin_cases i <;> fin_cases j <;>
      simp [Hermitian_proj2, toM_apply, arr, Fin.sum_univ_two, h2, h3, conj] <;>
      apply Complex.ext <;> simp <;> ring
  · dsimp only
    obtain ⟨h1, h2⟩ := hermitian_projN1_eq NC Q U
    ext i j
    rw [lieHerm_apply, toM_apply, diag_loop NC _ _ i.2 j.2, h2 i i.2 j j.2, h1]
    have hn : (NC : ℂ) ≠ 0 := by exact_mod_cast (by omega : NC ≠ 0)
    by_cases e : i = j
    · subst e
      rw [if_pos rfl, if_pos rfl, hermEntry, if_pos rfl]
      simp only [toM_apply]
      rw [Finset.sum_range]
      push_cast
      congr 1
      apply Complex.ext <;> simp
      ring
    · have e' : (i : ℕ) ≠ j := fun h => e (Fin.ext h)
      rw [if_neg e', if_neg e, hermEntry, if_neg e']
      split
      · simp [conj]; ring
      · simp [conj]; apply Complex.ext <;> simp <;> ring

/-- **C70**: the result is Hermitian and traceless. -/
theorem C70_algebra {NC : ℕ} (hN : 1 ≤ NC) (Q : Arr ℂ) {U : Arr ℂ} (hU : QuatForm NC U) :
    HermTraceless NC (Hermitian_proj NC Q U) := by
  unfold HermTraceless
  rw [C70_hermitian hN Q hU]
  exact ⟨lieHerm_hermitian _, lieHerm_traceless _⟩

/-- **C70**: `AntiHermitian_proj` is the anti-Hermitian part `(U - U†)/2`. -/
theorem C70_antihermitian (NC : ℕ) (Q : Arr ℂ) {U : Arr ℂ} (hU : QuatForm NC U) :
    toM NC (AntiHermitian_proj NC Q U) = (1 / 2 : ℂ) • (toM NC U - (toM NC U)ᴴ) := by
  unfold AntiHermitian_proj
  split
  · next h =>
    subst h
    ext i j
    fin_cases i <;> fin_cases j <;>
      simp [AntiHermitian_proj3, toM_apply, arr, conj] <;>
      first
        | exact Or.inl (by norm_num)
        | (apply Complex.ext <;> simp <;> ring)
  split
  · next h =>
    subst h
    obtain ⟨h2, h3⟩ := hU rfl
    ext i j
    fin_cases i <;> fin_cases j <;>
      simp [AntiHermitian_proj2, toM_apply, arr, h2, h3, conj] <;>
      apply Complex.ext <;> simp <;> ring
  · rw [toM_fillNN]
    ext i j
    simp [conj]
    ring

/-- **C70**: `trf_AntiHermitian_proj` is `i` times the traceless Hermitian part, the traceless anti-Hermitian part. -/
theorem C70_traceless_antihermitian {NC : ℕ} (hN : 1 ≤ NC) (Q : Arr ℂ) {U : Arr ℂ} (hU : QuatForm NC U) :
    toM NC (trf_AntiHermitian_proj NC Q U) = I • lieHerm (toM NC U) := by
  unfold trf_AntiHermitian_proj
  split
  · next h =>
    subst h
    ext i j
    rw [Matrix.smul_apply, lieHerm_apply]
    fin_cases i <;> fin_cases j <;>
      simp [trf_AntiHermitian_proj3, toM_apply, arr, Fin.sum_univ_three, conj] <;>
      apply Complex.ext <;> simp <;> ring
  split
  · next h =>
    subst h
    obtain ⟨h2, h3⟩ := hU rfl
    ext i j
    rw [Matrix.smul_apply, lieHerm_apply]
    fin_cases i <;> fin_cases j <;>
      simp [AntiHermitian_proj2, toM_apply, arr, Fin.sum_univ_two, h2, h3, conj] <;>
      apply Complex.ext <;> simp <;> ring
  · dsimp only
    ext i j
    rw [Matrix.smul_apply, lieHerm_apply, toM_apply, diag_loop NC _ _ i.2 j.2, C12_trace, toM_fillNN,
      fillNN_apply _ _ i.2 j.2]
    have ht : Matrix.trace (Matrix.of fun i j : Fin NC => (U (j + NC * i) - conj (U (i + NC * j))) * 0.5) =
        I * ((∑ k : Fin NC, (toM NC U k k).im : ℝ) : ℂ) := by
      rw [Matrix.trace, ofReal_sum, Finset.mul_sum]
      refine Finset.sum_congr rfl fun k _ => ?_
      apply Complex.ext <;> simp [conj] <;> ring
    rw [ht]
    by_cases e : i = j
    · subst e
      rw [if_pos rfl, if_pos rfl, mul_sub]
      congr 1
      · apply Complex.ext <;> simp [conj] <;> ring
      all_goals ring
    · rw [if_neg (fun h => e (Fin.ext h)), if_neg e, sub_zero, sub_zero]
      simp only [toM_apply, conj]
      linear_combination (-(1 : ℂ) / 2) * (U (j + NC * i) - star (U (i + NC * j))) * (-I_mul_I)

/-! ## Packed projections -/

theorem packLoop_apply (NC : ℕ) (f : ℕ → ℕ → ℂ) (a : Arr ℂ) {r c : ℕ} (hr : r < NC - 1) (hrc : r ≤ c) (hc : c < NC) :
    (forN (NC - 1) (fun i s => forFrom i NC (fun j (s : ℕ × Arr ℂ) =>
      (s.1 + 1, Function.update s.2 s.1 (f i j))) s) (0, a)).2 (off NC r + (c - r)) = f r c := by
  have := tri_inv NC (NC - 1) (fun i j (s : ℕ × Arr ℂ) => s.1 = off NC i + (j - i) ∧
      ((r < i ∨ (r = i ∧ c < j)) → s.2 (off NC r + (c - r)) = f r c))
    (body := fun i j s => (s.1 + 1, Function.update s.2 s.1 (f i j))) (s := (0, a))
    (by omega) ⟨rfl, by omega⟩
    (fun i hi j hij hj s hs => by
      obtain ⟨h1, h2⟩ := hs
      refine ⟨by simp only [h1]; omega, fun h => ?_⟩
      dsimp only
      rw [Function.update_apply, h1]
      by_cases e : r = i ∧ c = j
      · rw [if_pos (by rw [e.1, e.2]), e.1, e.2]
      · rw [if_neg, h2 (by omega)]
        rcases Nat.lt_trichotomy r i with h3 | h3 | h3
        · have := off_lt NC h3 (show c - r < NC - r by omega); omega
        · subst h3; omega
        · omega)
    (fun i hi s hs => ⟨by rw [hs.1, off]; omega, fun h => hs.2 (by omega)⟩)
  exact this.2 (Or.inl hr)

theorem forFrom_first {σ : Type*} {lo hi : ℕ} (h : lo < hi) (body : ℕ → σ → σ) (s : σ) :
    forFrom lo hi body s = forFrom (lo + 1) hi body (body lo s) := by
  have : ∀ n, forN (n + 1) (fun k => body (lo + k)) s = forN n (fun k => body (lo + 1 + k)) (body lo s) := by
    intro n
    induction n with
    | zero => rfl
    | succ n ih => rw [forN, ih, forN, show lo + (n + 1) = lo + 1 + n by omega]
  unfold forFrom
  rw [show hi - lo = (hi - (lo + 1)) + 1 by omega, this]

/-- **C70**, packed: the packed routine stores exactly the packed form of the full projection. -/
theorem C70_hermitian_short {NC : ℕ} (hN : 2 ≤ NC) (Q Q' p : Arr ℂ) {U : Arr ℂ} (hU : QuatForm NC U) :
    ∀ k < HERMSIZE NC, Hermitian_proj_short NC Q U k = pack_hermitian NC p (Hermitian_proj NC Q' U) k := by
  intro k hk
  obtain ⟨r, c, hr, hrc, hc, rfl⟩ := packed_cover hk
  rw [pack_apply NC p _ hr hrc hc]
  have hP : Hermitian_proj NC Q' U (c + NC * r) = lieHerm (toM NC U) ⟨r, by omega⟩ ⟨c, hc⟩ := by
    rw [← C70_hermitian (by omega) Q' hU]; rfl
  rw [hP, lieHerm_apply]
  unfold Hermitian_proj_short
  split
  · next h =>
    subst h
    have : (r = 0 ∧ (c = 0 ∨ c = 1 ∨ c = 2)) ∨ (r = 1 ∧ (c = 1 ∨ c = 2)) := by omega
    rcases this with ⟨rfl, rfl | rfl | rfl⟩ | ⟨rfl, rfl | rfl⟩ <;>
      simp [Hermitian_proj_short3, off, arr, Fin.sum_univ_three, conj] <;>
      apply Complex.ext <;> simp <;> ring
  split
  · next h =>
    subst h
    obtain ⟨h2, h3⟩ := hU rfl
    have : r = 0 ∧ (c = 0 ∨ c = 1) := by omega
    rcases this with ⟨rfl, rfl | rfl⟩ <;>
      simp [Hermitian_proj_short2, off, arr, Fin.sum_univ_two, h2, h3, conj] <;>
      apply Complex.ext <;> simp <;> ring
  · dsimp only
    have hloop : ∀ tr : ℝ, (forN (NC - 1) (fun i (s : ℕ × Arr ℂ) =>
        forFrom (i + 1) NC (fun j (s : ℕ × Arr ℂ) =>
          (s.1 + 1, Function.update s.2 s.1 (-I * (U (j + NC * i) - conj (U (i + NC * j))) / 2)))
          (s.1 + 1, Function.update s.2 s.1 (((U (i * (NC + 1))).im - tr : ℝ) : ℂ))) (0, Q)) =
        forN (NC - 1) (fun i s => forFrom i NC (fun j (s : ℕ × Arr ℂ) =>
          (s.1 + 1, Function.update s.2 s.1 (if i = j then (((U (i * (NC + 1))).im - tr : ℝ) : ℂ)
            else -I * (U (j + NC * i) - conj (U (i + NC * j))) / 2))) s) (0, Q) := by
      intro tr
      refine forN_congr (fun i hi s => ?_) _
      rw [forFrom_first (show i < NC by omega), if_pos rfl]
      unfold forFrom
      refine forN_congr (fun j hj s => ?_) _
      dsimp only
      rw [if_neg (by omega)]
    rw [hloop, packLoop_apply NC _ Q hr hrc hc, loopSum_eq_fin]
    by_cases e : r = c
    · subst e
      rw [if_pos rfl, if_pos rfl]
      simp only [toM_apply, show r * (NC + 1) = r + NC * r by ring, show ∀ k : Fin NC, (k : ℕ) * (NC + 1) = k + NC * k by intro k; ring]
      push_cast
      congr 1
      apply Complex.ext <;> simp
      ring
    · rw [if_neg e, if_neg (by simpa using e)]
      simp only [toM_apply, conj]
      ring

/-- **C70**, packed anti-Hermitian routine, two and three colours: it stores the packed form of the traceless
anti-Hermitian part. -/
theorem C70_antihermitian_short_partial {NC : ℕ} (hN : NC = 2 ∨ NC = 3) (Q Q' p : Arr ℂ) {U : Arr ℂ} (hU : QuatForm NC U) :
    ∀ k < HERMSIZE NC, AntiHermitian_proj_short NC Q U k = pack_hermitian NC p (trf_AntiHermitian_proj NC Q' U) k := by
  intro k hk
  obtain ⟨r, c, hr, hrc, hc, rfl⟩ := packed_cover hk
  rw [pack_apply NC p _ hr hrc hc]
  rcases hN with rfl | rfl
  · have : r = 0 ∧ (c = 0 ∨ c = 1) := by omega
    rcases this with ⟨rfl, rfl | rfl⟩ <;>
      simp [AntiHermitian_proj_short, AntiHermitian_proj_short2, trf_AntiHermitian_proj, AntiHermitian_proj2, off, arr]
  · have : (r = 0 ∧ (c = 0 ∨ c = 1 ∨ c = 2)) ∨ (r = 1 ∧ (c = 1 ∨ c = 2)) := by omega
    rcases this with ⟨rfl, rfl | rfl | rfl⟩ | ⟨rfl, rfl | rfl⟩ <;>
      simp [AntiHermitian_proj_short, AntiHermitian_proj_short3, trf_AntiHermitian_proj, trf_AntiHermitian_proj3, off, arr]

/-- **C70** fails for the packed anti-Hermitian routine with four colours: for `i` times the unit matrix, whose
traceless part vanishes, the first stored number is `i - 1`. -/
theorem C70_antihermitian_short_fails (Q : Arr ℂ) :
    lieHerm (toM 4 fun k => if k % 5 = 0 then I else 0) = 0 ∧
    AntiHermitian_proj_short 4 Q (fun k => if k % 5 = 0 then I else 0) 0 = I - 1 := by
  have hI : toM 4 (fun k => if k % 5 = 0 then I else 0) = I • (1 : Matrix (Fin 4) (Fin 4) ℂ) := by
    ext i j
    fin_cases i <;> fin_cases j <;> simp
  constructor
  · rw [hI]
    ext i j
    rw [lieHerm_apply]
    fin_cases i <;> fin_cases j <;> simp [Fin.sum_univ_four] <;> apply Complex.ext <;> simp <;> norm_num
  · have h := packLoop_apply 4 (fun i j => if i ≠ j then
        ((fun k : ℕ => if k % 5 = 0 then I else (0 : ℂ)) (j + 4 * i) - conj ((fun k : ℕ => if k % 5 = 0 then I else (0 : ℂ)) (i + 4 * j))) * 0.5
      else I * ((fun k : ℕ => if k % 5 = 0 then I else (0 : ℂ)) (j + 4 * i)).im -
        (loopSum 4 fun i => (((fun k : ℕ => if k % 5 = 0 then I else (0 : ℂ)) (i * (4 + 1))).im : ℂ)) / (4 : ℕ)) Q
      (r := 0) (c := 0) (by norm_num) (by norm_num) (by norm_num)
    unfold AntiHermitian_proj_short
    rw [if_neg (by norm_num), if_neg (by norm_num)]
    refine Eq.trans h ?_
    rw [loopSum_eq]
    simp [Finset.sum_range_succ]

/-- The two colour code needs `QuatForm`: on the matrix unit `E₁₂` the result is not Hermitian part over `i`. -/
theorem C70_two_colours_needs_form (Q : Arr ℂ) :
    toM 2 (Hermitian_proj 2 Q (arr [0, 1, 0, 0])) ≠ lieHerm (toM 2 (arr [0, 1, 0, 0])) := by
  intro h
  have := congrFun (congrFun h 0) 1
  rw [lieHerm_apply] at this
  simp [Hermitian_proj, Hermitian_proj2, arr] at this
  rw [Complex.ext_iff] at this
  norm_num at this

/-- Special unitary matrices and real combinations of them have the form required, so the hypothesis is met by every
matrix the two colour code is given. -/
theorem quatForm_su {NC : ℕ} {a : Arr ℂ} (h : IsSU NC a) : QuatForm NC a := by
  intro h2
  subst h2
  obtain ⟨hu, hd⟩ := mem_specialUnitaryGroup_iff.1 h
  have hs : (toM 2 a)ᴴ = adjugate (toM 2 a) := by
    have h1 := mem_unitaryGroup_iff'.1 hu
    have h2 := mul_adjugate (toM 2 a)
    rw [hd, one_smul] at h2
    calc (toM 2 a)ᴴ = (toM 2 a)ᴴ * (toM 2 a * adjugate (toM 2 a)) := by rw [h2, Matrix.mul_one]
      _ = (star (toM 2 a) * toM 2 a) * adjugate (toM 2 a) := by rw [← Matrix.mul_assoc]; rfl
      _ = adjugate (toM 2 a) := by rw [h1, Matrix.one_mul]
  rw [adjugate_fin_two] at hs
  have e1 := congrFun (congrFun hs 1) 0
  have e2 := congrFun (congrFun hs 0) 0
  simp at e1 e2
  constructor
  · rw [conj, Complex.star_def, e1]; ring
  · rw [conj, Complex.star_def, e2]

theorem quatForm_add {NC : ℕ} {a b c : Arr ℂ} {S : ℝ} (ha : QuatForm NC a) (hb : QuatForm NC b)
    (hc : toM NC c = toM NC a + (S : ℂ) • toM NC b) : QuatForm NC c := by
  intro h2
  subst h2
  obtain ⟨a1, a2⟩ := ha rfl
  obtain ⟨b1, b2⟩ := hb rfl
  have e00 := congrFun (congrFun hc 0) 0
  have e01 := congrFun (congrFun hc 0) 1
  have e10 := congrFun (congrFun hc 1) 0
  have e11 := congrFun (congrFun hc 1) 1
  simp [toM_apply] at e00 e01 e10 e11
  rw [e00, e01, e10, e11, a1, a2, b1, b2]
  simp [conj]
  ring

/-- The hypotheses of `C70` are met by a matrix with a non-trivial projection. -/
example : QuatForm 2 (arr [I, 2, -2, -I]) ∧ Hermitian_proj 2 (arr []) (arr [I, 2, -2, -I]) 1 = -2 * I := by
  refine ⟨fun _ => ?_, ?_⟩ <;> simp [arr, conj, Hermitian_proj, Hermitian_proj2, mul_comm]

end GLU.Mat
