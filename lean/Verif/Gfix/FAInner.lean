import Verif.Gfix.FAProps

/-!
# C82: the inner product of the Fourier-accelerated conjugate gradient

The conjugate gradient needs the inner product `-tr (A B)` of two directions.  The code computes it for two colours
only.
-/

namespace GLU.Gfix

open Complex Matrix Finset GLU.Mat GLU.Geom GLU.Field

/-- The inner product of two directions: minus the real trace of their product. -/
noncomputable def inner (NC : ℕ) (a b : ℕ → ℂ) : ℝ := -(direction NC a * direction NC b).trace.re

/-- Two colours: the sums are the inner products of the direction with itself and with its change. -/
theorem C82_inner_two (inp old : ℕ → ℂ) :
    (prSite 2 inp old).1 = inner 2 inp inp ∧ (prSite 2 inp old).2 = inner 2 inp (fun mu => inp mu - old mu) ∧
    ((inp 0).re = 0 → derSite 2 inp = inner 2 inp inp) := by
  refine ⟨?_, ?_, fun h => ?_⟩ <;>
  simp [prSite, derSite, inner, direction, upper, Matrix.trace, Matrix.mul_apply, Fin.sum_univ_two, *] <;> ring

/-- Three colours: the product of the two diagonal entries has the wrong sign. -/
theorem C82_inner_three (inp old : ℕ → ℂ) :
    (prSite 3 inp old).1 = inner 3 inp inp + 4 * ((inp 0).re * (inp 0).im) ∧
    derSite 3 inp = inner 3 inp inp + 4 * ((inp 0).re * (inp 0).im) ∧
    (prSite 3 inp old).2 = inner 3 inp (fun mu => inp mu - old mu) +
      2 * ((inp 0).re * (inp 0 - old 0).im + (inp 0).im * (inp 0 - old 0).re) := by
  refine ⟨?_, ?_, ?_⟩ <;>
  simp [prSite, derSite, inner, direction, upper, Matrix.trace, Matrix.mul_apply, Fin.sum_univ_three,
    Finset.sum_range_succ] <;> ring

/-- The product of the entries of two directions above the diagonal, doubled. -/
theorem short_off {NC : ℕ} (hN : 4 ≤ NC) {a b : ℕ → ℂ} (ha : ImagDiag NC a) :
    trace_ab_herm_short NC a b = ∑ r ∈ range (NC - 1), ∑ c ∈ Ico (r + 1) NC,
      2 * ((upper NC a r c).re * (upper NC b r c).re + (upper NC a r c).im * (upper NC b r c).im) := by
  have hup : ∀ (x : ℕ → ℂ) r c, r < NC - 1 → r ≤ c → upper NC x r c = x (off NC r + (c - r)) := by
    intro x r c hr hc
    unfold upper
    rw [if_neg (by omega), if_neg (by omega), off_eq _ _ (by omega)]
    rfl
  have hda : ∀ r < NC - 1, (a (off NC r)).re = 0 := fun r hr => by
    have h1 := hup a r r hr le_rfl
    rw [Nat.sub_self, Nat.add_zero] at h1
    rw [← h1]
    exact upper_diag_re (by omega) ha hr
  unfold trace_ab_herm_short
  rw [if_neg (by omega), if_neg (by omega)]
  dsimp only
  have key := forN_inv (fun i (s : ℕ × ℝ × ℝ × ℝ) => s.1 = off NC i ∧
      s.2.1 = ∑ r ∈ range i, ∑ c ∈ Ico (r + 1) NC,
        2 * ((upper NC a r c).re * (upper NC b r c).re + (upper NC a r c).im * (upper NC b r c).im) ∧ s.2.2.1 = 0)
    (n := NC - 1) (body := fun i s =>
      forFrom (i + 1) NC (fun _ s =>
        (s.1 + 1, s.2.1 + 2 * ((a s.1).re * (b s.1).re + (a s.1).im * (b s.1).im), s.2.2.1, s.2.2.2))
        (s.1 + 1, s.2.1 + (a s.1).re * (b s.1).re, s.2.2.1 + (a s.1).re, s.2.2.2 + (b s.1).re))
    (s := (0, 0, 0, 0)) ⟨rfl, by simp, rfl⟩ ?_
  · rw [key.2.2, key.2.1, zero_mul, add_zero]
  · rintro i hi s ⟨h1, h2, h3⟩
    have inner := forFrom_inv (fun j (s' : ℕ × ℝ × ℝ × ℝ) => s'.1 = off NC i + (j - i) ∧
        s'.2.1 = s.2.1 + ∑ c ∈ Ico (i + 1) j,
          2 * ((upper NC a i c).re * (upper NC b i c).re + (upper NC a i c).im * (upper NC b i c).im) ∧ s'.2.2.1 = 0)
      (lo := i + 1) (hi := NC) (by omega) (body := fun _ s =>
        (s.1 + 1, s.2.1 + 2 * ((a s.1).re * (b s.1).re + (a s.1).im * (b s.1).im), s.2.2.1, s.2.2.2))
      (s := (s.1 + 1, s.2.1 + (a s.1).re * (b s.1).re, s.2.2.1 + (a s.1).re, s.2.2.2 + (b s.1).re))
      ⟨by dsimp only; omega, by dsimp only; rw [h1, hda i hi]; simp, by dsimp only; rw [h1, hda i hi, h3, add_zero]⟩ ?_
    · refine ⟨?_, ?_, inner.2.2⟩
      · rw [inner.1, off]
      · rw [inner.2.1, sum_range_succ, h2]
    · rintro j hj hj' s' ⟨e1, e2, e3⟩
      refine ⟨?_, ?_, e3⟩
      · dsimp only; omega
      · dsimp only
        rw [e2, sum_Ico_succ_top hj, e1, hup a i j hi (by omega), hup b i j hi (by omega), add_assoc]

theorem direction_upper {NC : ℕ} (a : ℕ → ℂ) (r c : Fin NC) (h : (r : ℕ) < c) :
    direction NC a r c = upper NC a r c := by
  unfold direction
  rw [if_pos h]

theorem inner_entries {NC : ℕ} (hN : 2 ≤ NC) {a b : ℕ → ℂ} (hb : ImagDiag NC b) : inner NC a b =
    ∑ r : Fin NC, ∑ c : Fin NC, (direction NC a r c * star (direction NC b r c)).re := by
  unfold inner
  rw [Matrix.trace, re_sum, ← sum_neg_distrib]
  refine sum_congr rfl fun r _ => ?_
  rw [diag_apply, Matrix.mul_apply, re_sum, ← sum_neg_distrib]
  refine sum_congr rfl fun c _ => ?_
  have := congrFun (congrFun (direction_skew hN hb) c) r
  rw [conjTranspose_apply, Matrix.neg_apply] at this
  rw [this, mul_neg, neg_re]

/-- Four colours and more: the diagonal entries are left out. -/
theorem C82_inner_many {NC : ℕ} (hN : 4 ≤ NC) {inp old : ℕ → ℂ} (hi : ImagDiag NC inp) (ho : ImagDiag NC old) :
    (prSite NC inp old).1 = inner NC inp inp -
      ∑ r : Fin NC, (direction NC inp r r * star (direction NC inp r r)).re ∧
    derSite NC inp = inner NC inp inp - ∑ r : Fin NC, (direction NC inp r r * star (direction NC inp r r)).re ∧
    (prSite NC inp old).2 = inner NC inp (fun mu => inp mu - old mu) -
      ∑ r : Fin NC, (direction NC inp r r * star (direction NC (fun mu => inp mu - old mu) r r)).re := by
  have key : ∀ {a b : ℕ → ℂ}, ImagDiag NC a → ImagDiag NC b → trace_ab_herm_short NC a b =
      inner NC a b - ∑ r : Fin NC, (direction NC a r r * star (direction NC b r r)).re := by
    intro a b ha hb
    rw [short_off hN ha, inner_entries (by omega) hb]
    let f : ℕ → ℕ → ℝ := fun r c => if h : r < NC ∧ c < NC then
      (direction NC a ⟨r, h.1⟩ ⟨c, h.2⟩ * star (direction NC b ⟨r, h.1⟩ ⟨c, h.2⟩)).re else 0
    have hf : ∀ r c : Fin NC, f r c = (direction NC a r c * star (direction NC b r c)).re := fun r c => by
      simp only [f]
      rw [dif_pos ⟨r.2, c.2⟩]
    have hsym : ∀ i j, i < NC → j < NC → f i j = f j i := by
      intro i j h1 h2
      have e : ∀ {x : ℕ → ℂ}, ImagDiag NC x → direction NC x ⟨i, h1⟩ ⟨j, h2⟩ =
          -star (direction NC x ⟨j, h2⟩ ⟨i, h1⟩) := fun {x} hx => by
        have := congrFun (congrFun (direction_skew (by omega) hx) ⟨i, h1⟩) ⟨j, h2⟩
        rw [conjTranspose_apply, Matrix.neg_apply] at this
        rw [this, neg_neg]
      have h3 := hf ⟨i, h1⟩ ⟨j, h2⟩
      have h4 := hf ⟨j, h2⟩ ⟨i, h1⟩
      dsimp only at h3 h4
      rw [h3, h4, e ha, e hb]
      simp
    have h5 := sum_tri NC f hsym
    have h6 : ∑ i ∈ range NC, ∑ j ∈ range NC, f i j =
        ∑ r : Fin NC, ∑ c : Fin NC, (direction NC a r c * star (direction NC b r c)).re := by
      rw [Finset.sum_range]
      refine sum_congr rfl fun r _ => ?_
      rw [Finset.sum_range]
      exact sum_congr rfl fun c _ => hf r c
    have h7 : ∑ i ∈ range NC, f i i = ∑ r : Fin NC, (direction NC a r r * star (direction NC b r r)).re := by
      rw [Finset.sum_range]
      exact sum_congr rfl fun c _ => hf c c
    rw [← h6, ← h5, sum_add_distrib, h7, add_sub_cancel_left]
    have h8 : range NC = range (NC - 1 + 1) := by rw [Nat.sub_add_cancel (by omega)]
    rw [h8, sum_range_succ, Nat.sub_add_cancel (by omega), Ico_self, sum_empty, add_zero]
    refine sum_congr rfl fun r hr => sum_congr rfl fun c hc => ?_
    rw [mem_range] at hr
    rw [mem_Ico] at hc
    have h9 := hf ⟨r, by omega⟩ ⟨c, hc.2⟩
    dsimp only at h9
    rw [h9, direction_upper a _ _ (by dsimp only; omega), direction_upper b _ _ (by dsimp only; omega)]
    simp
  have hd : ImagDiag NC fun mu => inp mu - old mu := fun h r hr => by rw [sub_re, hi h r hr, ho h r hr, sub_zero]
  refine ⟨?_, ?_, ?_⟩
  · unfold prSite
    rw [if_neg (by omega), if_neg (by omega)]
    exact key hi hi
  · unfold derSite
    rw [if_neg (by omega), if_neg (by omega), ← key hi hi]
    ring
  · unfold prSite
    rw [if_neg (by omega), if_neg (by omega)]
    exact key hi hd

/-- So the lengths the code uses are wrong.  Three colours: the divergences `diag(1, -1, 0)` and `diag(1, 0, -1)` have
the same length, and the code finds 6 and 2.  Four colours: for `diag(1, -1, 0, 0)` the code finds length zero, and the
next step divides by it. -/
theorem C82_inner_fails :
    (inner 3 (fun mu => if mu = 0 then 1 + I else 0) (fun mu => if mu = 0 then 1 + I else 0) = 2 ∧
      derSite 3 (fun mu => if mu = 0 then 1 + I else 0) = 6) ∧
    (inner 3 (fun mu => if mu = 0 then I else 0) (fun mu => if mu = 0 then I else 0) = 2 ∧
      derSite 3 (fun mu => if mu = 0 then I else 0) = 2) ∧
    (inner 4 (fun mu => if mu = 0 then I else if mu = 4 then -I else 0)
        (fun mu => if mu = 0 then I else if mu = 4 then -I else 0) = 2 ∧
      derSite 4 (fun mu => if mu = 0 then I else if mu = 4 then -I else 0) = 0) := by
  have h3 := fun z : ℂ => (C82_inner_three (fun mu => if mu = 0 then z else 0) (fun _ => 0)).2.1
  have v3 : ∀ z : ℂ, derSite 3 (fun mu => if mu = 0 then z else 0) =
      2 * (z.re * z.re + z.im * z.im + z.re * z.im) := fun z => by simp [derSite]
  have i4 : ImagDiag 4 (fun mu => if mu = 0 then I else if mu = 4 then -I else 0) := by
    intro _ r hr
    have : r = 0 ∨ r = 1 ∨ r = 2 := by omega
    rcases this with rfl | rfl | rfl <;> simp [packedPos]
  refine ⟨⟨?_, ?_⟩, ⟨?_, ?_⟩, ?_, ?_⟩
  · have := h3 (1 + I); rw [v3] at this; simp at this; linarith
  · rw [v3]; simp; norm_num
  · have := h3 I; rw [v3] at this; simp at this; linarith
  · rw [v3]; simp
  · rw [inner_entries (by norm_num) i4]
    simp [direction, upper, Fin.sum_univ_four, packedPos, Finset.sum_range_succ]
    norm_num
  · have : derSite 4 (fun mu => if mu = 0 then I else if mu = 4 then -I else 0) =
        trace_ab_herm_short 4 (fun mu => if mu = 0 then I else if mu = 4 then -I else 0)
          (fun mu => if mu = 0 then I else if mu = 4 then -I else 0) := by
      unfold derSite
      rw [if_neg (by norm_num), if_neg (by norm_num)]
      ring
    rw [this, short_off (by norm_num) i4]
    simp [upper, packedPos, Finset.sum_range_succ, Finset.sum_Ico_eq_sum_range]

end GLU.Gfix
