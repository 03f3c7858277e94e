import Verif.Update.HaarProps
import Verif.Update.HaarSphere

/-!
# C130: the heat bath with the numbers of the code leaves the Boltzmann distribution of a link unchanged
-/

namespace GLU.Update.Haar

open MeasureTheory Set ENNReal Matrix GLU.Mat GLU.Update.Draw

theorem from_unit {d r1 r2 : ℝ} (h0 : 0 ≤ d) (h2 : d ≤ 2) (hr0 : 0 ≤ r1) (hr1 : r1 ≤ 1) :
    Complex.normSq (su2From d r1 r2 1 0).1 + Complex.normSq (su2From d r1 r2 1 0).2 = 1 := by
  rw [su2From_norm d r1 r2 hr0 hr1, abs_of_nonneg (by nlinarith)]
  simp
  try ring

theorem drawn_eq {d r1 r2 : ℝ} (h0 : 0 ≤ d) (h2 : d ≤ 2) (hr0 : 0 ≤ r1) (hr1 : r1 ≤ 1) :
    (drawn d r1 r2).1 = su2M (su2From d r1 r2 1 0).1 (su2From d r1 r2 1 0).2 := by
  have h := from_unit (r2 := r2) h0 h2 hr0 hr1
  unfold drawn
  generalize su2From d r1 r2 1 0 = z at h ⊢
  have hz : z ≠ 0 := by
    rintro rfl
    simp at h
  unfold proj
  rw [dif_pos hz]
  show su2M _ _ = _
  rw [h]
  simp

theorem drawn_re {d r1 r2 : ℝ} (h0 : 0 ≤ d) (h2 : d ≤ 2) (hr0 : 0 ≤ r1) (hr1 : r1 ≤ 1) :
    ((drawn d r1 r2).1 0 0).re = 1 - d := by
  rw [drawn_eq h0 h2 hr0 hr1]
  simp [su2M, su2From]

theorem hb_model {NC i : ℕ} (hN : 2 ≤ NC) (hi : i < NSU2SUBGROUPS NC) {p q : Fin NC} (h : p ≠ q)
    (hp : (p : ℕ) = (rowsOf NC i).1) (hq : (q : ℕ) = (rowsOf NC i).2) {beta : ℝ} {U st : Arr ℂ} {V : SU NC}
    (hU : toM NC U = V.1) {s0 s1 : ℂ} {k : ℝ} (hs : only_subgroup NC U st i = some (s0, s1, k)) :
    normG p q beta (toM NC st)ᴴ V = NC / beta * k ∧
    ∀ d r1 r2 : ℝ, 0 ≤ d → d ≤ 2 → 0 ≤ r1 → r1 ≤ 1 →
      toM NC (su2_rotate NC U (su2From d r1 r2 s0 s1).1 (su2From d r1 r2 s0 s1).2 i) =
        (hbMap h (toM NC st)ᴴ V (drawn d r1 r2)).1 := by
  rw [only_subgroup_eq hN hi p q hp hq, hU] at hs
  obtain ⟨hz, hpr, hk⟩ := proj_normalise hs
  refine ⟨?_, fun d r1 r2 h0 h2 hr0 hr1 => ?_⟩
  · rw [hk]
    unfold normG
    ring
  have hSU : IsSU NC U := by unfold IsSU; rw [hU]; exact V.2
  rw [rotate_eq hN hi p q hp hq U _ _ fun _ => hSU, hU]
  unfold hbMap
  rw [if_pos hz]
  show _ = (embSU h (drawn d r1 r2 * (proj (quat p q (V.1 * (toM NC st)ᴴ)))⁻¹)).1 * V.1
  congr 1
  have e : (drawn d r1 r2 * (proj (quat p q (V.1 * (toM NC st)ᴴ)))⁻¹).1 =
      su2M (su2From d r1 r2 s0 s1).1 (su2From d r1 r2 s0 s1).2 := by
    show (drawn d r1 r2).1 * (proj (quat p q (V.1 * (toM NC st)ᴴ))).1ᴴ = _
    rw [hpr, drawn_eq h0 h2 hr0 hr1]
    exact (C129_product d r1 r2 s0 s1).symm
  show subgroupMatrix p q _ _ = subgroupMatrix p q _ _
  rw [e]
  simp [su2M]

theorem hbMap_meas {NC : ℕ} {p q : Fin NC} (h : p ≠ q) (S : Matrix (Fin NC) (Fin NC) ℂ) (V : SU NC) :
    Measurable fun x => hbMap h S V x := by
  unfold hbMap
  split
  · exact ((embSU_measurable h).comp (measurable_id.mul_const _)).mul_const _
  · exact measurable_const

/-- An average over the group with the weight of the action, in the numbers of the code. -/
theorem weight_code (n : ℝ) {G : SU 2 → ℝ≥0∞} (hG : Measurable G) :
    ∫⁻ a in Ioo (-1 : ℝ) 1, ENNReal.ofReal (weight n a) * ∫⁻ r1, ∫⁻ r2, G (drawn (1 - a) r1 r2) ∂unit ∂unit =
      (∫⁻ x, wt n x * G x ∂haar 2) * ∫⁻ a in Ioo (-1 : ℝ) 1, ENNReal.ofReal √(1 - a * a) := by
  have hw : Measurable (wt n) := wt_measurable.comp (measurable_const.prodMk measurable_id)
  rw [← haar_code (F := fun x => wt n x * G x) (hw.mul hG)]
  refine setLIntegral_congr_fun measurableSet_Ioo fun a ha => ?_
  have e : ∀ r1 ∈ Ioo (0 : ℝ) 1, ∫⁻ r2, wt n (drawn (1 - a) r1 r2) * G (drawn (1 - a) r1 r2) ∂unit =
      ENNReal.ofReal (Real.exp (a / n)) * ∫⁻ r2, G (drawn (1 - a) r1 r2) ∂unit := by
    intro r1 hr
    rw [← lintegral_const_mul' _ _ ENNReal.ofReal_ne_top]
    refine lintegral_congr fun r2 => ?_
    unfold wt
    rw [drawn_re (by linarith [ha.2]) (by linarith [ha.1]) hr.1.le hr.2.le]
    congr 4
    ring
  have e2 : ∫⁻ r1, ∫⁻ r2, wt n (drawn (1 - a) r1 r2) * G (drawn (1 - a) r1 r2) ∂unit ∂unit =
      ENNReal.ofReal (Real.exp (a / n)) * ∫⁻ r1, ∫⁻ r2, G (drawn (1 - a) r1 r2) ∂unit ∂unit := by
    rw [← lintegral_const_mul' _ _ ENNReal.ofReal_ne_top]
    conv_lhs => rw [unit_Ioo]
    conv_rhs => rw [unit_Ioo]
    refine setLIntegral_congr_fun measurableSet_Ioo fun r1 hr => ?_
    have := e r1 hr
    rw [unit_Ioo] at this
    exact this
  simp only [e2]
  unfold weight
  rw [ENNReal.ofReal_mul (Real.sqrt_nonneg _), mul_assoc]

/-- The average of the heat bath in the numbers of the code. -/
theorem bath_code {NC : ℕ} {p q : Fin NC} (h : p ≠ q) (beta : ℝ) (S : Matrix (Fin NC) (Fin NC) ℂ) (V : SU NC)
    {f : SU NC → ℝ≥0∞} (hf : Measurable f) :
    (∫⁻ a in Ioo (-1 : ℝ) 1, ENNReal.ofReal (weight (normG p q beta S V) a) *
        ∫⁻ r1, ∫⁻ r2, f (hbMap h S V (drawn (1 - a) r1 r2)) ∂unit ∂unit) /
      ∫⁻ a in Ioo (-1 : ℝ) 1, ENNReal.ofReal (weight (normG p q beta S V) a) = bath h beta S f V := by
  have hw0 : ∫⁻ a in Ioo (-1 : ℝ) 1, ENNReal.ofReal √(1 - a * a) ≠ 0 := by
    rw [← pos_iff_ne_zero, setLIntegral_pos_iff (by fun_prop)]
    have : Ioo (-1 : ℝ) 1 ⊆ Function.support (fun a : ℝ => ENNReal.ofReal √(1 - a * a)) ∩ Ioo (-1) 1 := by
      rintro a ⟨h1, h2⟩
      refine ⟨?_, h1, h2⟩
      rw [Function.mem_support]
      have : 0 < √(1 - a * a) := Real.sqrt_pos.2 (by nlinarith)
      simpa using this
    refine lt_of_lt_of_le ?_ (measure_mono this)
    simp
  have hw1 : ∫⁻ a in Ioo (-1 : ℝ) 1, ENNReal.ofReal √(1 - a * a) ≠ ⊤ := by
    refine (lt_of_le_of_lt (setLIntegral_mono (g := fun _ => 1) measurable_const fun a _ => ?_) ?_).ne
    · rw [ENNReal.ofReal_le_one, Real.sqrt_le_one]
      nlinarith [mul_self_nonneg a]
    · simp
  have hG : Measurable fun x => f (hbMap h S V x) := hf.comp (hbMap_meas h S V)
  have c1 := weight_code (normG p q beta S V) hG
  have c2 := weight_code (normG p q beta S V) (G := fun _ => 1) measurable_const
  have hu : unit univ = 1 := by
    unfold unit
    simp
  simp only [lintegral_const, hu, mul_one] at c2
  rw [c1, c2]
  unfold bath
  exact ENNReal.mul_div_mul_right _ _ hw0 hw1

/-- **C130**: the step of the heat bath in a subgroup, with `a0 = 1 - d` of the density that the draws have and two uniform
numbers for the direction, leaves the Boltzmann distribution of the link unchanged. `T` is the step of the code as a map of
the group and `N` is its `NORM`. -/
theorem C130_heat {NC i : ℕ} (hN : 2 ≤ NC) (hi : i < NSU2SUBGROUPS NC) (beta : ℝ) (st : Arr ℂ) :
    ∃ (N : SU NC → ℝ) (T : SU NC → ℝ → ℝ → ℝ → SU NC),
    (∀ (U : Arr ℂ) (V : SU NC), toM NC U = V.1 → ∀ (s0 s1 : ℂ) (k : ℝ), only_subgroup NC U st i = some (s0, s1, k) →
      N V = NC / beta * k ∧ ∀ d r1 r2 : ℝ, 0 ≤ d → d ≤ 2 → 0 ≤ r1 → r1 ≤ 1 →
        toM NC (su2_rotate NC U (su2From d r1 r2 s0 s1).1 (su2From d r1 r2 s0 s1).2 i) = (T V d r1 r2).1) ∧
    (∀ (U : Arr ℂ) (V : SU NC), toM NC U = V.1 → only_subgroup NC U st i = none → ∀ d r1 r2, T V d r1 r2 = V) ∧
    ∀ f : SU NC → ℝ≥0∞, Measurable f →
      ∫⁻ V, ENNReal.ofReal (Real.exp (beta / NC * (Matrix.trace (V.1 * (toM NC st)ᴴ)).re)) *
        ((∫⁻ a in Ioo (-1 : ℝ) 1, ENNReal.ofReal (weight (N V) a) *
            ∫⁻ r1, ∫⁻ r2, f (T V (1 - a) r1 r2) ∂unit ∂unit) /
          ∫⁻ a in Ioo (-1 : ℝ) 1, ENNReal.ofReal (weight (N V) a)) ∂haar NC =
      ∫⁻ V, ENNReal.ofReal (Real.exp (beta / NC * (Matrix.trace (V.1 * (toM NC st)ᴴ)).re)) * f V ∂haar NC := by
  obtain ⟨h1, h2, h3⟩ := rowsOf_spec hN hi
  have hne : (⟨_, h1⟩ : Fin NC) ≠ ⟨_, h2⟩ := fun e => h3 (congrArg Fin.val e)
  refine ⟨normG ⟨_, h1⟩ ⟨_, h2⟩ beta (toM NC st)ᴴ, fun V d r1 r2 => hbMap hne (toM NC st)ᴴ V (drawn d r1 r2),
    fun U V hU s0 s1 k hs => hb_model hN hi hne rfl rfl hU hs, fun U V hU hs d r1 r2 => ?_, fun f hf => ?_⟩
  · rw [only_subgroup_eq hN hi ⟨_, h1⟩ ⟨_, h2⟩ rfl rfl, hU, normalise_none] at hs
    show hbMap hne (toM NC st)ᴴ V (drawn d r1 r2) = V
    unfold hbMap
    exact if_neg fun h => h (Prod.ext hs.1 hs.2)
  · have hb := C130_bath hne (beta := beta) (toM NC st)ᴴ hf
    refine Eq.trans ?_ hb
    refine lintegral_congr fun V => ?_
    show boltz NC beta (toM NC st)ᴴ V * _ = boltz NC beta (toM NC st)ᴴ V * _
    congr 1
    exact bath_code hne beta (toM NC st)ᴴ V hf

/-- A link and a staple that the theorem applies to, with a step that moves the link. -/
example : ∃ V : SU 3, toM 3 (arr [(1 : ℂ), 0, 0, 0, 1, 0, 0, 0, 1]) = V.1 ∧
    only_subgroup 3 (arr [1, 0, 0, 0, 1, 0, 0, 0, 1]) (arr [2, 0, 0, 0, 1, 0, 0, 0, 1]) 0 = some (1, 0, 1 / 3) ∧
    (su2From 1 1 0 1 0).1 = Complex.I := by
  refine ⟨1, ?_, ?_, ?_⟩
  · ext i j
    fin_cases i <;> fin_cases j <;> simp [toM, arr]
  · simp only [only_subgroup, normalise, arr, if_true]
    have : √(9 : ℝ) = 3 := by
      rw [show (9 : ℝ) = 3 * 3 by norm_num]; exact Real.sqrt_mul_self (by norm_num)
    norm_num [this]
  · apply Complex.ext <;> norm_num [su2From]

/-- The Boltzmann weight is not constant. -/
example : boltz 2 1 1 1 ≠ boltz 2 1 1 (pair Complex.I 0 (by simp)) := by
  have e : (Matrix.trace ((pair Complex.I 0 (by simp) : SU 2).1 * 1)).re = 0 := by
    simp [pair, su2M, Matrix.trace, Fin.sum_univ_two]
  unfold boltz
  rw [e]
  intro h
  have := (ENNReal.ofReal_eq_ofReal_iff (Real.exp_pos _).le (Real.exp_pos _).le).1 h
  have := Real.exp_injective this
  norm_num [Matrix.trace_one] at this

end GLU.Update.Haar
