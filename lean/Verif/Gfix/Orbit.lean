import Verif.Field.Props
import Verif.Field.Path
import Verif.Field.ChargeProps

/-!
# Gauge orbits

What "the same configuration in another gauge" means, used by every statement about gauge fixing.
-/

namespace GLU.Gfix

open Complex Matrix GLU.Mat GLU.Geom GLU.Field Finset

/-- `V` is a gauge transform of `U`: there are special unitary matrices on the sites with
`V_mu(x) = g(x) U_mu(x) g(x+mu)^dagger` on every link. -/
def Orbit (NC : ℕ) (L : Latt) (U V : Gauge) : Prop := ∃ g : ℕ → Arr ℂ, SUGauge NC L g ∧ Transformed NC L g U V

theorem orbit_of {NC : ℕ} {L : Latt} {U V : Gauge} (g : ℕ → Matrix (Fin NC) (Fin NC) ℂ)
    (hg : ∀ i < volume L, g i ∈ specialUnitaryGroup (Fin NC) ℂ)
    (h : ∀ i < volume L, ∀ mu < L.ND, link NC V i mu = g i * link NC U i mu * (g (neighbor L i mu))ᴴ) :
    Orbit NC L U V := by
  refine ⟨fun i => arrOf (g i), fun i hi => ?_, fun i hi mu hmu => ?_⟩
  · unfold IsSU; rw [toM_arrOf]; exact hg i hi
  · rw [toM_arrOf, toM_arrOf]; exact h i hi mu hmu

theorem orbit_agree {NC : ℕ} {L : Latt} {U V : Gauge} (h : ∀ i < volume L, ∀ mu < L.ND, link NC V i mu = link NC U i mu) :
    Orbit NC L U V :=
  orbit_of (fun _ => 1) (fun _ _ => one_mem _) fun i hi mu hmu => by simp [h i hi mu hmu]

theorem orbit_refl (NC : ℕ) (L : Latt) (U : Gauge) : Orbit NC L U U := orbit_agree fun _ _ _ _ => rfl

theorem orbit_trans {NC : ℕ} {L : Latt} {U V W : Gauge} (h1 : Orbit NC L U V) (h2 : Orbit NC L V W) :
    Orbit NC L U W := by
  obtain ⟨g, hg, h⟩ := h1
  obtain ⟨g', hg', h'⟩ := h2
  refine orbit_of (fun i => toM NC (g' i) * toM NC (g i)) (fun i hi => isSU_mul (hg' i hi) (hg i hi))
    fun i hi mu hmu => ?_
  rw [h' i hi mu hmu, h i hi mu hmu]
  simp only [conjTranspose_mul, Matrix.mul_assoc]

theorem orbit_symm {NC : ℕ} {L : Latt} (hL : Valid L) {U V : Gauge} (h : Orbit NC L U V) : Orbit NC L V U := by
  obtain ⟨g, hg, h⟩ := h
  refine orbit_of (fun i => (toM NC (g i))ᴴ) (fun i hi => isSU_star (hg i hi)) fun i hi mu hmu => ?_
  rw [h i hi mu hmu, conjTranspose_conjTranspose]
  have a := su_star_mul (hg i hi)
  have b := su_star_mul (hg _ (neighbor_lt hL i hmu))
  simp only [Matrix.mul_assoc]
  rw [cancel_left a, b, Matrix.mul_one]

theorem orbit_su {NC : ℕ} {L : Latt} (hL : Valid L) {U V : Gauge} (h : Orbit NC L U V) (hU : SUField NC L U) :
    SUField NC L V := by
  obtain ⟨g, hg, h⟩ := h
  intro i hi mu hmu
  have := h i hi mu hmu
  unfold link at this
  unfold IsSU
  rw [this]
  exact isSU_mul (isSU_mul (hg i hi) (hU i hi mu hmu)) (isSU_star (hg _ (neighbor_lt hL i hmu)))

/-- Along a gauge orbit the trace around every closed path is the same. -/
theorem orbit_loop {NC : ℕ} {L : Latt} (hL : Valid L) {U V : Gauge} (h : Orbit NC L U V) {p : List Step}
    (hp : InDirs L p) {i : ℕ} (hi : i < volume L) (hc : pathEnd L i p = i) :
    (along NC L V i p).trace = (along NC L U i p).trace := by
  obtain ⟨g, hg, h⟩ := h
  rw [along_transformed hL hg h hp hi, hc]
  exact trace_conj (su_star_mul (hg i hi))

/-- Along a gauge orbit the average plaquette is the same. -/
theorem orbit_plaquette {NC : ℕ} {L : Latt} (hN : 1 ≤ NC) (hL : Valid L) {U V : Gauge} (h : Orbit NC L U V)
    (hU : SUField NC L U) : av_plaquette NC L V = av_plaquette NC L U := by
  have hV := orbit_su hL h hU
  obtain ⟨g, hg, h⟩ := h
  rw [C29_average hN hL hU, C29_average hN hL hV]
  have : ∀ i ∈ range (volume L), ∀ mu ∈ range L.ND, ∀ nu ∈ range mu,
      (square NC L V i mu nu).trace.re / (NC : ℝ) = (square NC L U i mu nu).trace.re / NC := by
    intro i hi mu hmu nu hnu
    rw [mem_range] at hi hmu hnu
    rw [square_transformed hL hg h hi hmu (by omega)]
    rw [trace_conj (su_star_mul (hg i hi))]
  rw [sum_congr rfl fun i hi => sum_congr rfl fun mu hmu => sum_congr rfl fun nu hnu => this i hi mu hmu nu hnu]

end GLU.Gfix
