import Verif.Smear.Props

/-!
# The link updates of the code read only neighbouring slices
-/

namespace GLU.Smear

open GLU.Geom GLU.Sched GLU.Field

variable {M Z : Type}

theorem stapleDir_lt {mu j n : ℕ} (hmu : mu < n) (hj : j < n - 1) : stapleDir mu j < n ∧ stapleDir mu j ≠ mu := by
  unfold stapleDir; split <;> omega

/-- The slices of the six sites a staple reads. -/
theorem staple_sites {L : Latt} (hL : Valid L) {x mu nu : ℕ} (hx : x < volume L) (hmu : mu < L.ND)
    (hnu : nu < L.ND) (hne : nu ≠ mu) :
    Adjacent (extent L) (time L (neighbor L x nu)) (time L x) ∧
    Adjacent (extent L) (time L (neighbor L x mu)) (time L x) ∧
    Adjacent (extent L) (time L (back L x nu)) (time L x) ∧
    Adjacent (extent L) (time L (neighbor L (back L x nu) mu)) (time L x) := by
  have h1 := time_neighbor hL hx hnu
  have h2 := time_neighbor hL hx hmu
  have h3 := time_back hL hx hnu
  have h4 := time_neighbor hL (back_lt hL x hnu) hmu
  refine ⟨?_, ?_, ?_, ?_⟩
  · split at h1
    · exact Or.inr (Or.inl h1)
    · exact Or.inl h1
  · split at h2
    · exact Or.inr (Or.inl h2)
    · exact Or.inl h2
  · split at h3
    · exact Or.inr (Or.inr h3)
    · exact Or.inl h3
  · by_cases hm : mu = L.ND - 1
    · rw [if_pos hm] at h4
      rw [if_neg (by omega)] at h3
      rw [h4, h3]
      exact Or.inr (Or.inl rfl)
    · rw [if_neg hm] at h4
      rw [h4]
      split at h3
      · exact Or.inr (Or.inr h3)
      · exact Or.inl h3

/-- The spatial staple stays in its slice. -/
theorem staple_sites_spatial {L : Latt} (hL : Valid L) {x mu nu : ℕ} (hx : x < volume L) (hmu : mu < L.ND - 1)
    (hnu : nu < L.ND - 1) :
    time L (neighbor L x nu) = time L x ∧ time L (neighbor L x mu) = time L x ∧
    time L (back L x nu) = time L x ∧ time L (neighbor L (back L x nu) mu) = time L x := by
  have h1 := time_neighbor hL hx (show nu < L.ND by omega)
  have h2 := time_neighbor hL hx (show mu < L.ND by omega)
  have h3 := time_back hL hx (show nu < L.ND by omega)
  have h4 := time_neighbor hL (back_lt hL x (show nu < L.ND by omega)) (show mu < L.ND by omega)
  rw [if_neg (by omega)] at h1 h2 h3 h4
  exact ⟨h1, h2, h3, h4.trans h3⟩

/-- What a staple needs to agree on. -/
theorem staples_congr {L : Latt} (hL : Valid L) {dir x mu : ℕ} (hd : dir ≤ L.ND)
    (hmu : mu < dir) {lat lat' : Loc → M}
    (h : ∀ nu < dir, nu ≠ mu → lat (x, nu) = lat' (x, nu) ∧
      lat (neighbor L x nu, mu) = lat' (neighbor L x nu, mu) ∧
      lat (neighbor L x mu, nu) = lat' (neighbor L x mu, nu) ∧
      lat (back L x nu, nu) = lat' (back L x nu, nu) ∧
      lat (back L x nu, mu) = lat' (back L x nu, mu) ∧
      lat (neighbor L (back L x nu) mu, nu) = lat' (neighbor L (back L x nu) mu, nu))
    (h0 : lat (x, mu) = lat' (x, mu)) (ops : MatOps M) (log : M → M) (zero : M) :
    all_staples L ops lat x mu dir zero = all_staples L ops lat' x mu dir zero ∧
    all_staples_log L ops log lat x mu dir zero = all_staples_log L ops log lat' x mu dir zero := by
  constructor <;>
  · refine List.foldl_ext _ _ _ fun a j hj => ?_
    rw [List.mem_range] at hj
    obtain ⟨h1, h2⟩ := stapleDir_lt hmu hj
    obtain ⟨e1, e2, e3, e4, e5, e6⟩ := h _ h1 h2
    simp only [e1, e2, e3, e4, e5, e6, h0]

theorem staples_reads {L : Latt} (hL : Valid L) {x mu : ℕ} (hx : x < volume L) (hmu : mu < L.ND)
    {lat lat' : Loc → M}
    (h : ∀ y < volume L, ∀ nu < L.ND, Adjacent (extent L) (time L y) (time L x) → lat (y, nu) = lat' (y, nu))
    (ops : MatOps M) (log : M → M) (zero : M) :
    all_staples L ops lat x mu L.ND zero = all_staples L ops lat' x mu L.ND zero ∧
    all_staples_log L ops log lat x mu L.ND zero = all_staples_log L ops log lat' x mu L.ND zero := by
  refine staples_congr hL (le_refl _) hmu (fun nu hnu hne => ?_) (h x hx mu hmu (Or.inl rfl)) ops log zero
  obtain ⟨a1, a2, a3, a4⟩ := staple_sites hL hx hmu hnu hne
  exact ⟨h x hx nu hnu (Or.inl rfl), h _ (neighbor_lt hL _ hnu) mu hmu a1, h _ (neighbor_lt hL _ hmu) nu hnu a2,
    h _ (back_lt hL _ hnu) nu hnu a3, h _ (back_lt hL _ hnu) mu hmu a3, h _ (neighbor_lt hL _ hmu) nu hnu a4⟩

/-- **C33**, hypotheses: the updates of `smear4D` and of the flow, for every smearing type,
read only neighbouring slices. -/
theorem C33_updates_local {L : Latt} (hL : Valid L) (ops : MatOps M) (log : M → M) (zero : M)
    (project : M → M → M) (acc : Z → M → M → Z) (accl : Z → M → Z) (proj : Z → M → M) :
    Reads L (Adjacent (extent L)) (smearLink L ops zero project L.ND) ∧
    Reads L (Adjacent (extent L)) (smearLinkLog L ops log zero project L.ND) ∧
    Reads L (Adjacent (extent L)) (flowLink L ops zero acc proj) ∧
    Reads L (Adjacent (extent L)) (flowLinkLog L ops log zero accl proj) := by
  refine ⟨?_, ?_, ?_, ?_⟩ <;> intro lat lat' z x mu hx hmu h <;>
    obtain ⟨s1, s2⟩ := staples_reads hL hx hmu h ops log zero <;>
    have s0 := h x hx mu hmu (Or.inl rfl)
  · simp only [smearLink, s1, s0]
  · simp only [smearLinkLog, s2, s0]
  · simp only [flowLink, s1, s0]
  · simp only [flowLinkLog, s2, s0]

/-- **C33**, hypotheses for `smear3D`: the spatial update reads only spatial links of its
own slice. -/
theorem C33_updates_spatial {L : Latt} (hL : Valid L) (ops : MatOps M) (log : M → M) (zero : M)
    (project : M → M → M) :
    ReadsSlice L (smearLink L ops zero project (L.ND - 1)) ∧
    ReadsSlice L (smearLinkLog L ops log zero project (L.ND - 1)) := by
  have key : ∀ (lat lat' : Loc → M) (x mu : ℕ), x < volume L → mu < L.ND - 1 →
      (∀ y < volume L, ∀ nu < L.ND - 1, time L y = time L x → lat (y, nu) = lat' (y, nu)) →
      all_staples L ops lat x mu (L.ND - 1) zero = all_staples L ops lat' x mu (L.ND - 1) zero ∧
      all_staples_log L ops log lat x mu (L.ND - 1) zero = all_staples_log L ops log lat' x mu (L.ND - 1) zero := by
    intro lat lat' x mu hx hmu h
    refine staples_congr hL (by omega) hmu (fun nu hnu hne => ?_) (h x hx mu hmu rfl) ops log zero
    obtain ⟨a1, a2, a3, a4⟩ := staple_sites_spatial hL hx hmu hnu
    exact ⟨h x hx nu hnu rfl, h _ (neighbor_lt hL _ (by omega)) mu hmu a1,
      h _ (neighbor_lt hL _ (by omega)) nu hnu a2,
      h _ (back_lt hL _ (by omega)) nu hnu a3, h _ (back_lt hL _ (by omega)) mu hmu a3,
      h _ (neighbor_lt hL _ (by omega)) nu hnu a4⟩
  constructor <;> intro lat lat' z x mu hx hmu h <;>
    obtain ⟨s1, s2⟩ := key lat lat' x mu hx hmu h <;> have s0 := h x hx mu hmu rfl
  · simp only [smearLink, s1, s0]
  · simp only [smearLinkLog, s2, s0]

/-- **C33** for the code's own updates, all together: four-dimensional smearing of every type is
`smiters` simultaneous updates. -/
theorem C33_smear4D_code {L : Latt} (hL : Valid L) (ops : MatOps M) (log : M → M) (zero : M)
    (project : M → M → M) (smiters : ℕ) (s : St M Unit) :
    (smear4D L (smearLink L ops zero project L.ND) smiters s).lat =
      ((simultaneous L L.ND (smearLink L ops zero project L.ND))^[smiters] (s.lat, s.z)).1 ∧
    (smear4D L (smearLinkLog L ops log zero project L.ND) smiters s).lat =
      ((simultaneous L L.ND (smearLinkLog L ops log zero project L.ND))^[smiters] (s.lat, s.z)).1 := by
  obtain ⟨h1, h2, _, _⟩ := C33_updates_local (Z := Unit) hL ops log zero project (fun z _ _ => z)
    (fun z _ => z) (fun _ u => u)
  exact ⟨congrArg Prod.fst (C33_smear4D hL h1 smiters s), congrArg Prod.fst (C33_smear4D hL h2 smiters s)⟩

/-! ### Non-vacuity -/

/-- Integers with `multab` etc. as in a commutative theory. -/
def intOps : MatOps ℤ := ⟨(· * ·), (· * ·), (· * ·), (· + ·)⟩

/-- On a 2 x 1 lattice whose links are `2` except for one `1`, the sweep changes that link to
`1 + 8 + 8`. -/
example : Valid ⟨2, fun mu => if mu = 0 then 2 else 1⟩ ∧
    (smear4D ⟨2, fun mu => if mu = 0 then 2 else 1⟩ (smearLink ⟨2, fun mu => if mu = 0 then 2 else 1⟩
      intOps 0 (fun s u => s + u) 2) 1
      (⟨fun l => if l = (0, 1) then 1 else 2, fun _ => (), fun _ => 0, fun _ => 0, fun _ => 0⟩ : St ℤ Unit)).lat (0, 1) = 17 := by
  refine ⟨⟨by norm_num, by intro mu _; dsimp only; split <;> norm_num, by norm_num [Finset.prod_range_succ]⟩, ?_⟩
  decide +kernel

end GLU.Smear
