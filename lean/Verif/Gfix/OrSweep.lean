import Verif.Gfix.OrStep
import Verif.Draught.Props
import Verif.Field.LinksProps
import Verif.Mat.GramProps

/-!
# Sweeps and iterations of over-relaxed gauge fixing
-/

namespace GLU.Gfix

open Complex Matrix GLU.Mat GLU.Geom GLU.Field GLU.Update GLU.Sched GLU.Draught Finset

/-- A set of sites closed under steps back in the first `D` directions. -/
def ClosedSet (L : Latt) (S : Finset ℕ) (D : ℕ) : Prop :=
  (∀ j ∈ S, j < volume L) ∧ ∀ j ∈ S, ∀ mu < D, back L j mu ∈ S

/-- What any number of steps on sites of `S` does. -/
structure Moves (NC : ℕ) (L : Latt) (S : Finset ℕ) (D : ℕ) (lat lat' : Gauge) : Prop where
  orbit : Orbit NC L lat lat'
  gain : (∀ mu < D, 2 ≤ L.dims mu) → linkSum NC lat S D ≤ linkSum NC lat' S D
  outside : ∀ j < volume L, j ∉ S → ∀ mu < D, link NC lat' j mu = link NC lat j mu

theorem Moves.refl (NC : ℕ) (L : Latt) (S : Finset ℕ) (D : ℕ) (lat : Gauge) : Moves NC L S D lat lat :=
  ⟨orbit_refl _ _ _, fun _ => le_refl _, fun _ _ _ _ _ => rfl⟩

theorem Moves.trans {NC : ℕ} {L : Latt} {S : Finset ℕ} {D : ℕ} {a b c : Gauge} (h1 : Moves NC L S D a b)
    (h2 : Moves NC L S D b c) : Moves NC L S D a c :=
  ⟨orbit_trans h1.orbit h2.orbit, fun h => (h1.gain h).trans (h2.gain h), fun j hj hS mu hmu =>
    (h2.outside j hj hS mu hmu).trans (h1.outside j hj hS mu hmu)⟩

theorem OR_single_moves {NC s : ℕ} (hs : s < NSU2SUBGROUPS NC) {L : Latt} (hL : Valid L) {OrParam coin : ℝ} {D i : ℕ}
    (hD : D ≤ L.ND) {S : Finset ℕ} (hS : ClosedSet L S D) (hi : i ∈ S) {lat lat' : Gauge}
    (h : OR_single NC L s OrParam D coin i lat = some lat') : Moves NC L S D lat lat' := by
  have hiv := hS.1 i hi
  refine ⟨OR_single_orbit hs hL hiv h, fun h2 => (OR_single_gain hs hL hiv hD h2 h hS.1 hi (hS.2 i hi)).1,
    fun j hj hjS mu hmu => ?_⟩
  obtain ⟨G, -, hG⟩ := OR_single_site hs hL hiv h
  have hmu' : mu < L.ND := by omega
  rw [hG j hj mu hmu']
  unfold oneSite
  rw [if_neg (show j ≠ i from fun e => hjS (e ▸ hi)), if_neg (show neighbor L j mu ≠ i from fun e => hjS (by
    rw [(eq_back_iff hL hiv hj hmu').2 e]; exact hS.2 i hi mu hmu))]
  simp

/-- A chain of partial steps each of which satisfies a reflexive and transitive relation. -/
theorem bind_loop {σ : Type*} {R : σ → σ → Prop} (hr : ∀ a, R a a) (ht : ∀ a b c, R a b → R b c → R a c) (n : ℕ)
    (f : ℕ → σ → Option σ) (hf : ∀ k < n, ∀ a b, f k a = some b → R a b) {a b : σ}
    (h : forN n (fun k o => o.bind (f k)) (some a) = some b) : R a b := by
  induction n generalizing b with
  | zero => rw [forN, Option.some_inj] at h; exact h ▸ hr a
  | succ n ih =>
    rw [forN, Option.bind_eq_some_iff] at h
    obtain ⟨c, h1, h2⟩ := h
    exact ht _ _ _ (ih (fun k hk => hf k (by omega)) h1) (hf n (by omega) c b h2)

theorem foldl_none {α σ : Type*} (f : α → σ → Option σ) (l : List α) :
    l.foldl (fun o x => o.bind (f x)) none = none := by
  induction l with
  | nil => rfl
  | cons x l ih => simpa using ih

theorem bind_foldl {α σ : Type*} {R : σ → σ → Prop} (hr : ∀ a, R a a) (ht : ∀ a b c, R a b → R b c → R a c)
    (f : α → σ → Option σ) (l : List α) (hf : ∀ x ∈ l, ∀ a b, f x a = some b → R a b) {a b : σ}
    (h : l.foldl (fun o x => o.bind (f x)) (some a) = some b) : R a b := by
  induction l generalizing a with
  | nil => rw [List.foldl_nil, Option.some_inj] at h; exact h ▸ hr a
  | cons x l ih =>
    rw [List.foldl_cons, Option.bind_some] at h
    cases hx : f x a with
    | none => rw [hx, foldl_none] at h; cases h
    | some c =>
      rw [hx] at h
      exact ht _ _ _ (hf x List.mem_cons_self a c hx) (ih (fun y hy => hf y (List.mem_cons_of_mem _ hy)) h)

theorem OR_sweep_moves {NC : ℕ} {L : Latt} (hL : Valid L) {OrParam : ℝ} {D : ℕ} (hD : D ≤ L.ND) {S : Finset ℕ}
    (hS : ClosedSet L S D) {nc : ℕ} {sched : ℕ → ℕ → List (ℕ × ℝ)}
    (hsch : ∀ s < NSU2SUBGROUPS NC, ∀ c < nc, ∀ x ∈ sched s c, x.1 ∈ S) {lat lat' : Gauge}
    (h : OR_sweep NC L nc OrParam D sched lat = some lat') : Moves NC L S D lat lat' := by
  refine bind_loop (Moves.refl NC L S D) (fun _ _ _ => Moves.trans) _ _ (fun s hs a b hab => ?_) h
  refine bind_loop (Moves.refl NC L S D) (fun _ _ _ => Moves.trans) _ _ (fun c hc a b hab => ?_) hab
  exact bind_foldl (Moves.refl NC L S D) (fun _ _ _ => Moves.trans)
    (fun (x : ℕ × ℝ) => OR_single NC L s OrParam D x.2 x.1) _
    (fun x hx a b hab => OR_single_moves hs hL hD hS (hsch s hs c hc x hx) hab) hab

theorem orLoop_inv {R : Gauge → Gauge → Prop} (hr : ∀ a, R a a) (ht : ∀ a b c, R a b → R b c → R a c)
    {measure : Gauge → Option ℝ} {sweep : ℕ → Gauge → Option Gauge} (hsw : ∀ k a b, sweep k a = some b → R a b)
    {ACC : ℝ} (n iters : ℕ) (lat : Gauge) (newlink : ℝ) (theta : Theta) {r : Gauge × ℕ × Theta}
    (h : orLoop measure sweep ACC n iters lat newlink theta = some r) :
    R lat r.1 ∧ iters ≤ r.2.1 ∧ r.2.1 ≤ iters + n ∧ (r.2.1 < iters + n → ¬ r.2.2.Exceeds ACC) := by
  induction n generalizing iters lat newlink theta with
  | zero =>
    rw [orLoop, Option.some_inj] at h; subst h
    exact ⟨hr _, le_refl _, by simp, fun h => absurd h (by simp)⟩
  | succ n ih =>
    rw [orLoop] at h
    split at h
    · simp only [Option.bind_eq_some_iff] at h
      obtain ⟨b, h1, nl, h2, h3⟩ := h
      obtain ⟨a1, a2, a3, a4⟩ := ih _ _ _ _ h3
      exact ⟨ht _ _ _ (hsw _ _ _ h1) a1, by omega, by omega, fun h => a4 (by omega)⟩
    · next hx =>
      rw [Option.some_inj] at h; subst h
      exact ⟨hr _, le_refl _, by simp, fun _ => hx⟩

/-! ## Projection onto the group -/

theorem latt_reunitU_su {NC : ℕ} (hN : 1 < NC) {L : Latt} {scratch : Arr ℂ} {lat : Gauge} (hU : SUField NC L lat) :
    ∃ lat', latt_reunitU NC L scratch lat = some lat' ∧
      ∀ i < volume L, ∀ mu < L.ND, link NC lat' i mu = link NC lat i mu := by
  unfold latt_reunitU
  have H := forN_inv (fun _ (o : Option Gauge) => ∃ lat', o = some lat' ∧
      ∀ i < volume L, ∀ mu < L.ND, link NC lat' i mu = link NC lat i mu) (n := volume L)
    (body := fun i o => forN L.ND (fun mu o => o.bind fun lat =>
      (gram_reunit NC (lat (i, mu)) scratch).map fun u => Function.update lat (i, mu) u) o) (s := some lat)
    ⟨lat, rfl, fun _ _ _ _ => rfl⟩ (fun i hi s hs => ?_)
  · exact H
  · refine forN_inv (fun _ (o : Option Gauge) => ∃ lat', o = some lat' ∧
      ∀ i < volume L, ∀ mu < L.ND, link NC lat' i mu = link NC lat i mu) hs (fun mu hmu s hs => ?_)
    obtain ⟨l, rfl, hl⟩ := hs
    have hsu : IsSU NC (l (i, mu)) := by
      have := hl i hi mu hmu
      unfold link at this
      unfold IsSU
      rw [this]; exact hU i hi mu hmu
    obtain ⟨V, h1, h2⟩ := C15_fixes hN scratch hsu
    refine ⟨Function.update l (i, mu) V, by rw [Option.bind_some, h1]; rfl, fun j hj nu hnu => ?_⟩
    unfold link
    rw [Function.update_apply]
    split
    · next he =>
      rw [Prod.mk.injEq] at he
      obtain ⟨rfl, rfl⟩ := he
      rw [h2]; exact hl j hj nu hnu
    · exact hl j hj nu hnu

/-! ## Order of the sites -/

/-- The steps on two sites that are not neighbours can be exchanged. -/
theorem OR_single_comm {NC : ℕ} {L : Latt} (hL : Valid L) {s : ℕ} {OrParam : ℝ} {D : ℕ} (hD : D ≤ L.ND) {x y : ℕ × ℝ}
    (hx : x.1 < volume L) (hy : y.1 < volume L) (hne : x.1 ≠ y.1)
    (hxy : ∀ mu < L.ND, neighbor L x.1 mu ≠ y.1) (hyx : ∀ mu < L.ND, neighbor L y.1 mu ≠ x.1) (lat : Gauge) :
    (OR_single NC L s OrParam D x.2 x.1 lat).bind (OR_single NC L s OrParam D y.2 y.1) =
      (OR_single NC L s OrParam D y.2 y.1 lat).bind (OR_single NC L s OrParam D x.2 x.1) := by
  have key : ∀ (i j : ℕ), i < volume L → j < volume L → i ≠ j → (∀ mu < L.ND, neighbor L i mu ≠ j) →
      (∀ mu < L.ND, neighbor L j mu ≠ i) → ∀ (r : ℂ × ℂ) (lat : Gauge) (mu : ℕ), mu < L.ND →
        orApply NC L s i r lat (j, mu) = lat (j, mu) ∧
        orApply NC L s i r lat (back L j mu, mu) = lat (back L j mu, mu) := by
    intro i j hi hj hij h1 h2 r lat mu hmu
    have e1 : j ≠ back L i mu := fun e => h2 mu hmu ((eq_back_iff hL hi hj hmu).1 e)
    have e2 : back L j mu ≠ i := fun e => h1 mu hmu ((eq_back_iff hL hj hi hmu).1 e.symm)
    have e3 : back L j mu ≠ back L i mu := fun e => hij (by
      rw [← (C02_inverse hL hi hmu).2, ← e, (C02_inverse hL hj hmu).2])
    rw [orApply_apply, orApply_apply]
    simp only [e1, e2, e3, hij.symm, if_false, ite_self, and_self]
  have sums : ∀ (i j : ℕ), i < volume L → j < volume L → i ≠ j → (∀ mu < L.ND, neighbor L i mu ≠ j) →
      (∀ mu < L.ND, neighbor L j mu ≠ i) → ∀ (r : ℂ × ℂ) (lat : Gauge),
        orSum NC L (orApply NC L s i r lat) s j D = orSum NC L lat s j D := by
    intro i j hi hj hij h1 h2 r lat
    unfold orSum
    refine forN_congr (fun mu hmu t => ?_) _
    obtain ⟨k1, k2⟩ := key i j hi hj hij h1 h2 r lat mu (by omega)
    simp only [k1, k2]
  have swap : ∀ r t, orApply NC L s y.1 t (orApply NC L s x.1 r lat) = orApply NC L s x.1 r (orApply NC L s y.1 t lat) := by
    intro r t
    funext l
    obtain ⟨a, mu⟩ := l
    by_cases hmu : mu < L.ND
    · have b1 : x.1 ≠ back L y.1 mu := fun e => hxy mu hmu ((eq_back_iff hL hy hx hmu).1 e)
      have b2 : y.1 ≠ back L x.1 mu := fun e => hyx mu hmu ((eq_back_iff hL hx hy hmu).1 e)
      have b3 : back L x.1 mu ≠ back L y.1 mu := fun e => hne (by
        rw [← (C02_inverse hL hx hmu).2, e, (C02_inverse hL hy hmu).2])
      simp only [orApply_apply, hmu, if_true]
      by_cases hb : a = back L y.1 mu ∨ a = y.1
      · have h1 : a ≠ x.1 := by
          rcases hb with rfl | rfl
          · exact b1.symm
          · exact hne.symm
        have h2 : a ≠ back L x.1 mu := by
          rcases hb with rfl | rfl
          · exact b3.symm
          · exact b2
        simp only [h1, h2, if_false]
      · rw [not_or] at hb
        simp only [hb.1, hb.2, if_false]
    · simp only [orApply_apply, hmu, if_false]
  unfold OR_single
  cases hcx : orChoice OrParam x.2 (orSum NC L lat s x.1 D) with
  | none =>
    simp only [Option.map_none, Option.bind_none]
    cases hcy : orChoice OrParam y.2 (orSum NC L lat s y.1 D) with
    | none => rfl
    | some t =>
      simp only [Option.map_some, Option.bind_some]
      rw [sums y.1 x.1 hy hx hne.symm hyx hxy, hcx]; rfl
  | some r =>
    simp only [Option.map_some, Option.bind_some]
    rw [sums x.1 y.1 hx hy hne hxy hyx]
    cases hcy : orChoice OrParam y.2 (orSum NC L lat s y.1 D) with
    | none => rfl
    | some t =>
      simp only [Option.map_some, Option.bind_some]
      rw [sums y.1 x.1 hy hx hne.symm hyx hxy, hcx, swap]; rfl

/-- A list of sites of which no two different ones are neighbours. -/
def Apart (L : Latt) (l : List ℕ) : Prop :=
  (∀ x ∈ l, x < volume L) ∧ l.Nodup ∧ ∀ x ∈ l, ∀ y ∈ l, x ≠ y → ∀ mu < L.ND, neighbor L x mu ≠ y

theorem Apart.tail {L : Latt} {x : ℕ} {l : List ℕ} (h : Apart L (x :: l)) : Apart L l :=
  ⟨fun y hy => h.1 y (List.mem_cons_of_mem _ hy), (List.nodup_cons.1 h.2.1).2, fun y hy z hz =>
    h.2.2 y (List.mem_cons_of_mem _ hy) z (List.mem_cons_of_mem _ hz)⟩

theorem Apart.perm {L : Latt} {l l' : List ℕ} (h : Apart L l) (hp : l.Perm l') : Apart L l' :=
  ⟨fun y hy => h.1 y (hp.mem_iff.2 hy), hp.nodup_iff.1 h.2.1, fun y hy z hz =>
    h.2.2 y (hp.mem_iff.2 hy) z (hp.mem_iff.2 hz)⟩

theorem OR_colour_perm {NC : ℕ} {L : Latt} (hL : Valid L) {s : ℕ} {OrParam : ℝ} {D : ℕ} (hD : D ≤ L.ND)
    {l l' : List (ℕ × ℝ)} (hp : l.Perm l') (ha : Apart L (l.map Prod.fst)) (lat : Gauge) :
    OR_colour NC L s OrParam D l lat = OR_colour NC L s OrParam D l' lat := by
  unfold OR_colour
  have gen : ∀ o : Option Gauge, l.foldl (fun o x => o.bind (OR_single NC L s OrParam D x.2 x.1)) o =
      l'.foldl (fun o x => o.bind (OR_single NC L s OrParam D x.2 x.1)) o := by
    induction hp with
    | nil => intro o; rfl
    | cons x _ ih => intro o; exact ih ha.tail _
    | swap x y l =>
      intro o
      simp only [List.foldl_cons]
      congr 1
      cases o with
      | none => rfl
      | some lat =>
        simp only [Option.bind_some]
        have hx : x.1 ∈ List.map Prod.fst (y :: x :: l) := by simp
        have hy : y.1 ∈ List.map Prod.fst (y :: x :: l) := by simp
        have hn : y.1 ≠ x.1 := by
          have := ha.2.1
          simp only [List.map_cons, List.nodup_cons, List.mem_cons, not_or] at this
          exact this.1.1
        exact OR_single_comm hL hD (ha.1 _ hy) (ha.1 _ hx) hn (ha.2.2 _ hy _ hx hn) (ha.2.2 _ hx _ hy hn.symm) lat
    | trans h1 _ ih1 ih2 => intro o; rw [ih1 ha, ih2 (ha.perm (h1.map _))]
  exact gen _

end GLU.Gfix
