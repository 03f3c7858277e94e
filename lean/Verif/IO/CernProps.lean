import Verif.IO.SiteProps

/-! # C42: CERN files -/

namespace GLU.IO

open GLU.Geom

variable {P : Word}

/-- All four extents are even. -/
def AllEven (L : Latt) : Prop := ∀ mu < 4, L.dims mu % 2 = 0

/-- The parity of a site. -/
def parity (L : Latt) (s : ℕ) : ℕ :=
  (coord L L.ND s 0 + coord L L.ND s 1 + coord L L.ND s 2 + coord L L.ND s 3) % 2

/-- The coordinate vector of the loops of `CERN.c`. -/
def cernVec (x y z t : ℕ) : ℕ → ℤ := fun mu =>
  if mu = 0 then (x : ℤ) else if mu = 1 then (y : ℤ) else if mu = 2 then (z : ℤ) else (t : ℤ)

theorem cernVec_inRange {L : Latt} (h4 : L.ND = 4) {x y z t : ℕ} (hx : x < L.dims 0)
    (hy : y < L.dims 1) (hz : z < L.dims 2) (ht : t < L.dims 3) : InRange L (cernVec x y z t) := by
  intro mu hmu
  rw [h4] at hmu
  have : mu = 0 ∨ mu = 1 ∨ mu = 2 ∨ mu = 3 := by omega
  rcases this with rfl | rfl | rfl | rfl <;> simp [cernVec, hx, hy, hz, ht]

/-- The stored sites of slice `t` are the odd sites of that slice. -/
theorem mem_cern_sites {L : Latt} (hL : Valid L) (h4 : L.ND = 4) {t : ℕ} (ht : t < L.dims 3)
    {s : ℕ} (hs : s < volume L) :
    s ∈ cern_sites L t ↔ parity L s = 1 ∧ coord L L.ND s 3 = t := by
  have hc : ∀ mu < 4, coord L L.ND s mu < L.dims mu := fun mu hmu =>
    coord_lt L hL.pos L.ND s (by omega)
  constructor
  · intro h
    simp only [cern_sites, List.mem_flatMap, List.mem_range, List.mem_filterMap] at h
    obtain ⟨x, hx, y, hy, z, hz, h⟩ := h
    split at h
    · rename_i hp
      have h := Option.some.inj h
      have hr := cernVec_inRange h4 hx hy hz ht
      have c : ∀ mu < 4, (coord L L.ND s mu : ℤ) = cernVec x y z t mu := by
        intro mu hmu
        rw [← h]
        exact coord_gen_site hL hr (by omega)
      have c0 := c 0 (by norm_num); have c1 := c 1 (by norm_num)
      have c2 := c 2 (by norm_num); have c3 := c 3 (by norm_num)
      simp [cernVec] at c0 c1 c2 c3
      rw [parity, c0, c1, c2, c3]
      exact ⟨hp, rfl⟩
    · cases h
  · rintro ⟨hp, rfl⟩
    simp only [cern_sites, List.mem_flatMap, List.mem_range, List.mem_filterMap]
    refine ⟨_, hc 0 (by norm_num), _, hc 1 (by norm_num), _, hc 2 (by norm_num), ?_⟩
    rw [if_pos (show (coord L L.ND s 0 + coord L L.ND s 1 + coord L L.ND s 2 + coord L L.ND s 3) % 2 = 1
      from hp)]
    congr 1
    refine site_ext hL (gen_site_lt hL (cernVec_inRange h4 (hc 0 (by norm_num)) (hc 1 (by norm_num))
      (hc 2 (by norm_num)) ht)) hs fun mu hmu => ?_
    have := coord_gen_site hL (cernVec_inRange h4 (hc 0 (by norm_num)) (hc 1 (by norm_num))
      (hc 2 (by norm_num)) ht) hmu
    have e : (coord L L.ND s mu : ℤ) = cernVec (coord L L.ND s 0) (coord L L.ND s 1)
        (coord L L.ND s 2) (coord L L.ND s 3) mu := by
      rw [h4] at hmu
      have : mu = 0 ∨ mu = 1 ∨ mu = 2 ∨ mu = 3 := by omega
      rcases this with rfl | rfl | rfl | rfl <;> rfl
    rw [← e] at this
    exact Int.ofNat.inj this

theorem cern_sites_lt {L : Latt} (hL : Valid L) (h4 : L.ND = 4) {t : ℕ} (ht : t < L.dims 3)
    {s : ℕ} (h : s ∈ cern_sites L t) : s < volume L := by
  simp only [cern_sites, List.mem_flatMap, List.mem_range, List.mem_filterMap] at h
  obtain ⟨x, hx, y, hy, z, hz, h⟩ := h
  split at h
  · rw [← Option.some.inj h]
    exact gen_site_lt hL (cernVec_inRange h4 hx hy hz ht)
  · cases h

/-- A link is stored exactly when its site is odd, or the site it leads to is. -/
theorem mem_cern_targets {L : Latt} (hL : Valid L) (h4 : L.ND = 4) {s mu : ℕ}
    (hs : s < volume L) (hmu : mu < 4) :
    (∃ t < L.dims 3, (s, mu) ∈ cern_targets L t) ↔
      parity L s = 1 ∨ parity L (neighbor L s mu) = 1 := by
  have hmu' : mu < L.ND := by omega
  have hc : ∀ s, coord L L.ND s 3 < L.dims 3 := fun s => coord_lt L hL.pos L.ND s (by omega)
  constructor
  · rintro ⟨t, ht, h⟩
    simp only [cern_targets, List.mem_flatMap] at h
    obtain ⟨idx, hidx, h⟩ := h
    have hlt := cern_sites_lt hL h4 ht hidx
    have hp := ((mem_cern_sites hL h4 ht hlt).1 hidx).1
    have hinv : ∀ nu < 4, neighbor L (back L idx nu) nu = idx := fun nu hnu =>
      (C02_inverse hL hlt (by omega)).2
    simp only [cern_links, List.mem_cons, Prod.mk.injEq, List.not_mem_nil, or_false] at h
    rcases h with ⟨rfl, rfl⟩ | ⟨rfl, rfl⟩ | ⟨rfl, rfl⟩ | ⟨rfl, rfl⟩ | ⟨rfl, rfl⟩ | ⟨rfl, rfl⟩ |
      ⟨rfl, rfl⟩ | ⟨rfl, rfl⟩
    all_goals first
      | exact Or.inl hp
      | (right; rw [hinv _ (by norm_num)]; exact hp)
  · intro h
    have key : ∀ idx, idx < volume L → parity L idx = 1 → (idx = s ∨ back L idx mu = s) →
        ∃ t < L.dims 3, (s, mu) ∈ cern_targets L t := by
      intro idx hlt hp hor
      refine ⟨coord L L.ND idx 3, hc idx, ?_⟩
      simp only [cern_targets, List.mem_flatMap]
      refine ⟨idx, (mem_cern_sites hL h4 (hc idx) hlt).2 ⟨hp, rfl⟩, ?_⟩
      have : mu = 0 ∨ mu = 1 ∨ mu = 2 ∨ mu = 3 := by omega
      rcases this with rfl | rfl | rfl | rfl <;> rcases hor with h | h <;> simp [cern_links, h]
    rcases h with h | h
    · exact key s hs h (Or.inl rfl)
    · exact key _ (C02_step hL hmu').1.1 h (Or.inr (C02_inverse hL hs hmu').1)

theorem parity_neighbor {L : Latt} (hL : Valid L) (h4 : L.ND = 4) {s mu : ℕ} (hmu : mu < 4)
    (he : L.dims mu % 2 = 0) : parity L (neighbor L s mu) = (parity L s + 1) % 2 := by
  have hstep := fun nu (hnu : nu < 4) => ((C02_step hL (i := s) (mu := mu) (by omega)).2 nu
    (by omega)).1
  have h0 := hstep 0 (by norm_num); have h1 := hstep 1 (by norm_num)
  have h2 := hstep 2 (by norm_num); have h3 := hstep 3 (by norm_num)
  have hpos := hL.pos mu (by omega)
  have hlt := coord_lt L hL.pos L.ND s (mu := mu) (by omega)
  have hmod : ((coord L L.ND s mu : ℤ) + 1) % (L.dims mu : ℤ)
      = ((if coord L L.ND s mu + 1 = L.dims mu then 0 else coord L L.ND s mu + 1 : ℕ) : ℤ) := by
    split
    · rename_i h
      rw [← h]; push_cast; simp
    · rw [Int.emod_eq_of_lt (by omega) (by omega)]; push_cast; rfl
  have : mu = 0 ∨ mu = 1 ∨ mu = 2 ∨ mu = 3 := by omega
  unfold parity
  rcases this with rfl | rfl | rfl | rfl <;> simp [hmod] at h0 h1 h2 h3 <;>
    split_ifs at * <;> omega

/-! ### Counting -/

theorem odd_count (c : ℕ) (k : ℕ) {α : Type} (f : ℕ → α) :
    ((List.range (2 * k)).filterMap fun z => if (c + z) % 2 = 1 then some (f z) else none).length
      = k := by
  induction k with
  | zero => rfl
  | succ k ih =>
    rw [show 2 * (k + 1) = 2 * k + 1 + 1 by ring, List.range_succ, List.range_succ,
      List.filterMap_append, List.filterMap_append, List.length_append, List.length_append, ih]
    rcases Nat.mod_two_eq_zero_or_one (c + 2 * k) with h | h
    · have h' : (c + (2 * k + 1)) % 2 = 1 := by omega
      simp [h, h']
    · have h' : ¬ (c + (2 * k + 1)) % 2 = 1 := by omega
      simp [h, h']

theorem cern_sites_length {L : Latt} (h2 : L.dims 2 % 2 = 0) (t : ℕ) :
    (cern_sites L t).length = L.dims 0 * (L.dims 1 * (L.dims 2 / 2)) := by
  have e : L.dims 2 = 2 * (L.dims 2 / 2) := by omega
  unfold cern_sites
  rw [flatMap_blocks (L.dims 1 * (L.dims 2 / 2))]
  intro x _
  rw [flatMap_blocks (L.dims 2 / 2)]
  intro y _
  have := odd_count (x + y + t) (L.dims 2 / 2)
    (fun z => gen_site L fun mu => if mu = 0 then (x : ℤ) else if mu = 1 then (y : ℤ)
      else if mu = 2 then (z : ℤ) else (t : ℤ))
  rw [← e] at this
  convert this using 5 with z
  omega

theorem lcu_four {L : Latt} (h4 : L.ND = 4) :
    lcu L = L.dims 0 * L.dims 1 * L.dims 2 ∧
    volume L = L.dims 0 * L.dims 1 * L.dims 2 * L.dims 3 := by
  obtain ⟨h1, h2⟩ := C01_volume (L := L) (by omega)
  rw [h1, h2, h4]
  simp [Finset.prod_range_succ]

theorem cern_targets_length {L : Latt} (h4 : L.ND = 4) (h2 : L.dims 2 % 2 = 0) (t : ℕ) :
    (cern_targets L t).length = 4 * lcu L := by
  rw [cern_targets, flatMap_list_range, flatMap_blocks 8, cern_sites_length h2, (lcu_four h4).1]
  · have e : L.dims 2 = L.dims 2 / 2 * 2 := by omega
    calc L.dims 0 * (L.dims 1 * (L.dims 2 / 2)) * 8
        = 4 * (L.dims 0 * L.dims 1 * (L.dims 2 / 2 * 2)) := by ring
      _ = _ := by rw [← e]
  · intro k hk
    rw [List.getElem?_eq_getElem hk]; rfl

theorem cern_slice_length {L : Latt} (h4 : L.ND = 4) (h2 : L.dims 2 % 2 = 0) (NC : ℕ) (lat : Lat P)
    (t : ℕ) : (cern_slice L NC lat t).length = 4 * lcu L * (NC * NC * 2) := by
  rw [cern_slice, flatMap_list_range, flatMap_blocks (NC * NC * 2), cern_targets_length h4 h2]
  intro k hk
  rw [List.getElem?_eq_getElem hk]
  exact matWords_length _ _

/-! ### Writer -/

theorem cern_fill_spec {L : Latt} (h4 : L.ND = 4) (h2 : L.dims 2 % 2 = 0) (NC : ℕ) (lat : Lat P)
    (order : List ℕ) (hord : ∀ t ∈ order, t < L.dims 3) (b : Buf P.W)
    (hb : b.size = volume L * 4 * (NC * NC) * 2) :
    ∃ b', cern_fill L NC lat order b = some b' ∧ b'.size = b.size ∧
      ∀ t j, j < 4 * lcu L * (NC * NC * 2) →
        b'.get (t * (4 * lcu L * (NC * NC * 2)) + j) = if t ∈ order then (cern_slice L NC lat t)[j]?
          else b.get (t * (4 * lcu L * (NC * NC * 2)) + j) := by
  set K := 4 * lcu L * (NC * NC * 2) with hK
  have hV : volume L * 4 * (NC * NC) * 2 = L.dims 3 * K := by
    rw [hK, (lcu_four h4).2, (lcu_four h4).1]; ring
  induction order generalizing b with
  | nil => exact ⟨b, rfl, rfl, fun t j _ => by simp⟩
  | cons t ts ih =>
    have ht : t < L.dims 3 := hord t (by simp)
    have hbase : lcu L * t * 2 * (NC * NC) * 4 = t * K := by rw [hK]; ring
    have hle : t * K + K ≤ L.dims 3 * K := by
      calc t * K + K = (t + 1) * K := by ring
        _ ≤ _ := Nat.mul_le_mul_right _ ht
    have hlen : (cern_slice L NC lat t).length = K := cern_slice_length h4 h2 NC lat t
    obtain ⟨b1, p1, p2, p3⟩ := put_spec id (cern_slice L NC lat t) b (t * K)
      (by rw [hlen, hb, hV]; exact hle)
    obtain ⟨b2, q1, q2, q3⟩ := ih (fun t ht => hord t (by simp [ht])) b1 (by rw [p2, hb])
    refine ⟨b2, by rw [cern_fill, hbase, p1, Option.bind_some, q1], by rw [q2, p2], ?_⟩
    intro u j hj
    rw [q3 u j hj]
    by_cases hu : u ∈ ts
    · rw [if_pos hu, if_pos (by simp [hu])]
    · rw [if_neg hu, p3, hlen]
      by_cases e : u = t
      · subst e
        rw [if_pos ⟨by omega, by omega⟩, if_pos (by simp), Nat.add_sub_cancel_left, Option.map_id, id]
      · rw [if_neg, if_neg (by simp [hu, e])]
        rintro ⟨h1, h2⟩
        rcases Nat.lt_or_gt_of_ne e with h | h
        · have : (u + 1) * K ≤ t * K := Nat.mul_le_mul_right _ h
          have e' : (u + 1) * K = u * K + K := by ring
          omega
        · have : (t + 1) * K ≤ u * K := Nat.mul_le_mul_right _ h
          have e' : (t + 1) * K = t * K + K := by ring
          omega

/-- The data of a CERN file: slice by slice, little-endian. -/
def cernSpec (L : Latt) (NC : ℕ) (lat : Lat P) : List Byte :=
  ((List.range (L.dims 3)).flatMap (cern_slice L NC lat)).flatMap (image P false)

theorem write_CLS_spec (hP : P.Lawful) (big : Bool) {L : Latt} (h4 : L.ND = 4)
    (h2 : L.dims 2 % 2 = 0) (NC : ℕ) (lat : Lat P) (order : List ℕ) (ho : Covers (L.dims 3) order) :
    write_CLS_field big L NC lat order = some (cernSpec L NC lat) := by
  obtain ⟨b, f1, f2, f3⟩ := cern_fill_spec h4 h2 NC lat order
    (fun t ht => List.mem_range.1 (ho.mem_iff.1 ht)) (Buf.malloc P.W (volume L * 4 * (NC * NC) * 2)) rfl
  set K := 4 * lcu L * (NC * NC * 2) with hK
  have hlen := flatMap_blocks K (L.dims 3) (cern_slice L NC lat)
    fun t _ => cern_slice_length h4 h2 NC lat t
  have hV : 8 * volume L * (NC * NC) = L.dims 3 * K := by
    rw [hK, (lcu_four h4).2, (lcu_four h4).1]; ring
  rw [write_CLS_field, f1, Option.bind_some, hV, ← hlen, cernSpec]
  apply byteswap_spec hP
  · rw [f2, hlen, ← hV]; show volume L * 4 * (NC * NC) * 2 = _; ring
  · intro n hn
    rw [hlen] at hn
    have hKpos : 0 < K := by
      rcases Nat.eq_zero_or_pos K with h | h
      · rw [h] at hn; omega
      · exact h
    have hq : n / K < L.dims 3 := Nat.div_lt_of_lt_mul (by rw [Nat.mul_comm]; exact hn)
    have hr := Nat.mod_lt n hKpos
    have e : n / K * K + n % K = n := Nat.div_add_mod' n K
    have g := f3 (n / K) (n % K) hr
    rw [e, if_pos (ho.mem_iff.2 (List.mem_range.2 hq))] at g
    rw [g]
    have := flatMap_getElem? K (L.dims 3) (cern_slice L NC lat)
      (fun t _ => cern_slice_length h4 h2 NC lat t) (n / K) (n % K) hq hr
    rw [e] at this
    exact this.symm

/-! ### Reader -/

/-- Copies that find the words of `lat` at their places leave `lat` in all targets and the old
links elsewhere. -/
theorem cern_copy_spec (NC : ℕ) (lat : Lat P) (uin : ℕ → Option P.W) (ps : List (ℕ × ℕ)) (m : ℕ)
    (hu : ∀ k, (hk : k < ps.length) → ∀ j < NC * NC,
      uin ((m + k) * (2 * (NC * NC)) + 2 * j) = some (lat ps[k].1 ps[k].2 j).1 ∧
      uin ((m + k) * (2 * (NC * NC)) + 2 * j + 1) = some (lat ps[k].1 ps[k].2 j).2)
    (old : Lat P) :
    ∃ new, cern_copy NC uin ps m old = some new ∧
      (∀ s mu, (s, mu) ∈ ps → ∀ j < NC * NC, new s mu j = lat s mu j) ∧
      ∀ s mu, (s, mu) ∉ ps → new s mu = old s mu := by
  induction ps generalizing m old with
  | nil => exact ⟨old, rfl, by simp, fun _ _ _ => rfl⟩
  | cons p ps ih =>
    have hl := mapM_range (NC * NC) (fun j =>
        (uin (m * (2 * (NC * NC)) + 2 * j)).bind fun r =>
          (uin (m * (2 * (NC * NC)) + 2 * j + 1)).map fun i => (r, i)) (fun j => lat p.1 p.2 j)
      (fun j hj => by
        obtain ⟨a, b⟩ := hu 0 (by simp) j hj
        simp only [Nat.add_zero] at a b
        rw [a, Option.bind_some, b]; rfl)
    obtain ⟨new, n1, n2, n3⟩ := ih (m + 1) (fun k hk j hj => by
        have := hu (k + 1) (by simpa using hk) j hj
        rw [show m + (k + 1) = m + 1 + k by ring] at this
        simpa using this)
      (Function.update old p.1 (Function.update (old p.1) p.2
          fun j => (((List.range (NC * NC)).map fun j => lat p.1 p.2 j)[j]?).getD (old p.1 p.2 j)))
    refine ⟨new, by rw [cern_copy, hl, Option.bind_some, n1], ?_, ?_⟩
    · intro s mu hm j hj
      by_cases h : (s, mu) ∈ ps
      · exact n2 s mu h j hj
      · have e : (s, mu) = p := by simpa [h] using hm
        rw [n3 s mu h, ← e, Function.update_self, Function.update_self]
        simp [hj]
    · intro s mu hm
      simp only [List.mem_cons, not_or] at hm
      rw [n3 s mu hm.2]
      by_cases e : s = p.1
      · subst e
        rw [Function.update_self, Function.update_of_ne]
        intro e; exact hm.1 (Prod.ext rfl e)
      · rw [Function.update_of_ne e]

theorem read_CLS_spec (hP : P.Lawful) {L : Latt} (h4 : L.ND = 4) (h2 : L.dims 2 % 2 = 0) (NC : ℕ)
    (lat : Lat P) (header rest : List Byte) (hh : header.length = 24) (order : List ℕ)
    (ho : ∀ t ∈ order, t < L.dims 3) (old : Lat P) :
    ∃ new, read_CLS_field L NC (header ++ cernSpec L NC lat ++ rest) order old = some new ∧
      (∀ t ∈ order, ∀ s mu, (s, mu) ∈ cern_targets L t → ∀ j < NC * NC, new s mu j = lat s mu j) ∧
      ∀ s mu, (∀ t ∈ order, (s, mu) ∉ cern_targets L t) → new s mu = old s mu := by
  induction order generalizing old with
  | nil => exact ⟨old, rfl, by simp, fun _ _ _ => rfl⟩
  | cons t ts ih =>
    have ht : t < L.dims 3 := ho t (by simp)
    set K := 4 * lcu L * (NC * NC * 2) with hK
    have hsl : ∀ t, (cern_slice L NC lat t).length = K := fun t => cern_slice_length h4 h2 NC lat t
    have hbl : ∀ t, ((cern_slice L NC lat t).flatMap (image P false)).length = K * P.size := by
      intro t
      rw [flatMap_list_range, flatMap_blocks P.size, hsl]
      intro k hk
      rw [List.getElem?_eq_getElem hk]
      exact image_length hP _ _
    have hoff : 4 * 4 + 8 + lcu L * t * 8 * (NC * NC) * P.size = header.length + t * (K * P.size) := by
      rw [hh, hK]; ring
    have hn : 2 * lcu L * (NC * NC) * 4 = (cern_slice L NC lat t).length := by
      rw [hsl, hK]; ring
    have hdata : cernSpec L NC lat = (List.range (L.dims 3)).flatMap fun t =>
        (cern_slice L NC lat t).flatMap (image P false) := by
      rw [cernSpec, List.flatMap_assoc]
    -- the bytes from the start of slice t
    have hdrop : ∃ r, (header ++ cernSpec L NC lat ++ rest).drop (header.length + t * (K * P.size))
        = (cern_slice L NC lat t).flatMap (image P false) ++ r := by
      rw [List.append_assoc, List.drop_length_add_append, hdata]
      refine ⟨List.drop (K * P.size) (List.drop (t * (K * P.size)) ((List.range (L.dims 3)).flatMap
        (fun t => (cern_slice L NC lat t).flatMap (image P false)) ++ rest)), ?_⟩
      conv_lhs => rw [← List.take_append_drop (K * P.size) (List.drop _ _)]
      rw [flatMap_window (K * P.size) (L.dims 3) (fun t => (cern_slice L NC lat t).flatMap (image P false))
        (fun t _ => hbl t) rest t ht]
    obtain ⟨r, hr⟩ := hdrop
    obtain ⟨uin, u1, u2⟩ := fread_spec hP false false (cern_slice L NC lat t) r
    have hlook : ∀ k, (hk : k < (cern_targets L t).length) → ∀ j < NC * NC * 2,
        (cern_slice L NC lat t)[k * (NC * NC * 2) + j]?
          = (matWords (NC * NC) (lat (cern_targets L t)[k].1 (cern_targets L t)[k].2))[j]? := by
      intro k hk j hj
      rw [cern_slice, flatMap_list_range, flatMap_getElem? (NC * NC * 2) _ _ _ k j hk hj,
        List.getElem?_eq_getElem hk]
      · rfl
      · intro i hi
        rw [List.getElem?_eq_getElem hi]
        exact matWords_length _ _
    obtain ⟨new1, c1, c2, c3⟩ := cern_copy_spec NC lat uin (cern_targets L t) 0 (by
      intro k hk j hj
      obtain ⟨m0, m1⟩ := matWords_get (NC * NC)
        (lat (cern_targets L t)[k].1 (cern_targets L t)[k].2) j hj
      have b : (k + 1) * (NC * NC * 2) ≤ K := by
        rw [hK, ← cern_targets_length h4 h2 t]
        exact Nat.mul_le_mul_right _ hk
      have b' : (k + 1) * (NC * NC * 2) = k * (NC * NC * 2) + NC * NC * 2 := by ring
      have l0 := hlook k hk (2 * j) (by omega)
      have l1 := hlook k hk (2 * j + 1) (by omega)
      have v0 := u2 (k * (NC * NC * 2) + 2 * j) (by rw [hsl]; omega)
      have v1 := u2 (k * (NC * NC * 2) + (2 * j + 1)) (by rw [hsl]; omega)
      rw [l0, m0] at v0
      rw [l1, m1] at v1
      simp at v0 v1
      rw [Nat.zero_add, Nat.mul_comm 2 (NC * NC)]
      exact ⟨v0, v1⟩) old
    obtain ⟨new, n1, n2, n3⟩ := ih (fun t ht => ho t (by simp [ht])) new1
    refine ⟨new, ?_, ?_, ?_⟩
    · simp only [read_CLS_field]
      rw [hoff, hr, hn, u1, Option.bind_some, c1, Option.bind_some, n1]
    · intro u hu s mu hm j hj
      by_cases hin : ∃ u ∈ ts, (s, mu) ∈ cern_targets L u
      · obtain ⟨u, hu, hm⟩ := hin
        exact n2 u hu s mu hm j hj
      · push Not at hin
        rw [n3 s mu hin]
        rcases List.mem_cons.1 hu with rfl | hu
        · exact c2 s mu hm j hj
        · exact absurd hm (hin u hu)
    · intro s mu hm
      rw [n3 s mu fun u hu => hm u (by simp [hu]), c3 s mu (hm t (by simp))]

/-- C42, partial: on every four-dimensional lattice with even extents, for every number of
colours, a CERN file written on any machine is read back on a little-endian machine, with the time
slices in any order on both sides, to exactly the links that were written. Missing: odd extents
(`C42_odd_fails`), and reading on a big-endian machine. -/
theorem C42_round_trip_partial (hP : P.Lawful) (big : Bool) {L : Latt}
    (hL : Valid L) (h4 : L.ND = 4) (hE : AllEven L) (NC : ℕ) (lat old : Lat P)
    (header rest : List Byte) (hh : header.length = 24) (orderW orderR : List ℕ)
    (hw : Covers (L.dims 3) orderW) (hr : Covers (L.dims 3) orderR) :
    ∃ data new, write_CLS_field big L NC lat orderW = some data ∧
      read_CLS_field L NC (header ++ data ++ rest) orderR old = some new ∧
      ∀ s < volume L, ∀ mu < 4, ∀ j < NC * NC, new s mu j = lat s mu j := by
  have h2 := hE 2 (by norm_num)
  obtain ⟨new, n1, n2, _⟩ := read_CLS_spec hP h4 h2 NC lat header rest hh orderR
    (fun t ht => List.mem_range.1 (hr.mem_iff.1 ht)) old
  refine ⟨_, new, write_CLS_spec hP big h4 h2 NC lat orderW hw, n1, ?_⟩
  intro s hs mu hmu
  have hp := parity_neighbor hL h4 (s := s) hmu (hE mu hmu)
  have hb : parity L s < 2 := Nat.mod_lt _ (by norm_num)
  obtain ⟨t, ht, hm⟩ := (mem_cern_targets hL h4 hs hmu).2 (by omega)
  exact n2 t (hr.mem_iff.2 (List.mem_range.2 ht)) s mu hm

/-- C42, no race: with even extents no link belongs to two time slices, or to two places of one
slice, so the threads of the reader (one slice each) never assign the same link. -/
theorem C42_no_race {L : Latt} (hL : Valid L) (h4 : L.ND = 4) (hE : AllEven L) :
    ((List.range (L.dims 3)).flatMap (cern_targets L)).Nodup := by
  set T := (List.range (L.dims 3)).flatMap (cern_targets L) with hT
  have hlen : T.length = volume L * 4 := by
    rw [hT, flatMap_blocks (4 * lcu L) _ _ fun t _ => cern_targets_length h4 (hE 2 (by norm_num)) t,
      (lcu_four h4).2, (lcu_four h4).1]
    ring
  have hsub : Finset.range (volume L) ×ˢ Finset.range 4 ⊆ T.toFinset := by
    rintro ⟨s, mu⟩ h
    simp only [Finset.mem_product, Finset.mem_range] at h
    have hp := parity_neighbor hL h4 (s := s) h.2 (hE mu h.2)
    have hb : parity L s < 2 := Nat.mod_lt _ (by norm_num)
    obtain ⟨t, ht, hm⟩ := (mem_cern_targets hL h4 h.1 h.2).2 (by omega)
    rw [List.mem_toFinset, hT, List.mem_flatMap]
    exact ⟨t, List.mem_range.2 ht, hm⟩
  have hc := Finset.card_le_card hsub
  rw [Finset.card_product, Finset.card_range, Finset.card_range, ← hlen] at hc
  exact (Multiset.toFinset_card_eq_card_iff_nodup (m := (T : Multiset (ℕ × ℕ)))).1
    (le_antisymm (List.toFinset_card_le T) hc)

/-- The site at the far end of direction `mu`, all other coordinates zero. -/
def farEnd (L : Latt) (mu : ℕ) : ℕ :=
  gen_site L fun nu => if nu = mu then ((L.dims mu - 1 : ℕ) : ℤ) else 0

theorem cern_copy_frame (NC : ℕ) (uin : ℕ → Option P.W) (ps : List (ℕ × ℕ)) (m : ℕ)
    (old new : Lat P) (h : cern_copy NC uin ps m old = some new) (s mu : ℕ) (hm : (s, mu) ∉ ps) :
    new s mu = old s mu := by
  induction ps generalizing m old with
  | nil => cases h; rfl
  | cons p ps ih =>
    rw [cern_copy] at h
    simp only [List.mem_cons, not_or] at hm
    obtain ⟨l, _, h⟩ := Option.bind_eq_some_iff.1 h
    rw [ih _ _ h hm.2]
    by_cases e : s = p.1
    · subst e
      rw [Function.update_self, Function.update_of_ne]
      intro e; exact hm.1 (Prod.ext rfl e)
    · rw [Function.update_of_ne e]

/-- C42 fails whenever an extent is odd: whatever the file contains, the reader never assigns the
link at the far end of that direction, so it keeps the value it had before. -/
theorem C42_odd_fails {L : Latt} (hL : Valid L) (h4 : L.ND = 4) {mu : ℕ} (hmu : mu < 4)
    (hodd : L.dims mu % 2 = 1) (NC : ℕ) (file : List Byte) (order : List ℕ)
    (ho : ∀ t ∈ order, t < L.dims 3) (old new : Lat P)
    (h : read_CLS_field L NC file order old = some new) :
    farEnd L mu < volume L ∧ new (farEnd L mu) mu = old (farEnd L mu) mu := by
  have hr : InRange L fun nu => if nu = mu then ((L.dims mu - 1 : ℕ) : ℤ) else 0 := by
    intro nu hnu
    have := hL.pos nu hnu
    constructor
    · dsimp only; split <;> omega
    · dsimp only; split
      · rename_i e; subst e; omega
      · omega
  have hs : farEnd L mu < volume L := gen_site_lt hL hr
  have hc : ∀ nu < 4, coord L L.ND (farEnd L mu) nu = if nu = mu then L.dims mu - 1 else 0 := by
    intro nu hnu
    have := coord_gen_site hL hr (mu := nu) (by omega)
    unfold farEnd
    split
    · rename_i e; rw [if_pos e] at this; exact_mod_cast this
    · rename_i e; rw [if_neg e] at this; exact_mod_cast this
  have hn : ∀ nu < 4, coord L L.ND (neighbor L (farEnd L mu) mu) nu = 0 := by
    intro nu hnu
    have := ((C02_step hL (i := farEnd L mu) (mu := mu) (by omega)).2 nu (by omega)).1
    have hpos := hL.pos mu (by omega)
    rw [hc mu hmu, hc nu hnu, if_pos rfl] at this
    split at this
    · have e : (((L.dims mu - 1 : ℕ) : ℤ) + 1) = L.dims mu := by omega
      rw [e, Int.emod_self] at this
      exact_mod_cast this
    · exact_mod_cast this
  have p1 : parity L (farEnd L mu) = 0 := by
    unfold parity
    rw [hc 0 (by norm_num), hc 1 (by norm_num), hc 2 (by norm_num), hc 3 (by norm_num)]
    have : mu = 0 ∨ mu = 1 ∨ mu = 2 ∨ mu = 3 := by omega
    rcases this with rfl | rfl | rfl | rfl <;> simp <;> omega
  have p2 : parity L (neighbor L (farEnd L mu) mu) = 0 := by
    unfold parity
    rw [hn 0 (by norm_num), hn 1 (by norm_num), hn 2 (by norm_num), hn 3 (by norm_num)]
  have hnot : ∀ t < L.dims 3, (farEnd L mu, mu) ∉ cern_targets L t := by
    intro t ht hm
    have := (mem_cern_targets hL h4 hs hmu).1 ⟨t, ht, hm⟩
    omega
  refine ⟨hs, ?_⟩
  induction order generalizing old with
  | nil => cases h; rfl
  | cons t ts ih =>
    rw [read_CLS_field] at h
    obtain ⟨uin, _, h⟩ := Option.bind_eq_some_iff.1 h
    obtain ⟨l, hl, h⟩ := Option.bind_eq_some_iff.1 h
    rw [ih (fun t ht => ho t (by simp [ht])) l h]
    exact cern_copy_frame NC uin _ 0 old l hl _ _ (hnot t (ho t (by simp)))

/-! ### Examples -/

/-- A lattice meeting the hypotheses of `C42_round_trip_partial`. -/
example : Valid L4468 ∧ L4468.ND = 4 ∧ AllEven L4468 := ⟨valid_L4468, rfl, by unfold AllEven; decide⟩

/-- A lattice meeting those of `C42_odd_fails`, with the link concerned. -/
example : Valid L2345 ∧ L2345.dims 1 % 2 = 1 ∧ farEnd L2345 1 = 4 ∧ neighbor L2345 4 1 = 0 :=
  ⟨valid_L2345, by decide, by decide, by decide⟩

end GLU.IO
