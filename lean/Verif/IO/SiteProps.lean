import Verif.IO.SiteModel
import Verif.IO.CfgReadProps
import Verif.Geom.Props

/-! # C41, C42: HiRep and CERN files -/

namespace GLU.IO

open GLU.Geom

theorem matWords_length {W : Type} (n : ℕ) (link : Arr (W × W)) :
    (matWords n link).length = n * 2 := flatMap_blocks 2 _ _ fun _ _ => rfl

theorem matWords_get {W : Type} (n : ℕ) (link : Arr (W × W)) (j : ℕ) (hj : j < n) :
    (matWords n link)[2 * j]? = some (link j).1 ∧ (matWords n link)[2 * j + 1]? = some (link j).2 := by
  have h0 := flatMap_getElem? 2 n (fun j => [(link j).1, (link j).2]) (fun _ _ => rfl) j 0 hj
    (by norm_num)
  have h1 := flatMap_getElem? 2 n (fun j => [(link j).1, (link j).2]) (fun _ _ => rfl) j 1 hj
    (by norm_num)
  rw [Nat.mul_comm] at h0 h1
  exact ⟨h0, h1⟩

variable {P : Word}

/-! ## C41 -/

theorem hirep_link_spec (neg : P.W → P.W) {NC : ℕ} (hNC : NC ≠ 2) (pre tail : List P.W)
    (link old : Arr (P.W × P.W)) :
    hirep_link neg NC (pre ++ matWords (NC * NC) link ++ tail) pre.length old
      = some fun j => if j < NC * NC then link j else old j := by
  have hget : ∀ k < NC * NC * 2, (pre ++ matWords (NC * NC) link ++ tail)[pre.length + k]?
      = (matWords (NC * NC) link)[k]? := by
    intro k hk
    rw [List.append_assoc, List.getElem?_append_right (by omega), Nat.add_sub_cancel_left,
      List.getElem?_append_left (by rw [matWords_length]; exact hk)]
  rw [hirep_link, if_neg hNC, mapM_range _ _ (fun j => link j)]
  · simp only [Option.map_some, Option.some.injEq]
    funext j
    split
    · rename_i h; simp [h]
    · rename_i h; simp [h]
  · intro j hj
    obtain ⟨g0, g1⟩ := matWords_get (NC * NC) link j hj
    rw [hget _ (by omega), g0, Option.bind_some, Nat.add_assoc, hget _ (by omega), g1]
    rfl

/-- What a two-colour link becomes: the first row is written, but read as a quaternion. -/
def misread (neg : P.W → P.W) (link old : Arr (P.W × P.W)) : Arr (P.W × P.W) := fun j =>
  if j = 0 then ((link 0).1, (link 1).2)
  else if j = 1 then (neg (link 1).1, (link 0).2)
  else if j = 2 then (neg (neg (link 1).1), (link 0).2)
  else if j = 3 then ((link 0).1, neg (link 1).2)
  else old j

theorem hirep_link_two (neg : P.W → P.W) (pre tail : List P.W) (link old : Arr (P.W × P.W)) :
    hirep_link neg 2 (pre ++ matWords 2 link ++ tail) pre.length old
      = some (misread neg link old) := by
  have hm : matWords 2 link = [(link 0).1, (link 0).2, (link 1).1, (link 1).2] := rfl
  have hget : ∀ k, (pre ++ matWords 2 link ++ tail)[pre.length + k]?
      = (matWords 2 link ++ tail)[k]? := by
    intro k
    rw [List.append_assoc, List.getElem?_append_right (by omega), Nat.add_sub_cancel_left]
  have h0 := hget 0
  rw [Nat.add_zero] at h0
  rw [hirep_link, if_pos rfl, h0, hget 1, hget 2, hget 3, hm]
  rfl

theorem hirep_links_spec (neg : P.W → P.W) {NC : ℕ}
    (F : Arr (P.W × P.W) → Arr (P.W × P.W) → Arr (P.W × P.W))
    (hF : ∀ pre tail link old, hirep_link neg NC (pre ++ matWords (hirep_elements NC) link ++ tail)
      pre.length old = some (F link old))
    (src : ℕ → Arr (P.W × P.W)) (mus : List ℕ) (pre tail : List P.W)
    (site : ℕ → Arr (P.W × P.W)) :
    ∃ site', hirep_links neg NC
        (pre ++ mus.flatMap (fun mu => matWords (hirep_elements NC) (src mu)) ++ tail) mus
          pre.length site = some site' ∧
      (∀ mu ∈ mus, ∃ o, site' mu = F (src mu) o) ∧ ∀ mu ∉ mus, site' mu = site mu := by
  induction mus generalizing pre site with
  | nil => exact ⟨site, rfl, by simp, fun _ _ => rfl⟩
  | cons mu mus ih =>
    have hl := hF pre (mus.flatMap (fun mu => matWords (hirep_elements NC) (src mu)) ++ tail)
      (src mu) (site mu)
    obtain ⟨site', h1, h2, h3⟩ := ih (pre ++ matWords (hirep_elements NC) (src mu))
      (Function.update site mu (F (src mu) (site mu)))
    have e : (pre ++ matWords (hirep_elements NC) (src mu)).length
        = pre.length + 2 * hirep_elements NC := by
      rw [List.length_append, matWords_length, Nat.mul_comm 2]
    rw [e] at h1
    refine ⟨site', ?_, ?_, ?_⟩
    · rw [hirep_links, List.flatMap_cons]
      simp only [← List.append_assoc] at hl h1 ⊢
      rw [hl, Option.bind_some, h1]
    · intro nu hnu
      by_cases hm : nu ∈ mus
      · exact h2 nu hm
      · have : nu = mu := by simpa [hm] using hnu
        subst this
        exact ⟨site nu, by rw [h3 nu hm, Function.update_self]⟩
    · intro nu hnu
      simp only [List.mem_cons, not_or] at hnu
      rw [h3 nu hnu.2, Function.update_of_ne hnu.1]

/-- The word that a big-endian reader makes of a word written in byte order `o`. -/
def asBig (o : Bool) (w : P.W) : P.W := if o then w else P.swap w

theorem hirep_words (hP : P.Lawful) (o bigW bigR : Bool) (ws : List P.W) (rest : List Byte) :
    ((List.range ws.length).map fun t =>
        let w := ofMem P bigR (((((ws.map (swap_for_output o bigW)).flatMap
          (mem P bigW)) ++ rest).drop (t * P.size)).take P.size)
        if !bigR then P.swap w else w) = ws.map (asBig o) := by
  have himg : (ws.map (swap_for_output o bigW)).flatMap (mem P bigW)
      = (ws.map (asBig o)).flatMap (image P true) := by
    rw [List.flatMap_map, List.flatMap_map]
    apply List.flatMap_congr
    intro w _
    rw [mem_swap_for_output hP]
    cases o with
    | true => rfl
    | false =>
      show P.bytes w = (P.bytes (P.swap w)).reverse
      rw [hP.bytes_swap, List.reverse_reverse]
  rw [himg]
  obtain ⟨p, hp, hq⟩ := fread_spec hP true bigR (ws.map (asBig o)) rest
  have hlen : (ws.map (asBig o)).length = ws.length := by simp
  apply List.ext_getElem (by simp)
  intro t h1 h2
  rw [List.length_map] at h2
  have ht : t < ws.length := h2
  have hq := hq t (by rw [hlen]; exact ht)
  rw [fread] at hp
  split at hp
  · cases hp
    simp only [hlen, if_pos ht, Option.map_some] at hq
    rw [List.getElem?_eq_getElem (by rw [hlen]; exact ht)] at hq
    have hq := Option.some.inj hq
    rw [← hq]
    simp only [List.getElem_map, List.getElem_range]
    cases bigR <;> rfl
  · cases hp

theorem hirep_sites_spec (hP : P.Lawful) (neg : P.W → P.W) {NC : ℕ}
    (F : Arr (P.W × P.W) → Arr (P.W × P.W) → Arr (P.W × P.W))
    (hF : ∀ pre tail link old, hirep_link neg NC (pre ++ matWords (hirep_elements NC) link ++ tail)
      pre.length old = some (F link old))
    (o bigW bigR : Bool) (L : Latt)
    (hND : 0 < L.ND) (lat : Lat P) (rest : List Byte) (is : List ℕ) (old : Lat P) :
    ∃ new, hirep_read_sites neg bigR L NC is
        ((is.flatMap fun i => hirep_write_site o bigW NC L.ND (lat (translate_to_GLU_geom L i)))
          ++ rest) old = some new ∧
      (∀ i ∈ is, ∀ mu < L.ND, ∃ l, new (translate_to_GLU_geom L i) mu
        = F (fun j => (asBig o (lat (translate_to_GLU_geom L i) mu j).1,
           asBig o (lat (translate_to_GLU_geom L i) mu j).2)) l) ∧
      ∀ s, (∀ i ∈ is, translate_to_GLU_geom L i ≠ s) → new s = old s := by
  induction is generalizing old with
  | nil => exact ⟨old, rfl, by simp, fun _ _ => rfl⟩
  | cons i is ih =>
    set T := translate_to_GLU_geom L with hT
    set ws := (hirep_dirs L.ND).flatMap fun mu => matWords (hirep_elements NC) (lat (T i) mu)
      with hws
    have hwl : ws.length = 2 * hirep_elements NC * L.ND := by
      rw [hws, flatMap_list_range, flatMap_blocks (hirep_elements NC * 2)]
      · simp only [hirep_dirs, List.length_cons, List.length_range]
        rw [Nat.sub_add_cancel hND]; ring
      · intro k hk
        rw [List.getElem?_eq_getElem hk]
        exact matWords_length _ _
    have hsite : hirep_write_site o bigW NC L.ND (lat (T i))
        = (ws.map (swap_for_output o bigW)).flatMap (mem P bigW) := rfl
    have hbytes : ((ws.map (swap_for_output o bigW)).flatMap (mem P bigW)).length
        = ws.length * P.size := by
      rw [flatMap_list_range, flatMap_blocks P.size]
      · simp
      · intro k hk
        rw [List.getElem?_eq_getElem hk, List.getElem_map]
        show (mem P bigW _).length = P.size
        rw [mem_swap_for_output hP, image_length hP]
    set R := (is.flatMap fun i => hirep_write_site o bigW NC L.ND (lat (T i))) ++ rest with hR
    have hw := hirep_words hP o bigW bigR ws R
    set src : ℕ → Arr (P.W × P.W) := fun mu j =>
      (asBig o (lat (T i) mu j).1, asBig o (lat (T i) mu j).2) with hsrc
    have hmap : ws.map (asBig o)
        = (hirep_dirs L.ND).flatMap fun mu => matWords (hirep_elements NC) (src mu) := by
      rw [hws, List.map_flatMap]
      apply List.flatMap_congr
      intro mu _
      simp [matWords, List.map_flatMap, hsrc]
    obtain ⟨site', s1, s2, s3⟩ := hirep_links_spec neg F hF src (hirep_dirs L.ND) [] [] (old (T i))
    simp only [List.nil_append, List.append_nil, List.length_nil] at s1
    obtain ⟨new, n1, n2, n3⟩ := ih (Function.update old (T i) site')
    refine ⟨new, ?_, ?_, ?_⟩
    · rw [hirep_read_sites, List.flatMap_cons]
      simp only [← hT, ← hwl] at hw ⊢
      rw [hsite, List.append_assoc, ← hR, hw, hmap, s1, Option.bind_some,
        List.drop_left' hbytes, n1, if_pos]
      rw [List.length_append, hbytes]; omega
    · intro k hk mu hmu
      by_cases hm : ∀ i ∈ is, T i ≠ T k
      · have hki : k = i := by
          rcases List.mem_cons.1 hk with h | h
          · exact h
          · exact absurd rfl (hm k h)
        subst hki
        rw [n3 _ hm, Function.update_self]
        refine s2 mu ?_
        simp only [hirep_dirs, List.mem_cons, List.mem_range]; omega
      · push Not at hm
        obtain ⟨i', h', e⟩ := hm
        rw [← e]; exact n2 i' h' mu hmu
    · intro s hs
      rw [n3 s fun k hk => hs k (by simp [hk]), Function.update_of_ne]
      exact fun h => hs i (by simp) h.symm

/-- The links handed to the reunitarisation. -/
theorem hirep_raw (hP : P.Lawful) (neg : P.W → P.W)
    (reunit : Arr (P.W × P.W) → Arr (P.W × P.W)) {NC : ℕ}
    (F : Arr (P.W × P.W) → Arr (P.W × P.W) → Arr (P.W × P.W))
    (hF : ∀ pre tail link old, hirep_link neg NC (pre ++ matWords (hirep_elements NC) link ++ tail)
      pre.length old = some (F link old))
    (o bigW bigR : Bool) {L : Latt} (hL : Valid L) (lat old : Lat P) (rest : List Byte) :
    ∃ raw : Lat P, read_gauge_field neg reunit bigR L NC
        (write_gauge_field o bigW L NC lat ++ rest) old
        = some (fun i mu => reunit (raw i mu)) ∧
      ∀ i < volume L, ∀ mu < L.ND, ∃ l,
        raw i mu = F (fun j => (asBig o (lat i mu j).1, asBig o (lat i mu j).2)) l := by
  have hnd := hL.nd
  obtain ⟨new, n1, n2, _⟩ := hirep_sites_spec hP neg F hF o bigW bigR L (by omega) lat rest
    (List.range (volume L)) old
  refine ⟨new, by rw [read_gauge_field, write_gauge_field, n1, Option.map_some], ?_⟩
  intro i hi mu hmu
  obtain ⟨k, hk, e⟩ := (C06_hirep_permutation hL).surjOn hi
  rw [← e]
  exact n2 k (List.mem_range.2 hk) mu hmu

theorem hirep_link_full (neg : P.W → P.W) {NC : ℕ} (hNC : NC ≠ 2) (pre tail : List P.W)
    (link old : Arr (P.W × P.W)) :
    hirep_link neg NC (pre ++ matWords (hirep_elements NC) link ++ tail) pre.length old
      = some fun j => if j < NC * NC then link j else old j := by
  rw [hirep_elements, if_neg hNC]
  exact hirep_link_spec neg hNC pre tail link old

/-- C41, partial: for every lattice and every number of colours other than two, with big-endian
output (the default), a HiRep file, written and read on machines of any byte order and followed by
anything, gives back every link that the final reunitarisation leaves alone (special unitary links
in exact arithmetic, C15). Missing: two colours (`C41_two_colours_fails`) and little-endian
output (`C41_little_fails`). -/
theorem C41_round_trip_partial (hP : P.Lawful) (neg : P.W → P.W)
    (reunit : Arr (P.W × P.W) → Arr (P.W × P.W))
    {NC : ℕ} (hNC : NC ≠ 2) (bigW bigR : Bool) {L : Latt} (hL : Valid L) (lat old : Lat P)
    (hre : ∀ i < volume L, ∀ mu < L.ND, ∀ M : Arr (P.W × P.W),
      (∀ j < NC * NC, M j = lat i mu j) → ∀ j < NC * NC, reunit M j = lat i mu j)
    (rest : List Byte) :
    ∃ new, read_gauge_field neg reunit bigR L NC (write_gauge_field true bigW L NC lat ++ rest) old
        = some new ∧
      ∀ i < volume L, ∀ mu < L.ND, ∀ j < NC * NC, new i mu j = lat i mu j := by
  obtain ⟨raw, h1, h2⟩ := hirep_raw hP neg reunit _ (hirep_link_full neg hNC) true bigW bigR hL lat
    old rest
  refine ⟨_, h1, fun i hi mu hmu => hre i hi mu hmu _ fun j hj => ?_⟩
  obtain ⟨l, hl⟩ := h2 i hi mu hmu
  rw [hl]
  exact if_pos hj

/-- C41 fails in an `OUT_LITTLE` build: for every configuration, the links handed to the
reunitarisation have the bytes of each of their numbers reversed. -/
theorem C41_little_fails (hP : P.Lawful) (neg : P.W → P.W)
    (reunit : Arr (P.W × P.W) → Arr (P.W × P.W))
    {NC : ℕ} (hNC : NC ≠ 2) (bigW bigR : Bool) {L : Latt} (hL : Valid L) (lat old : Lat P)
    (rest : List Byte) :
    ∃ raw : Lat P, read_gauge_field neg reunit bigR L NC
        (write_gauge_field false bigW L NC lat ++ rest) old
        = some (fun i mu => reunit (raw i mu)) ∧
      ∀ i < volume L, ∀ mu < L.ND, ∀ j < NC * NC,
        raw i mu j = (P.swap (lat i mu j).1, P.swap (lat i mu j).2) := by
  obtain ⟨raw, h1, h2⟩ := hirep_raw hP neg reunit _ (hirep_link_full neg hNC) false bigW bigR hL lat
    old rest
  refine ⟨raw, h1, fun i hi mu hmu j hj => ?_⟩
  obtain ⟨l, hl⟩ := h2 i hi mu hmu
  rw [hl]
  exact if_pos hj

/-- C41 fails for two colours: for every configuration on every lattice, the link handed to the
reunitarisation in place of one with first row `(a, b)` has first row
`(Re a + i Im b, -Re b + i Im a)`. -/
theorem C41_two_colours_fails (hP : P.Lawful) (neg : P.W → P.W)
    (reunit : Arr (P.W × P.W) → Arr (P.W × P.W)) (bigW bigR : Bool) {L : Latt} (hL : Valid L)
    (lat old : Lat P) (rest : List Byte) :
    ∃ raw : Lat P, read_gauge_field neg reunit bigR L 2
        (write_gauge_field true bigW L 2 lat ++ rest) old
        = some (fun i mu => reunit (raw i mu)) ∧
      ∀ i < volume L, ∀ mu < L.ND,
        raw i mu 0 = ((lat i mu 0).1, (lat i mu 1).2) ∧
        raw i mu 1 = (neg (lat i mu 1).1, (lat i mu 0).2) := by
  obtain ⟨raw, h1, h2⟩ := hirep_raw hP neg reunit _ (hirep_link_two neg) true bigW bigR hL lat
    old rest
  refine ⟨raw, h1, fun i hi mu hmu => ?_⟩
  obtain ⟨l, hl⟩ := h2 i hi mu hmu
  rw [hl]
  exact ⟨rfl, rfl⟩

/-- Three colours on a 2 x 3 x 4 x 5 lattice, with a reunitarisation that does nothing. -/
example (neg : W64 → W64) (lat old : Lat dbl) :
    ∃ new, read_gauge_field neg id false L2345 3 (write_gauge_field true false L2345 3 lat) old
        = some new ∧ new 119 3 8 = lat 119 3 8 := by
  obtain ⟨new, h1, h2⟩ := C41_round_trip_partial dbl_lawful neg id (NC := 3) (by decide) false false
    valid_L2345 lat old (fun _ _ _ _ _ h => h) []
  rw [List.append_nil] at h1
  exact ⟨new, h1, h2 119 (by decide) 3 (by decide) 8 (by decide)⟩

/-- Two colours: diag(i, -i) comes back with nothing on the diagonal. -/
example : (misread (P := dbl) id (fun j => if j = 0 then ((0#64 : W64), 0x3FF0000000000000#64)
    else (0#64, 0#64)) fun _ => (0#64, 0#64)) 0 = ((0#64 : W64), 0#64) := rfl

end GLU.IO
