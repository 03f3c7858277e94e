import Verif.Cuts.OutputLemmas
import Verif.Cuts.CutProps

/-!
# C75: the files of the measurements

The readers are those of `OutputSpec`. A lattice has fewer than `2^31` sites, so that the lengths
below satisfy the bounds whenever the momentum list with its components does.
-/

namespace GLU.Cuts
open GLU.IO

/-- The components of the momenta fit into the signed 32-bit numbers of the file. -/
def SmallMomenta (list : List Vec) (DIR : ℕ) : Prop :=
  ∀ v ∈ list, ∀ a < DIR, -2 ^ 31 ≤ v.MOM a ∧ v.MOM a < 2 ^ 31

/-- The momenta as lists of components. -/
def momenta (list : List Vec) (DIR : ℕ) : List (List ℤ) :=
  list.map fun v => (List.range DIR).map v.MOM

theorem kall_length (DIR : ℕ) (l : List (ℕ → ℤ)) : (kall DIR l).length = (DIR + 1) * l.length := by
  induction l with
  | nil => rfl
  | cons x l ih =>
    have : kall DIR (x :: l) = (BitVec.ofNat 32 DIR :: (List.range DIR).map fun a => BitVec.ofInt 32 (x a)) ++ kall DIR l := by
      simp [kall]
    rw [this, List.length_append, ih]
    simp
    ring

theorem flat_flat {α β γ : Type} (f : β → List γ) (g : α → List β) (l : List α) :
    (l.flatMap g).flatMap f = l.flatMap fun x => (g x).flatMap f := by
  induction l with
  | nil => rfl
  | cons z l ih => simp [ih]

theorem one32 (big : Bool) (w : W32) : FWRITE_32 big [w] 1 = some (imageInt true w, [w]) := by
  rw [FWRITE_32_eq big [w] 1 (by simp)]
  simp

/-- The momentum list is written as a list of momenta. -/
theorem veclist_reads (big : Bool) (list : List Vec) (DIR : ℕ) (h : (DIR + 1) * list.length < 2 ^ 31)
    (hD : DIR < 2 ^ 31) (hm : SmallMomenta list DIR) :
    ∃ b, write_mom_veclist big list DIR = some b ∧ Reads readMomenta b (momenta list DIR) := by
  have hl : (kall DIR (list.map Vec.MOM)).length = (DIR + 1) * list.length := by
    rw [kall_length, List.length_map]
  have hn : list.length < 2 ^ 32 := by
    have : 1 * list.length ≤ (DIR + 1) * list.length := Nat.mul_le_mul_right _ (by omega)
    omega
  refine ⟨imageInt true (BitVec.ofNat 32 list.length) ++ (kall DIR (list.map Vec.MOM)).flatMap (imageInt true), ?_, ?_⟩
  · have e := FWRITE_32_eq big (kall DIR (list.map Vec.MOM)) _ hl.ge
    rw [← hl, List.take_length] at e
    simp only [write_mom_veclist, one32, ← hl, e, Option.bind_eq_bind, Option.bind_some]
    rw [if_neg (by omega)]
    rfl
  · rw [kall, flat_flat, List.flatMap_map, momenta]
    refine reads_array (p := readArray readInt) (fun v : Vec => (BitVec.ofNat 32 DIR ::
      (List.range DIR).map fun a => BitVec.ofInt 32 (v.MOM a)).flatMap (imageInt true))
      (fun v => (List.range DIR).map v.MOM) list _ rfl hn fun v hv => ?_
    rw [List.flatMap_cons, List.flatMap_map]
    exact reads_array (p := readInt) (fun a => imageInt true (BitVec.ofInt 32 (v.MOM a))) v.MOM (List.range DIR) DIR
      (by simp) (by omega) fun a ha => reads_int _ (hm v hv a (List.mem_range.1 ha)).1 (hm v hv a (List.mem_range.1 ha)).2

theorem g2_reads (big : Bool) (g : List W64) (n : ℕ) (hn : n < 2 ^ 32) (hg : g.length = n) :
    ∃ b, write_g2_to_list big g n = some b ∧ Reads readDoubles b g := by
  refine ⟨imageInt true (BitVec.ofNat 32 n) ++ g.flatMap (imageDbl true), ?_, reads_doubles g n hg.symm hn⟩
  rw [write_g2_to_list, one32, FWRITE_64_eq _ _ _ (by omega), ← hg, List.take_length]
  rfl

theorem g2g3_reads (big : Bool) (g2 g3 : List W64) (n : ℕ) (hn : n < 2 ^ 32) (h2 : g2.length = n)
    (h3 : g3.length = n) :
    ∃ b, write_g2g3_to_list big g2 g3 n = some b ∧ Reads (readBoth readDoubles readDoubles) b (g2, g3) := by
  refine ⟨(imageInt true (BitVec.ofNat 32 n) ++ g2.flatMap (imageDbl true)) ++
    (imageInt true (BitVec.ofNat 32 n) ++ g3.flatMap (imageDbl true)), ?_,
    reads_both (reads_doubles g2 n h2.symm hn) (reads_doubles g3 n h3.symm hn)⟩
  have hw : (BitVec.ofNat 32 n).toNat = n := by rw [BitVec.toNat_ofNat, Nat.mod_eq_of_lt hn]
  have e2 : g2.take n = g2 := by rw [← h2, List.take_length]
  have e3 : g3.take n = g3 := by rw [← h3, List.take_length]
  rw [write_g2g3_to_list]
  simp only [one32, Option.bind_eq_bind, Option.bind_some, List.getElem?_cons_zero, hw,
    FWRITE_64_eq big g2 n (by omega), FWRITE_64_eq big g3 n (by omega), e2, e3]
  rw [← List.append_assoc]
  rfl

/-- The array of real and imaginary parts of complex numbers. -/
def parts (z : List (W64 × W64)) : List W64 := z.flatMap fun z => [z.1, z.2]

theorem parts_length (z : List (W64 × W64)) : (parts z).length = 2 * z.length := by
  induction z with
  | nil => rfl
  | cons x l ih =>
    have : parts (x :: l) = [x.1, x.2] ++ parts l := rfl
    rw [this, List.length_append, ih]
    simp
    ring

theorem complex_reads (big : Bool) (g2 g3 : List (W64 × W64)) (n : ℕ) (hn : n < 2 ^ 32) (h2 : g2.length = n)
    (h3 : g3.length = n) :
    ∃ b, write_complex_g2g3_to_list big (parts g2) (parts g3) n = some b ∧
      Reads (readBoth (readArray readComplex) (readArray readComplex)) b (g2, g3) := by
  refine ⟨(imageInt true (BitVec.ofNat 32 n) ++ (parts g2).flatMap (imageDbl true)) ++
    (imageInt true (BitVec.ofNat 32 n) ++ (parts g3).flatMap (imageDbl true)), ?_,
    reads_both (reads_complexes g2 n h2.symm hn) (reads_complexes g3 n h3.symm hn)⟩
  have l2 := parts_length g2
  have l3 := parts_length g3
  have e2 : (parts g2).take (2 * n) = parts g2 := by rw [← h2, ← l2, List.take_length]
  have e3 : (parts g3).take (2 * n) = parts g3 := by rw [← h3, ← l3, List.take_length]
  rw [write_complex_g2g3_to_list]
  simp only [one32, Option.bind_eq_bind, Option.bind_some,
    FWRITE_64_eq big (parts g2) (2 * n) (by omega), FWRITE_64_eq big (parts g3) (2 * n) (by omega), e2, e3]
  rw [← List.append_assoc]
  rfl

theorem tslice_reads (big : Bool) (LT : ℕ) (h : LT < 2 ^ 31) :
    ∃ b, write_tslice_list big LT = some b ∧
      Reads (readArray readInt) b ((List.range LT).map fun t : ℕ => (t : ℤ)) := by
  refine ⟨imageInt true (BitVec.ofNat 32 LT) ++ ((List.range LT).map (BitVec.ofNat 32)).flatMap (imageInt true), ?_, ?_⟩
  · have e := FWRITE_32_eq big ((List.range LT).map (BitVec.ofNat 32)) LT (by simp)
    rw [List.take_of_length_le (by simp)] at e
    simp only [write_tslice_list, one32, e, Option.bind_eq_bind, Option.bind_some]
    rfl
  · rw [List.flatMap_map]
    refine reads_array (p := readInt) (fun t => imageInt true (BitVec.ofNat 32 t)) (fun t : ℕ => (t : ℤ)) _ LT
      (by simp) (by omega) fun t ht => ?_
    have := List.mem_range.1 ht
    have := reads_int (t : ℤ) (by omega) (by omega)
    rwa [BitVec.ofInt_natCast] at this

theorem reads_succ {α : Type} {p : List Byte → Option (α × List Byte)} {n : ℕ} {a b : List Byte} {x : α}
    {l : List α} (h : Reads p a x) (h' : Reads (readMany p n) b l) :
    Reads (readMany p (n + 1)) (a ++ b) (x :: l) := by
  intro r
  rw [readMany, List.append_assoc, h]
  simp only
  rw [h']
  rfl

theorem static_reads (big : Bool) (n : ℕ) (hn : n < 2 ^ 32) (rows : List (List (W64 × W64) × List (W64 × W64)))
    (h : ∀ r ∈ rows, r.1.length = n ∧ r.2.length = n) :
    ∃ b, static_rows big n (rows.map fun r => (parts r.1, parts r.2)) = some b ∧
      Reads (readMany (readBoth (readArray readComplex) (readArray readComplex)) rows.length) b rows := by
  induction rows with
  | nil => exact ⟨[], rfl, fun r => rfl⟩
  | cons x l ih =>
    obtain ⟨b, hb, hr⟩ := ih fun r hr => h r (by simp [hr])
    obtain ⟨a, ha, hx⟩ := complex_reads big x.1 x.2 n hn (h x (by simp)).1 (h x (by simp)).2
    refine ⟨a ++ b, ?_, reads_succ hx hr⟩
    rw [List.map_cons, static_rows, ha, hb]
    rfl

/-- The complex numbers of one momentum in the file of the fields: those of direction 0, then those of direction 1
and so on. -/
def linkValues (ND NCNC : ℕ) (O : ℕ → ℕ → W64 × W64) : List (W64 × W64) :=
  (List.range ND).flatMap fun mu => (List.range NCNC).map fun a => O mu a

theorem range_mul_flat (m n : ℕ) (hn : 0 < n) {β : Type} (f : ℕ → ℕ → β) :
    (List.range (m * n)).map (fun k => f (k / n) (k % n))
      = (List.range m).flatMap fun i => (List.range n).map (f i) := by
  induction m with
  | zero => simp
  | succ m ih =>
    rw [Nat.succ_mul, List.range_add, List.map_append, ih, List.range_succ, List.flatMap_append]
    congr 1
    rw [List.flatMap_singleton, List.map_map]
    refine List.map_congr_left fun k hk => ?_
    have hk := List.mem_range.1 hk
    simp only [Function.comp]
    rw [Nat.mul_comm m n, Nat.mul_add_div hn, Nat.div_eq_of_lt hk, Nat.mul_add_mod, Nat.mod_eq_of_lt hk, add_zero]

theorem fieldRow_eq (ND NCNC : ℕ) (O : ℕ → ℕ → W64 × W64) (hN : 0 < NCNC) :
    fieldRow ND NCNC O = parts (linkValues ND NCNC O) := by
  have h1 := range_mul_flat (ND * NCNC) 2 (by norm_num) (fun k b =>
    if b = 0 then (O (k / NCNC) (k % NCNC)).1 else (O (k / NCNC) (k % NCNC)).2)
  rw [fieldRow, linkValues, ← range_mul_flat ND NCNC hN O, parts, List.flatMap_map]
  exact h1

theorem rows_reads (big : Bool) (ND NCNC : ℕ) (hN : 0 < NCNC) (l : List (ℕ → ℕ → W64 × W64)) :
    ∃ b, write_rows big ND NCNC l = some b ∧
      Reads (readMany (readMany readComplex (ND * NCNC)) l.length) b (l.map (linkValues ND NCNC)) := by
  induction l with
  | nil => exact ⟨[], rfl, fun r => rfl⟩
  | cons O l ih =>
    obtain ⟨b, hb, hr⟩ := ih
    have hlen : (linkValues ND NCNC O).length = ND * NCNC := by
      rw [linkValues, ← range_mul_flat ND NCNC hN O]; simp
    have hz : ∀ z : W64 × W64, Reads readComplex (imageDbl true z.1 ++ imageDbl true z.2) (id z) :=
      fun z => reads_both (reads_double z.1) (reads_double z.2)
    have hrow := reads_many (fun z : W64 × W64 => imageDbl true z.1 ++ imageDbl true z.2) id
      (linkValues ND NCNC O) (fun z _ => hz z)
    rw [List.map_id, hlen, ← flat_pairs] at hrow
    refine ⟨(parts (linkValues ND NCNC O)).flatMap (imageDbl true) ++ b, ?_, reads_succ hrow hr⟩
    have hl2 : (parts (linkValues ND NCNC O)).length = ND * NCNC * 2 := by rw [parts_length, hlen]; ring
    rw [write_rows, fieldRow_eq _ _ _ hN, FWRITE_64_eq _ _ _ (by rw [hl2]), ← hl2, List.take_length, hb]
    rfl

theorem moments_reads (big : Bool) (NQ : ℕ) (hN : NQ < 2 ^ 32) (l : List (List W64)) (h : ∀ r ∈ l, r.length = NQ) :
    ∃ b, moment_loop big [BitVec.ofNat 32 NQ] NQ l = some b ∧ Reads (readMany readDoubles l.length) b l := by
  induction l with
  | nil => exact ⟨[], rfl, fun r => rfl⟩
  | cons x l ih =>
    obtain ⟨b, hb, hr⟩ := ih fun r hr => h r (by simp [hr])
    have hx := h x (by simp)
    refine ⟨imageInt true (BitVec.ofNat 32 NQ) ++ x.flatMap (imageDbl true) ++ b, ?_,
      reads_succ (reads_doubles x NQ hx.symm hN) hr⟩
    have hx' : x.take NQ = x := by rw [← hx, List.take_length]
    simp only [moment_loop, one32, Option.bind_eq_bind, Option.bind_some, FWRITE_64_eq big x NQ (by omega), hb, hx']
    rfl

/-- The conclusion for a file: it is the same whatever the byte order of the machine that writes it, reading it
gives back the data, and when its end is missing it is not taken for a complete file. -/
def GoodFile {α : Type} (write : Bool → Option (List Byte)) (p : List Byte → Option (α × List Byte)) (x : α) : Prop :=
  ∃ b, (∀ big, write big = some b) ∧ readFile p b = some x ∧ ∀ n < b.length, readFile p (b.take n) = none

theorem injReads {α : Type} {p : List Byte → Option (α × List Byte)} {write : Bool → Option (List Byte)} {x : α}
    (hs : Streams p) (h : ∀ big, ∃ b, write big = some b ∧ Reads p b x)
    (hsame : write true = write false) : GoodFile write p x := by
  obtain ⟨b, hb, hr⟩ := h true
  refine ⟨b, fun big => ?_, file_of_reads hr, fun n hn => cut_unreadable hs hr n hn⟩
  cases big
  · rw [← hsame, hb]
  · exact hb

theorem FWRITE_32_same (arr : List W32) (n : ℕ) : FWRITE_32 true arr n = FWRITE_32 false arr n := by
  by_cases h : n ≤ arr.length
  · rw [FWRITE_32_eq _ _ _ h, FWRITE_32_eq _ _ _ h]
  · rw [FWRITE_32_none _ _ _ (by omega), FWRITE_32_none _ _ _ (by omega)]

theorem FWRITE_64_same (arr : List W64) (n : ℕ) : FWRITE_64 true arr n = FWRITE_64 false arr n := by
  by_cases h : n ≤ arr.length
  · rw [FWRITE_64_eq _ _ _ h, FWRITE_64_eq _ _ _ h]
  · rw [FWRITE_64_none _ _ _ (by omega), FWRITE_64_none _ _ _ (by omega)]

theorem static_same (n : ℕ) (rows : List (List W64 × List W64)) :
    static_rows true n rows = static_rows false n rows := by
  induction rows with
  | nil => rfl
  | cons r l ih => simp only [static_rows, write_complex_g2g3_to_list, FWRITE_32_same, FWRITE_64_same, ih]

theorem rows_same (ND NCNC : ℕ) (l : List (ℕ → ℕ → W64 × W64)) : write_rows true ND NCNC l = write_rows false ND NCNC l := by
  induction l with
  | nil => rfl
  | cons r l ih => simp only [write_rows, FWRITE_64_same, ih]

theorem moment_same (nmom : List W32) (NQ : ℕ) (l : List (List W64)) :
    moment_loop true nmom NQ l = moment_loop false nmom NQ l := by
  induction l generalizing nmom with
  | nil => rfl
  | cons r l ih => simp only [moment_loop, FWRITE_32_same, FWRITE_64_same, ih]

theorem streams_momenta : Streams readMomenta := streams_array (streams_array streams_int)
theorem streams_doubles : Streams readDoubles := streams_array streams_double
theorem streams_complex : Streams readComplex := streams_both streams_double streams_double

theorem count_lt {list : List Vec} {DIR : ℕ} (h : (DIR + 1) * list.length < 2 ^ 31) : list.length < 2 ^ 32 := by
  have : 1 * list.length ≤ (DIR + 1) * list.length := Nat.mul_le_mul_right _ (by omega)
  omega

/-- The file of the two- and three-point functions (gluon propagators, three-gluon vertex, instantaneous and smeared
propagators). -/
theorem C75_pair_file_partial (list : List Vec) (DIR : ℕ) (h : (DIR + 1) * list.length < 2 ^ 31) (hD : DIR < 2 ^ 31)
    (hm : SmallMomenta list DIR) (g2 g3 : List W64) (h2 : g2.length = list.length) (h3 : g3.length = list.length) :
    GoodFile (fun big => pair_file big list DIR g2 g3) (readBoth readMomenta (readBoth readDoubles readDoubles))
      (momenta list DIR, (g2, g3)) := by
  refine injReads (streams_both streams_momenta (streams_both streams_doubles streams_doubles)) (fun big => ?_) ?_
  · obtain ⟨a, ha, hr⟩ := veclist_reads big list DIR h hD hm
    obtain ⟨b, hb, hs⟩ := g2g3_reads big g2 g3 _ (count_lt h) h2 h3
    exact ⟨a ++ b, by simp only [pair_file, ha, hb]; rfl, reads_both hr hs⟩
  · simp only [pair_file, write_mom_veclist, write_g2g3_to_list, FWRITE_32_same, FWRITE_64_same]

/-- The file of the charge correlator. -/
theorem C75_corr_file_partial (list : List Vec) (ND : ℕ) (h : (ND + 1) * list.length < 2 ^ 31) (hD : ND < 2 ^ 31)
    (hm : SmallMomenta list ND) (q : List W64) (hq : q.length = list.length) :
    GoodFile (fun big => corr_file big list ND q) (readBoth readMomenta readDoubles) (momenta list ND, q) := by
  refine injReads (streams_both streams_momenta streams_doubles) (fun big => ?_) ?_
  · obtain ⟨a, ha, hr⟩ := veclist_reads big list ND h hD hm
    obtain ⟨b, hb, hs⟩ := g2_reads big q _ (count_lt h) hq
    exact ⟨a ++ b, by simp only [corr_file, ha, hb]; rfl, reads_both hr hs⟩
  · simp only [corr_file, write_mom_veclist, write_g2_to_list, FWRITE_32_same, FWRITE_64_same]

/-- The file of a time correlator: the times from zero and the correlator. -/
theorem C75_time_file (LT : ℕ) (h : LT < 2 ^ 31) (ct : List W64) (hc : ct.length = LT) :
    GoodFile (fun big => time_file big LT ct) (readBoth (readArray readInt) readDoubles)
      ((List.range LT).map (fun t : ℕ => (t : ℤ)), ct) := by
  refine injReads (streams_both (streams_array streams_int) streams_doubles) (fun big => ?_) ?_
  · obtain ⟨a, ha, hr⟩ := tslice_reads big LT h
    obtain ⟨b, hb, hs⟩ := g2_reads big ct LT (by omega) hc
    exact ⟨a ++ b, by simp only [time_file, ha, hb]; rfl, reads_both hr hs⟩
  · simp only [time_file, write_tslice_list, write_g2_to_list, FWRITE_32_same, FWRITE_64_same]

/-- The file of the static potential: the displacements, then an array with the two complex correlators of each
time separation. -/
theorem C75_static_file_partial (list : List Vec) (ND T : ℕ) (h : (ND - 1 + 1) * list.length < 2 ^ 31) (hD : ND < 2 ^ 31)
    (hT : 1 ≤ T) (hT' : T < 2 ^ 32)
    (hm : SmallMomenta list (ND - 1)) (result trtr : ℕ → List (W64 × W64))
    (hr : ∀ t, 1 ≤ t → t < T → (result t).length = list.length ∧ (trtr t).length = list.length) :
    GoodFile (fun big => static_file big list ND T fun t => (parts (result t), parts (trtr t)))
      (readBoth readMomenta (readArray (readBoth (readArray readComplex) (readArray readComplex))))
      (momenta list (ND - 1), (List.range (T - 1)).map fun t => (result (t + 1), trtr (t + 1))) := by
  refine injReads (streams_both streams_momenta (streams_array (streams_both (streams_array streams_complex)
    (streams_array streams_complex)))) (fun big => ?_) ?_
  · obtain ⟨a, ha, h1⟩ := veclist_reads big list (ND - 1) h (by omega) hm
    obtain ⟨b, hb, h2⟩ := static_reads big list.length (count_lt h)
      ((List.range (T - 1)).map fun t => (result (t + 1), trtr (t + 1))) (by
        intro r hr'
        obtain ⟨t, ht, rfl⟩ := List.mem_map.1 hr'
        have := List.mem_range.1 ht
        exact hr (t + 1) (by omega) (by omega))
    rw [List.map_map] at hb
    refine ⟨a ++ (imageInt true (BitVec.ofNat 32 (T - 1)) ++ b), ?_, reads_both h1 fun r => ?_⟩
    · rw [static_file, if_neg (by omega)]
      simp only [ha, one32, Option.bind_eq_bind, Option.bind_some]
      rw [show ((List.range (T - 1)).map fun t => (parts (result (t + 1)), parts (trtr (t + 1))))
        = (List.range (T - 1)).map ((fun r => (parts r.1, parts r.2)) ∘ fun t => (result (t + 1), trtr (t + 1))) from rfl,
        hb, Option.bind_some, List.append_assoc]
      rfl
    · rw [readArray, List.append_assoc, reads_count _ (by omega)]
      rw [List.length_map, List.length_range] at h2
      exact h2 r
  · simp only [static_file, write_mom_veclist, static_same, FWRITE_32_same]

/-- The file of the fields: the momenta, their number, and for each of them the matrices of all directions. -/
theorem C75_field_file_partial (list : List Vec) (ND NCNC : ℕ) (h : (ND + 1) * list.length < 2 ^ 31) (hD : ND < 2 ^ 31)
    (hN : 0 < NCNC) (hm : SmallMomenta list ND) (A : ℕ → ℕ → ℕ → W64 × W64) :
    GoodFile (fun big => field_file big list ND NCNC A)
      (readBoth readMomenta (readArray (readMany readComplex (ND * NCNC))))
      (momenta list ND, list.map fun v => linkValues ND NCNC (A v.idx)) := by
  refine injReads (streams_both streams_momenta (streams_array (streams_many streams_complex _))) (fun big => ?_) ?_
  · obtain ⟨a, ha, hr⟩ := veclist_reads big list ND h hD hm
    obtain ⟨b, hb, hs⟩ := rows_reads big ND NCNC hN (list.map fun v => A v.idx)
    refine ⟨a ++ (imageInt true (BitVec.ofNat 32 list.length) ++ b),
      by simp only [field_file, write_lattice_fields, one32, ha, hb]; rfl, reads_both hr fun r => ?_⟩
    rw [readArray, List.append_assoc, reads_count _ (count_lt h)]
    rw [List.length_map, List.map_map] at hs
    exact hs r
  · simp only [field_file, write_lattice_fields, write_mom_veclist, FWRITE_32_same, rows_same]

/-- The file of the moments of the charge in direction `mu`: an array of measurements, each the array of the
moments of that direction. -/
theorem C75_moments_file (NQ mu : ℕ) (hN : NQ < 2 ^ 32) (Q : List (ℕ → W64)) (hQ : Q.length < 2 ^ 32) :
    GoodFile (fun big => write_moments big NQ mu Q) (readArray readDoubles)
      (Q.map fun q => (List.range NQ).map fun j => q (mu * NQ + j)) := by
  refine injReads (streams_array streams_doubles) (fun big => ?_) ?_
  · obtain ⟨b, hb, hr⟩ := moments_reads big NQ hN (Q.map fun q => (List.range NQ).map fun j => q (j + mu * NQ))
      (by intro r hr; obtain ⟨q, _, rfl⟩ := List.mem_map.1 hr; simp)
    refine ⟨imageInt true (BitVec.ofNat 32 Q.length) ++ b, by simp only [write_moments, one32, hb]; rfl, fun r => ?_⟩
    rw [readArray, List.append_assoc, reads_count _ hQ]
    rw [List.length_map] at hr
    simp only [Nat.add_comm (mu * NQ)]
    exact hr r
  · simp only [write_moments, moment_same, FWRITE_32_same]

/-- Writing restores the arrays, so the caller may use them afterwards. -/
theorem C75_restored (big : Bool) (a : List W32) (b : List W64) (m n : ℕ) :
    (∀ o a', FWRITE_32 big a m = some (o, a') → a' = a) ∧ (∀ o b', FWRITE_64 big b n = some (o, b') → b' = b) := by
  constructor
  · intro o a' h
    by_cases hm : m ≤ a.length
    · rw [FWRITE_32_eq _ _ _ hm] at h
      exact (Prod.mk.inj (Option.some.inj h)).2.symm
    · rw [FWRITE_32_none _ _ _ (by omega)] at h; cases h
  · intro o a' h
    by_cases hm : n ≤ b.length
    · rw [FWRITE_64_eq _ _ _ hm] at h
      exact (Prod.mk.inj (Option.some.inj h)).2.symm
    · rw [FWRITE_64_none _ _ _ (by omega)] at h; cases h

/-- The momenta of the lists made by the program fit. -/
theorem C75_lists {L : Geom.Latt} (hL : Geom.Valid L) {DIMS : ℕ} (hD : Geom.SliceDims L DIMS) (keep : (ℕ → ℤ) → Bool) :
    SmallMomenta (get_mom_veclist L keep DIMS) DIMS := by
  intro v hv a ha
  obtain ⟨i, -, rfl⟩ := List.mem_map.1 hv
  have hz := mom_inZone hL hD i a ha
  have ha' : a < L.ND := by rcases hD with h | h <;> omega
  have hd : L.dims a < 2 ^ 31 := by
    have h1 : L.dims a ∣ ∏ mu ∈ Finset.range L.ND, L.dims mu := Finset.dvd_prod_of_mem _ (Finset.mem_range.2 ha')
    have h2 : 0 < ∏ mu ∈ Finset.range L.ND, L.dims mu := Finset.prod_pos fun mu hmu => hL.pos mu (Finset.mem_range.1 hmu)
    exact lt_of_le_of_lt (Nat.le_of_dvd h2 h1) hL.small
  dsimp only
  constructor
  · have := hz.1; omega
  · have := hz.2; omega

/-- What is missing in the statements marked partial: the number of integers of a momentum list is kept in an `int`.
With `2^31` of them or more the buffer is not what the loop fills. In four dimensions that happens from `429496730`
momenta on, for example when no momentum of a lattice with `152^4` sites is cut. -/
theorem C75_overflow (big : Bool) (list : List Vec) (g2 g3 : List W64) (h : 429496730 ≤ list.length) :
    pair_file big list 4 g2 g3 = none := by
  have : write_mom_veclist big list 4 = none := by rw [write_mom_veclist, if_pos (by omega)]
  rw [pair_file, this]
  rfl

example : 429496730 ≤ 152 ^ 4 ∧ 152 ^ 4 < 2 ^ 31 := by norm_num

/-- A file on a little-endian machine. -/
example : pair_file false [⟨5, fun a => if a = 0 then -1 else 2⟩] 2 [0x3ff0000000000000#64] [7#64]
    = some [0, 0, 0, 1, 0, 0, 0, 2, 255, 255, 255, 255, 0, 0, 0, 2,
      0, 0, 0, 1, 0x3f, 0xf0, 0, 0, 0, 0, 0, 0, 0, 0, 0, 1, 0, 0, 0, 0, 0, 0, 0, 7] := by decide +kernel

example : ∃ list : List Vec, 2 ≤ list.length ∧ (4 + 1) * list.length < 2 ^ 31 ∧ SmallMomenta list 4 :=
  ⟨[⟨0, fun _ => -3⟩, ⟨1, fun _ => 4⟩], by simp, by simp, by
    intro v hv a _
    simp only [List.mem_cons, List.not_mem_nil, or_false] at hv
    rcases hv with rfl | rfl <;> norm_num⟩

end GLU.Cuts
