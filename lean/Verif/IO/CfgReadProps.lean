import Verif.IO.CfgProps
import Verif.Mat.LUProps
import Mathlib.Tactic.IntervalCases

/-! # C38, C39: reading a configuration back -/

namespace GLU.IO

variable {P : Word}

/-- What the storage type needs from the arithmetic for a link to be restored: nothing for the
full matrix; for two rows, that the recomputed last row is the last row of the link; for the
compressed form, that it can be expanded again. -/
def Restores (A : Arith P) (NC : ℕ) (type : Store) (link : Arr (P.W × P.W)) : Prop :=
  match type with
  | .small => ∀ j < NC * NC, A.exhume (A.shorten link) j = link j
  | .gauge => ∀ O : Arr (P.W × P.W), (∀ j < NC * NC - NC, O j = link j) →
      ∀ j, NC * NC - NC ≤ j → j < NC * NC → A.lastRow O j = link j
  | .ncxnc => True

theorem pairs_flatMap {W : Type} (n : ℕ) (f : ℕ → W × W) :
    pairs ((List.range n).flatMap fun j => [(f j).1, (f j).2]) = (List.range n).map f := by
  have key : ∀ l : List ℕ, pairs (l.flatMap fun j => [(f j).1, (f j).2]) = l.map f := by
    intro l
    induction l with
    | nil => rfl
    | cons a l ih => simp [pairs, ih]
  exact key _

theorem memcpy_spec {W : Type} (O : Arr (W × W)) (n : ℕ) (f : ℕ → W × W) :
    memcpy O ((List.range n).flatMap fun j => [(f j).1, (f j).2]) n
      = some fun j => if j < n then f j else O j := by
  have hl : ((List.range n).flatMap fun j => [(f j).1, (f j).2]).length = n * 2 :=
    flatMap_blocks 2 _ _ fun _ _ => rfl
  rw [memcpy, if_pos (by rw [hl]; omega), pairs_flatMap]
  congr 1; funext j
  split
  · rename_i h; simp [h]
  · rfl

theorem rebuild_spec {A : Arith P} {NC : ℕ} {type : Store} {link : Arr (P.W × P.W)}
    (h : Restores A NC type link) (old : Arr (P.W × P.W)) :
    ∃ new, rebuild_lat A NC type old (linkWords A NC type link) = some new ∧
      ∀ j < NC * NC, new j = link j := by
  cases type with
  | small => exact ⟨_, rfl, h⟩
  | gauge =>
    have e : (NC - 1) * NC = NC * NC - NC := by rw [Nat.sub_mul, Nat.one_mul]
    refine ⟨_, by rw [rebuild_lat, linkWords, e, memcpy_spec, Option.map_some], fun j hj => ?_⟩
    by_cases hlast : NC * NC - NC ≤ j
    · rw [if_pos ⟨hlast, hj⟩]
      exact h _ (fun j hj => if_pos hj) j hlast hj
    · rw [if_neg (fun h => hlast h.1)]
      exact if_pos (by omega)
  | ncxnc =>
    exact ⟨_, by rw [rebuild_lat, linkWords, memcpy_spec], fun j hj => if_pos hj⟩

theorem mapM_getElem {α : Type*} (L : List α) (n : ℕ) (hn : n = L.length) (f : ℕ → Option α)
    (hf : ∀ j < n, f j = L[j]?) : (List.range n).mapM f = some L := by
  subst hn
  have : (List.range L.length).mapM f
      = some ((List.range L.length).attach.map fun x => L[x.1]'(List.mem_range.1 x.2)) := by
    have key : ∀ l : List ℕ, ∀ h : ∀ j ∈ l, j < L.length, l.mapM f
        = some (l.attach.map fun x => L[x.1]'(h x.1 x.2)) := by
      intro l
      induction l with
      | nil => intro _; rfl
      | cons a l ih =>
        intro h
        have ha := h a (by simp)
        rw [List.mapM_cons, hf a ha, List.getElem?_eq_getElem ha, ih fun j hj => h j (by simp [hj])]
        simp [List.attach_cons, Function.comp_def]
    exact key _ fun j hj => List.mem_range.1 hj
  rw [this]
  congr 1
  apply List.ext_getElem (by simp)
  intro i h1 h2
  simp

/-- Word `t` of a file of the specified form, as read by `fread` and byte swapped. -/
theorem fread_spec (hP : P.Lawful) (o big : Bool) (L : List P.W) (rest : List Byte) :
    ∃ p, fread P big L.length (L.flatMap (image P o) ++ rest) = some p ∧
      ∀ t < L.length, ((p t).map fun w => if o != big then P.swap w else w) = L[t]? := by
  have hlen : (L.flatMap (image P o)).length = L.length * P.size := by
    rw [flatMap_list_range, flatMap_blocks P.size]
    intro i hi
    rw [List.getElem?_eq_getElem hi]
    exact image_length hP o _
  refine ⟨_, by rw [fread, if_pos (by rw [List.length_append, hlen]; omega)], fun t ht => ?_⟩
  rw [if_pos ht]
  have hw := flatMap_window P.size L.length (fun n => ((L[n]?).map (image P o)).getD [])
    (fun i hi => by rw [List.getElem?_eq_getElem hi]; exact image_length hP o _) rest t ht
  rw [← flatMap_list_range] at hw
  rw [hw, List.getElem?_eq_getElem ht]
  simp only [Option.map_some, Option.getD_some]
  exact congrArg some (decode_image hP o big _)

/-- C38 and C39: reading back a file written by the program, on a machine of either byte order,
with any schedules of the parallel loops on both sides, and whatever follows the data in the
file, gives back every link and the same five checksums. -/
theorem read_back (hP : P.Lawful) {A : Arith P} {NC : ℕ} (hA : A.Sized NC) (X : W32 → W32)
    (o big : Bool) (ND V : ℕ) (type : Store) (lat old : Lat P) (rest : List Byte)
    (hlat : ∀ i < V, ∀ mu < ND, Restores A NC type (lat i mu))
    (s1 s2 : List (List ℕ)) (h1 : Covers V s1.flatten) (h2 : Covers V s2.flatten) :
    ∃ new, lattice_reader A X o big NC ND V type (fileSpec A o NC ND V type lat ++ rest) old s1 s2
        = some (new, sumsSpec (rot X) A o NC ND V type lat) ∧
      ∀ i < V, ∀ mu < ND, ∀ j < NC * NC, new i mu j = lat i mu j := by
  set LV := LOOP_VAR NC type with hLV
  haveI : Nonempty (Arr (P.W × P.W)) := ⟨old 0 0⟩
  have hN := allWords_length hA ND V type lat
  obtain ⟨p0, hp0, hp⟩ := fread_spec hP o big (allWords A NC ND V type lat) rest
  rw [hN] at hp0 hp
  rw [← fileSpec_eq] at hp0
  set p : ℕ → Option P.W := fun t => (p0 t).map fun w => if o != big then P.swap w else w with hpd
  -- the words of link mu of site i
  have hword : ∀ i < V, ∀ mu < ND, ∀ j < LV,
      p (ND * LV * i + mu * LV + j) = (linkWords A NC type (lat i mu))[j]? := by
    intro i hi mu hmu j hj
    have hin : mu * LV + j < ND * LV := by
      calc mu * LV + j < mu * LV + LV := by omega
        _ = (mu + 1) * LV := by ring
        _ ≤ ND * LV := Nat.mul_le_mul_right _ hmu
    have hlt : ND * LV * i + mu * LV + j < ND * LV * V := by
      calc ND * LV * i + mu * LV + j < ND * LV * i + ND * LV := by omega
        _ = ND * LV * (i + 1) := by ring
        _ ≤ ND * LV * V := Nat.mul_le_mul_left _ hi
    have e : ND * LV * i + mu * LV + j = i * (ND * LV) + (mu * LV + j) := by ring
    have hp' : p (ND * LV * i + mu * LV + j) = _ := hp _ hlt
    rw [hp', e, allWords, flatMap_getElem? (ND * LV) V _
      (fun i _ => siteWords_length hA ND type (lat i)) i _ hi hin, siteWords,
      flatMap_getElem? LV ND _ (fun mu _ => linkWords_length hA type (lat i mu)) mu j hmu hj]
  have hutemp : ∀ i < V, ∀ mu < ND,
      r_utemp p LV (ND * LV * i) mu = some (linkWords A NC type (lat i mu)) := by
    intro i hi mu hmu
    exact mapM_getElem _ _ (linkWords_length hA type (lat i mu)).symm _ (hword i hi mu hmu)
  have hsite : ∀ i < V, ∃ links : ℕ → Arr (P.W × P.W),
      r_site A X p NC ND LV type (old i) i = some
        (⟨nerscSpec (siteWords A NC ND type (lat i)),
          xorFrom X 29 (i * (ND * LV)) (siteWords A NC ND type (lat i)),
          xorFrom X 31 (i * (ND * LV)) (siteWords A NC ND type (lat i)), 0#32, 0#32⟩, links) ∧
      ∀ mu < ND, ∀ j < NC * NC, links mu j = lat i mu j := by
    intro i hi
    have hus := mapM_range ND (r_utemp p LV (ND * LV * i))
      (fun mu => linkWords A NC type (lat i mu)) (hutemp i hi)
    have hre : ∀ mu < ND, ∃ new, rebuild_lat A NC type (old i mu)
        (linkWords A NC type (lat i mu)) = some new ∧ ∀ j < NC * NC, new j = lat i mu j :=
      fun mu hmu => rebuild_spec (hlat i hi mu hmu) (old i mu)
    choose! new hnew hnew' using hre
    have hlinks := mapM_range ND (fun mu => rebuild_lat A NC type (old i mu)
      ((((List.range ND).map fun mu => linkWords A NC type (lat i mu))[mu]?).getD [])) new
      (fun mu hmu => by simp only [List.getElem?_map, List.getElem?_range hmu, Option.map_some,
        Option.getD_some]; exact hnew mu hmu)
    have hflat : ((List.range ND).map fun mu => linkWords A NC type (lat i mu)).flatten
        = siteWords A NC ND type (lat i) := by rw [siteWords, List.flatMap_def]
    have hloop : r_loop (P := P) X = w_loop X := rfl
    refine ⟨fun mu => (((List.range ND).map new)[mu]?).getD (old i mu), ?_, ?_⟩
    · simp only [r_site]
      rw [hus, Option.bind_some, hlinks, Option.map_some, hflat, hloop, w_loop_fold]
      simp only [BitVec.zero_add, BitVec.zero_xor, Nat.mul_comm (ND * LV) i]
    · intro mu hmu j hj
      simp only [List.getElem?_map, List.getElem?_range hmu, Option.map_some, Option.getD_some]
      exact hnew' mu hmu j hj
  have hcrc : ∀ i < V, r_crc X P ND LV (fileSpec A o NC ND V type lat ++ rest) i
      = some ⟨0#32, 0#32, 0#32,
          rot X (crcSpec (messageLow ((siteWords A NC ND type (lat i)).flatMap (image P o)))) (i % 29),
          rot X (crcSpec (messageLow ((siteWords A NC ND type (lat i)).flatMap (image P o)))) (i % 31)⟩ := by
    intro i hi
    have hwin := flatMap_window (ND * LV * P.size) V
      (fun i => (siteWords A NC ND type (lat i)).flatMap (image P o))
      (fun i _ => siteBytes_length hP hA ND type (lat i) o) rest i hi
    have hlen := flatMap_blocks (ND * LV * P.size) V
      (fun i => (siteWords A NC ND type (lat i)).flatMap (image P o))
      (fun i _ => siteBytes_length hP hA ND type (lat i) o)
    have e1 : P.size * (i * ND * LV) = i * (ND * LV * P.size) := by ring
    have e2 : P.size * ND * LV = ND * LV * P.size := by ring
    rw [r_crc, e1, e2, C35_standard]
    · rw [fileSpec, hwin]; rfl
    · rw [List.length_drop, List.length_append, fileSpec, hlen]
      have : (i + 1) * (ND * LV * P.size) ≤ V * (ND * LV * P.size) := Nat.mul_le_mul_right _ hi
      have e : (i + 1) * (ND * LV * P.size) = i * (ND * LV * P.size) + ND * LV * P.size := by ring
      omega
  choose! links hlinks hlinks' using hsite
  refine ⟨fun i => if i ∈ s2.flatten then
      ((r_site A X p NC ND LV type (old i) i).map (·.2)).getD (old i) else old i, ?_, ?_⟩
  · have m1 : ∀ i ∈ s1.flatten, i < V := fun i hi => List.mem_range.1 (h1.mem_iff.1 hi)
    have m2 : ∀ i ∈ s2.flatten, i < V := fun i hi => List.mem_range.1 (h2.mem_iff.1 hi)
    simp only [lattice_reader, ← hLV]
    rw [hp0, Option.bind_some]
    rw [if_pos ⟨fun i hi => by rw [hcrc i (m1 i hi)]; rfl,
      fun i hi => by rw [hlinks i (m2 i hi)]; rfl⟩]
    rw [reduceSums_eq, reduceSums_eq, total_perm _ h1, total_perm _ h2]
    have t1 : total (fun i => (r_crc X P ND LV (fileSpec A o NC ND V type lat ++ rest) i).getD
        Sums.zero) (List.range V) = total (fun i => ⟨0#32, 0#32, 0#32,
          rot X (crcSpec (messageLow ((siteWords A NC ND type (lat i)).flatMap (image P o)))) (i % 29),
          rot X (crcSpec (messageLow ((siteWords A NC ND type (lat i)).flatMap (image P o)))) (i % 31)⟩)
        (List.range V) :=
      total_congr fun i hi => by rw [hcrc i (List.mem_range.1 hi)]; rfl
    have t2 : total (fun i => ((r_site A X p NC ND LV type (old i) i).map (·.1)).getD Sums.zero)
        (List.range V) = total (fun i =>
          ⟨nerscSpec (siteWords A NC ND type (lat i)),
          xorFrom X 29 (i * (ND * LV)) (siteWords A NC ND type (lat i)),
          xorFrom X 31 (i * (ND * LV)) (siteWords A NC ND type (lat i)), 0#32, 0#32⟩)
        (List.range V) :=
      total_congr fun i hi => by rw [hlinks i (List.mem_range.1 hi)]; rfl
    rw [t1, t2]
    have split : ∀ (l : List ℕ) (f g : ℕ → Sums),
        (∀ i, (f i).c29 = 0#32 ∧ (f i).c31 = 0#32) →
        (∀ i, (g i).k = 0#32 ∧ (g i).s29 = 0#32 ∧ (g i).s31 = 0#32) →
        total (fun i => (f i).add (g i)) l
          = ⟨(total f l).k, (total f l).s29, (total f l).s31, (total g l).c29, (total g l).c31⟩ := by
      intro l f g hf hg
      induction l with
      | nil => rfl
      | cons a l ih =>
        have hc : ∀ f : ℕ → Sums, total f (a :: l) = (f a).add (total f l) := fun _ => rfl
        rw [hc, hc, hc, ih]
        obtain ⟨f1, f2⟩ := hf a
        obtain ⟨g1, g2, g3⟩ := hg a
        simp [Sums.add, f1, f2, g1, g2, g3]
    have tot := total_siteSums X (ND * LV) V (fun i => siteWords A NC ND type (lat i))
      (fun i => (siteWords A NC ND type (lat i)).flatMap (image P o))
      fun i _ => siteWords_length hA ND type (lat i)
    rw [← split _ _ _ (fun _ => ⟨rfl, rfl⟩) (fun _ => ⟨rfl, rfl, rfl⟩)]
    congr 2
    rw [sumsSpec, allWords, ← tot]
    apply total_congr
    intro i _
    simp [Sums.add, siteSums]
  · intro i hi mu hmu j hj
    have : i ∈ s2.flatten := h2.mem_iff.2 (List.mem_range.2 hi)
    simp only [if_pos this, hlinks i hi, Option.map_some, Option.getD_some]
    exact hlinks' i hi mu hmu j hj

/-- C38, for the default (double precision) output: the checksums the writer computes, with any
schedule, on a machine of either byte order, are those the reader recomputes from the file the
writer produced, with any schedules, on a machine of either byte order. Missing: the value of a
shift by 32 is the same machine-dependent `X` on both sides (see `C37_undefined_shift`), and the
`OUT_SINGLE` build, where the claim is false (`C38_single_fails`). -/
theorem C38_partial (hP : P.Lawful) {A : Arith P} {NC : ℕ} (hA : A.Sized NC) (X : W32 → W32)
    (outBig bigW bigR : Bool) (ND V : ℕ) (type : Store) (lat old : Lat P) (rest : List Byte)
    (hlat : ∀ i < V, ∀ mu < ND, Restores A NC type (lat i mu))
    (order : List ℕ) (ho : Covers V order) (sched s1 s2 : List (List ℕ))
    (hs : Covers V sched.flatten) (h1 : Covers V s1.flatten) (h2 : Covers V s2.flatten) :
    ∃ file sums new,
      write_binary_data A id outBig bigW ND (LOOP_VAR NC type) V type lat order = some file ∧
      compute_checksum A X outBig bigW ND (LOOP_VAR NC type) type lat sched = some sums ∧
      lattice_reader A X outBig bigR NC ND V type (file ++ rest) old s1 s2 = some (new, sums) := by
  obtain ⟨new, hr, _⟩ := read_back hP hA X outBig bigR ND V type lat old rest hlat s1 s2 h1 h2
  exact ⟨_, _, new, C39_writer hP hA outBig bigW ND V type lat order ho,
    C37_schedule_independent_partial hP hA X outBig bigW ND V type lat sched hs, hr⟩

/-- C39, full matrices, default (double precision) output: every number of every link comes back
bit for bit, special unitary or not. -/
theorem C39_full_matrix (hP : P.Lawful) {A : Arith P} {NC : ℕ} (hA : A.Sized NC) (X : W32 → W32)
    (outBig bigW bigR : Bool) (ND V : ℕ) (lat old : Lat P) (rest : List Byte)
    (order : List ℕ) (ho : Covers V order) (s1 s2 : List (List ℕ))
    (h1 : Covers V s1.flatten) (h2 : Covers V s2.flatten) :
    ∃ file new sums,
      write_binary_data A id outBig bigW ND (LOOP_VAR NC .ncxnc) V .ncxnc lat order = some file ∧
      lattice_reader A X outBig bigR NC ND V .ncxnc (file ++ rest) old s1 s2 = some (new, sums) ∧
      ∀ i < V, ∀ mu < ND, ∀ j < NC * NC, new i mu j = lat i mu j := by
  obtain ⟨new, hr, hn⟩ := read_back hP hA X outBig bigR ND V .ncxnc lat old rest
    (fun _ _ _ _ => trivial) s1 s2 h1 h2
  exact ⟨_, new, _, C39_writer hP hA outBig bigW ND V .ncxnc lat order ho, hr, hn⟩

/-- The numbers a stored link stands for. -/
def valueOf (val : P.W → ℝ) (link : Arr (P.W × P.W)) : Arr ℂ :=
  fun j => ⟨val (link j).1, val (link j).2⟩

/-- The arithmetic of the reader idealised: the last row is `Mat.complete_top` in exact
arithmetic, each number rounded to a machine word at the end. -/
noncomputable def exactArith (NC : ℕ) (val : P.W → ℝ) (rnd : ℝ → P.W)
    (shorten : Arr (P.W × P.W) → List P.W) (exhume : List P.W → Arr (P.W × P.W))
    (array : Arr ℂ) : Arith P :=
  ⟨shorten, exhume, fun O j =>
    let z := Mat.complete_top NC (valueOf val O) (valueOf val O) array j
    (rnd z.re, rnd z.im)⟩

/-- C39, two rows: special unitary links, for every number of colours above one, come back bit for
bit, provided rounding leaves the (exactly representable) numbers of their last row alone. -/
theorem C39_two_rows (hP : P.Lawful) {NC : ℕ} (hN : 1 < NC) (val : P.W → ℝ) (rnd : ℝ → P.W)
    (shorten : Arr (P.W × P.W) → List P.W) (exhume : List P.W → Arr (P.W × P.W))
    (array : Arr ℂ) (hsz : ∀ link, (shorten link).length = NC * NC - 1) (X : W32 → W32)
    (outBig bigW bigR : Bool) (ND V : ℕ) (lat old : Lat P) (rest : List Byte)
    (hSU : ∀ i < V, ∀ mu < ND, GLU.Mat.IsSU NC (valueOf val (lat i mu)))
    (hrnd : ∀ i < V, ∀ mu < ND, ∀ j, NC * NC - NC ≤ j → j < NC * NC →
      rnd (val (lat i mu j).1) = (lat i mu j).1 ∧ rnd (val (lat i mu j).2) = (lat i mu j).2)
    (order : List ℕ) (ho : Covers V order) (s1 s2 : List (List ℕ))
    (h1 : Covers V s1.flatten) (h2 : Covers V s2.flatten) :
    ∃ file new sums,
      write_binary_data (exactArith NC val rnd shorten exhume array) id outBig bigW ND
        (LOOP_VAR NC .gauge) V .gauge lat order = some file ∧
      lattice_reader (exactArith NC val rnd shorten exhume array) X outBig bigR NC ND V .gauge
        (file ++ rest) old s1 s2 = some (new, sums) ∧
      ∀ i < V, ∀ mu < ND, ∀ j < NC * NC, new i mu j = lat i mu j := by
  have hA : (exactArith NC val rnd shorten exhume array).Sized NC := hsz
  obtain ⟨new, hr, hn⟩ := read_back hP hA X outBig bigR ND V .gauge lat old rest
    (fun i hi mu hmu O hO j hj hj' => by
      have hc := Mat.C16_complete_top hN (hSU i hi mu hmu) (O := valueOf val O)
        (uout := valueOf val O) (array := array) (fun x hx => by rw [valueOf, valueOf, hO x hx])
      have hNC : 0 < NC := by omega
      have he : Mat.complete_top NC (valueOf val O) (valueOf val O) array j
          = valueOf val (lat i mu) j := by
        have := congrFun (congrFun hc ⟨j / NC, Nat.div_lt_of_lt_mul hj'⟩) ⟨j % NC, Nat.mod_lt _ hNC⟩
        simp only [toM, Matrix.of_apply] at this
        rwa [show j % NC + NC * (j / NC) = j from Nat.mod_add_div j NC] at this
      obtain ⟨r1, r2⟩ := hrnd i hi mu hmu j hj hj'
      simp only [exactArith, he]
      exact Prod.ext r1 r2) s1 s2 h1 h2
  exact ⟨_, new, _, C39_writer hP hA outBig bigW ND V .gauge lat order ho, hr, hn⟩

/-- C39: a file that ends before the last byte of the data is not accepted. -/
theorem C39_truncated (A : Arith P) (X : W32 → W32) (endian big : Bool) (NC ND V : ℕ)
    (type : Store) (file : List Byte) (lat : Lat P) (s1 s2 : List (List ℕ))
    (h : file.length < ND * LOOP_VAR NC type * V * P.size) :
    lattice_reader A X endian big NC ND V type file lat s1 s2 = none := by
  simp only [lattice_reader]
  rw [fread, if_neg (by omega)]
  rfl

/-! ### An `OUT_SINGLE` build -/

/-- The full-matrix writer of an `OUT_SINGLE` build writes the file of the rounded links. -/
theorem writer_cast (hP : P.Lawful) {A : Arith P} {NC : ℕ} (hA : A.Sized NC) (cast : P.W → P.W)
    (outBig big : Bool) (ND V : ℕ) (lat : Lat P) (order : List ℕ) (hord : Covers V order) :
    write_binary_data A cast outBig big ND (LOOP_VAR NC .ncxnc) V .ncxnc lat order
      = some (fileSpec A outBig NC ND V .ncxnc
          fun i mu j => (cast (lat i mu j).1, cast (lat i mu j).2)) := by
  rw [← C39_writer hP hA outBig big ND V .ncxnc _ order hord]
  have hput : ∀ (ws : List P.W) (b : Buf P.W) (v : ℕ), put cast b v ws = put id b v (ws.map cast) := by
    intro ws
    induction ws with
    | nil => intro _ _; rfl
    | cons w ws ih =>
      intro b v
      simp only [put, List.map_cons, id]
      cases b.set v (cast w) with
      | none => rfl
      | some b' => exact ih _ _
  have hcopy : ∀ (l : List ℕ) (b : Buf P.W),
      copy_data A cast ND (LOOP_VAR NC .ncxnc) .ncxnc lat l b
        = copy_data A id ND (LOOP_VAR NC .ncxnc) .ncxnc
            (fun i mu j => (cast (lat i mu j).1, cast (lat i mu j).2)) l b := by
    intro l
    induction l with
    | nil => intro _; rfl
    | cons i l ih =>
      intro b
      simp only [copy_data, hput]
      have : (grab_sitedata A ND (LOOP_VAR NC .ncxnc) .ncxnc (lat i)).map cast
          = grab_sitedata A ND (LOOP_VAR NC .ncxnc) .ncxnc
            (fun mu j => (cast (lat i mu j).1, cast (lat i mu j).2)) := by
        simp [grab_sitedata, grab_link, List.map_flatMap]
      rw [this]
      congr 1
      funext b'
      exact ih b'
  simp only [write_binary_data, hcopy]

/-- A one-site, one-link, one-colour configuration: the number `1 + 2^-30`, which a float cannot
hold. -/
def singleLat : Lat dbl := fun _ _ _ => (0x3FF0000000400000#64, 0#64)

/-- C38 fails in an `OUT_SINGLE` build: whatever else the conversion to `float` does, if it takes
`1 + 2^-30` to `1` and `0` to `0`, then the file written for `singleLat` is read back with another
NERSC checksum than the one computed for its header, and another link (C39). -/
theorem C38_single_fails (cast : W64 → W64)
    (h1 : cast 0x3FF0000000400000#64 = 0x3FF0000000000000#64) (h0 : cast 0#64 = 0#64)
    (A : Arith dbl) (hA : A.Sized 1) (X : W32 → W32) (outBig bigW bigR : Bool) (old : Lat dbl) :
    ∃ file sums sums' new,
      write_binary_data A cast outBig bigW 1 (LOOP_VAR 1 .ncxnc) 1 .ncxnc singleLat [0] = some file ∧
      compute_checksum A X outBig bigW 1 (LOOP_VAR 1 .ncxnc) .ncxnc singleLat [[0]] = some sums ∧
      lattice_reader A X outBig bigR 1 1 1 .ncxnc file old [[0]] [[0]] = some (new, sums') ∧
      sums'.k ≠ sums.k ∧ new 0 0 0 ≠ singleLat 0 0 0 := by
  have hc : Covers 1 [0] := List.Perm.refl _
  obtain ⟨new, hr, hn⟩ := read_back dbl_lawful hA X outBig bigR 1 1 .ncxnc
    (fun i mu j => (cast (singleLat i mu j).1, cast (singleLat i mu j).2)) old []
    (fun _ _ _ _ => trivial) [[0]] [[0]] hc hc
  rw [List.append_nil] at hr
  refine ⟨_, _, _, new, writer_cast dbl_lawful hA cast outBig bigW 1 1 singleLat [0] hc,
    C37_schedule_independent_partial dbl_lawful hA X outBig bigW 1 1 .ncxnc singleLat [[0]] hc,
    hr, ?_, ?_⟩
  · simp only [sumsSpec, nerscSpec, allWords, siteWords, linkWords, singleLat, h1, h0]
    decide
  · rw [hn 0 (by norm_num) 0 (by norm_num) 0 (by norm_num)]
    simp only [singleLat, h1, h0]
    intro h
    exact absurd (congrArg Prod.fst h) (show ¬ (0x3FF0000000000000#64 = 0x3FF0000000400000#64) by decide)

/-! ### Examples -/

/-- A configuration of two sites and two directions with arbitrary three-colour links, read with
two threads on a machine of the other byte order. -/
example (A : Arith dbl) (hA : A.Sized 3) (lat old : Lat dbl) :
    ∃ file new sums,
      write_binary_data A id true false 2 (LOOP_VAR 3 .ncxnc) 2 .ncxnc lat [1, 0] = some file ∧
      lattice_reader A id true true 3 2 2 .ncxnc (file ++ [1#8]) old [[1], [0]] [[0, 1]]
        = some (new, sums) ∧
      ∀ i < 2, ∀ mu < 2, ∀ j < 3 * 3, new i mu j = lat i mu j :=
  C39_full_matrix dbl_lawful hA id true false true 2 2 lat old [1#8] [1, 0]
    (List.Perm.swap _ _ _) [[1], [0]] [[0, 1]] (List.Perm.swap _ _ _) (List.Perm.refl _)

/-- The hypotheses of `C39_two_rows` hold for the unit matrix: reading `0x3FF0000000000000` as 1
and everything else as 0. -/
example : ∃ (val : W64 → ℝ) (rnd : ℝ → W64) (link : Arr (W64 × W64)),
    GLU.Mat.IsSU 3 (valueOf (P := dbl) val link) ∧ (link 0).1 ≠ 0#64 ∧
    ∀ j, 3 * 3 - 3 ≤ j → j < 3 * 3 →
      rnd (val (link j).1) = (link j).1 ∧ rnd (val (link j).2) = (link j).2 := by
  refine ⟨fun w => if w = 0x3FF0000000000000#64 then 1 else 0,
    fun x => if x = 1 then 0x3FF0000000000000#64 else 0#64,
    fun j => (if j % 4 = 0 then 0x3FF0000000000000#64 else 0#64, 0#64), ?_, by decide, ?_⟩
  · have : toM 3 (valueOf (P := dbl) (fun w : W64 => if w = 0x3FF0000000000000#64 then 1 else 0)
        fun j => (if j % 4 = 0 then 0x3FF0000000000000#64 else 0#64, 0#64)) = 1 := by
      ext i j
      fin_cases i <;> fin_cases j <;> simp [toM, valueOf, Complex.ext_iff]
    exact Eq.subst (motive := fun M => M ∈ Matrix.specialUnitaryGroup (Fin 3) ℂ) this.symm
      (one_mem _)
  · intro j h1 h2
    interval_cases j <;> simp

end GLU.IO
