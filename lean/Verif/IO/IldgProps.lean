import Verif.IO.XmlProps

/-! # C45, C71: ILDG headers; headers for another number of colours -/

namespace GLU.IO

/-- The items of one direction of the geometry. -/
def dirItems (name : Str) (v : ℕ) : List Item :=
  [.tag name, .text (decimal v), .tag ('/' :: name)]

/-- The items of `ildgText`. -/
def ildgItems (single : Bool) (geo : List Item) : List Item :=
  [.tag (chars "?xml version=\"1.0\" encoding=\"UTF-8\"?"),
    .tag (chars "ildgFormat xmlns=\"http://www.lqcd.org/ildg\" xmlns:xsi=\"http://www.w3.org/2001/XMLSchema-instance\" xsi:schemaLocation=\"http://www.lqcd.org/ildg/filefmt.xsd\""),
    .tag (chars "version"), .text (chars "1.0"), .tag (chars "/version"), .tag (chars "field"),
    .text (chars "su3gauge"), .tag (chars "/field"), .tag (chars "precision"),
    .text (if single then chars "32" else chars "64"), .tag (chars "/precision")] ++ geo ++
  [.tag (chars "/ildgFormat")]

/-- The geometry in four dimensions. -/
def geo4 (dims : ℕ → ℕ) : List Item := dirItems (chars "lx") (dims 0) ++
  dirItems (chars "ly") (dims 1) ++ dirItems (chars "lz") (dims 2) ++ dirItems (chars "lt") (dims 3)

/-- The geometry in five dimensions: the name of the fourth is used twice. -/
def geo5 (dims : ℕ → ℕ) : List Item := dirItems (chars "lx") (dims 0) ++
  dirItems (chars "ly") (dims 1) ++ dirItems (chars "lz") (dims 2) ++
  dirItems (chars "lt") (dims 3) ++ dirItems (chars "lt") (dims 4)

set_option maxRecDepth 16000 in
theorem ildgText_items4 (single : Bool) (dims : ℕ → ℕ) :
    ildgText single 4 dims = (ildgItems single (geo4 dims)).flatMap Item.render := by
  cases single <;>
  simp [ildgText, ildgItems, Item.render, geo4, dirItems, geometryText, List.range_succ]

set_option maxRecDepth 16000 in
theorem ildgText_items5 (single : Bool) (dims : ℕ → ℕ) :
    ildgText single 5 dims = (ildgItems single (geo5 dims)).flatMap Item.render := by
  cases single <;>
  simp [ildgText, ildgItems, Item.render, geo5, dirItems, geometryText, List.range_succ]

theorem dir_ok (name : Str) (hv : (Item.tag name).Valid) (hv' : (Item.tag ('/' :: name)).Valid)
    (hp : Plain name) (v : ℕ) :
    (∀ i ∈ dirItems name v, i.Valid) ∧ ∀ i ∈ dirItems name v, Plain i.content := by
  constructor <;>
    simp only [dirItems, List.forall_mem_cons, List.not_mem_nil, false_imp_iff, implies_true,
      and_true]
  · exact ⟨hv, decimal_valid v, hv'⟩
  · refine ⟨hp, decimal_Plain v, ?_⟩
    intro c hc
    rcases List.mem_cons.1 hc with rfl | hc
    · decide
    · exact hp c hc

theorem geo4_ok (dims : ℕ → ℕ) :
    (∀ i ∈ geo4 dims, i.Valid) ∧ ∀ i ∈ geo4 dims, Plain i.content := by
  have h0 := dir_ok (chars "lx") (by decide) (by decide) (by decide) (dims 0)
  have h1 := dir_ok (chars "ly") (by decide) (by decide) (by decide) (dims 1)
  have h2 := dir_ok (chars "lz") (by decide) (by decide) (by decide) (dims 2)
  have h3 := dir_ok (chars "lt") (by decide) (by decide) (by decide) (dims 3)
  constructor <;> simp only [geo4, List.forall_mem_append]
  · exact ⟨⟨⟨h0.1, h1.1⟩, h2.1⟩, h3.1⟩
  · exact ⟨⟨⟨h0.2, h1.2⟩, h2.2⟩, h3.2⟩

theorem geo5_ok (dims : ℕ → ℕ) :
    (∀ i ∈ geo5 dims, i.Valid) ∧ ∀ i ∈ geo5 dims, Plain i.content := by
  have h := geo4_ok dims
  have h4 := dir_ok (chars "lt") (by decide) (by decide) (by decide) (dims 4)
  constructor <;> simp only [geo5, geo4, List.forall_mem_append] at h ⊢
  · exact ⟨h.1, h4.1⟩
  · exact ⟨h.2, h4.2⟩

set_option maxRecDepth 8000 in
theorem ildg_ok (single : Bool) (geo : List Item) (h : (∀ i ∈ geo, i.Valid) ∧
    ∀ i ∈ geo, Plain i.content) :
    (∀ i ∈ ildgItems single geo, i.Valid) ∧ ∀ i ∈ ildgItems single geo, Plain i.content := by
  constructor <;> simp only [ildgItems, List.forall_mem_append] <;>
    refine ⟨⟨?_, ?_⟩, ?_⟩ <;> first
      | exact h.1 | exact h.2
      | (simp only [List.forall_mem_cons, List.not_mem_nil, false_imp_iff, implies_true, and_true]
         cases single <;> decide)

/-! ### Steps -/

theorem step_field (ND n : ℕ) (l : List Str) (x : Xml) :
    xml_loop ND 3 (n + 1) (chars "field" :: chars "su3gauge" :: chars "/field" :: l) x
      = xml_loop ND 3 n l { x with ncxnc := true } := by
  have : field_loop 3 x.ncxnc (chars "su3gauge" :: chars "/field" :: l) = .ok (true, some l) := by
    have h3 : decimal 3 = ['3'] := by decide
    rw [field_loop, if_neg (by decide)]
    simp only [h3]
    rw [if_neg (by decide), if_pos (by decide), field_loop, if_pos rfl]
  rw [xml_loop, if_neg (by decide), if_neg (by decide), if_neg (by decide), if_neg (by decide),
    if_neg (by decide), if_neg (by decide), if_neg (by decide), if_pos rfl, this]
  rfl

theorem step_field_other (ND NC n : ℕ) (hNC : NC < 100) (h3 : NC ≠ 3) (l : List Str) (x : Xml) :
    xml_loop ND NC (n + 1) (chars "field" :: chars "su3gauge" :: chars "/field" :: l) x
      = .ok (false, x) := by
  have hlen : (decimal NC).length ≤ 2 := by
    rw [decimal_eq, List.length_map]
    exact digs_length 10 NC 2 (by norm_num) (by norm_num) (by omega)
  have : field_loop NC x.ncxnc (chars "su3gauge" :: chars "/field" :: l)
      = .ok (x.ncxnc, none) := by
    rw [field_loop, if_neg (by decide)]
    simp only
    rw [if_neg (by simp; omega), if_neg]
    intro h
    have hr : (realFront (chars "su3gauge")).take 8 = chars "su3gauge" := by decide
    rw [hr] at h
    obtain ⟨d, hd, s, hs⟩ := decimal_head NC
    rw [hs] at h hlen
    simp only [List.cons_append, List.nil_append, List.take_succ_cons, List.cons.injEq, true_and]
      at h
    obtain ⟨h1, h2⟩ := h
    cases s with
    | nil =>
      have : decimal NC = decimal 3 := by rw [hs, h1]; decide
      exact h3 (decimal_injective this)
    | cons c s =>
      obtain ⟨e, he, hc⟩ := decimal_chars NC c (by rw [hs]; simp)
      simp only [List.cons_append, List.take_succ_cons, List.cons.injEq] at h2
      rw [hc] at h2
      have : Nat.digitChar e ≠ 'g' := by interval_cases e <;> decide
      exact this h2.1
  rw [xml_loop, if_neg (by decide), if_neg (by decide), if_neg (by decide), if_neg (by decide),
    if_neg (by decide), if_neg (by decide), if_neg (by decide), if_pos rfl, this]
  rfl

/-- One direction whose name is used once: the extent is stored; nothing changes when it was
already known. -/
theorem step_dir (ND NC n : ℕ) (mu v : ℕ) (name : Str) (hname : name = search ND mu)
    (huniq : ∀ nu < ND, name = search ND nu → nu = mu) (hmu : mu < ND) (hk : name ∉ keys)
    (hv : v < 2 ^ 31) (x : Xml) (hx : x.dims mu = v) (l : List Str) :
    xml_loop ND NC (n + 1) (name :: decimal v :: ('/' :: name) :: l) x = xml_loop ND NC n l x := by
  have hg : ∀ mus : List ℕ, (∀ nu ∈ mus, nu < ND) → mus.Nodup → ∀ d : ℕ → ℕ, d mu = v →
      geometry ND name mus (decimal v :: ('/' :: name) :: l) d
        = (if mu ∈ mus then l else decimal v :: ('/' :: name) :: l, d) := by
    intro mus
    induction mus with
    | nil => intro _ _ d _; rfl
    | cons nu mus ih =>
      intro hlt hnd d hd
      obtain ⟨h1, h2⟩ := List.nodup_cons.1 hnd
      by_cases e : name = search ND nu
      · have hnu : nu = mu := huniq nu (hlt nu List.mem_cons_self) e
        subst hnu
        have hrest : ∀ mus : List ℕ, (∀ k ∈ mus, k < ND) → nu ∉ mus → ∀ l d,
            geometry ND name mus l d = (l, d) := by
          intro mus
          induction mus with
          | nil => intros; rfl
          | cons k mus ih =>
            intro hk hn l d
            rw [geometry, if_neg, ih (fun k hk' => hk k (List.mem_cons_of_mem _ hk'))
              (fun h => hn (List.mem_cons_of_mem _ h))]
            intro h
            exact hn (by rw [huniq k (hk k List.mem_cons_self) h]; exact List.mem_cons_self)
        rw [geometry, if_pos e, ← e, get_int_tag_decimal name v hv l]
        simp only
        rw [hrest mus (fun k hk => hlt k (List.mem_cons_of_mem _ hk)) h1, if_pos List.mem_cons_self]
        congr 1
        split
        · rw [toSize_nat v (by omega), ← hd, Function.update_eq_self]
        · rfl
      · rw [geometry, if_neg e, ih (fun k hk => hlt k (List.mem_cons_of_mem _ hk)) h2 d hd]
        congr 1
        have : mu ≠ nu := fun h => e (h ▸ hname)
        simp [this]
  have hk' := hk
  simp only [keys, List.mem_cons, List.not_mem_nil, or_false, not_or] at hk'
  rw [xml_loop]
  simp only [hk', if_false, or_self]
  rw [hg (List.range ND) (fun nu h => List.mem_range.1 h) List.nodup_range x.dims hx,
    if_pos (List.mem_range.2 hmu)]

/-- In four dimensions the record changes nothing that is already known. -/
theorem ildg_record4 (single : Bool) (NC : ℕ) (hNC : NC < 100) (dims : ℕ → ℕ)
    (hd : ∀ mu < 4, dims mu < 2 ^ 31) (x : Xml) (hx : ∀ mu < 4, x.dims mu = dims mu)
    (hb : x.big = true) (hn : x.ncxnc = true) (hdb : x.double = !single) :
    ∃ b, parse_and_set_xml_SCIDAC 4 NC (ofBytes (ascii (ildgText single 4 dims))) x = .ok (b, x) := by
  obtain ⟨hv, hp⟩ := ildg_ok single _ (geo4_ok dims)
  have hx' : ({ x with big := true } : Xml) = x := by cases x; simp_all
  rw [ildgText_items4, ofBytes_ascii _ (render_plain _ hp),
    parse_items 4 NC _ hv (by cases single <;> rfl) x _ _
      [chars "version", chars "1.0", chars "/version", chars "field", chars "su3gauge",
      chars "/field", chars "precision", (if single then chars "32" else chars "64"), chars "/precision",
      chars "lx", decimal (dims 0), chars "/lx", chars "ly", decimal (dims 1), chars "/ly", chars "lz", decimal (dims 2), chars "/lz", chars "lt", decimal (dims 3), chars "/lt", chars "/ildgFormat"]
      rfl (by decide), hx']
  simp only [List.length_cons, List.length_nil]
  rw [step_other (other_of_key (by decide) (by decide)),
    step_other (other_of_key (by decide) (by decide)),
    step_other (other_of_key (by decide) (by decide))]
  by_cases h3 : NC = 3
  · subst h3
    have e1 : ({ x with ncxnc := true } : Xml) = x := by cases x; simp_all
    have e2 : ({ x with double := !single } : Xml) = x := by cases x; simp_all
    refine ⟨true, ?_⟩
    rw [step_field, e1, step_precision 4 3 _ _ (!single) (by cases single <;> simp), e2,
      step_dir 4 3 _ 0 _ _ (by decide) (by decide) (by decide) (by decide) (hd 0 (by decide)) x
        (hx 0 (by decide)),
      step_dir 4 3 _ 1 _ _ (by decide) (by decide) (by decide) (by decide) (hd 1 (by decide)) x
        (hx 1 (by decide)),
      step_dir 4 3 _ 2 _ _ (by decide) (by decide) (by decide) (by decide) (hd 2 (by decide)) x
        (hx 2 (by decide)),
      step_dir 4 3 _ 3 _ _ (by decide) (by decide) (by decide) (by decide) (hd 3 (by decide)) x
        (hx 3 (by decide)), xml_loop, if_pos (by decide)]
  · exact ⟨false, by rw [step_field_other 4 NC _ hNC h3]⟩

/-- In five dimensions the record of a three-colour file sets the last extent to `2^64-1`: the name
`lt` is used for the last two directions. -/
theorem ildg_record5 (single : Bool) (dims : ℕ → ℕ)
    (hd : ∀ mu < 5, dims mu < 2 ^ 31) (x : Xml) (hx : ∀ mu < 5, x.dims mu = dims mu)
    (hb : x.big = true) (hn : x.ncxnc = true) (hdb : x.double = !single) :
    parse_and_set_xml_SCIDAC 5 3 (ofBytes (ascii (ildgText single 5 dims))) x
      = .ok (true, { x with dims := Function.update x.dims 4 (2 ^ 64 - 1) }) := by
  obtain ⟨hv, hp⟩ := ildg_ok single _ (geo5_ok dims)
  have hx' : ({ x with big := true } : Xml) = x := by cases x; simp_all
  rw [ildgText_items5, ofBytes_ascii _ (render_plain _ hp),
    parse_items 5 3 _ hv (by cases single <;> rfl) x _ _
      [chars "version", chars "1.0", chars "/version", chars "field", chars "su3gauge",
      chars "/field", chars "precision", (if single then chars "32" else chars "64"), chars "/precision",
      chars "lx", decimal (dims 0), chars "/lx", chars "ly", decimal (dims 1), chars "/ly", chars "lz", decimal (dims 2), chars "/lz", chars "lt", decimal (dims 3), chars "/lt", chars "lt", decimal (dims 4), chars "/lt", chars "/ildgFormat"]
      rfl (by decide), hx']
  simp only [List.length_cons, List.length_nil]
  have e1 : ({ x with ncxnc := true } : Xml) = x := by cases x; simp_all
  have e2 : ({ x with double := !single } : Xml) = x := by cases x; simp_all
  rw [step_other (other_of_key (by decide) (by decide)),
    step_other (other_of_key (by decide) (by decide)),
    step_other (other_of_key (by decide) (by decide)),
    step_field, e1, step_precision 5 3 _ _ (!single) (by cases single <;> simp), e2,
    step_dir 5 3 _ 0 _ _ (by decide) (by decide) (by decide) (by decide) (hd 0 (by decide)) x
      (hx 0 (by decide)),
    step_dir 5 3 _ 1 _ _ (by decide) (by decide) (by decide) (by decide) (hd 1 (by decide)) x
      (hx 1 (by decide)),
    step_dir 5 3 _ 2 _ _ (by decide) (by decide) (by decide) (by decide) (hd 2 (by decide)) x
      (hx 2 (by decide))]
  have hg : ∀ rest : List Str, geometry 5 (chars "lt") (List.range 5)
      (decimal (dims 3) :: chars "/lt" :: chars "lt" :: rest) x.dims
      = (rest, Function.update x.dims 4 (2 ^ 64 - 1)) := by
    intro rest
    have hl : List.range 5 = [0, 1, 2, 3, 4] := by decide
    have hi := get_int_tag_decimal (chars "lt") (dims 3) (hd 3 (by decide)) (chars "lt" :: rest)
    have hs3 : search 5 3 = chars "lt" := by decide
    have hs4 : search 5 4 = chars "lt" := by decide
    have hi4 : get_int_tag (chars "lt") 0 (chars "lt" :: rest) = (-1, rest) := by
      have hst : strtol (realFront (chars "lt")) = none := by decide
      rw [get_int_tag, if_neg (by decide), hst]
    rw [hl, geometry, if_neg (by decide), geometry, if_neg (by decide), geometry,
      if_neg (by decide), geometry, if_pos (by decide), hs3, hi]
    simp only
    rw [geometry, if_pos (by decide), hs4, hi4]
    simp only
    rw [geometry, if_pos (by decide), show toSize (-1) = 2 ^ 64 - 1 by decide]
    congr 1
    congr 1
    split
    · rw [toSize_nat _ (lt_trans (hd 3 (by decide)) (by norm_num)), ← hx 3 (by decide),
        Function.update_eq_self]
    · rfl
  rw [xml_loop, if_neg (by decide), if_neg (by decide), if_neg (by decide), if_neg (by decide),
    if_neg (by decide), if_neg (by decide), if_neg (by decide), if_neg (by decide), hg,
    step_other (other_decimal 5 _), step_other (other_of_key (by decide) (by decide)), xml_loop,
    if_pos (by decide)]

/-! ### Whole files -/

theorem fold_ildg_start (single : Bool) (ND NC : ℕ) (hND : 0 < ND) (h0 : 0 < NC)
    (hs : 4 * (ND * (NC * NC)) < 2 ^ 31) (dims : ℕ → ℕ) (hd : ∀ mu < ND, dims mu < 2 ^ 63)
    (date : Str) (hdate : DateLike date) (x : Xml) (l : List (List Byte × List Byte)) :
    fold (handle_xml ND NC) x ((ildgRecords single ND NC dims date).take 4 ++ l)
      = fold (handle_xml ND NC) (learnt single ND dims x) l := by
  have hpos : 0 < ND * (NC * NC) := Nat.mul_pos hND (Nat.mul_pos h0 h0)
  have hND' : ND < 2 ^ 31 := by nlinarith [Nat.mul_pos h0 h0]
  have hf : parse_and_set_xml_SCIDAC ND NC (ofBytes (ascii (fileText ND dims
      (chars "</ScidacFile>")))) x = .ok (true, { x with big := true, dims := setAll ND dims x.dims }) :=
    file_record ND NC hND hND' dims hd (chars "/ScidacFile") (by decide) (by decide) x
  simp only [ildgRecords, List.take_succ_cons, List.take_zero, List.cons_append, List.nil_append]
  rw [fold, handle_plain ND NC _ _ x _ true (by decide) (by decide) hf]
  simp only [Out.bind]
  rw [fold, handle_plain ND NC _ _ _ _ true (by decide) (by decide)
    (ignored_record ND NC _ (by decide) _ _ rfl (by decide) _)]
  simp only [Out.bind]
  rw [fold, handle_plain ND NC _ _ _ _ true (by decide) (by decide)
    (record_record single ND NC hpos hs date hdate _)]
  simp only [Out.bind]
  rw [fold, handle_plain ND NC _ _ _ _ true (by decide) (by decide)
    (ignored_record ND NC _ (by decide) _ _ rfl (by decide) _)]
  rfl

theorem ildgText_length4 (single : Bool) (dims : ℕ → ℕ) (hd : ∀ mu < 4, dims mu < 2 ^ 31) :
    (ildgText single 4 dims).length ≤ 1000 := by
  have h0 := decimal_length (dims 0) (by have := hd 0 (by decide); omega)
  have h1 := decimal_length (dims 1) (by have := hd 1 (by decide); omega)
  have h2 := decimal_length (dims 2) (by have := hd 2 (by decide); omega)
  have h3 := decimal_length (dims 3) (by have := hd 3 (by decide); omega)
  have hr : List.range (4 - 1) = [0, 1, 2] := by decide
  cases single <;>
    simp only [ildgText, geometryText, hr, List.flatMap_cons, List.flatMap_nil,
      List.length_append, List.length_cons, List.length_nil, Bool.false_eq_true, if_true, if_false,
      OfNat.ofNat_ne_zero, OfNat.one_ne_ofNat, one_ne_zero, OfNat.ofNat_ne_one,
      Nat.reduceSub] <;> omega

theorem ildgText_length5 (single : Bool) (dims : ℕ → ℕ) (hd : ∀ mu < 5, dims mu < 2 ^ 31) :
    (ildgText single 5 dims).length ≤ 1000 := by
  have h0 := decimal_length (dims 0) (by have := hd 0 (by decide); omega)
  have h1 := decimal_length (dims 1) (by have := hd 1 (by decide); omega)
  have h2 := decimal_length (dims 2) (by have := hd 2 (by decide); omega)
  have h3 := decimal_length (dims 3) (by have := hd 3 (by decide); omega)
  have h4 := decimal_length (dims 4) (by have := hd 4 (by decide); omega)
  have hr : List.range (5 - 1) = [0, 1, 2, 3] := by decide
  cases single <;>
    simp only [ildgText, geometryText, hr, List.flatMap_cons, List.flatMap_nil,
      List.length_append, List.length_cons, List.length_nil, Bool.false_eq_true, if_true, if_false,
      OfNat.ofNat_ne_zero, OfNat.one_ne_ofNat, one_ne_zero, OfNat.ofNat_ne_one,
      Nat.reduceSub, Nat.reduceEqDiff] <;> omega

theorem ildg_writable (alloc : ℕ → Bool) (single : Bool) (ND NC : ℕ) (hND : 0 < ND) (h0 : 0 < NC)
    (hs : 4 * (ND * (NC * NC)) < 2 ^ 31) (dims : ℕ → ℕ) (hd : ∀ mu < ND, dims mu < 2 ^ 63)
    (date : Str) (hdl : date.length < 2 ^ 32) (ha : ∀ n < 2 ^ 63, alloc n = true)
    (hg : (ildgText single ND dims).length ≤ 1000) :
    ∀ r ∈ ildgRecords single ND NC dims date, Writable alloc r := by
  have hND' : ND < 2 ^ 31 := by nlinarith [Nat.mul_pos h0 h0]
  have hNC' : NC < 2 ^ 31 := by nlinarith [Nat.mul_pos h0 h0]
  have hl1 := fileText_length ND hND hND' dims hd (chars "</ScidacFile>")
  have hl2 := recordText_length single ND NC hND' hNC' hs date
  intro r hr
  simp only [ildgRecords, List.mem_cons, List.not_mem_nil, or_false] at hr
  rcases hr with rfl | rfl | rfl | rfl | rfl | rfl
  · refine writable_mk alloc _ _ (by decide) (by decide) (by decide) ?_ ha
    simp only [List.length_cons, List.length_nil] at hl1
    omega
  · exact writable_mk alloc _ _ (by decide) (by decide) (by decide) (by decide) ha
  · exact writable_mk alloc _ _ (by decide) (by decide) (by decide) (by omega) ha
  · exact writable_mk alloc _ _ (by decide) (by decide) (by decide) (by decide) ha
  · exact writable_mk alloc _ _ (by decide) (by decide) (by decide) (by omega) ha
  · exact writable_mk alloc _ _ (by decide) (by decide) (by decide) (by decide) ha

/-- Reading the header of an ILDG file comes to folding over its records. -/
theorem ildg_file (alloc : ℕ → Bool) (single big big' : Bool) (ND NC volume : ℕ) (dims : ℕ → ℕ)
    (date : Str) (hW : ∀ r ∈ ildgRecords single ND NC dims date, Writable alloc r)
    (data rest : List Byte) (hdata : data.length = declared single ND NC volume)
    (hn : data.length < 2 ^ 64) :
    ∃ w, write_header_ILDG single big ND NC dims volume date = .ok w ∧
      ∀ (NC' : ℕ) (x : Xml), get_header_data_SCIDAC alloc (handle_xml ND NC') big' x
          (w ++ (data ++ rest))
        = (fold (handle_xml ND NC') x (ildgRecords single ND NC dims date)).bind fun y =>
          .ok (y, data ++ rest) := by
  obtain ⟨w, hw, -⟩ := write_records_ok big (ildgRecords single ND NC dims date)
    fun r hr => (hW r hr).1
  have h8 : 8 ∣ data.length := by
    rw [hdata]; exact C46_binary_length volume ND NC (!single)
  obtain ⟨h, hh⟩ : ∃ h, write_SCIDAC_binary big [] data.length ildgBinary = .ok h :=
    ⟨_, by rw [write_SCIDAC_binary, if_neg (by decide)]⟩
  refine ⟨w ++ h, ?_, fun NC' x => ?_⟩
  · rw [write_header_ILDG, hw, ← hdata, hh]; rfl
  · rw [get_header_data_SCIDAC, show 12 = (ildgRecords single ND NC dims date).length + 6 from rfl,
      List.append_assoc, header_loop_records alloc _ big big' _ hW 6 x _ w hw]
    congr 1
    funext s'
    rw [header_loop, parse_binary alloc _ big big' data.length hn h8 _ (Or.inr rfl) s' _ h hh]
    rfl

/-- The program accepts its own ILDG files in four dimensions, on every machine: it learns
precision, storage, byte order and dimensions and stops at the links. -/
theorem C45_ildg_partial (alloc : ℕ → Bool) (single big big' : Bool) (NC volume : ℕ) (h0 : 0 < NC)
    (hNC : NC < 100) (dims : ℕ → ℕ) (hd : ∀ mu < 4, dims mu < 2 ^ 31) (date : Str)
    (hdate : DateLike date) (hdl : date.length < 2 ^ 32) (ha : ∀ n < 2 ^ 63, alloc n = true)
    (data rest : List Byte) (hdata : data.length = declared single 4 NC volume)
    (hn : data.length < 2 ^ 64) :
    ∃ w, write_header_ILDG single big 4 NC dims volume date = .ok w ∧
      ∀ x, get_header_data_SCIDAC alloc (handle_xml 4 NC) big' x (w ++ (data ++ rest))
        = .ok (learnt single 4 dims x, data ++ rest) := by
  have hd' : ∀ mu < 4, dims mu < 2 ^ 63 := fun mu h => lt_trans (hd mu h) (by norm_num)
  have hs : 4 * (4 * (NC * NC)) < 2 ^ 31 := by nlinarith
  have hW := ildg_writable alloc single 4 NC (by decide) h0 hs dims hd' date hdl ha
    (ildgText_length4 single dims hd)
  obtain ⟨w, hw, hr⟩ := ildg_file alloc single big big' 4 NC volume dims date hW data rest hdata hn
  refine ⟨w, hw, fun x => ?_⟩
  rw [hr NC x]
  have hf := fold_ildg_start single 4 NC (by decide) h0 hs dims hd' date hdate x
    ((ildgRecords single 4 NC dims date).drop 4)
  rw [List.take_append_drop] at hf
  rw [hf]
  obtain ⟨b, hb⟩ := ildg_record4 single NC hNC dims hd (learnt single 4 dims x)
    (fun mu h => by simp [learnt, setAll, h]) rfl rfl rfl
  simp only [ildgRecords, List.drop_succ_cons, List.drop_zero]
  rw [fold, handle_plain 4 NC _ _ _ _ b (by decide) (by decide) hb]
  simp only [Out.bind]
  rw [fold, handle_plain 4 NC _ _ _ _ true (by decide) (by decide)
    (ignored_record 4 NC _ (by decide) _ _ rfl (by decide) _)]
  rfl

/-- The claim fails in five dimensions: the header of a three-colour ILDG file is accepted, but the
last extent read from it is `2^64-1`. -/
theorem C45_ildg_five_fails (alloc : ℕ → Bool) (single big big' : Bool) (volume : ℕ)
    (dims : ℕ → ℕ) (hd : ∀ mu < 5, dims mu < 2 ^ 31) (date : Str)
    (hdate : DateLike date) (hdl : date.length < 2 ^ 32) (ha : ∀ n < 2 ^ 63, alloc n = true)
    (data rest : List Byte) (hdata : data.length = declared single 5 3 volume)
    (hn : data.length < 2 ^ 64) :
    ∃ w, write_header_ILDG single big 5 3 dims volume date = .ok w ∧
      ∀ x, ∃ y, get_header_data_SCIDAC alloc (handle_xml 5 3) big' x (w ++ (data ++ rest))
        = .ok (y, data ++ rest) ∧ y.dims 4 = 2 ^ 64 - 1 := by
  have hd' : ∀ mu < 5, dims mu < 2 ^ 63 := fun mu h => lt_trans (hd mu h) (by norm_num)
  have hW := ildg_writable alloc single 5 3 (by decide) (by decide) (by decide) dims hd' date hdl ha
    (ildgText_length5 single dims hd)
  obtain ⟨w, hw, hr⟩ := ildg_file alloc single big big' 5 3 volume dims date hW data rest hdata hn
  refine ⟨w, hw, fun x => ⟨{ learnt single 5 dims x with
    dims := Function.update (learnt single 5 dims x).dims 4 (2 ^ 64 - 1) }, ?_, ?_⟩⟩
  · rw [hr 3 x]
    have hf := fold_ildg_start single 5 3 (by decide) (by decide) (by decide) dims hd' date hdate x
      ((ildgRecords single 5 3 dims date).drop 4)
    rw [List.take_append_drop] at hf
    rw [hf]
    have hb := ildg_record5 single dims hd (learnt single 5 dims x)
      (fun mu h => by simp [learnt, setAll, h]) rfl rfl rfl
    simp only [ildgRecords, List.drop_succ_cons, List.drop_zero]
    rw [fold, handle_plain 5 3 _ _ _ _ true (by decide) (by decide) hb]
    simp only [Out.bind]
    rw [fold, handle_plain 5 3 _ _ _ _ true (by decide) (by decide)
      (ignored_record 5 3 _ (by decide) _ _ rfl (by decide) _)]
    rfl
  · simp

/-! ### C71: files for another number of colours -/

theorem record_wrong (single : Bool) (ND NC NC' : ℕ) (h0 : 0 < NC) (hne : NC ≠ NC')
    (hNC : NC < 2 ^ 31) (date : Str) (hdate : DateLike date) (x : Xml) :
    parse_and_set_xml_SCIDAC ND NC' (ofBytes (ascii (recordText single ND NC date))) x
      = .ok (false, { x with big := true, double := !single }) := by
  obtain ⟨hv, hp⟩ := record_items_ok single ND NC date hdate
  rw [recordText_items, ofBytes_ascii _ (render_plain _ hp),
    parse_items ND NC' _ hv (by cases single <;> rfl) x _ _ _ rfl (by decide)]
  simp only [List.length_cons, List.length_nil, List.map_cons, List.map_nil]
  have o1 : Other ND (Item.text (date ++ chars " GMT")).content :=
    other_of_space (List.mem_append_right _ (by decide))
  have o2 : Other ND (Item.text (chars "QDP_" ++ (if single then chars "F" else chars "D") ++
      decimal NC ++ chars "_ColorMatrix")).content := other_of_head (c := 'Q') rfl (by decide)
  rw [step_other (other_of_key (by decide) (by decide)),
    step_other (other_of_key (by decide) (by decide)),
    step_other (other_of_key (by decide) (by decide)),
    step_other (other_of_key (by decide) (by decide)),
    step_other o1,
    step_other (other_of_key (by decide) (by decide)),
    step_other (other_of_key (by decide) (by decide)),
    step_other (other_of_key (by decide) (by decide)),
    step_other (other_of_key (by decide) (by decide)),
    step_other (other_of_key (by decide) (by decide)),
    step_other o2,
    step_other (other_of_key (by decide) (by decide))]
  simp only [Item.content]
  rw [step_precision ND NC' _ _ (!single) (by cases single <;> simp),
    step_colors_wrong ND NC' _ NC hNC hne (by omega)]

/-- A SciDAC file for another number of colours is not refused: the mismatch is detected, but the
result is ignored, and reading the header succeeds. -/
theorem C71_scidac_fails (alloc : ℕ → Bool) (single big big' : Bool) (ND NC NC' volume : ℕ)
    (hND : 0 < ND) (h0 : 0 < NC) (hne : NC ≠ NC') (hs : 4 * (ND * (NC * NC)) < 2 ^ 31)
    (dims : ℕ → ℕ) (hd : ∀ mu < ND, dims mu < 2 ^ 63) (date : Str) (hdate : DateLike date)
    (hdl : date.length < 2 ^ 32) (ha : ∀ n < 2 ^ 63, alloc n = true)
    (data rest : List Byte) (hdata : data.length = declared single ND NC volume)
    (hn : data.length < 2 ^ 64) :
    ∃ w, write_header_SCIDAC single big ND NC dims volume date = .ok w ∧
      ∀ x, get_header_data_SCIDAC alloc (handle_xml ND NC') big' x (w ++ (data ++ rest))
        = .ok ({ x with big := true, double := !single, dims := setAll ND dims x.dims },
          data ++ rest) := by
  have hND' : ND < 2 ^ 31 := by nlinarith [Nat.mul_pos h0 h0]
  have hNC' : NC < 2 ^ 31 := by nlinarith [Nat.mul_pos h0 h0]
  have hl1 := fileText_length ND hND hND' dims hd (chars "</scidacFile>")
  have hl2 := recordText_length single ND NC hND' hNC' hs date
  have hW : ∀ r ∈ scidacRecords single ND NC dims date, Writable alloc r := by
    intro r hr
    simp only [scidacRecords, List.mem_cons, List.not_mem_nil, or_false] at hr
    rcases hr with rfl | rfl | rfl | rfl
    · refine writable_mk alloc _ _ (by decide) (by decide) (by decide) ?_ ha
      simp only [List.length_cons, List.length_nil] at hl1
      omega
    · exact writable_mk alloc _ _ (by decide) (by decide) (by decide) (by decide) ha
    · exact writable_mk alloc _ _ (by decide) (by decide) (by decide) (by omega) ha
    · exact writable_mk alloc _ _ (by decide) (by decide) (by decide) (by decide) ha
  obtain ⟨w, hw, -⟩ := write_records_ok big (scidacRecords single ND NC dims date)
    fun r hr => (hW r hr).1
  have h8 : 8 ∣ data.length := by
    rw [hdata]; exact C46_binary_length volume ND NC (!single)
  obtain ⟨h, hh⟩ : ∃ h, write_SCIDAC_binary big [] data.length scidacBinary = .ok h :=
    ⟨_, by rw [write_SCIDAC_binary, if_neg (by decide)]⟩
  refine ⟨w ++ h, ?_, fun x => ?_⟩
  · rw [write_header_SCIDAC, hw, ← hdata, hh]; rfl
  · rw [get_header_data_SCIDAC, show 12 = (scidacRecords single ND NC dims date).length + 8 from rfl,
      List.append_assoc, header_loop_records alloc _ big big' _ hW 8 x _ w hw]
    have hf : parse_and_set_xml_SCIDAC ND NC' (ofBytes (ascii (fileText ND dims
        (chars "</scidacFile>")))) x
        = .ok (true, { x with big := true, dims := setAll ND dims x.dims }) :=
      file_record ND NC' hND hND' dims hd (chars "/scidacFile") (by decide) (by decide) x
    unfold scidacRecords
    rw [fold, handle_plain ND NC' _ _ x _ true (by decide) (by decide) hf]
    simp only [Out.bind]
    rw [fold, handle_plain ND NC' _ _ _ _ true (by decide) (by decide)
      (ignored_record ND NC' _ (by decide) _ _ rfl (by decide) _)]
    simp only [Out.bind]
    rw [fold, handle_plain ND NC' _ _ _ _ false (by decide) (by decide)
      (record_wrong single ND NC NC' h0 hne hNC' date hdate _)]
    simp only [Out.bind]
    rw [fold, handle_plain ND NC' _ _ _ _ true (by decide) (by decide)
      (ignored_record ND NC' _ (by decide) _ _ rfl (by decide) _)]
    simp only [Out.bind, fold]
    rw [header_loop, parse_binary alloc _ big big' data.length hn h8 _ (Or.inl rfl) _ _ h hh]
    rfl

/-- A HiRep file for another number of colours is refused. -/
theorem C71_hirep (big big' : Bool) (ND NC NC' : ℕ) (hNC : NC < 2 ^ 31) (hne : NC ≠ NC')
    (hND : 0 < ND) (dims : ℕ → ℕ) (plaq : W64) (rest : List Byte) :
    get_header_data_HIREP big' ND NC' (write_header_HIREP true big ND NC dims plaq ++ rest)
      = .fail := by
  obtain ⟨n, rfl⟩ : ∃ n, ND = n + 1 := ⟨ND - 1, by omega⟩
  have hlen : (BitVec.ofNat 32 NC :: BitVec.ofNat 32 (dims n) ::
    (List.range n).map fun mu => BitVec.ofNat 32 (dims mu)).length = n + 1 + 1 := by simp
  have hr := fread_ints_image true big' (BitVec.ofNat 32 NC :: BitVec.ofNat 32 (dims n) ::
    (List.range n).map fun mu => BitVec.ofNat 32 (dims mu)) (imageDbl true plaq ++ rest)
  rw [hlen] at hr
  unfold get_header_data_HIREP write_header_HIREP
  rw [Nat.add_sub_cancel, swap_and_write_int_eq, memDbl_swap, List.append_assoc, hr]
  simp only [Out.bind, List.map_map, List.map_cons, Function.comp_def, unswap_int]
  have hc : (BitVec.ofNat 32 NC).toInt ≠ (NC' : ℤ) := by
    rw [BitVec.toInt_eq_toNat_cond, BitVec.toNat_ofNat]
    have : NC % 2 ^ 32 = NC := Nat.mod_eq_of_lt (by omega)
    rw [this, if_pos (by omega)]
    exact fun h => hne (Int.natCast_inj.1 h)
  rw [List.headD_cons, if_pos hc]

/-- A NERSC storage type for other numbers of dimensions or colours is not recognised. -/
theorem C71_nersc (ND NC ND' NC' : ℕ) (type : Store) (hne : ND ≠ ND' ∨ NC ≠ NC') :
    storage_type ND' NC' (' ' :: datatype ND NC type) = .fail := by
  have key : ∀ (m n : ℕ) (a b : Str), decimal m ++ 'D' :: a = decimal n ++ 'D' :: b →
      m = n ∧ a = b := by
    intro m n a b h
    have hsep : ∀ (p q : Str), (∀ c ∈ p, c ≠ 'D') → (∀ c ∈ q, c ≠ 'D') →
        p ++ 'D' :: a = q ++ 'D' :: b → p = q ∧ a = b := by
      intro p
      induction p with
      | nil =>
        intro q _ hq h
        cases q with
        | nil => simp at h; exact ⟨rfl, h⟩
        | cons c q =>
          simp only [List.nil_append, List.cons_append, List.cons.injEq] at h
          exact absurd h.1.symm (hq c List.mem_cons_self)
      | cons c p ih =>
        intro q hp hq h
        cases q with
        | nil =>
          simp only [List.nil_append, List.cons_append, List.cons.injEq] at h
          exact absurd h.1 (hp c List.mem_cons_self)
        | cons d q =>
          simp only [List.cons_append, List.cons.injEq] at h
          obtain ⟨h1, h2⟩ := ih q (fun c hc => hp c (List.mem_cons_of_mem _ hc))
            (fun c hc => hq c (List.mem_cons_of_mem _ hc)) h.2
          exact ⟨by rw [h.1, h1], h2⟩
    have hD : ∀ n, ∀ c ∈ decimal n, c ≠ 'D' := by
      intro n c hc
      obtain ⟨d, hd, rfl⟩ := decimal_chars n c hc
      interval_cases d <;> decide
    obtain ⟨h1, h2⟩ := hsep _ _ (hD m) (hD n) h
    exact ⟨decimal_injective h1, h2⟩
  have key2 : ∀ (m n : ℕ) (a b : Str), decimal m ++ '_' :: a = decimal n ++ '_' :: b → m = n := by
    intro m n a b h
    have hsep : ∀ (p q : Str), (∀ c ∈ p, c ≠ '_') → (∀ c ∈ q, c ≠ '_') →
        p ++ '_' :: a = q ++ '_' :: b → p = q := by
      intro p
      induction p with
      | nil =>
        intro q _ hq h
        cases q with
        | nil => rfl
        | cons c q =>
          simp only [List.nil_append, List.cons_append, List.cons.injEq] at h
          exact absurd h.1.symm (hq c List.mem_cons_self)
      | cons c p ih =>
        intro q hp hq h
        cases q with
        | nil =>
          simp only [List.nil_append, List.cons_append, List.cons.injEq] at h
          exact absurd h.1 (hp c List.mem_cons_self)
        | cons d q =>
          simp only [List.cons_append, List.cons.injEq] at h
          rw [h.1, ih q (fun c hc => hp c (List.mem_cons_of_mem _ hc))
            (fun c hc => hq c (List.mem_cons_of_mem _ hc)) h.2]
    have hD : ∀ n, ∀ c ∈ decimal n, c ≠ '_' := by
      intro n c hc
      obtain ⟨d, hd, rfl⟩ := decimal_chars n c hc
      interval_cases d <;> decide
    exact decimal_injective (hsep _ _ (hD m) (hD n) h)
  have hdt : ∀ t t' : Store, datatype ND' NC' t' ≠ datatype ND NC t := by
    intro t t' h
    have form : ∀ (ND NC : ℕ) (t : Store), ∃ r : Str, datatype ND NC t
        = decimal ND ++ 'D' :: (chars "_SU" ++ (decimal NC ++ '_' :: r)) := by
      intro ND NC t
      cases t
      · exact ⟨chars "GAUGE_SMALL", by simp [datatype]⟩
      · exact ⟨chars "GAUGE", by simp [datatype]⟩
      · exact ⟨chars "GAUGE_" ++ decimal NC ++ chars "x" ++ decimal NC, by simp [datatype]⟩
    obtain ⟨r, hr⟩ := form ND NC t
    obtain ⟨r', hr'⟩ := form ND' NC' t'
    rw [hr, hr'] at h
    obtain ⟨h1, h2⟩ := key _ _ _ _ h
    have h3 := key2 _ _ _ _ (List.append_cancel_left h2)
    rcases hne with h | h
    · exact h h1.symm
    · exact h h3.symm
  have hdt' : ∀ t t' : Store, ' ' :: datatype ND' NC' t' ≠ ' ' :: datatype ND NC t := by
    intro t t' h
    injection h with _ h
    exact hdt t t' h
  rw [storage_type, if_neg (hdt' _ _), if_neg (hdt' _ _), if_neg (hdt' _ _)]

/-- Non-vacuity: a date as the program prints it, a small lattice with three colours. -/
example : DateLike (chars "Thu Jan  1 00:00:00 1970") ∧ 4 * (4 * (3 * 3)) < 2 ^ 31 ∧
    (∀ mu < 4, (fun _ => 8 : ℕ → ℕ) mu < 2 ^ 31) ∧ declared false 4 3 (8 ^ 4) < 2 ^ 64 := by
  refine ⟨?_, by norm_num, fun _ _ => by norm_num, by norm_num [declared]⟩
  unfold DateLike; decide

end GLU.IO
