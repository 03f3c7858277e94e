import Verif.IO.XmlLemmas

/-! # C45: the headers of SciDAC and ILDG files -/

namespace GLU.IO

/-- What the reader has to learn from a file: double precision or not, full matrices, big endian,
the dimensions. -/
def learnt (single : Bool) (ND : ℕ) (dims : ℕ → ℕ) (x : Xml) : Xml :=
  { double := !single, ncxnc := true, big := true, checksum := x.checksum,
    dims := setAll ND dims x.dims }

/-! ### The texts as items -/

/-- The items of `fileText`. -/
def fileItems (ND : ℕ) (dims : ℕ → ℕ) (close : Str) : List Item :=
  [.tag (chars "?xml version=\"1.0\" encoding=\"UTF-8\"?"), .tag (chars "scidacFile"),
    .tag (chars "version"), .text (chars "1.1"), .tag (chars "/version"), .tag (chars "spacetime"),
    .text (decimal ND), .tag (chars "/spacetime"), .tag (chars "dims"), .text (dimsText ND dims),
    .tag (chars "/dims"), .tag (chars "volfmt"), .text (chars "0"), .tag (chars "/volfmt"),
    .tag close]

theorem fileText_items (ND : ℕ) (dims : ℕ → ℕ) (close : Str) :
    fileText ND dims ('<' :: (close ++ ['>'])) = (fileItems ND dims close).flatMap Item.render := by
  simp [fileText, fileItems, Item.render, xmlStart]

/-- The items of `recordText`. -/
def recordItems (single : Bool) (ND NC : ℕ) (date : Str) : List Item :=
  [.tag (chars "?xml version=\"1.0\" encoding=\"UTF-8\"?"), .tag (chars "scidacRecord"),
    .tag (chars "version"), .text (chars "1.0"), .tag (chars "/version"), .tag (chars "date"),
    .text (date ++ chars " GMT"), .tag (chars "/date"), .tag (chars "globaldata"),
    .text (chars "0"), .tag (chars "/globaldata"), .tag (chars "datatype"),
    .text (chars "QDP_" ++ (if single then chars "F" else chars "D") ++ decimal NC ++
      chars "_ColorMatrix"), .tag (chars "/datatype"),
    .tag (chars "precision"), .text (if single then chars "F" else chars "D"),
    .tag (chars "/precision"), .tag (chars "colors"), .text (decimal NC), .tag (chars "/colors"),
    .tag (chars "typesize"), .text (decimal (ND * (NC * NC) * 2 * (if single then 1 else 2))),
    .tag (chars "/typesize"), .tag (chars "datacount"), .text (decimal ND),
    .tag (chars "/datacount"), .tag (chars "/scidacRecord")]

set_option maxRecDepth 8000 in
theorem recordText_items (single : Bool) (ND NC : ℕ) (date : Str) :
    recordText single ND NC date = (recordItems single ND NC date).flatMap Item.render := by
  cases single <;> simp [recordText, recordItems, Item.render, xmlStart]

/-- The items of `checksumText`. -/
def checksumItems (a b : W32) : List Item :=
  [.tag (chars "?xml version=\"1.0\" encoding=\"UTF-8\"?"), .tag (chars "scidacChecksum"),
    .tag (chars "version"), .text (chars "1.0"), .tag (chars "/version"), .tag (chars "suma"),
    .text (hexadecimal a.toNat), .tag (chars "/suma"), .tag (chars "sumb"),
    .text (hexadecimal b.toNat), .tag (chars "/sumb"), .tag (chars "/scidacChecksum")]

theorem checksumText_items (a b : W32) :
    checksumText a b = (checksumItems a b).flatMap Item.render := by
  simp [checksumText, checksumItems, Item.render]

theorem Plain.append {a b : Str} (ha : Plain a) (hb : Plain b) : Plain (a ++ b) := by
  intro c hc
  rcases List.mem_append.1 hc with h | h
  · exact ha c h
  · exact hb c h

theorem render_plain (l : List Item) (h : ∀ i ∈ l, Plain i.content) :
    Plain (l.flatMap Item.render) := by
  intro c hc
  obtain ⟨i, hi, hc⟩ := List.mem_flatMap.1 hc
  have := h i hi
  cases i with
  | tag s =>
    simp only [Item.render, List.mem_cons, List.mem_append, List.not_mem_nil, or_false] at hc
    rcases hc with rfl | hc | rfl
    · decide
    · exact this c hc
    · decide
  | text s => exact this c hc

instance (s : Str) : Decidable (Plain s) := by unfold Plain; infer_instance
instance (i : Item) : Decidable i.Valid := by unfold Item.Valid; infer_instance

/-- Parsing a text made of items. -/
theorem parse_items (ND NC : ℕ) (l : List Item) (hv : ∀ i ∈ l, i.Valid) (ha : alternating l = true)
    (x : Xml) (t u : Str) (m : List Str) (hm : l.map Item.content = t :: u :: m)
    (ht : (chars "?xml").isPrefixOf t = true) :
    parse_and_set_xml_SCIDAC ND NC (l.flatMap Item.render) x
      = xml_loop ND NC m.length m { x with big := true } := by
  unfold parse_and_set_xml_SCIDAC
  rw [xmlTokens_render l hv ha, hm]
  simp [ht]

theorem dimsText_chars (ND : ℕ) (dims : ℕ → ℕ) :
    ∀ c ∈ dimsText ND dims, c = ' ' ∨ ∃ d < 10, c = Nat.digitChar d := by
  intro c hc
  rcases List.mem_append.1 hc with h | h
  · obtain ⟨mu, -, h⟩ := List.mem_flatMap.1 h
    rcases List.mem_append.1 h with h | h
    · exact Or.inr (decimal_chars _ c h)
    · exact Or.inl (by simpa using h)
  · exact Or.inr (decimal_chars _ c h)

theorem dimsText_plain (ND : ℕ) (dims : ℕ → ℕ) : Plain (dimsText ND dims) := by
  intro c hc
  rcases dimsText_chars ND dims c hc with rfl | ⟨d, hd, rfl⟩
  · decide
  · have := digitChar_ascii d (by omega); exact ⟨this.1, this.2.1⟩

theorem dimsText_valid (ND : ℕ) (dims : ℕ → ℕ) : (Item.text (dimsText ND dims)).Valid := by
  refine ⟨?_, fun c hc => ?_⟩
  · show dimsText ND dims ≠ []
    unfold dimsText
    simp [decimal_ne]
  · rcases dimsText_chars ND dims c hc with rfl | ⟨d, hd, rfl⟩
    · decide
    · have := digitChar_ascii d (by omega); exact ⟨this.2.2.1, this.2.2.2.1⟩

theorem hexadecimal_valid (n : ℕ) : (Item.text (hexadecimal n)).Valid := by
  refine ⟨?_, fun c hc => ?_⟩
  · show hexadecimal n ≠ []
    rw [hexadecimal_eq]; simpa using digs_ne 16 n
  · obtain ⟨d, hd, rfl⟩ := hexadecimal_chars n c hc
    have := digitChar_ascii d (by omega)
    exact ⟨this.2.2.1, this.2.2.2.1⟩

theorem other_hexadecimal (ND n : ℕ) : Other ND (hexadecimal n) := by
  have hx : ∀ c ∈ hexadecimal n, c ∈ chars "0123456789abcdef" := by
    intro c hc
    obtain ⟨d, hd, rfl⟩ := hexadecimal_chars n c hc
    interval_cases d <;> decide
  refine other_of_key (fun hk => ?_) (fun e => ?_)
  · have : ∀ t ∈ keys, ∃ c ∈ t, c ∉ chars "0123456789abcdef" := by decide
    obtain ⟨c, hc, h⟩ := this _ hk
    exact h (hx c hc)
  · exact absurd (hx 'l' (List.mem_of_head? e)) (by decide)

/-! ### Each record -/

theorem file_record (ND NC : ℕ) (hND : 0 < ND) (hND' : ND < 2 ^ 31) (dims : ℕ → ℕ)
    (hd : ∀ mu < ND, dims mu < 2 ^ 63) (close : Str) (hc : (Item.tag close).Valid)
    (hp : Plain close) (x : Xml) :
    parse_and_set_xml_SCIDAC ND NC
        (ofBytes (ascii (fileText ND dims ('<' :: (close ++ ['>']))))) x
      = .ok (true, { x with big := true, dims := setAll ND dims x.dims }) := by
  rw [fileText_items, ofBytes_ascii]
  · rw [parse_items ND NC (fileItems ND dims close) ?_ rfl x _ _ _ rfl (by decide)]
    · simp only [List.length_cons, List.length_nil, List.map_cons, List.map_nil]
      rw [step_other (other_of_key (by decide) (by decide)),
        step_other (other_of_key (by decide) (by decide)),
        step_other (other_of_key (by decide) (by decide))]
      simp only [Item.content]
      rw [step_spacetime ND NC _ ND hND' (Or.inl rfl), step_dims ND NC _ hND dims hd]
    · simp only [fileItems, List.forall_mem_cons, List.not_mem_nil, false_imp_iff, implies_true,
        and_true]
      repeat' first
        | exact decimal_valid _ | exact dimsText_valid _ _ | exact hc | decide | apply And.intro
  · refine render_plain _ ?_
    simp only [fileItems, List.forall_mem_cons, List.not_mem_nil, false_imp_iff, implies_true,
      and_true, Item.content]
    repeat' first
      | exact decimal_Plain _ | exact dimsText_plain _ _ | exact hp | decide | apply And.intro

/-- A date as printed by the program: one line of ordinary characters without angle brackets. -/
def DateLike (date : Str) : Prop := ∀ c ∈ date, c.toNat < 256 ∧ c ≠ '\x00' ∧ c ≠ '<' ∧ c ≠ '>'

theorem record_items_ok (single : Bool) (ND NC : ℕ) (date : Str) (hdate : DateLike date) :
    (∀ i ∈ recordItems single ND NC date, i.Valid) ∧
    (∀ i ∈ recordItems single ND NC date, Plain i.content) := by
  have hdec : ∀ c ∈ decimal NC, c ≠ '<' ∧ c ≠ '>' := (decimal_valid NC).2
  have v1 : (Item.text (date ++ chars " GMT")).Valid := by
    refine ⟨by simp [Item.content], fun c hc => ?_⟩
    rcases List.mem_append.1 hc with h | h
    · exact ⟨(hdate c h).2.2.1, (hdate c h).2.2.2⟩
    · exact (show ∀ c ∈ chars " GMT", c ≠ '<' ∧ c ≠ '>' by decide) c h
  have p1 : Plain (date ++ chars " GMT") :=
    Plain.append (fun c hc => ⟨(hdate c hc).1, (hdate c hc).2.1⟩) (by decide)
  have v2 : (Item.text (chars "QDP_" ++ (if single then chars "F" else chars "D") ++ decimal NC ++
      chars "_ColorMatrix")).Valid := by
    refine ⟨by simp [Item.content], ?_⟩
    simp only [Item.content, List.forall_mem_append]
    refine ⟨⟨⟨by decide, by cases single <;> decide⟩, hdec⟩, by decide⟩
  have p2 : Plain (chars "QDP_" ++ (if single then chars "F" else chars "D") ++ decimal NC ++
      chars "_ColorMatrix") := by
    refine Plain.append (Plain.append (Plain.append (by decide) ?_) (decimal_Plain NC)) (by decide)
    cases single <;> decide
  have v3 : (Item.text (if single then chars "F" else chars "D")).Valid := by
    cases single <;> decide
  have p3 : Plain (if single then chars "F" else chars "D") := by cases single <;> decide
  constructor
  · simp only [recordItems, List.forall_mem_cons, List.not_mem_nil, false_imp_iff, implies_true,
      and_true]
    repeat' first
      | exact decimal_valid _ | exact v1 | exact v2 | exact v3 | decide | apply And.intro
  · simp only [recordItems, List.forall_mem_cons, List.not_mem_nil, false_imp_iff, implies_true,
      and_true]
    repeat' first
      | exact decimal_Plain _ | exact p1 | exact p2 | exact p3 | decide | apply And.intro

theorem record_record (single : Bool) (ND NC : ℕ) (h0 : 0 < ND * (NC * NC))
    (hs : 4 * (ND * (NC * NC)) < 2 ^ 31) (date : Str) (hdate : DateLike date) (x : Xml) :
    parse_and_set_xml_SCIDAC ND NC (ofBytes (ascii (recordText single ND NC date))) x
      = .ok (true, { x with big := true, ncxnc := true, double := !single }) := by
  obtain ⟨hv, hp⟩ := record_items_ok single ND NC date hdate
  have hNC : NC < 2 ^ 31 := by nlinarith [Nat.pos_of_mul_pos_right h0, Nat.pos_of_mul_pos_left h0]
  have hsz : ND * (NC * NC) * 2 * (if single then 1 else 2) < 2 ^ 31 := by
    cases single <;> simp <;> omega
  rw [recordText_items, ofBytes_ascii _ (render_plain _ hp),
    parse_items ND NC _ hv (by cases single <;> rfl) x _ _ _ rfl (by decide)]
  simp only [List.length_cons, List.length_nil, List.map_cons, List.map_nil]
  have o1 : Other ND (Item.text (date ++ chars " GMT")).content :=
    other_of_space (List.mem_append_right _ (by decide))
  have o2 : Other ND (Item.text (chars "QDP_" ++ (if single then chars "F" else chars "D") ++
      decimal NC ++ chars "_ColorMatrix")).content := other_of_head (c := 'Q') rfl (by decide)
  rw [step_other (other_of_key (by decide) (by decide)),
    step_other (other_of_key (by decide) (by decide)),
    step_other (other_of_key (by decide) (by decide)),
    step_other (other_of_key (by decide) (by decide)),
    step_other o1,
    step_other (other_of_key (by decide) (by decide)),
    step_other (other_of_key (by decide) (by decide)),
    step_other (other_of_key (by decide) (by decide)),
    step_other (other_of_key (by decide) (by decide)),
    step_other (other_of_key (by decide) (by decide)),
    step_other o2,
    step_other (other_of_key (by decide) (by decide))]
  simp only [Item.content]
  rw [step_precision ND NC _ _ (!single) (by cases single <;> simp),
    step_colors ND NC _ NC hNC (Or.inl rfl), step_typesize ND NC _ single h0 hsz,
    step_other (other_of_key (by decide) (by decide)), step_other (other_decimal ND ND),
    step_other (other_of_key (by decide) (by decide)), xml_loop, if_pos (by decide)]

theorem checksum_record (ND NC : ℕ) (a b : W32) (x : Xml) :
    parse_and_set_xml_SCIDAC ND NC (ofBytes (ascii (checksumText a b))) x
      = .ok (true, { x with big := true, checksum := a }) := by
  have hv : ∀ i ∈ checksumItems a b, i.Valid := by
    simp only [checksumItems, List.forall_mem_cons, List.not_mem_nil, false_imp_iff, implies_true,
      and_true]
    repeat' first
      | exact hexadecimal_valid _ | decide | apply And.intro
  have hp : ∀ i ∈ checksumItems a b, Plain i.content := by
    simp only [checksumItems, List.forall_mem_cons, List.not_mem_nil, false_imp_iff, implies_true,
      and_true]
    repeat' first
      | exact hexadecimal_Plain _ | decide | apply And.intro
  rw [checksumText_items, ofBytes_ascii _ (render_plain _ hp),
    parse_items ND NC _ hv rfl x _ _ _ rfl (by decide)]
  simp only [List.length_cons, List.length_nil, List.map_cons, List.map_nil]
  rw [step_other (other_of_key (by decide) (by decide)),
    step_other (other_of_key (by decide) (by decide)),
    step_other (other_of_key (by decide) (by decide))]
  simp only [Item.content]
  rw [step_suma ND NC _ a.toNat a.isLt, step_other (other_of_key (by decide) (by decide)),
    step_other (other_hexadecimal ND b.toNat), step_other (other_of_key (by decide) (by decide)),
    step_other (other_of_key (by decide) (by decide)), xml_loop]
  simp

/-! ### The whole header -/

theorem handle_plain (ND NC : ℕ) (banf text : List Byte) (x y : Xml) (ok : Bool)
    (h1 : typeIs (typeField banf) (ascii (chars "bqcd-plaquette")) = false)
    (h2 : typeIs (typeField banf) (ascii (chars "bqcd-cksum")) = false)
    (hp : parse_and_set_xml_SCIDAC ND NC (ofBytes text) x = .ok (ok, y)) :
    handle_xml ND NC x (typeField banf) text = .ok y := by
  rw [handle_xml, h1, h2, if_neg (by decide), hp]
  rfl

theorem ignored_record (ND NC : ℕ) (s : Str) (hp : Plain s) (t : Str) (l : List Str)
    (ht : xmlTokens s = t :: l) (hx : (chars "?xml").isPrefixOf t = false) (x : Xml) :
    parse_and_set_xml_SCIDAC ND NC (ofBytes (ascii s)) x = .ok (true, { x with big := true }) := by
  rw [ofBytes_ascii s hp, parse_and_set_xml_SCIDAC, ht]
  simp [hx]

theorem fold_scidac (single : Bool) (ND NC : ℕ) (hND : 0 < ND) (h0 : 0 < NC)
    (hs : 4 * (ND * (NC * NC)) < 2 ^ 31) (dims : ℕ → ℕ) (hd : ∀ mu < ND, dims mu < 2 ^ 63)
    (date : Str) (hdate : DateLike date) (x : Xml) :
    fold (handle_xml ND NC) x (scidacRecords single ND NC dims date)
      = .ok (learnt single ND dims x) := by
  have hpos : 0 < ND * (NC * NC) := Nat.mul_pos hND (Nat.mul_pos h0 h0)
  have hND' : ND < 2 ^ 31 := by nlinarith [Nat.mul_pos h0 h0]
  have hf : parse_and_set_xml_SCIDAC ND NC (ofBytes (ascii (fileText ND dims
      (chars "</scidacFile>")))) x = .ok (true, { x with big := true, dims := setAll ND dims x.dims }) :=
    file_record ND NC hND hND' dims hd (chars "/scidacFile") (by decide) (by decide) x
  unfold scidacRecords
  rw [fold, handle_plain ND NC _ _ x _ true (by decide) (by decide) hf]
  simp only [Out.bind]
  rw [fold, handle_plain ND NC _ _ _ _ true (by decide) (by decide)
    (ignored_record ND NC _ (by decide) _ _ rfl (by decide) _)]
  simp only [Out.bind]
  rw [fold, handle_plain ND NC _ _ _ _ true (by decide) (by decide)
    (record_record single ND NC hpos hs date hdate _)]
  simp only [Out.bind]
  rw [fold, handle_plain ND NC _ _ _ _ true (by decide) (by decide)
    (ignored_record ND NC _ (by decide) _ _ rfl (by decide) _)]
  rfl

theorem dimsText_length (ND : ℕ) (dims : ℕ → ℕ) (hd : ∀ mu < ND, dims mu < 2 ^ 63) :
    0 < ND → (dimsText ND dims).length ≤ 21 * ND := by
  intro hND
  have hl : ∀ n, n < ND →
      ((List.range n).flatMap fun mu => decimal (dims mu) ++ [' ']).length ≤ 21 * n := by
    intro n
    induction n with
    | zero => simp
    | succ n ih =>
      intro hn
      have := decimal_length (dims n) (lt_trans (hd n (by omega)) (by norm_num))
      have := ih (by omega)
      rw [List.range_succ, List.flatMap_append, List.length_append]
      simp only [List.flatMap_cons, List.flatMap_nil, List.append_nil, List.length_append,
        List.length_singleton]
      omega
  have h1 := hl (ND - 1) (by omega)
  have h2 := decimal_length (dims (ND - 1)) (lt_trans (hd _ (by omega)) (by norm_num))
  rw [dimsText, List.length_append]
  omega

theorem fileText_length (ND : ℕ) (hND : 0 < ND) (hND' : ND < 2 ^ 31) (dims : ℕ → ℕ)
    (hd : ∀ mu < ND, dims mu < 2 ^ 63) (close : Str) :
    (fileText ND dims close).length ≤ 200 + 21 * ND + close.length := by
  have h1 := dimsText_length ND dims hd hND
  have h2 := decimal_length ND (by omega)
  simp only [fileText, xmlStart, List.length_append, List.length_cons, List.length_nil]
  omega

theorem recordText_length (single : Bool) (ND NC : ℕ) (hND : ND < 2 ^ 31) (hNC : NC < 2 ^ 31)
    (hs : 4 * (ND * (NC * NC)) < 2 ^ 31) (date : Str) :
    (recordText single ND NC date).length ≤ 500 + date.length := by
  have h2 := decimal_length ND (by omega)
  have h3 := decimal_length NC (by omega)
  have h4 := decimal_length (ND * (NC * NC) * 2 * (if single then 1 else 2))
    (by cases single <;> simp <;> omega)
  cases single <;>
    simp only [recordText, xmlStart, List.length_append, List.length_cons, List.length_nil,
      Bool.false_eq_true, if_true, if_false] at h4 ⊢ <;> omega

theorem writable_mk (alloc : ℕ → Bool) (banf : List Byte) (text : Str) (h1 : banf.length ≤ 128)
    (h2 : typeIs (typeField banf) scidacBinary = false)
    (h3 : typeIs (typeField banf) ildgBinary = false) (hn : text.length + 1 < 2 ^ 63)
    (ha : ∀ n < 2 ^ 63, alloc n = true) : Writable alloc (banf, ascii text) := by
  have hl : (ascii text).length = text.length := by simp [ascii]
  refine ⟨h1, ⟨h2, h3⟩, ?_, ha _ ?_⟩ <;> simp only [hl] <;> omega

/-- The program accepts its own SciDAC files, on every machine: it learns precision, storage,
byte order and dimensions and stops at the links; after the links it learns the checksum. The
assumptions are that the numbers fit their C types and that memory for a record can be had. -/
theorem C45_scidac (alloc : ℕ → Bool) (single big big' : Bool) (ND NC volume : ℕ) (hND : 0 < ND)
    (h0 : 0 < NC) (hs : 4 * (ND * (NC * NC)) < 2 ^ 31) (dims : ℕ → ℕ)
    (hd : ∀ mu < ND, dims mu < 2 ^ 63) (date : Str) (hdate : DateLike date)
    (hdl : date.length < 2 ^ 32) (ha : ∀ n < 2 ^ 63, alloc n = true)
    (data : List Byte) (hdata : data.length = declared single ND NC volume)
    (hn : data.length < 2 ^ 64) (suma sumb : W32) :
    ∃ w w', write_header_SCIDAC single big ND NC dims volume date = .ok w ∧
      write_trailing_header_SCIDAC big suma sumb = .ok w' ∧
      (∀ x, get_header_data_SCIDAC alloc (handle_xml ND NC) big' x (w ++ data ++ w')
        = .ok (learnt single ND dims x, data ++ w')) ∧
      (∀ x, get_header_data_SCIDAC alloc (handle_xml ND NC) big' x ((data ++ w').drop data.length)
        = .ok ({ x with big := true, checksum := suma }, [])) := by
  have hpos : 0 < ND * (NC * NC) := Nat.mul_pos hND (Nat.mul_pos h0 h0)
  have hND' : ND < 2 ^ 31 := by nlinarith [Nat.mul_pos h0 h0]
  have hNC' : NC < 2 ^ 31 := by nlinarith [Nat.mul_pos h0 h0]
  have hl1 := fileText_length ND hND hND' dims hd (chars "</scidacFile>")
  have hl2 := recordText_length single ND NC hND' hNC' hs date
  have hW : ∀ r ∈ scidacRecords single ND NC dims date, Writable alloc r := by
    intro r hr
    simp only [scidacRecords, List.mem_cons, List.not_mem_nil, or_false] at hr
    rcases hr with rfl | rfl | rfl | rfl
    · refine writable_mk alloc _ _ (by decide) (by decide) (by decide) ?_ ha
      simp only [List.length_cons, List.length_nil] at hl1
      omega
    · exact writable_mk alloc _ _ (by decide) (by decide) (by decide) (by decide) ha
    · exact writable_mk alloc _ _ (by decide) (by decide) (by decide) (by omega) ha
    · exact writable_mk alloc _ _ (by decide) (by decide) (by decide) (by decide) ha
  have hW' : ∀ r ∈ [(ascii (chars "scidac-checksum"), ascii (checksumText suma sumb))],
      Writable alloc r := by
    intro r hr
    simp only [List.mem_cons, List.not_mem_nil, or_false] at hr
    subst hr
    have h1 := hexadecimal_length suma.toNat suma.isLt
    have h2 := hexadecimal_length sumb.toNat sumb.isLt
    refine writable_mk alloc _ _ (by decide) (by decide) (by decide) ?_ ha
    simp only [checksumText, List.length_append, List.length_cons, List.length_nil]
    omega
  obtain ⟨w, hw, -⟩ := write_records_ok big (scidacRecords single ND NC dims date)
    fun r hr => (hW r hr).1
  obtain ⟨w', hw', -⟩ := write_records_ok big
    [(ascii (chars "scidac-checksum"), ascii (checksumText suma sumb))] fun r hr => (hW' r hr).1
  have h8 : 8 ∣ data.length := by
    rw [hdata]; exact C46_binary_length volume ND NC (!single)
  obtain ⟨h, hh⟩ : ∃ h, write_SCIDAC_binary big [] data.length scidacBinary = .ok h :=
    ⟨_, by rw [write_SCIDAC_binary, if_neg (by decide)]⟩
  refine ⟨w ++ h, w', ?_, hw', fun x => ?_, fun x => ?_⟩
  · rw [write_header_SCIDAC, hw, ← hdata, hh]; rfl
  · have := (C46_file_partial alloc (handle_xml ND NC) big big' _ _ hW hW' (by simp [scidacRecords])
      (by simp) data scidacBinary (Or.inl rfl) h8 hn w h w' hw hh hw' x).1
    rw [this, fold_scidac single ND NC hND h0 hs dims hd date hdate x]
    rfl
  · have := (C46_file_partial alloc (handle_xml ND NC) big big' _ _ hW hW' (by simp [scidacRecords])
      (by simp) data scidacBinary (Or.inl rfl) h8 hn w h w' hw hh hw' x).2 x
    rw [this, fold, handle_plain ND NC _ _ x _ true (by decide) (by decide)
      (checksum_record ND NC suma sumb x)]
    rfl

end GLU.IO
