import Verif.IO.HdrProps

/-! # C45: headers written by the program are understood by it -/

namespace GLU.IO

/-! ### Numbers -/

theorem digitVal_digitChar (d : ℕ) (h : d < 16) : digitVal (Nat.digitChar d) = some d := by
  interval_cases d <;> decide

theorem digitChar_plain (d : ℕ) (h : d < 16) : isspace (Nat.digitChar d) = false ∧
    Nat.digitChar d ≠ ' ' ∧ Nat.digitChar d ≠ '\n' ∧ Nat.digitChar d ≠ '\x00' ∧
    Nat.digitChar d ≠ '-' ∧ Nat.digitChar d ≠ '+' ∧ Nat.digitChar d ≠ 'x' ∧
    Nat.digitChar d ≠ 'X' := by
  interval_cases d <;> decide

theorem digitsOf_map (b : ℕ) (hb : b ≤ 16) (l : List ℕ) (h : ∀ d ∈ l, d < b) :
    digitsOf b (l.map Nat.digitChar) = l := by
  induction l with
  | nil => rfl
  | cons d l ih =>
    have hd := h d List.mem_cons_self
    rw [List.map_cons, digitsOf, digitVal_digitChar d (by omega)]
    simp only [if_pos hd]
    rw [ih fun e he => h e (List.mem_cons_of_mem _ he)]

theorem value_digits (b n : ℕ) : value b (Nat.digits b n).reverse = n := by
  unfold value
  rw [List.foldl_reverse]
  have := Nat.ofDigits_eq_foldr b (Nat.digits b n)
  rw [Nat.ofDigits_digits] at this
  conv_rhs => rw [this]
  congr 1
  funext d a
  simp [Nat.add_comm]

/-- The digits printed for a number, most significant first. -/
def digs (b n : ℕ) : List ℕ := if n = 0 then [0] else (Nat.digits b n).reverse

theorem decimal_eq (n : ℕ) : decimal n = (digs 10 n).map Nat.digitChar := by
  unfold decimal digs; split <;> rfl

theorem hexadecimal_eq (n : ℕ) : hexadecimal n = (digs 16 n).map Nat.digitChar := by
  unfold hexadecimal digs; split <;> rfl

theorem digs_lt (b n : ℕ) (hb : 1 < b) : ∀ d ∈ digs b n, d < b := by
  unfold digs
  split
  · intro d hd; simp at hd; omega
  · intro d hd; exact Nat.digits_lt_base hb (List.mem_reverse.1 hd)

theorem digs_ne (b n : ℕ) : digs b n ≠ [] := by
  unfold digs
  split
  · simp
  · rename_i h; simpa [Nat.digits_eq_nil_iff_eq_zero] using h

theorem value_digs (b n : ℕ) : value b (digs b n) = n := by
  unfold digs
  split
  · rename_i h; simp [value, h]
  · exact value_digits b n

theorem digs_length (b n k : ℕ) (hb : 1 < b) (hk : 0 < k) (h : n < b ^ k) :
    (digs b n).length ≤ k := by
  unfold digs
  split
  · simp; omega
  · rw [List.length_reverse]
    exact (Nat.digits_length_le_iff hb n).2 h

/-- Printed digits. -/
def Printed (b : ℕ) (s : Str) : Prop := ∃ l : List ℕ, l ≠ [] ∧ (∀ d ∈ l, d < b) ∧ s = l.map Nat.digitChar

theorem sscanf_printed_any (b m : ℕ) (hb : b ≤ 16) (l : List ℕ) (hl : l ≠ []) (h : ∀ d ∈ l, d < b) :
    sscanf b m (' ' :: l.map Nat.digitChar) = if value b l < 2 ^ m then .ok (some (value b l)) else .ub := by
  obtain ⟨d, l', rfl⟩ := List.exists_cons_of_ne_nil hl
  have hd := digitChar_plain d (lt_of_lt_of_le (h d List.mem_cons_self) hb)
  have h1 : (' ' :: (d :: l').map Nat.digitChar).dropWhile isspace = (d :: l').map Nat.digitChar := by
    rw [List.dropWhile_cons_of_pos (by decide), List.map_cons,
      List.dropWhile_cons_of_neg (by simp [hd.1])]
  have h2 : ¬ (((d :: l').map Nat.digitChar).head? = some '-' ∨
      ((d :: l').map Nat.digitChar).head? = some '+') := by
    simp [hd.2.2.2.2.1, hd.2.2.2.2.2.1]
  have h3 : ¬ (b = 16 ∧ (((d :: l').map Nat.digitChar).take 2 = ['0', 'x'] ∨
      ((d :: l').map Nat.digitChar).take 2 = ['0', 'X'])) := by
    rintro ⟨_, h3⟩
    cases l' with
    | nil => simp at h3
    | cons e l' =>
      have he := digitChar_plain e (lt_of_lt_of_le (h e (by simp)) hb)
      simp [he.2.2.2.2.2.2.1, he.2.2.2.2.2.2.2] at h3
  unfold sscanf
  simp only [h1, if_neg h2, if_neg h3, digitsOf_map b hb _ h, if_neg hl]
  have h4 : ¬ ((d :: l').map Nat.digitChar).head? = some '-' := fun e => h2 (Or.inl e)
  rw [if_neg h4]

theorem sscanf_printed (b m : ℕ) (hb : b ≤ 16) (l : List ℕ) (hl : l ≠ []) (h : ∀ d ∈ l, d < b)
    (hv : value b l < 2 ^ m) : sscanf b m (' ' :: l.map Nat.digitChar) = .ok (some (value b l)) := by
  rw [sscanf_printed_any b m hb l hl h, if_pos hv]

/-- **C44 fails** for numbers that do not fit: whatever the header contains otherwise, reading an extent of `2^64` or more, or a
checksum of `2^32` or more, is undefined behaviour (C11 7.21.6.2: the result cannot be represented). -/
theorem C44_number_fails (key : Str) (hdr : List (Str × Str)) (n old : ℕ) :
    (2 ^ 64 ≤ n → get_size_t key ((key, ' ' :: decimal n) :: hdr) old = .ub) ∧
    (2 ^ 32 ≤ n → get_uint32_t key ((key, ' ' :: hexadecimal n) :: hdr) = .ub) := by
  constructor
  · intro h
    have e := sscanf_printed_any 10 64 (by norm_num) (digs 10 n) (digs_ne _ _) (digs_lt _ _ (by norm_num))
    rw [value_digs, if_neg (by omega)] at e
    have hd : decimal n = (digs 10 n).map Nat.digitChar := by
      unfold decimal digs; split <;> rfl
    simp only [get_size_t, get_string, if_true, hd, e, Out.bind]
  · intro h
    have e := sscanf_printed_any 16 32 (by norm_num) (digs 16 n) (digs_ne _ _) (digs_lt _ _ (by norm_num))
    rw [value_digs, if_neg (by omega)] at e
    have hd : hexadecimal n = (digs 16 n).map Nat.digitChar := by
      unfold hexadecimal digs; split <;> rfl
    simp only [get_uint32_t, get_string, if_true, hd, e, Out.bind]

theorem sscanf_decimal (n : ℕ) (h : n < 2 ^ 64) : sscanf 10 64 (' ' :: decimal n) = .ok (some n) := by
  have := sscanf_printed 10 64 (by norm_num) (digs 10 n) (digs_ne _ _) (digs_lt _ _ (by norm_num))
    (by rwa [value_digs])
  rwa [value_digs, ← decimal_eq] at this

theorem sscanf_hexadecimal (n : ℕ) (h : n < 2 ^ 32) :
    sscanf 16 32 (' ' :: hexadecimal n) = .ok (some n) := by
  have := sscanf_printed 16 32 (by norm_num) (digs 16 n) (digs_ne _ _) (digs_lt _ _ (by norm_num))
    (by rwa [value_digs])
  rwa [value_digs, ← hexadecimal_eq] at this

theorem decimal_injective {m n : ℕ} (h : decimal m = decimal n) : m = n := by
  have := congrArg (fun s => value 10 (digitsOf 10 s)) h
  simp only [decimal_eq, digitsOf_map 10 (by norm_num) _ (digs_lt 10 _ (by norm_num)),
    value_digs] at this
  exact this

theorem decimal_plain (n : ℕ) : ∀ c ∈ decimal n, c ≠ ' ' ∧ c ≠ '\n' ∧ c ≠ '\x00' := by
  intro c hc
  rw [decimal_eq, List.mem_map] at hc
  obtain ⟨d, hd, rfl⟩ := hc
  have := digitChar_plain d (by have := digs_lt 10 n (by norm_num) d hd; omega)
  exact ⟨this.2.1, this.2.2.1, this.2.2.2.1⟩

theorem hexadecimal_plain (n : ℕ) : ∀ c ∈ hexadecimal n, c ≠ ' ' ∧ c ≠ '\n' ∧ c ≠ '\x00' := by
  intro c hc
  rw [hexadecimal_eq, List.mem_map] at hc
  obtain ⟨d, hd, rfl⟩ := hc
  have := digitChar_plain d (by have := digs_lt 16 n (by norm_num) d hd; omega)
  exact ⟨this.2.1, this.2.2.1, this.2.2.2.1⟩

theorem decimal_length (n : ℕ) (h : n < 2 ^ 64) : (decimal n).length ≤ 20 := by
  rw [decimal_eq, List.length_map]
  exact digs_length 10 n 20 (by norm_num) (by norm_num) (lt_trans h (by norm_num))

theorem hexadecimal_length (n : ℕ) (h : n < 2 ^ 32) : (hexadecimal n).length ≤ 8 := by
  rw [hexadecimal_eq, List.length_map]
  exact digs_length 16 n 8 (by norm_num) (by norm_num) (lt_of_lt_of_le h (by norm_num))

/-! ### Lookup -/

theorem get_string_append (s : Str) (a b : List (Str × Str)) :
    get_string s (a ++ b) = (get_string s a).or (get_string s b) := by
  induction a with
  | nil => simp [get_string]
  | cons x a ih =>
    obtain ⟨t, v⟩ := x
    rw [List.cons_append, get_string, get_string]
    split
    · rfl
    · exact ih

theorem get_string_none (s : Str) (a : List (Str × Str)) (h : ∀ x ∈ a, x.1.head? ≠ s.head?) :
    get_string s a = none := by
  rw [(C44_first_match a s).2]
  intro v hv
  exact h _ hv rfl

/-! ### The header as a list of fields -/

/-- Tokens and values of the header `write_header_NERSC` prints. -/
def nerscFields (single outBig : Bool) (ND NC : ℕ) (dims : ℕ → ℕ) (flow : ℕ)
    (tr plaq : Str) (chksum : W32) (details user date : Str) (type : Store) : List (Str × Str) :=
  [((chars "HDR_VERSION"), (chars "1.0")), ((chars "DATATYPE"), datatype ND NC type),
    ((chars "STORAGE_FORMAT"), (chars "1.0"))] ++
  ((List.range ND).map fun mu => ((chars "DIMENSION_") ++ decimal (mu + 1), decimal (dims mu))) ++
  [((chars "CHECKSUM"), hexadecimal chksum.toNat), ((chars "LINK_TRACE"), tr),
    ((chars "PLAQUETTE"), plaq)] ++
  ((List.range ND).map fun mu => ((chars "BOUNDARY_") ++ decimal (mu + 1), (chars "PERIODIC"))) ++
  [((chars "ENSEMBLE_ID"), (chars "ukqcd")), ((chars "SEQUENCE_NUMBER"), decimal flow),
    ((chars "ENSEMBLE_LABEL"), details), ((chars "CREATOR_MACHINE"), user),
    ((chars "CREATION_DATE"), date),
    ((chars "FLOATING_POINT"), (if single then (chars "IEEE32") else (chars "IEEE64")) ++
      (if outBig then (chars "BIG") else (chars "LITTLE")))]

theorem write_fields (single outBig : Bool) (ND NC : ℕ) (dims : ℕ → ℕ) (flow : ℕ)
    (tr plaq : Str) (chksum : W32) (details user date : Str) (type : Store) :
    write_header_NERSC single outBig ND NC dims flow tr plaq chksum details user date type =
      beginLine ++ ((nerscFields single outBig ND NC dims flow tr plaq chksum details user date
        type).flatMap fun f => field f.1 f.2) ++ endLine := by
  unfold write_header_NERSC nerscFields
  simp only [List.flatMap_append, List.flatMap_cons, List.flatMap_nil, List.flatMap_map,
    List.append_nil, List.append_assoc]

/-- A text printed with `%s` that stays on its line: no newline, no NUL, at most 100 characters. -/
def OneLine (s : Str) : Prop := (∀ c ∈ s, c ≠ '\n' ∧ c ≠ '\x00') ∧ s.length ≤ 100

section
variable {single outBig : Bool} {ND NC : ℕ} {dims : ℕ → ℕ} {flow : ℕ} {tr plaq : Str}
  {chksum : W32} {details user date : Str} {type : Store}

theorem datatype_plain (ND NC : ℕ) (type : Store) :
    ∀ c ∈ datatype ND NC type, c ≠ '\n' ∧ c ≠ '\x00' := by
  have hd : ∀ n, ∀ c ∈ decimal n, c ≠ '\n' ∧ c ≠ '\x00' := fun n c hc => (decimal_plain n c hc).2
  cases type <;> simp only [datatype, List.forall_mem_append] <;> and_intros <;>
    first | exact hd _ | decide

theorem datatype_length (hND : ND < 2 ^ 64) (hNC : NC < 2 ^ 64) (type : Store) :
    (datatype ND NC type).length ≤ 100 := by
  have h1 := decimal_length ND hND
  have h2 := decimal_length NC hNC
  cases type <;> simp [datatype] <;> omega

theorem fields_well_formed (hND : ND < 2 ^ 63) (hNC : NC < 2 ^ 64)
    (hd : ∀ mu < ND, dims mu < 2 ^ 64) (hf : flow < 2 ^ 64) (ht : OneLine tr) (hp : OneLine plaq)
    (hde : OneLine details) (hu : OneLine user) (hda : OneLine date) :
    ∀ f ∈ nerscFields single outBig ND NC dims flow tr plaq chksum details user date type,
      WellFormed f.1 f.2 := by
  have plain : ∀ t : Str, (t.all fun c => c ≠ ' ' && c ≠ '\n' && c ≠ '\x00') = true →
      ∀ c ∈ t, c ≠ ' ' ∧ c ≠ '\n' ∧ c ≠ '\x00' := by
    intro t ht c hc
    have := List.all_eq_true.1 ht c hc
    simpa [and_assoc] using this
  have dec2 : ∀ n, ∀ c ∈ decimal n, c ≠ '\n' ∧ c ≠ '\x00' := fun n c hc => (decimal_plain n c hc).2
  have hex2 : ∀ c ∈ hexadecimal chksum.toNat, c ≠ '\n' ∧ c ≠ '\x00' :=
    fun c hc => (hexadecimal_plain _ c hc).2
  have lit2 : ∀ t : Str, (t.all fun c => c ≠ ' ' && c ≠ '\n' && c ≠ '\x00') = true →
      ∀ c ∈ t, c ≠ '\n' ∧ c ≠ '\x00' := fun t ht c hc => (plain t ht c hc).2
  have tokn : ∀ (t : Str) (mu : ℕ), (t.all fun c => c ≠ ' ' && c ≠ '\n' && c ≠ '\x00') = true →
      ∀ c ∈ t ++ decimal (mu + 1), c ≠ ' ' ∧ c ≠ '\n' ∧ c ≠ '\x00' := by
    intro t mu ht c hc
    rcases List.mem_append.1 hc with h | h
    · exact plain t ht c h
    · exact decimal_plain _ c h
  intro f hfm
  simp only [nerscFields, List.mem_append, List.mem_cons, List.mem_map, List.mem_range,
    List.not_mem_nil, or_false] at hfm
  rcases hfm with (((h | h) | h) | h) | h
  · rcases h with rfl | rfl | rfl
    · exact ⟨plain _ rfl, lit2 _ rfl, by decide⟩
    · exact ⟨plain _ rfl, datatype_plain _ _ _, by
        have := datatype_length (lt_trans hND (by norm_num)) hNC type
        simp only [List.length_cons, List.length_nil]; omega⟩
    · exact ⟨plain _ rfl, lit2 _ rfl, by decide⟩
  · obtain ⟨mu, hmu, rfl⟩ := h
    refine ⟨tokn _ _ (by decide), dec2 _, ?_⟩
    have h1 := decimal_length (mu + 1) (by omega)
    have h2 := decimal_length (dims mu) (hd mu hmu)
    simp only [List.length_append, List.length_cons, List.length_nil]
    omega
  · rcases h with rfl | rfl | rfl
    · refine ⟨plain _ rfl, hex2, ?_⟩
      have := hexadecimal_length chksum.toNat chksum.isLt
      simp only [List.length_cons, List.length_nil]; omega
    · refine ⟨plain _ rfl, ht.1, ?_⟩
      have := ht.2
      simp only [List.length_cons, List.length_nil]; omega
    · refine ⟨plain _ rfl, hp.1, ?_⟩
      have := hp.2
      simp only [List.length_cons, List.length_nil]; omega
  · obtain ⟨mu, hmu, rfl⟩ := h
    refine ⟨tokn _ _ (by decide), lit2 _ rfl, ?_⟩
    have h1 := decimal_length (mu + 1) (by omega)
    simp only [List.length_append, List.length_cons, List.length_nil]
    omega
  · rcases h with rfl | rfl | rfl | rfl | rfl | rfl
    · exact ⟨plain _ rfl, lit2 _ rfl, by decide⟩
    · refine ⟨plain _ rfl, dec2 _, ?_⟩
      have := decimal_length flow hf
      simp only [List.length_cons, List.length_nil]; omega
    · refine ⟨plain _ rfl, hde.1, ?_⟩
      have := hde.2
      simp only [List.length_cons, List.length_nil]; omega
    · refine ⟨plain _ rfl, hu.1, ?_⟩
      have := hu.2
      simp only [List.length_cons, List.length_nil]; omega
    · refine ⟨plain _ rfl, hda.1, ?_⟩
      have := hda.2
      simp only [List.length_cons, List.length_nil]; omega
    · cases single <;> cases outBig <;>
        exact ⟨plain _ rfl, lit2 _ rfl, by decide⟩

theorem fields_length : (nerscFields single outBig ND NC dims flow tr plaq chksum details user date
    type).length = 12 + 2 * ND := by
  simp [nerscFields]; omega

/-- The header as `get_header` stores it. -/
def storedFields (fs : List (Str × Str)) : List (Str × Str) := fs.map fun f => (f.1, ' ' :: f.2)

theorem lookup_late (s : Str) (h1 : s.head? ≠ some 'D') (h2 : s.head? ≠ some 'B')
    (h3 : s ≠ (chars "HDR_VERSION")) (h4 : s ≠ (chars "STORAGE_FORMAT")) :
    get_string s (storedFields (nerscFields single outBig ND NC dims flow tr plaq chksum details
      user date type)) = get_string s (storedFields
        ([((chars "CHECKSUM"), hexadecimal chksum.toNat), ((chars "LINK_TRACE"), tr),
          ((chars "PLAQUETTE"), plaq)] ++
        [((chars "ENSEMBLE_ID"), (chars "ukqcd")), ((chars "SEQUENCE_NUMBER"), decimal flow),
          ((chars "ENSEMBLE_LABEL"), details), ((chars "CREATOR_MACHINE"), user),
          ((chars "CREATION_DATE"), date),
          ((chars "FLOATING_POINT"), (if single then (chars "IEEE32") else (chars "IEEE64")) ++
            (if outBig then (chars "BIG") else (chars "LITTLE")))])) := by
  have hdim : get_string s (storedFields ((List.range ND).map fun mu =>
      ((chars "DIMENSION_") ++ decimal (mu + 1), decimal (dims mu)))) = none := by
    apply get_string_none
    intro x hx
    simp only [storedFields, List.map_map, List.mem_map] at hx
    obtain ⟨mu, _, rfl⟩ := hx
    exact fun e => h1 (by rw [← e]; rfl)
  have hbou : get_string s (storedFields ((List.range ND).map fun mu =>
      ((chars "BOUNDARY_") ++ decimal (mu + 1), (chars "PERIODIC")))) = none := by
    apply get_string_none
    intro x hx
    simp only [storedFields, List.map_map, List.mem_map] at hx
    obtain ⟨mu, _, rfl⟩ := hx
    exact fun e => h2 (by rw [← e]; rfl)
  have hpre : get_string s (storedFields [((chars "HDR_VERSION"), (chars "1.0")),
      ((chars "DATATYPE"), datatype ND NC type), ((chars "STORAGE_FORMAT"), (chars "1.0"))])
      = none := by
    have h5 : s ≠ (chars "DATATYPE") := fun e => h1 (by rw [e]; rfl)
    simp only [storedFields, List.map_cons, List.map_nil, get_string, if_neg h3, if_neg h4,
      if_neg h5]
  unfold nerscFields
  unfold storedFields at *
  simp only [List.map_append, get_string_append, hdim, hbou, hpre, Option.none_or, Option.or_none]

theorem lookup_dim (mu : ℕ) (hmu : mu < ND) :
    get_string ((chars "DIMENSION_") ++ decimal (mu + 1)) (storedFields (nerscFields single outBig
      ND NC dims flow tr plaq chksum details user date type)) = some (' ' :: decimal (dims mu)) := by
  have hpre : get_string ((chars "DIMENSION_") ++ decimal (mu + 1))
      (storedFields [((chars "HDR_VERSION"), (chars "1.0")),
      ((chars "DATATYPE"), datatype ND NC type), ((chars "STORAGE_FORMAT"), (chars "1.0"))])
      = none := by
    simp [storedFields, get_string]
  have hdim : get_string ((chars "DIMENSION_") ++ decimal (mu + 1))
      (storedFields ((List.range ND).map fun mu =>
        ((chars "DIMENSION_") ++ decimal (mu + 1), decimal (dims mu))))
        = some (' ' :: decimal (dims mu)) := by
    rw [(C44_first_match _ _).1]
    refine ⟨(List.range mu).map fun nu =>
      ((chars "DIMENSION_") ++ decimal (nu + 1), ' ' :: decimal (dims nu)),
      (List.range (ND - (mu + 1))).map fun nu =>
        ((chars "DIMENSION_") ++ decimal (mu + 1 + nu + 1), ' ' :: decimal (dims (mu + 1 + nu))),
      ?_, ?_⟩
    · have : ND = mu + 1 + (ND - (mu + 1)) := by omega
      conv_lhs => rw [this, List.range_add, List.range_succ]
      simp [storedFields, Function.comp_def]
    · intro w hw
      rw [List.mem_map] at hw
      obtain ⟨nu, hnu, e⟩ := hw
      have e := decimal_injective (List.append_cancel_left (congrArg Prod.fst e))
      have := List.mem_range.1 hnu
      omega
  unfold nerscFields
  unfold storedFields at *
  simp only [List.map_append, get_string_append, hdim, hpre, Option.none_or, Option.some_or]

theorem read_dims_ok (hd : ∀ mu < ND, dims mu < 2 ^ 64) (old : ℕ → ℕ) (n mu : ℕ)
    (h : mu + n = ND) :
    read_dims (storedFields (nerscFields single outBig ND NC dims flow tr plaq chksum details
      user date type)) old n mu = .ok ((List.range n).map fun i => dims (mu + i)) := by
  induction n generalizing mu with
  | zero => rfl
  | succ n ih =>
    rw [read_dims, get_size_t, lookup_dim mu (by omega)]
    simp only [sscanf_decimal _ (hd mu (by omega)), Out.bind, Option.getD_some]
    rw [ih (mu + 1) (by omega)]
    simp only [List.range_succ_eq_map, List.map_cons, List.map_map, Nat.add_zero]
    congr 2
    apply List.map_congr_left
    intro i _
    simp only [Function.comp]
    congr 1
    omega

theorem storage_type_ok (ND NC : ℕ) (type : Store) :
    storage_type ND NC (' ' :: datatype ND NC type) = .ok type := by
  have h1 : (' ' :: datatype ND NC .small) ≠ (' ' :: datatype ND NC .gauge) := by
    intro e
    have := congrArg List.length e
    simp [datatype] at this
  have h2 : (' ' :: datatype ND NC .small) ≠ (' ' :: datatype ND NC .ncxnc) := by
    intro e
    have e := List.tail_eq_of_cons_eq e
    simp only [datatype, List.append_assoc] at e
    have e := List.append_cancel_left (List.append_cancel_left (List.append_cancel_left e))
    obtain ⟨d, l, hl⟩ := List.exists_cons_of_ne_nil (digs_ne 10 NC)
    have hd := digs_lt 10 NC (by norm_num) d (by rw [hl]; simp)
    rw [decimal_eq, hl] at e
    simp only [List.map_cons, List.cons_append, List.cons.injEq, List.nil_append] at e
    have e := e.2.2.2.2.2.2.2.1
    interval_cases d <;> revert e <;> decide
  have h3 : (' ' :: datatype ND NC .gauge) ≠ (' ' :: datatype ND NC .ncxnc) := by
    intro e
    have := congrArg List.length e
    simp [datatype] at this
  unfold storage_type
  cases type
  · rw [if_pos rfl]
  · rw [if_neg h1, if_pos rfl]
  · rw [if_neg h2, if_neg h3, if_pos rfl]

theorem lookup_datatype : get_string (chars "DATATYPE") (storedFields (nerscFields single outBig
      ND NC dims flow tr plaq chksum details user date type)) = some (' ' :: datatype ND NC type) := by
  simp [nerscFields, storedFields, get_string]

/-- What is read back from a written header, before the test of the trajectory number. -/
theorem get_header_written (hND : ND ≤ 18) (hNC : NC < 2 ^ 64)
    (hd : ∀ mu < ND, dims mu < 2 ^ 64) (hf : flow < 2 ^ 64) (ht : OneLine tr) (hp : OneLine plaq)
    (hde : OneLine details) (hu : OneLine user) (hda : OneLine date) (rest : Str) :
    get_header (write_header_NERSC single outBig ND NC dims flow tr plaq chksum details user date
      type ++ rest) = .ok (storedFields (nerscFields single outBig ND NC dims flow tr plaq chksum
        details user date type), rest) := by
  rw [write_fields]
  apply C44_well_formed
  · exact fields_well_formed (by omega) hNC hd hf ht hp hde hu hda
  · rw [fields_length]; omega

theorem lookup_flow (hf : flow < 2 ^ 64) (old : ℕ) : get_size_t (chars "SEQUENCE_NUMBER")
    (storedFields (nerscFields single outBig ND NC dims flow tr plaq chksum details user date type))
    old = .ok flow := by
  rw [get_size_t, lookup_late _ (by decide) (by decide) (by decide) (by decide)]
  simp [storedFields, get_string, sscanf_decimal flow hf, Out.bind]

/-- A written header with a nonzero trajectory number is accepted, for up to 18 dimensions, and
gives back trajectory number, dimensions, number format, storage type and checksum, and the
printed plaquette and trace; the file is left at the data. -/
theorem C45_nersc_partial (scanF : Str → Option Dbl) (hND : ND ≤ 18) (hNC : NC < 2 ^ 64)
    (hd : ∀ mu < ND, dims mu < 2 ^ 64) (h0 : flow ≠ 0) (hf : flow < 2 ^ 64) (ht : OneLine tr)
    (hp : OneLine plaq) (hde : OneLine details) (hu : OneLine user) (hda : OneLine date)
    (T Q : Dbl) (hT : scanF (' ' :: tr) = some T) (hQ : scanF (' ' :: plaq) = some Q)
    (oldFlow : ℕ) (oldDims : ℕ → ℕ) (rest : Str) :
    get_header_data_NERSC scanF ND NC oldFlow oldDims (write_header_NERSC single outBig ND NC dims
      flow tr plaq chksum details user date type ++ rest) =
      .ok (⟨flow, (List.range ND).map dims, !single, outBig, type, chksum, Q, T⟩, rest) := by
  have hs : get_uint32_t (chars "CHECKSUM") (storedFields (nerscFields single outBig ND NC dims flow
      tr plaq chksum details user date type)) = .ok chksum := by
    rw [get_uint32_t, lookup_late _ (by decide) (by decide) (by decide) (by decide)]
    simp [storedFields, get_string, sscanf_hexadecimal _ chksum.isLt, Out.bind]
  have hq : get_float scanF (chars "PLAQUETTE") (storedFields (nerscFields single outBig ND NC dims
      flow tr plaq chksum details user date type)) = .ok Q := by
    rw [get_float, lookup_late _ (by decide) (by decide) (by decide) (by decide)]
    simp [storedFields, get_string, hQ]
  have hl : get_float scanF (chars "LINK_TRACE") (storedFields (nerscFields single outBig ND NC dims
      flow tr plaq chksum details user date type)) = .ok T := by
    rw [get_float, lookup_late _ (by decide) (by decide) (by decide) (by decide)]
    simp [storedFields, get_string, hT]
  have hfp : get_string (chars "FLOATING_POINT") (storedFields (nerscFields single outBig ND NC dims
      flow tr plaq chksum details user date type)) = some (' ' ::
        ((if single then (chars "IEEE32") else (chars "IEEE64")) ++
            (if outBig then (chars "BIG") else (chars "LITTLE")))) := by
    rw [lookup_late _ (by decide) (by decide) (by decide) (by decide)]
    simp [storedFields, get_string]
  have hfo : floating_point (' ' :: ((if single then (chars "IEEE32") else (chars "IEEE64")) ++
            (if outBig then (chars "BIG") else (chars "LITTLE")))) = .ok (!single, outBig) := by
    cases single <;> cases outBig <;> decide
  have hdim := read_dims_ok (single := single) (outBig := outBig) (NC := NC) (flow := flow)
    (tr := tr) (plaq := plaq) (chksum := chksum) (details := details) (user := user) (date := date)
    (type := type) hd oldDims ND 0 (by omega)
  unfold get_header_data_NERSC
  rw [get_header_written hND hNC hd hf ht hp hde hu hda]
  simp only [Out.bind, lookup_flow hf, if_neg h0, hdim, hfp, hfo, lookup_datatype,
    storage_type_ok, hs, hq, hl, Nat.zero_add]

/-- The claim fails at trajectory number zero: the header of a configuration saved with that
number, otherwise entirely in order, is always refused. -/
theorem C45_zero_fails (scanF : Str → Option Dbl) (hND : ND ≤ 18) (hNC : NC < 2 ^ 64)
    (hd : ∀ mu < ND, dims mu < 2 ^ 64) (ht : OneLine tr) (hp : OneLine plaq) (hde : OneLine details)
    (hu : OneLine user) (hda : OneLine date) (oldFlow : ℕ) (oldDims : ℕ → ℕ) (rest : Str) :
    get_header_data_NERSC scanF ND NC oldFlow oldDims (write_header_NERSC single outBig ND NC dims
      0 tr plaq chksum details user date type ++ rest) = .fail := by
  unfold get_header_data_NERSC
  rw [get_header_written hND hNC hd (by norm_num) ht hp hde hu hda]
  simp only [Out.bind, lookup_flow (show 0 < 2 ^ 64 by norm_num), if_true]

end

/-- The claim also fails for long texts: with a label of 130 characters the continuation of the
line has no space, and reading the program's own header is undefined behaviour. -/
theorem C45_long_label_fails :
    get_header (write_header_NERSC false true 1 3 (fun _ => 4) 7 (chars "0.5") (chars "0.6") 0x1a#32
      (List.replicate 130 'a') (chars "me") (chars "Mon") .ncxnc) = .ub := by
  decide +kernel

/-- The hypotheses of `C45_nersc_partial` are met by an ordinary header. -/
example (scanF : Str → Option Dbl) (h : ∀ s, scanF s = some (some 1)) :
    get_header_data_NERSC scanF 4 3 0 (fun _ => 0)
      (write_header_NERSC false true 4 3 (fun mu => 8 + mu) 1200 (chars "0.001") (chars "0.588")
        0xdeadbeef#32 (chars "details") (chars "user") (chars "Mon Jan  1 00:00:00 2024") .ncxnc
        ++ (chars "data")) =
      .ok (⟨1200, [8, 9, 10, 11], true, true, .ncxnc, 0xdeadbeef#32, some 1, some 1⟩,
        (chars "data")) :=
  C45_nersc_partial scanF (by norm_num) (by norm_num) (fun mu _ => by omega) (by norm_num)
    (by norm_num) (by unfold OneLine; decide) (by unfold OneLine; decide)
    (by unfold OneLine; decide) (by unfold OneLine; decide) (by unfold OneLine; decide) _ _ (h _)
    (h _) _ _ _

end GLU.IO
