import Verif.IO.InputModel
import Verif.IO.XmlLemmas
import Mathlib.Data.List.TakeWhile

/-!
# The input file: properties

C47.
-/

namespace GLU.IO

/-! ## Specification -/

/-- A line of an input file as the documentation shows it: `TAG = VALUE`. -/
structure Line where
  tag : Str
  gap : Str
  gap' : Str
  value : Str
  stop : Str

/-- A word that fits a 64-byte buffer. -/
def Word64 (w : Str) : Prop := w ≠ [] ∧ w.length < 64 ∧ ∀ c ∈ w, isspace c = false

/-- White space. -/
def Blank (w : Str) : Prop := ∀ c ∈ w, isspace c = true

/-- Words separated by white space; the one after the equal sign may be missing. -/
def Line.Valid (l : Line) : Prop :=
  Word64 l.tag ∧ Word64 l.value ∧ Blank l.gap ∧ l.gap ≠ [] ∧ Blank l.gap' ∧ Blank l.stop ∧ l.stop ≠ []

/-- The text of a line. -/
def Line.text (l : Line) : Str := l.tag ++ l.gap ++ '=' :: l.gap' ++ l.value ++ l.stop

/-- The text of a file. -/
def fileOf (ls : List Line) : Str := (ls.map Line.text).flatten

/-- The value on the first line with a tag. -/
def firstValue (ls : List Line) (tag : Str) : Option Str :=
  (ls.find? fun l => decide (l.tag = tag)).map Line.value

/-- A line with single blanks. -/
def mkLine (tag value : Str) : Line := ⟨tag, [' '], [' '], value, ['\n']⟩

/-- The number of a line in the usual notation. -/
def hasNumber (ls : List Line) (tag : Str) (n : ℕ) : Prop := firstValue ls tag = some (decimal n)

/-- The tags every input file needs. -/
def requiredTags : List Str := [chars "MODE", chars "SEED", chars "CUTTYPE", chars "GFTYPE",
  chars "ACCURACY", chars "MAX_ITERS", chars "GF_TUNE", chars "BETA", chars "THERM", chars "ITERS",
  chars "OVER_ITERS", chars "SAVE", chars "MEASURE", chars "SMEARTYPE", chars "DIRECTION",
  chars "SMITERS", chars "U1_ALPHA", chars "U1_CHARGE", chars "U1_MEAS", chars "HEADER",
  chars "STORAGE"]

/-! ## Lemmas -/

theorem dropWhile_blank {g : Str} (hg : Blank g) (r : Str) :
    (g ++ r).dropWhile isspace = r.dropWhile isspace := by
  induction g with
  | nil => rfl
  | cons c g ih =>
    rw [List.cons_append, List.dropWhile_cons_of_pos (hg c (by simp))]
    exact ih fun c hc => hg c (by simp [hc])

theorem dropWhile_word {w : Str} (hw : ∀ c ∈ w, isspace c = false) (hne : w ≠ []) (r : Str) :
    (w ++ r).dropWhile isspace = w ++ r := by
  cases w with
  | nil => exact absurd rfl hne
  | cons c w => rw [List.cons_append, List.dropWhile_cons_of_neg (by simp [hw c])]

theorem takeWhile_word {w g : Str} (hw : ∀ c ∈ w, isspace c = false) (hg : Blank g) (hne : g ≠ [])
    (r : Str) : ((w ++ (g ++ r)).takeWhile fun c => !isspace c) = w := by
  induction w with
  | nil =>
    cases g with
    | nil => exact absurd rfl hne
    | cons c g =>
      rw [List.nil_append, List.cons_append, List.takeWhile_cons_of_neg (by simp [hg c])]
  | cons c w ih =>
    rw [List.cons_append, List.takeWhile_cons_of_pos (by simp [hw c]),
      ih fun c hc => hw c (by simp [hc])]

theorem dropWhile_not_word {w g : Str} (hw : ∀ c ∈ w, isspace c = false) (hg : Blank g) (hne : g ≠ [])
    (r : Str) : ((w ++ (g ++ r)).dropWhile fun c => !isspace c) = g ++ r := by
  induction w with
  | nil =>
    cases g with
    | nil => exact absurd rfl hne
    | cons c g =>
      rw [List.nil_append, List.cons_append, List.dropWhile_cons_of_neg (by simp [hg c])]
  | cons c w ih =>
    rw [List.cons_append, List.dropWhile_cons_of_pos (by simp [hw c]),
      ih fun c hc => hw c (by simp [hc])]

/-- One line is read as its two words; what is left starts with the white space after it. -/
theorem scanPair_line (g : Str) (hg : Blank g) (l : Line) (h : l.Valid) (r : Str) :
    scanPair (g ++ (l.text ++ r)) = some ((l.tag, some l.value), l.stop ++ r) := by
  obtain ⟨⟨h1, _, h1'⟩, ⟨h2, _, h2'⟩, h3, h3', h4, h5, h5'⟩ := h
  have ht : l.text ++ r = l.tag ++ (l.gap ++ ('=' :: (l.gap' ++ (l.value ++ (l.stop ++ r))))) := by
    simp [Line.text, List.append_assoc]
  rw [ht, scanPair]
  simp only [dropWhile_blank hg, dropWhile_word h1' h1, takeWhile_word h1' h3 h3',
    dropWhile_not_word h1' h3 h3', dropWhile_blank h3]
  rw [if_neg (by simp [h1]), List.dropWhile_cons_of_neg (by decide)]
  simp only [dropWhile_blank h4, dropWhile_word h2' h2, takeWhile_word h2' h5 h5',
    dropWhile_not_word h2' h5 h5']
  rw [if_neg (by simp [h2])]

/-- Only white space is the end of the file. -/
theorem scanPair_blank {g : Str} (hg : Blank g) : scanPair g = none := by
  have : g.dropWhile isspace = [] := by
    have := dropWhile_blank hg []
    simpa using this
  rw [scanPair]
  simp only [this, if_true]

/-- The table after some lines. -/
def tableOf (ntags : ℕ) (ls : List Line) (f : ℕ → Str × Str) : Table :=
  ⟨fun i => if h : ntags < i ∧ i - ntags - 1 < ls.length then
      ((ls[i - ntags - 1]).tag, (ls[i - ntags - 1]).value) else f i, ntags + ls.length + 1⟩

theorem pack_loop_lines (ls : List Line) : ∀ (fuel : ℕ) (g : Str) (t : Table),
    ls.length < fuel → Blank g → (∀ l ∈ ls, l.Valid) → t.ntags + ls.length < 64 →
    pack_loop fuel (g ++ fileOf ls) t = .ok (tableOf t.ntags ls t.input) := by
  induction ls with
  | nil =>
    intro fuel g t hf hg hv hl
    obtain ⟨fuel, rfl⟩ : ∃ k, fuel = k + 1 := ⟨fuel - 1, by simp at hf; omega⟩
    rw [pack_loop, show fileOf [] = [] from rfl, List.append_nil]
    simp only [scanPair_blank hg, tableOf]
    simp
  | cons l ls ih =>
    intro fuel g t hf hg hv hl
    obtain ⟨fuel, rfl⟩ : ∃ k, fuel = k + 1 := ⟨fuel - 1, by simp at hf; omega⟩
    have hv' := hv l (by simp)
    rw [pack_loop, show fileOf (l :: ls) = l.text ++ fileOf ls from rfl]
    simp only [scanPair_line g hg l hv', Option.getD_some]
    simp only [List.length_cons] at hl hf
    have c1 : ¬ (64 ≤ t.ntags + 1 ∨ 64 ≤ l.tag.length ∨ 64 ≤ l.value.length) := by
      have := hv'.1.2.1
      have := hv'.2.1.2.1
      omega
    rw [if_neg c1, ih fuel l.stop ⟨_, t.ntags + 1⟩ (by omega) hv'.2.2.2.2.2.1
      (fun x hx => hv x (by simp [hx])) (by simp only; omega)]
    simp only [tableOf, List.length_cons, Out.ok.injEq, Table.mk.injEq]
    refine ⟨?_, by omega⟩
    funext i
    by_cases h0 : i = t.ntags + 1
    · subst h0
      simp
    · by_cases h1 : t.ntags + 1 < i
      · obtain ⟨j, rfl⟩ : ∃ j, i = t.ntags + 1 + 1 + j := ⟨i - (t.ntags + 1 + 1), by omega⟩
        have e1 : t.ntags + 1 + 1 + j - (t.ntags + 1) - 1 = j := by omega
        have e2 : t.ntags + 1 + 1 + j - t.ntags - 1 = j + 1 := by omega
        by_cases h2 : j < ls.length
        · rw [dif_pos ⟨h1, by omega⟩, dif_pos ⟨by omega, by omega⟩]
          simp only [e1, e2, List.getElem_cons_succ]
        · rw [dif_neg (by omega), dif_neg (by omega), Function.update_of_ne h0]
      · rw [dif_neg (by omega), dif_neg (by omega), Function.update_of_ne h0]

theorem length_le_fileOf (ls : List Line) (hv : ∀ l ∈ ls, l.Valid) :
    ls.length ≤ (fileOf ls).length := by
  induction ls with
  | nil => simp
  | cons l ls ih =>
    have := ih fun x hx => hv x (by simp [hx])
    have h1 : 1 ≤ l.text.length := by
      simp [Line.text]
      omega
    rw [show fileOf (l :: ls) = l.text ++ fileOf ls from rfl, List.length_append, List.length_cons]
    omega

theorem pack_inputs_lines (n : ℕ) (ls : List Line) (hv : ∀ l ∈ ls, l.Valid)
    (hl : n + ls.length < 64) :
    pack_inputs n (fileOf ls) = .ok (tableOf n ls fun _ => ([], [])) := by
  have := length_le_fileOf ls hv
  have h := pack_loop_lines ls ((fileOf ls).length + 1) [] (Table.fresh n) (by omega)
    (by simp [Blank]) hv hl
  exact h

theorem find?_range_shift (p : ℕ → Bool) (n k : ℕ) (h : ∀ i < n, p i = false) :
    (List.range (n + k)).find? p = ((List.range k).find? fun i => p (n + i)).map (n + ·) := by
  rw [List.range_add, List.find?_append]
  have : (List.range n).find? p = none := by
    rw [List.find?_eq_none]
    intro x hx
    rw [h x (List.mem_range.1 hx)]
    simp
  rw [this, Option.none_or, List.find?_map]
  rfl

theorem find?_getElem (ls : List Line) (q : Line → Bool) :
    ((List.range ls.length).find? fun i => if h : i < ls.length then q ls[i] else false).bind
      (fun i => ls[i]?) = ls.find? q := by
  induction ls with
  | nil => rfl
  | cons l ls ih =>
    have hr : List.range (l :: ls).length = 0 :: (List.range ls.length).map Nat.succ :=
      List.range_succ_eq_map
    rw [hr, List.find?_cons]
    by_cases h : q l = true
    · simp [h, List.find?_cons]
    · simp only [Bool.not_eq_true] at h
      simp only [Nat.zero_lt_succ, dif_pos, List.getElem_cons_zero, h, List.find?_cons]
      rw [List.find?_map, ← ih]
      simp only [ite_self, dite_eq_ite]
      rw [Option.bind_map]
      simp only [Function.comp_def, Nat.succ_eq_add_one, List.length_cons,
        Nat.add_lt_add_iff_right, List.getElem_cons_succ, List.getElem?_cons_succ]

/-- The search finds the first line with the tag. -/
theorem search_tableOf (n : ℕ) (ls : List Line) (tag : Str) (ht : tag ≠ []) :
    (tag_search (tableOf n ls fun _ => ([], [])) tag).map
      (fun i => ((tableOf n ls fun _ => ([], [])).input i).2) = firstValue ls tag := by
  have key : tag_search (tableOf n ls fun _ => ([], [])) tag =
      ((List.range ls.length).find? fun i => if h : i < ls.length then decide (ls[i].tag = tag)
        else false).map (n + 1 + ·) := by
    rw [tag_search, show (tableOf n ls fun _ => ([], [])).ntags = (n + 1) + ls.length by
      simp only [tableOf]; omega]
    rw [find?_range_shift]
    · congr 2
      funext i
      have e : n + 1 + i - n - 1 = i := by omega
      by_cases h : i < ls.length
      · simp only [tableOf]
        rw [dif_pos ⟨by omega, by omega⟩, dif_pos h]
        simp only [e]
      · simp only [tableOf]
        rw [dif_neg (by omega), dif_neg h]
        simp [ht.symm]
    · intro i hi
      simp only [tableOf]
      rw [dif_neg (by omega)]
      simp [ht.symm]
  rw [key, firstValue, ← find?_getElem, Option.map_map]
  cases hf : (List.range ls.length).find? fun i => if h : i < ls.length then decide (ls[i].tag = tag)
        else false with
  | none => simp
  | some i =>
    have hi := List.mem_range.1 (List.mem_of_find?_eq_some hf)
    have e : n + 1 + i - n - 1 = i := by omega
    simp only [Option.map_some, Function.comp, Option.bind_some, tableOf]
    rw [dif_pos ⟨by omega, by omega⟩]
    simp only [e, List.getElem?_eq_getElem hi, Option.map_some]

theorem lookup_eq (t : Table) (tag : Str) : lookup t tag =
    match (tag_search t tag).map (fun i => (t.input i).2) with | none => .fail | some v => .ok v := by
  rw [lookup]
  cases tag_search t tag <;> rfl

theorem lookup_unchecked_eq (t : Table) (tag : Str) : lookup_unchecked t tag =
    match (tag_search t tag).map (fun i => (t.input i).2) with | none => .ub | some v => .ok v := by
  rw [lookup_unchecked]
  cases tag_search t tag <;> rfl

theorem lookup_tableOf (n : ℕ) (ls : List Line) (tag : Str) (ht : tag ≠ []) :
    lookup (tableOf n ls fun _ => ([], [])) tag =
      match firstValue ls tag with | none => .fail | some v => .ok v := by
  rw [lookup_eq, search_tableOf n ls tag ht]

theorem lookup_unchecked_tableOf (n : ℕ) (ls : List Line) (tag : Str) (ht : tag ≠ []) :
    lookup_unchecked (tableOf n ls fun _ => ([], [])) tag =
      match firstValue ls tag with | none => .ub | some v => .ok v := by
  rw [lookup_unchecked_eq, search_tableOf n ls tag ht]

/-! ## Theorems -/

/-- **C47, lookup.** For every file of at most 63 lines `TAG = VALUE` in any amount of white space,
the table is built, and looking up a tag gives the value on the first line with that tag, or the
reported failure when no line has it. -/
theorem C47_lookup_partial (ls : List Line) (hv : ∀ l ∈ ls, l.Valid) (hl : ls.length ≤ 63) :
    ∃ t, pack_inputs 0 (fileOf ls) = .ok t ∧ ∀ tag, tag ≠ [] →
      lookup t tag = match firstValue ls tag with | none => .fail | some v => .ok v :=
  ⟨_, pack_inputs_lines 0 ls hv (by omega), fun tag ht => lookup_tableOf 0 ls tag ht⟩

theorem setint_tableOf {n : ℕ} {ls : List Line} {tag : Str} (ht : tag ≠ []) {k : ℕ}
    (hk : k < 2 ^ 63) (h : hasNumber ls tag k) :
    setint (tableOf n ls fun _ => ([], [])) tag = .ok k := by
  rw [setint, lookup_tableOf n ls tag ht, h]
  simp only [Out.bind, strtol_decimal]
  have : isLong (k : ℤ) = true := by
    simp only [isLong, Bool.and_eq_true, decide_eq_true_eq]
    constructor
    · exact le_trans (by norm_num) (Int.natCast_nonneg k)
    · exact_mod_cast hk
  rw [this, if_pos rfl]
  simp only [toSize, Out.ok.injEq]
  have : ((k : ℤ) % 2 ^ 64) = k := Int.emod_eq_of_lt (Int.natCast_nonneg k) (by
    have : (k : ℤ) < 2 ^ 63 := by exact_mod_cast hk
    omega)
  rw [this]
  rfl

/-- **C47, numbers.** A number in the usual notation is read as that number. -/
theorem C47_number_partial (ls : List Line) (hv : ∀ l ∈ ls, l.Valid) (hl : ls.length ≤ 63) (tag : Str)
    (ht : tag ≠ []) (k : ℕ) (hk : k < 2 ^ 63) (h : hasNumber ls tag k) :
    ∃ t, pack_inputs 0 (fileOf ls) = .ok t ∧ setint t tag = .ok k :=
  ⟨_, pack_inputs_lines 0 ls hv (by omega), setint_tableOf ht hk h⟩

theorem get_input_data_lines (strtod : Str → Option Dbl) (ND NC seed0 : ℕ) (d : ℕ → ℕ)
    (ls : List Line) (hv : ∀ l ∈ ls, l.Valid) (hl : ls.length ≤ 63) :
    get_input_data strtod ND NC seed0 d 0 (fileOf ls) =
      get_input_table strtod ND NC seed0 d (tableOf 0 ls fun _ => ([], [])) := by
  rw [get_input_data, pack_inputs_lines 0 ls hv (by omega)]
  rfl

/-- Two tables in which all lookups agree. -/
structure SameTags (t t' : Table) : Prop where
  a : ∀ tag, tag ≠ [] → lookup t tag = lookup t' tag
  b : ∀ tag, tag ≠ [] → lookup_unchecked t tag = lookup_unchecked t' tag

theorem SameTags.int {t t' : Table} (h : SameTags t t') {tag : Str} (ht : tag ≠ []) :
    setint t tag = setint t' tag := by rw [setint, setint, h.a tag ht]

theorem SameTags.dbl {strtod : Str → Option Dbl} {t t' : Table} (h : SameTags t t') {tag : Str}
    (ht : tag ≠ []) : setdbl strtod t tag = setdbl strtod t' tag := by rw [setdbl, setdbl, h.a tag ht]

theorem chars_append_ne {c : Char} {l s : Str} : (c :: l) ++ s ≠ [] := by simp

theorem SameTags.dims {t t' : Table} (h : SameTags t t') (k : ℕ) : ∀ (mu : ℕ) (d : ℕ → ℕ),
    read_dimensions t k mu d = read_dimensions t' k mu d := by
  induction k with
  | zero => intros; rfl
  | succ k ih =>
    intro mu d
    rw [read_dimensions, read_dimensions, h.int (chars_append_ne), h.a _ chars_append_ne]
    cases setint t' (chars "DIM_" ++ decimal mu) <;> simp only [ih]

theorem SameTags.alphas {strtod : Str → Option Dbl} {t t' : Table} (h : SameTags t t') (k : ℕ) :
    ∀ mu, read_alphas strtod t k mu = read_alphas strtod t' k mu := by
  induction k with
  | zero => intros; rfl
  | succ k ih =>
    intro mu
    rw [read_alphas, read_alphas, h.dbl chars_append_ne, ih]

set_option maxRecDepth 4000 in
theorem SameTags.get {strtod : Str → Option Dbl} {ND NC seed0 : ℕ} {d : ℕ → ℕ} {t t' : Table}
    (h : SameTags t t') :
    get_input_table strtod ND NC seed0 d t = get_input_table strtod ND NC seed0 d t' := by
  have h1 : get_mode t seed0 = get_mode t' seed0 := by
    simp only [get_mode, h.a _ (List.cons_ne_nil _ _)]
  have h2 : read_cuts_struct strtod t = read_cuts_struct strtod t' := by
    simp only [read_cuts_struct, h.a _ (List.cons_ne_nil _ _), h.int (List.cons_ne_nil _ _),
      h.dbl (List.cons_ne_nil _ _)]
  have h3 : read_gf_struct strtod t = read_gf_struct strtod t' := by
    simp only [read_gf_struct, h.a _ (List.cons_ne_nil _ _), h.int (List.cons_ne_nil _ _),
      h.dbl (List.cons_ne_nil _ _)]
  have h4 : read_hb_struct strtod t = read_hb_struct strtod t' := by
    simp only [read_hb_struct, h.int (List.cons_ne_nil _ _), h.dbl (List.cons_ne_nil _ _)]
  have h5 : smearing_info strtod t ND = smearing_info strtod t' ND := by
    simp only [smearing_info, h.a _ (List.cons_ne_nil _ _), h.int (List.cons_ne_nil _ _), h.alphas]
  have h6 : read_suNC_x_U1 strtod t = read_suNC_x_U1 strtod t' := by
    simp only [read_suNC_x_U1, h.a _ (List.cons_ne_nil _ _), h.dbl (List.cons_ne_nil _ _)]
  have h7 : header_type t ND d = header_type t' ND d := by
    simp only [header_type, confno, h.a _ (List.cons_ne_nil _ _), h.int (List.cons_ne_nil _ _), h.dims]
  have h8 : ∀ m, out_details t NC m = out_details t' NC m := by
    intro m
    simp only [out_details, h.a _ (List.cons_ne_nil _ _)]
  simp only [get_input_table, h1, h2, h3, h4, h5, h6, h7, h8, h.b _ (List.cons_ne_nil _ _)]

/-- **C47, only the first line with a tag counts.** Two files in which every tag has the same first
value give the same result: the order of the lines, white space, repeated tags further down and
unknown tags make no difference. -/
theorem C47_order_partial (strtod : Str → Option Dbl) (ND NC seed0 : ℕ) (d : ℕ → ℕ)
    (ls ls' : List Line) (hv : ∀ l ∈ ls, l.Valid) (hv' : ∀ l ∈ ls', l.Valid)
    (hl : ls.length ≤ 63) (hl' : ls'.length ≤ 63)
    (h : ∀ tag, firstValue ls tag = firstValue ls' tag) :
    get_input_data strtod ND NC seed0 d 0 (fileOf ls) =
      get_input_data strtod ND NC seed0 d 0 (fileOf ls') := by
  rw [get_input_data_lines _ _ _ _ _ _ hv hl, get_input_data_lines _ _ _ _ _ _ hv' hl']
  apply SameTags.get
  constructor
  · intro tag ht
    rw [lookup_tableOf _ _ _ ht, lookup_tableOf _ _ _ ht, h]
  · intro tag ht
    rw [lookup_unchecked_tableOf _ _ _ ht, lookup_unchecked_tableOf _ _ _ ht, h]

theorem Out.bind_eq_ok {α β : Type} {x : Out α} {f : α → Out β} {y : β} (h : x.bind f = .ok y) :
    ∃ a, x = .ok a ∧ f a = .ok y := by
  cases x with
  | ok a => exact ⟨a, rfl, h⟩
  | fail => simp [Out.bind] at h
  | ub => simp [Out.bind] at h

theorem setint_present {n : ℕ} {ls : List Line} {tag : Str} (ht : tag ≠ []) {k : ℕ}
    (h : setint (tableOf n ls fun _ => ([], [])) tag = .ok k) : firstValue ls tag ≠ none := by
  rw [setint, lookup_tableOf _ _ _ ht] at h
  obtain ⟨a, ha, -⟩ := Out.bind_eq_ok h
  intro hc
  simp [hc] at ha

theorem setdbl_present {strtod : Str → Option Dbl} {n : ℕ} {ls : List Line} {tag : Str} (ht : tag ≠ [])
    {k : Dbl} (h : setdbl strtod (tableOf n ls fun _ => ([], [])) tag = .ok k) :
    firstValue ls tag ≠ none := by
  rw [setdbl, lookup_tableOf _ _ _ ht] at h
  obtain ⟨a, ha, -⟩ := Out.bind_eq_ok h
  intro hc
  simp [hc] at ha

theorem lookup_present {n : ℕ} {ls : List Line} {tag : Str} (ht : tag ≠ []) {v : Str}
    (h : lookup (tableOf n ls fun _ => ([], [])) tag = .ok v) : firstValue ls tag = some v := by
  rw [lookup_tableOf _ _ _ ht] at h
  cases hc : firstValue ls tag <;> simp_all

theorem lookup_unchecked_present {n : ℕ} {ls : List Line} {tag : Str} (ht : tag ≠ []) {v : Str}
    (h : lookup_unchecked (tableOf n ls fun _ => ([], [])) tag = .ok v) :
    firstValue ls tag = some v := by
  rw [lookup_unchecked_tableOf _ _ _ ht] at h
  cases hc : firstValue ls tag <;> simp_all

/-- What a successful read says about the file. -/
structure Reads (ls : List Line) (r : Infile) : Prop where
  required : ∀ tag ∈ requiredTags, firstValue ls tag ≠ none
  head : firstValue ls (chars "HEADER") = some r.head
  details : firstValue ls (chars "CONFIG_INFO") = some r.details
  rtrans : ∃ v, firstValue ls (chars "RANDOM_TRANSFORM") = some v ∧ (r.rtrans = true ↔ v = chars "YES")
  mode : ∀ v ∈ [chars "GAUGE_FIXING", chars "CUTTING", chars "SMEARING", chars "SUNCxU1",
      chars "HEATBATH"], firstValue ls (chars "MODE") = some v → r.mode.1 = v
  iters : ∀ k < 2 ^ 63, hasNumber ls (chars "ITERS") k → r.hb.iterations = k
  over : ∀ k < 2 ^ 63, hasNumber ls (chars "OVER_ITERS") k → r.hb.Nor = k
  save : ∀ k < 2 ^ 63, hasNumber ls (chars "SAVE") k → r.hb.Nsave = k
  measure : ∀ k < 2 ^ 63, hasNumber ls (chars "MEASURE") k → r.hb.Nmeasure = k
  therm : ∀ k < 2 ^ 63, hasNumber ls (chars "THERM") k → r.hb.therm =
    if r.head = chars "UNIT" ∨ r.head = chars "RANDOM" then k else 0
  fix : ∀ k < 2 ^ 63, hasNumber ls (chars "MAX_ITERS") k → r.gf.2.2.1 = k
  smear : ∀ k < 2 ^ 63, hasNumber ls (chars "SMITERS") k → r.sm.2.2.1 = k
  continuation : r.continuation = true ↔ ¬ (r.head = chars "UNIT" ∨ r.head = chars "RANDOM")

theorem mode_eq {v : Str} (h : v ∈ [chars "GAUGE_FIXING", chars "CUTTING", chars "SMEARING",
    chars "SUNCxU1", chars "HEATBATH"]) : (if v = chars "GAUGE_FIXING" ∨ v = chars "CUTTING" ∨
      v = chars "SMEARING" ∨ v = chars "SUNCxU1" ∨ v = chars "HEATBATH" then v
      else chars "REWRITE") = v := by
  simp only [List.mem_cons, List.not_mem_nil, or_false] at h
  rw [if_pos h]

theorem header_type_head {t : Table} {ND : ℕ} {d : ℕ → ℕ} {a : Str × (ℕ → ℕ) × ℕ}
    (h : header_type t ND d = .ok a) : lookup t (chars "HEADER") = .ok a.1 := by
  rw [header_type] at h
  obtain ⟨v, hv, h⟩ := Out.bind_eq_ok h
  rw [hv]
  simp only at h
  split_ifs at h with h1 h2 h3 h4
  · cases h; rfl
  · obtain ⟨n, -, h⟩ := Out.bind_eq_ok h
    cases h; rfl
  · cases h; rfl

theorem out_details_present {t : Table} {NC : ℕ} {m : Str} {o : Output}
    (h : out_details t NC m = .ok o) : ∃ v, lookup t (chars "STORAGE") = .ok v := by
  rw [out_details] at h
  obtain ⟨v, hv, -⟩ := Out.bind_eq_ok h
  exact ⟨v, hv⟩

theorem cuts_present {strtod : Str → Option Dbl} {t : Table} {o : Option CutInfo}
    (h : read_cuts_struct strtod t = .ok o) : ∃ v, lookup t (chars "CUTTYPE") = .ok v := by
  rw [read_cuts_struct] at h
  obtain ⟨v, hv, -⟩ := Out.bind_eq_ok h
  exact ⟨v, hv⟩

set_option maxRecDepth 8000 in
theorem reads_table {strtod : Str → Option Dbl} {ND NC seed0 : ℕ} {d : ℕ → ℕ} {ls : List Line}
    {r : Infile} (h : get_input_table strtod ND NC seed0 d (tableOf 0 ls fun _ => ([], [])) = .ok r) :
    Reads ls r := by
  have ne : ∀ {c : Char} {l : Str}, c :: l ≠ [] := fun {c l} => List.cons_ne_nil c l
  rw [get_input_table] at h
  simp only at h
  split_ifs at h with hub
  obtain ⟨mode, h1, h⟩ := Out.bind_eq_ok h
  obtain ⟨cuts, h2, h⟩ := Out.bind_eq_ok h
  obtain ⟨gf, h3, h⟩ := Out.bind_eq_ok h
  obtain ⟨hb, h4, h⟩ := Out.bind_eq_ok h
  obtain ⟨sm, h5, h⟩ := Out.bind_eq_ok h
  obtain ⟨u1, h6, h⟩ := Out.bind_eq_ok h
  obtain ⟨rt, h7, h⟩ := Out.bind_eq_ok h
  obtain ⟨head, h8, h⟩ := Out.bind_eq_ok h
  obtain ⟨storage, h9, h⟩ := Out.bind_eq_ok h
  obtain ⟨details, h10, h⟩ := Out.bind_eq_ok h
  clear hub
  rw [Out.ok.injEq] at h
  obtain ⟨vs, h9⟩ := out_details_present h9
  obtain ⟨vc, h2⟩ := cuts_present h2
  have hh := lookup_present ne (header_type_head h8)
  rw [get_mode] at h1
  obtain ⟨m, m1, h1⟩ := Out.bind_eq_ok h1
  obtain ⟨m', m2, h1⟩ := Out.bind_eq_ok h1
  obtain ⟨m'', m3, h1⟩ := Out.bind_eq_ok h1
  rw [Out.ok.injEq] at h1
  rw [read_gf_struct] at h3
  obtain ⟨ga, g1, h3⟩ := Out.bind_eq_ok h3
  obtain ⟨gb, g2, h3⟩ := Out.bind_eq_ok h3
  obtain ⟨gc, g3, h3⟩ := Out.bind_eq_ok h3
  obtain ⟨gd, g4, h3⟩ := Out.bind_eq_ok h3
  rw [Out.ok.injEq] at h3
  rw [read_hb_struct] at h4
  obtain ⟨b1, b1h, h4⟩ := Out.bind_eq_ok h4
  obtain ⟨b2, b2h, h4⟩ := Out.bind_eq_ok h4
  obtain ⟨b3, b3h, h4⟩ := Out.bind_eq_ok h4
  obtain ⟨b4, b4h, h4⟩ := Out.bind_eq_ok h4
  obtain ⟨b5, b5h, h4⟩ := Out.bind_eq_ok h4
  obtain ⟨b6, b6h, h4⟩ := Out.bind_eq_ok h4
  rw [Out.ok.injEq] at h4
  rw [smearing_info] at h5
  obtain ⟨s1, s1h, h5⟩ := Out.bind_eq_ok h5
  obtain ⟨s2, s2h, h5⟩ := Out.bind_eq_ok h5
  obtain ⟨s3, s3h, h5⟩ := Out.bind_eq_ok h5
  obtain ⟨s4, s4h, h5⟩ := Out.bind_eq_ok h5
  rw [Out.ok.injEq] at h5
  rw [read_suNC_x_U1] at h6
  obtain ⟨u, u1h, h6⟩ := Out.bind_eq_ok h6
  obtain ⟨u', u2h, h6⟩ := Out.bind_eq_ok h6
  obtain ⟨u'', u3h, h6⟩ := Out.bind_eq_ok h6
  have num : ∀ {tag : Str} {k k' : ℕ}, tag ≠ [] → setint (tableOf 0 ls fun _ => ([], [])) tag = .ok k' →
      k < 2 ^ 63 → hasNumber ls tag k → k' = k := by
    intro tag k k' ht hs hk hn
    rw [setint_tableOf ht hk hn, Out.ok.injEq] at hs
    exact hs.symm
  have some_ne : ∀ {tag v : Str}, firstValue ls tag = some v → firstValue ls tag ≠ none := by
    intro tag v h
    simp [h]
  subst h h1 h3 h4 h5
  constructor
  · intro tag ht
    simp only [requiredTags, List.mem_cons, List.not_mem_nil, or_false] at ht
    rcases ht with rfl | rfl | rfl | rfl | rfl | rfl | rfl | rfl | rfl | rfl | rfl | rfl | rfl | rfl |
      rfl | rfl | rfl | rfl | rfl | rfl | rfl
    exacts [some_ne (lookup_present ne m1), some_ne (lookup_present ne m2),
      some_ne (lookup_present ne h2), some_ne (lookup_present ne g1),
      setdbl_present ne g2, setint_present ne g3, setdbl_present ne g4, setdbl_present ne b1h,
      setint_present ne b2h, setint_present ne b3h, setint_present ne b4h, setint_present ne b5h,
      setint_present ne b6h, some_ne (lookup_present ne s1h), some_ne (lookup_present ne s2h),
      setint_present ne s3h, setdbl_present ne u1h, setdbl_present ne u2h,
      some_ne (lookup_present ne u3h), some_ne hh, some_ne (lookup_present ne h9)]
  · exact hh
  · exact lookup_unchecked_present ne h10
  · exact ⟨rt, lookup_unchecked_present ne h7, by simp⟩
  · intro v hv hm
    rw [lookup_present ne m1, Option.some.injEq] at hm
    subst hm
    exact mode_eq hv
  · intro k hk hn
    have := num ne b3h hk hn
    split_ifs <;> exact this
  · intro k hk hn
    have := num ne b4h hk hn
    split_ifs <;> exact this
  · intro k hk hn
    have := num ne b5h hk hn
    split_ifs <;> exact this
  · intro k hk hn
    have := num ne b6h hk hn
    split_ifs <;> exact this
  · intro k hk hn
    have := num ne b2h hk hn
    subst this
    by_cases hc : head.1 = chars "UNIT" ∨ head.1 = chars "RANDOM"
    · simp only [if_pos hc]
    · simp only [if_neg hc]
  · exact fun k hk hn => num ne g3 hk hn
  · exact fun k hk hn => num ne s3h hk hn
  · simp

/-- **C47, the whole file.** When the input file is accepted, every required tag is in it, and the
header, description, random transformation, mode and the integer parameters are those on the first
line with the corresponding tag (the number of thermalisation sweeps is zero for a continued
run). -/
theorem C47_fields_partial (strtod : Str → Option Dbl) (ND NC seed0 : ℕ) (d : ℕ → ℕ) (ls : List Line)
    (hv : ∀ l ∈ ls, l.Valid) (hl : ls.length ≤ 63) (r : Infile)
    (h : get_input_data strtod ND NC seed0 d 0 (fileOf ls) = .ok r) : Reads ls r := by
  rw [get_input_data_lines _ _ _ _ _ _ hv hl] at h
  exact reads_table h

/-- A complete input file for a heat-bath run. -/
def sampleLines : List Line := [mkLine (chars "MODE") (chars "HEATBATH"),
  mkLine (chars "HEADER") (chars "UNIT"), mkLine (chars "DIM_0") (chars "8"),
  mkLine (chars "DIM_1") (chars "8"), mkLine (chars "CONFNO") (chars "5"),
  mkLine (chars "RANDOM_TRANSFORM") (chars "NO"), mkLine (chars "SEED") (chars "7"),
  mkLine (chars "GFTYPE") (chars "LANDAU"), mkLine (chars "GF_TUNE") (chars "0.09"),
  mkLine (chars "ACCURACY") (chars "14"), mkLine (chars "MAX_ITERS") (chars "1000"),
  mkLine (chars "CUTTYPE") (chars "NONE"), mkLine (chars "SMEARTYPE") (chars "STOUT"),
  mkLine (chars "DIRECTION") (chars "ALL"), mkLine (chars "SMITERS") (chars "12"),
  mkLine (chars "ALPHA1") (chars "0.1"), mkLine (chars "U1_MEAS") (chars "U1_RECTANGLE"),
  mkLine (chars "U1_ALPHA") (chars "0.07"), mkLine (chars "U1_CHARGE") (chars "-1"),
  mkLine (chars "CONFIG_INFO") (chars "test"), mkLine (chars "STORAGE") (chars "NERSC_NCxNC"),
  mkLine (chars "BETA") (chars "6.0"), mkLine (chars "ITERS") (chars "1500"),
  mkLine (chars "MEASURE") (chars "1"), mkLine (chars "OVER_ITERS") (chars "3"),
  mkLine (chars "SAVE") (chars "25"), mkLine (chars "THERM") (chars "100"),
  mkLine (chars "SAVE") (chars "99")]

instance decWord64 (w : Str) : Decidable (Word64 w) := by unfold Word64; infer_instance
instance decBlank (w : Str) : Decidable (Blank w) := by unfold Blank; infer_instance
instance decLineValid (l : Line) : Decidable l.Valid := by unfold Line.Valid; infer_instance

theorem sampleLines_valid : ∀ l ∈ sampleLines, l.Valid := by decide +kernel

set_option maxRecDepth 20000 in
/-- The sample file is accepted. -/
theorem sample_accepted : ∃ r, get_input_data (fun _ => some (some 0)) 2 3 0 (fun _ => 0) 0
    (fileOf sampleLines) = .ok r ∧ r.hb.Nsave = 25 ∧ r.hb.therm = 100 ∧ r.dims 1 = 8 ∧ r.flow = 0 := by
  rw [get_input_data_lines _ _ _ _ _ _ sampleLines_valid (by decide)]
  refine ⟨_, rfl, ?_, ?_, ?_, ?_⟩ <;> decide +kernel

/-! ## Where the property fails -/

theorem pack_loop_many (ls : List Line) : ∀ (fuel : ℕ) (g : Str) (t : Table), Blank g →
    (∀ l ∈ ls, l.Valid) → t.ntags ≤ 63 → 64 ≤ t.ntags + ls.length →
    pack_loop fuel (g ++ fileOf ls) t = .ub := by
  induction ls with
  | nil =>
    intro fuel g t hg hv h1 h2
    simp at h2
    omega
  | cons l ls ih =>
    intro fuel g t hg hv h1 h2
    cases fuel with
    | zero => rfl
    | succ fuel =>
      have hv' := hv l (by simp)
      rw [pack_loop, show fileOf (l :: ls) = l.text ++ fileOf ls from rfl]
      simp only [scanPair_line g hg l hv', Option.getD_some]
      simp only [List.length_cons] at h2
      by_cases hc : 64 ≤ t.ntags + 1
      · rw [if_pos (Or.inl hc)]
      · have := hv'.1.2.1
        have := hv'.2.1.2.1
        rw [if_neg (by omega)]
        exact ih fuel l.stop ⟨_, t.ntags + 1⟩ hv'.2.2.2.2.2.1 (fun x hx => hv x (by simp [hx]))
          (by simp only; omega) (by simp only; omega)

/-- **C47 fails, long files.** A file of 64 or more lines writes outside the table. -/
theorem C47_many_fails (ls : List Line) (hv : ∀ l ∈ ls, l.Valid) (hl : 64 ≤ ls.length)
    (strtod : Str → Option Dbl) (ND NC seed0 : ℕ) (d : ℕ → ℕ) :
    get_input_data strtod ND NC seed0 d 0 (fileOf ls) = .ub := by
  rw [get_input_data, pack_inputs]
  have := pack_loop_many ls ((fileOf ls).length + 1) [] (Table.fresh 0) (by simp [Blank]) hv
    (by simp [Table.fresh]) (by simpa [Table.fresh] using hl)
  rw [List.nil_append] at this
  rw [this]
  rfl

/-- **C47 fails, second call.** The counter is never reset: after a file of `n` lines, a second file
of `m` lines writes outside the table already when `n + m` is 63 or more. -/
theorem C47_twice_fails (ls ls' : List Line) (hv : ∀ l ∈ ls, l.Valid) (hv' : ∀ l ∈ ls', l.Valid)
    (hl : ls.length ≤ 62) (hl' : 63 ≤ ls.length + ls'.length) :
    ∃ t, pack_inputs 0 (fileOf ls) = .ok t ∧ pack_inputs t.ntags (fileOf ls') = .ub := by
  refine ⟨_, pack_inputs_lines 0 ls hv (by omega), ?_⟩
  rw [pack_inputs]
  have := pack_loop_many ls' ((fileOf ls').length + 1) []
    (Table.fresh (tableOf 0 ls fun _ => ([], [])).ntags) (by simp [Blank]) hv'
    (by simp only [Table.fresh, tableOf]; omega) (by simp only [Table.fresh, tableOf]; omega)
  rwa [List.nil_append] at this

/-- **C47 fails, long values.** A value of 64 characters overflows its buffer. -/
theorem C47_long_fails : pack_inputs 0 (chars "CONFIG_INFO = " ++ List.replicate 64 'a' ++ ['\n']) =
    .ub := rfl

/-- **C47 fails, missing tags.** A file without `CONFIG_INFO`, or without `RANDOM_TRANSFORM`, makes
the program read before the table, whatever else is in the file. -/
theorem C47_missing_fails (strtod : Str → Option Dbl) (ND NC seed0 : ℕ) (d : ℕ → ℕ) (ls : List Line)
    (hv : ∀ l ∈ ls, l.Valid) (hl : ls.length ≤ 63)
    (h : firstValue ls (chars "CONFIG_INFO") = none ∨ firstValue ls (chars "RANDOM_TRANSFORM") = none) :
    get_input_data strtod ND NC seed0 d 0 (fileOf ls) = .ub := by
  rw [get_input_data_lines _ _ _ _ _ _ hv hl, get_input_table]
  simp only
  rw [if_pos]
  rcases h with h | h
  · have : lookup_unchecked (tableOf 0 ls fun _ => ([], [])) (chars "CONFIG_INFO") = .ub := by
      rw [lookup_unchecked_tableOf _ _ _ (List.cons_ne_nil _ _), h]
    rw [this]
    simp [Out.isUb]
  · have : lookup_unchecked (tableOf 0 ls fun _ => ([], [])) (chars "RANDOM_TRANSFORM") = .ub := by
      rw [lookup_unchecked_tableOf _ _ _ (List.cons_ne_nil _ _), h]
    rw [this]
    simp [Out.isUb]

/-- Every other missing tag is reported. -/
theorem C47_missing_partial (strtod : Str → Option Dbl) (ND NC seed0 : ℕ) (d : ℕ → ℕ) (ls : List Line)
    (hv : ∀ l ∈ ls, l.Valid) (hl : ls.length ≤ 63) (tag : Str) (ht : tag ∈ requiredTags)
    (h : firstValue ls tag = none) (r : Infile) :
    get_input_data strtod ND NC seed0 d 0 (fileOf ls) ≠ .ok r :=
  fun hr => (C47_fields_partial strtod ND NC seed0 d ls hv hl r hr).required tag ht h

/-- **C47 fails, negative numbers.** A negative number of trajectories between saves is accepted and
becomes 2^64 - 1; digits followed by anything are accepted as well. -/
theorem C47_negative_fails : ∃ t, pack_inputs 0 (chars "SAVE = -1\nITERS = 12abc\n") = .ok t ∧
    setint t (chars "SAVE") = .ok (2 ^ 64 - 1) ∧ setint t (chars "ITERS") = .ok 12 := by
  refine ⟨_, rfl, ?_, ?_⟩ <;> decide +kernel

/-- Without blanks around the equal sign the tag is not found. -/
theorem C47_glued : ∃ t, pack_inputs 0 (chars "SAVE=25\nITERS = 12\n") = .ok t ∧
    setint t (chars "SAVE") = .fail ∧ setint t (chars "ITERS") = .ok 12 := by
  refine ⟨_, rfl, ?_, ?_⟩ <;> decide +kernel

set_option maxRecDepth 20000 in
/-- **C47 fails, missing dimension.** For a unit start a missing dimension is not reported: the
lattice gets extents 8 and 0. -/
theorem C47_unit_fails : ∃ r, get_input_data (fun _ => some (some 0)) 2 3 0 (fun _ => 0) 0
    (fileOf (sampleLines.filter fun l => decide (l.tag ≠ chars "DIM_0"))) = .ok r ∧
    r.dims 0 = 8 ∧ r.dims 1 = 0 := by
  rw [get_input_data_lines _ _ _ _ _ _ (by decide +kernel) (by decide +kernel)]
  refine ⟨_, rfl, ?_, ?_⟩ <;> decide +kernel

end GLU.IO
