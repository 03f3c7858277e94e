import Verif.IO.XmlModel
import Verif.IO.LimeProps
import Verif.IO.HdrWriteProps
import Mathlib.Data.List.TakeWhile

/-! # Lemmas on the XML text of records -/

namespace GLU.IO

/-! ### Tokens -/

/-- A piece of an XML text: a tag or what stands between tags. -/
inductive Item
  | tag (s : Str)
  | text (s : Str)

/-- How it is written. -/
def Item.render : Item → Str
  | .tag s => '<' :: (s ++ ['>'])
  | .text s => s

/-- What is inside. -/
def Item.content : Item → Str
  | .tag s => s
  | .text s => s

/-- Not empty and free of angle brackets. -/
def Item.Valid (i : Item) : Prop := i.content ≠ [] ∧ ∀ c ∈ i.content, c ≠ '<' ∧ c ≠ '>'

/-- No two texts next to each other. -/
def alternating : List Item → Bool
  | [] => true
  | .tag _ :: l => alternating l
  | [.text _] => true
  | .text _ :: .tag _ :: l => alternating l
  | .text _ :: .text _ :: _ => false

theorem tokensFrom_append (p : Char → Bool) (s cur rest : Str) (h : ∀ c ∈ s, p c = false) :
    tokensFrom p cur (s ++ rest) = tokensFrom p (cur ++ s) rest := by
  induction s generalizing cur with
  | nil => simp
  | cons c s ih =>
    rw [List.cons_append, tokensFrom, h c List.mem_cons_self]
    simp only [Bool.false_eq_true, if_false]
    rw [ih _ fun c hc => h c (List.mem_cons_of_mem _ hc)]
    simp

theorem Item.Valid.free {i : Item} (h : i.Valid) :
    ∀ c ∈ i.content, (fun c => c == '<' || c == '>') c = false := by
  intro c hc
  have := h.2 c hc
  simp [this.1, this.2]

theorem xmlTokens_tag (s rest : Str) (h : (Item.tag s).Valid) :
    xmlTokens ((Item.tag s).render ++ rest) = s :: xmlTokens rest := by
  have hs : s ≠ [] := h.1
  unfold xmlTokens Item.render
  rw [List.cons_append, tokensFrom, if_pos (by decide), if_pos rfl, List.append_assoc,
    tokensFrom_append _ s _ _ h.free, List.nil_append, List.singleton_append, tokensFrom,
    if_pos (by decide), if_neg hs]

theorem xmlTokens_text (s t rest : Str) (h : (Item.text s).Valid) (ht : (Item.tag t).Valid) :
    xmlTokens ((Item.text s).render ++ ((Item.tag t).render ++ rest))
      = s :: t :: xmlTokens rest := by
  rw [← xmlTokens_tag t rest ht]
  have hs : s ≠ [] := h.1
  conv_lhs => unfold xmlTokens
  rw [show (Item.text s).render = s from rfl, tokensFrom_append _ s _ _ h.free, List.nil_append,
    Item.render, List.cons_append, tokensFrom, if_pos (by decide), if_neg hs]
  rw [xmlTokens, tokensFrom, if_pos (by decide), if_pos rfl]

theorem xmlTokens_last (s : Str) (h : (Item.text s).Valid) : xmlTokens s = [s] := by
  have hs : s ≠ [] := h.1
  have := tokensFrom_append _ s [] [] h.free
  rw [List.append_nil] at this
  rw [xmlTokens, this, List.nil_append, tokensFrom, if_neg hs]

theorem xmlTokens_render (l : List Item) (hv : ∀ i ∈ l, i.Valid) (ha : alternating l = true) :
    xmlTokens (l.flatMap Item.render) = l.map Item.content := by
  fun_induction alternating l with
  | case1 => rfl
  | case2 s l ih =>
    rw [List.flatMap_cons, xmlTokens_tag _ _ (hv _ List.mem_cons_self),
      ih (fun i hi => hv i (List.mem_cons_of_mem _ hi)) ha]
    rfl
  | case3 s =>
    simpa [Item.render, Item.content] using xmlTokens_last s (hv _ List.mem_cons_self)
  | case4 s t l ih =>
    rw [List.flatMap_cons, List.flatMap_cons, xmlTokens_text _ _ _ (hv _ List.mem_cons_self)
      (hv _ (List.mem_cons_of_mem _ List.mem_cons_self)),
      ih (fun i hi => hv i (List.mem_cons_of_mem _ (List.mem_cons_of_mem _ hi))) ha]
    rfl
  | case5 => cases ha

/-- Characters that survive the way to the file and back. -/
def Plain (s : Str) : Prop := ∀ c ∈ s, c.toNat < 256 ∧ c ≠ '\x00'

theorem ofBytes_ascii (s : Str) (h : Plain s) : ofBytes (ascii s) = s := by
  have hm : (ascii s).map (fun b => Char.ofNat b.toNat) = s := by
    unfold ascii
    rw [List.map_map]
    conv_rhs => rw [← List.map_id s]
    refine List.map_congr_left fun c hc => ?_
    simp only [Function.comp_apply, BitVec.toNat_ofNat, id]
    rw [Nat.mod_eq_of_lt (h c hc).1, Char.ofNat_toNat]
  rw [ofBytes, hm]
  unfold cstr
  refine List.takeWhile_eq_self_iff.2 fun c hc => ?_
  simp [(h c hc).2]

/-! ### Numbers -/

theorem digitChar_ascii (d : ℕ) (h : d < 16) : (Nat.digitChar d).toNat < 256 ∧
    Nat.digitChar d ≠ '\x00' ∧ Nat.digitChar d ≠ '<' ∧ Nat.digitChar d ≠ '>' ∧
    Nat.digitChar d ≠ '/' ∧ Nat.digitChar d ≠ '\t' := by
  interval_cases d <;> decide

theorem decimal_ne (n : ℕ) : decimal n ≠ [] := by
  rw [decimal_eq]; simpa using digs_ne 10 n

theorem decimal_chars (n : ℕ) : ∀ c ∈ decimal n, ∃ d < 10, c = Nat.digitChar d := by
  intro c hc
  rw [decimal_eq, List.mem_map] at hc
  obtain ⟨d, hd, rfl⟩ := hc
  exact ⟨d, digs_lt 10 n (by norm_num) d hd, rfl⟩

theorem hexadecimal_chars (n : ℕ) : ∀ c ∈ hexadecimal n, ∃ d < 16, c = Nat.digitChar d := by
  intro c hc
  rw [hexadecimal_eq, List.mem_map] at hc
  obtain ⟨d, hd, rfl⟩ := hc
  exact ⟨d, digs_lt 16 n (by norm_num) d hd, rfl⟩

theorem decimal_Plain (n : ℕ) : Plain (decimal n) := by
  intro c hc
  obtain ⟨d, hd, rfl⟩ := decimal_chars n c hc
  have := digitChar_ascii d (by omega)
  exact ⟨this.1, this.2.1⟩

theorem hexadecimal_Plain (n : ℕ) : Plain (hexadecimal n) := by
  intro c hc
  obtain ⟨d, hd, rfl⟩ := hexadecimal_chars n c hc
  have := digitChar_ascii d (by omega)
  exact ⟨this.1, this.2.1⟩

theorem decimal_valid (n : ℕ) : (Item.text (decimal n)).Valid := by
  refine ⟨decimal_ne n, fun c hc => ?_⟩
  obtain ⟨d, hd, rfl⟩ := decimal_chars n c hc
  have := digitChar_ascii d (by omega)
  exact ⟨this.2.2.1, this.2.2.2.1⟩

theorem decimal_head (n : ℕ) : ∃ d < 10, ∃ s, decimal n = Nat.digitChar d :: s := by
  obtain ⟨c, s, h⟩ := List.exists_cons_of_ne_nil (decimal_ne n)
  obtain ⟨d, hd, rfl⟩ := decimal_chars n c (by rw [h]; exact List.mem_cons_self)
  exact ⟨d, hd, s, h⟩

theorem strtol_decimal (n : ℕ) : strtol (decimal n) = some (n : ℤ) := by
  obtain ⟨d, hd, s, hs⟩ := decimal_head n
  have hp := digitChar_plain d (by omega)
  have h1 : (decimal n).dropWhile isspace = decimal n := by
    rw [hs, List.dropWhile_cons_of_neg (by simp [hp.1])]
  have hv : digitsOf 10 (decimal n) = digs 10 n := by
    rw [decimal_eq, digitsOf_map 10 (by norm_num) _ (digs_lt 10 n (by norm_num))]
  unfold strtol
  simp only [h1]
  have hm : ¬ ((decimal n).head? = some '-' ∨ (decimal n).head? = some '+') := by
    rw [hs]; simp [hp]
  have hm' : ¬ ((decimal n).head? = some '-') := fun h => hm (Or.inl h)
  rw [if_neg hm, hv, if_neg (digs_ne 10 n), if_neg hm', value_digs]

theorem realFront_decimal (n : ℕ) : realFront (decimal n) = decimal n := by
  obtain ⟨d, hd, s, hs⟩ := decimal_head n
  have hp := digitChar_plain d (by omega)
  have hq := digitChar_ascii d (by omega)
  rw [hs, realFront, List.dropWhile_cons_of_neg]
  simp [hp.2.1, hq.2.2.2.2.2]

theorem get_int_tag_decimal (tag : Str) (n : ℕ) (hn : n < 2 ^ 31) (l : List Str) :
    get_int_tag tag 0 (decimal n :: ('/' :: tag) :: l) = ((n : ℤ), l) := by
  obtain ⟨d, hd, s, hs⟩ := decimal_head n
  have hq := digitChar_ascii d (by omega)
  rw [get_int_tag, if_neg, realFront_decimal, strtol_decimal]
  · have hl : isLong (n : ℤ) = true := by
      simp only [isLong, Bool.and_eq_true, decide_eq_true_eq]; omega
    have hb : (n : ℤ).bmod (2 ^ 32) = n := by
      rw [Int.bmod_def]; omega
    simp only [hl, if_true, hb]
    rw [get_int_tag, if_pos]
    simp
  · rw [hs]
    simp only [List.isPrefixOf, Bool.and_eq_true, beq_iff_eq, not_and]
    intro h
    exact absurd h.symm hq.2.2.2.2.1

theorem strtolVal_decimal (n : ℕ) (hn : n < 2 ^ 63) : strtolVal (decimal n) = n := by
  rw [strtolVal, strtol_decimal]
  simp only [Option.getD_some]
  omega

theorem toSize_nat (n : ℕ) (hn : n < 2 ^ 64) : toSize (n : ℤ) = n := by
  unfold toSize; omega

/-! ### Steps of the parser -/

/-- The tokens the parser looks for, apart from the directions. -/
def keys : List Str := [chars "/scidacRecord", chars "/scidacFile", chars "/ildgFormat",
  chars "spacetime", chars "colors", chars "typesize", chars "precision", chars "dims",
  chars "suma", chars "field"]

theorem search_head (ND mu : ℕ) : (search ND mu).head? = some 'l' := by
  unfold search; repeat' split
  all_goals rfl

theorem search_no_space (ND mu : ℕ) : ' ' ∉ search ND mu := by
  unfold search
  repeat' split
  any_goals decide
  intro h
  rw [List.mem_cons] at h
  rcases h with h | h
  · exact absurd h (by decide)
  · exact (decimal_plain mu _ h).1 rfl

/-- A token the parser passes over. -/
def Other (ND : ℕ) (t : Str) : Prop := t ∉ keys ∧ ∀ mu, t ≠ search ND mu

theorem other_of_key {ND : ℕ} {t : Str} (h : t ∉ keys) (hl : t.head? ≠ some 'l') : Other ND t :=
  ⟨h, fun mu e => hl (e ▸ search_head ND mu)⟩

theorem other_of_space {ND : ℕ} {t : Str} (h : ' ' ∈ t) : Other ND t := by
  refine ⟨fun hk => ?_, fun mu e => search_no_space ND mu (e ▸ h)⟩
  have : ∀ t ∈ keys, ' ' ∉ t := by decide
  exact this t hk h

theorem other_of_head {ND : ℕ} {t : Str} {c : Char} (hc : t.head? = some c)
    (h : c ∉ chars "/sctpdfl") : Other ND t := by
  refine other_of_key (fun hk => ?_) (fun e => ?_)
  · have : ∀ t ∈ keys, ∀ c, t.head? = some c → c ∈ chars "/sctpdfl" := by
      intro t ht
      simp only [keys, List.mem_cons, List.not_mem_nil, or_false] at ht
      rcases ht with rfl | rfl | rfl | rfl | rfl | rfl | rfl | rfl | rfl | rfl <;>
        (intro c hc; rw [List.head?_cons, Option.some.injEq] at hc; subst hc; decide)
    exact h (this t hk c hc)
  · rw [hc, Option.some.injEq] at e
    exact h (by rw [e]; decide)

theorem other_decimal (ND n : ℕ) : Other ND (decimal n) := by
  obtain ⟨d, hd, s, hs⟩ := decimal_head n
  refine other_of_head (c := Nat.digitChar d) (by rw [hs]; rfl) ?_
  interval_cases d <;> decide

theorem geometry_none (ND : ℕ) (t : Str) (h : ∀ mu, t ≠ search ND mu) (mus : List ℕ) (l : List Str)
    (d : ℕ → ℕ) : geometry ND t mus l d = (l, d) := by
  induction mus with
  | nil => rfl
  | cons mu mus ih => rw [geometry, if_neg (h mu), ih]

theorem step_other {ND NC : ℕ} {t : Str} (h : Other ND t) (n : ℕ) (l : List Str) (x : Xml) :
    xml_loop ND NC (n + 1) (t :: l) x = xml_loop ND NC n l x := by
  have hk := h.1
  simp only [keys, List.mem_cons, List.not_mem_nil, or_false, not_or] at hk
  cases l <;> rw [xml_loop] <;> simp only [hk, geometry_none ND t h.2, if_false, or_self]

theorem step_spacetime (ND NC n v : ℕ) (hv : v < 2 ^ 31) (hv' : v = ND ∨ v = 0) (l : List Str)
    (x : Xml) : xml_loop ND NC (n + 1) (chars "spacetime" :: decimal v :: chars "/spacetime" :: l) x
      = xml_loop ND NC n l x := by
  have := get_int_tag_decimal (chars "spacetime") v hv l
  rw [xml_loop, if_neg (by decide), if_pos rfl, this]
  rw [if_neg]
  rintro ⟨h1, h2⟩
  rcases hv' with rfl | rfl
  · exact h2 rfl
  · exact h1 rfl

theorem step_spacetime_wrong (ND NC n v : ℕ) (hv : v < 2 ^ 31) (hv' : v ≠ ND) (hv0 : v ≠ 0)
    (l : List Str) (x : Xml) :
    xml_loop ND NC (n + 1) (chars "spacetime" :: decimal v :: chars "/spacetime" :: l) x
      = .ok (false, x) := by
  have := get_int_tag_decimal (chars "spacetime") v hv l
  rw [xml_loop, if_neg (by decide), if_pos rfl, this]
  rw [if_pos]
  exact ⟨Int.natCast_ne_zero.2 hv0, fun h => hv' (Int.natCast_inj.1 h)⟩

theorem step_colors (ND NC n v : ℕ) (hv : v < 2 ^ 31) (hv' : v = NC ∨ v = 0) (l : List Str)
    (x : Xml) : xml_loop ND NC (n + 1) (chars "colors" :: decimal v :: chars "/colors" :: l) x
      = xml_loop ND NC n l x := by
  have := get_int_tag_decimal (chars "colors") v hv l
  rw [xml_loop, if_neg (by decide), if_neg (by decide), if_pos rfl, this]
  rw [if_neg]
  rintro ⟨h1, h2⟩
  rcases hv' with rfl | rfl
  · exact h2 rfl
  · exact h1 rfl

theorem step_colors_wrong (ND NC n v : ℕ) (hv : v < 2 ^ 31) (hv' : v ≠ NC) (hv0 : v ≠ 0)
    (l : List Str) (x : Xml) :
    xml_loop ND NC (n + 1) (chars "colors" :: decimal v :: chars "/colors" :: l) x
      = .ok (false, x) := by
  have := get_int_tag_decimal (chars "colors") v hv l
  rw [xml_loop, if_neg (by decide), if_neg (by decide), if_pos rfl, this]
  rw [if_pos]
  exact ⟨Int.natCast_ne_zero.2 hv0, fun h => hv' (Int.natCast_inj.1 h)⟩

theorem step_typesize (ND NC n : ℕ) (single : Bool) (h0 : 0 < ND * (NC * NC))
    (hv : ND * (NC * NC) * 2 * (if single then 1 else 2) < 2 ^ 31) (l : List Str) (x : Xml) :
    xml_loop ND NC (n + 1) (chars "typesize" ::
        decimal (ND * (NC * NC) * 2 * (if single then 1 else 2)) :: chars "/typesize" :: l) x
      = xml_loop ND NC n l { x with ncxnc := true, double := !single } := by
  have := get_int_tag_decimal (chars "typesize") _ hv l
  rw [xml_loop, if_neg (by decide), if_neg (by decide), if_neg (by decide), if_pos rfl, this]
  have hz : (((ND * (NC * NC) * 2 * (if single then 1 else 2) : ℕ) : ℤ)) ≠ 0 := by
    cases single <;> simp <;> (simp at h0; omega)
  rw [if_pos hz]
  have e2 : 2 * ND * (NC * NC) = 2 * (ND * (NC * NC)) := by ring
  have e4 : 4 * ND * (NC * NC) = 4 * (ND * (NC * NC)) := by ring
  rw [e2, e4]
  generalize ND * (NC * NC) = m at *
  cases single
  · simp only [Bool.false_eq_true, if_false, Bool.not_false]
    rw [if_neg (by omega), if_pos (by omega)]
  · simp only [if_true, Bool.not_true]
    rw [if_pos (by omega)]

theorem step_precision (ND NC n : ℕ) (t : Str) (d : Bool)
    (ht : (t = chars "F" ∧ d = false) ∨ (t = chars "D" ∧ d = true) ∨ (t = chars "32" ∧ d = false) ∨
      (t = chars "64" ∧ d = true)) (l : List Str) (x : Xml) :
    xml_loop ND NC (n + 1) (chars "precision" :: t :: chars "/precision" :: l) x
      = xml_loop ND NC n l { x with double := d } := by
  have : get_prec_tag (chars "precision") (t :: chars "/precision" :: l) = .ok (some d, l) := by
    rcases ht with ⟨rfl, rfl⟩ | ⟨rfl, rfl⟩ | ⟨rfl, rfl⟩ | ⟨rfl, rfl⟩ <;>
      simp [get_prec_tag, prec_loop, Out.bind, List.isPrefixOf] <;> decide
  rw [xml_loop, if_neg (by decide), if_neg (by decide), if_neg (by decide), if_neg (by decide),
    if_pos rfl, this]
  rfl

/-! ### Dimensions -/

theorem words_cons (w rest : Str) (hw : w ≠ []) (h : ∀ c ∈ w, c ≠ ' ') :
    words (w ++ ' ' :: rest) = w :: words rest := by
  unfold words
  rw [tokensFrom_append _ _ _ _ (fun c hc => by simp [h c hc]), List.nil_append, tokensFrom,
    if_pos (by decide), if_neg hw]

theorem words_last (w : Str) (hw : w ≠ []) (h : ∀ c ∈ w, c ≠ ' ') : words w = [w] := by
  have := tokensFrom_append (fun c => c == ' ') w [] [] (fun c hc => by simp [h c hc])
  rw [List.append_nil] at this
  rw [words, this, List.nil_append, tokensFrom, if_neg hw]

theorem words_flat (l : List ℕ) (dims : ℕ → ℕ) (last : ℕ) :
    words ((l.flatMap fun mu => decimal (dims mu) ++ [' ']) ++ decimal last)
      = (l.map fun mu => decimal (dims mu)) ++ [decimal last] := by
  induction l with
  | nil => simpa using words_last _ (decimal_ne last) fun c hc => (decimal_plain last c hc).1
  | cons mu l ih =>
    rw [List.flatMap_cons, List.append_assoc, List.append_assoc, List.singleton_append,
      words_cons _ _ (decimal_ne _) (fun c hc => (decimal_plain _ c hc).1), ih]
    rfl

theorem words_dimsText (ND : ℕ) (hND : 0 < ND) (dims : ℕ → ℕ) :
    words (dimsText ND dims) = (List.range ND).map fun mu => decimal (dims mu) := by
  obtain ⟨n, rfl⟩ : ∃ n, ND = n + 1 := ⟨ND - 1, by omega⟩
  rw [dimsText, words_flat, List.range_succ, List.map_append]
  rfl

theorem decimal_not_close (n : ℕ) : decimal n ≠ chars "/dims" := by
  obtain ⟨d, hd, s, hs⟩ := decimal_head n
  rw [hs]
  intro h
  injection h with h _
  exact (digitChar_ascii d (by omega)).2.2.2.2.1 h

theorem set_dims_range (ND : ℕ) (dims : ℕ → ℕ) (hd : ∀ mu < ND, dims mu < 2 ^ 63) (k idx : ℕ)
    (hk : idx + k = ND) (d : ℕ → ℕ) :
    set_dims ND idx ((List.range' idx k).map fun mu => decimal (dims mu)) d
      = .ok fun mu => if idx ≤ mu ∧ mu < ND then dims mu else d mu := by
  induction k generalizing idx d with
  | zero =>
    rw [List.range'_zero, List.map_nil, set_dims]
    congr 1
    funext mu
    rw [if_neg (by omega)]
  | succ k ih =>
    rw [List.range'_succ, List.map_cons, set_dims, if_neg (fun h => decimal_not_close _ h.2),
      if_neg (by omega), ih (idx + 1) (by omega), strtolVal_decimal _ (hd idx (by omega)),
      toSize_nat _ (lt_trans (hd idx (by omega)) (by norm_num))]
    congr 1
    funext mu
    by_cases h : mu = idx
    · subst h
      rw [if_neg (by omega), if_pos (by omega), Function.update_self]
    · rw [Function.update_of_ne h]
      by_cases h2 : idx + 1 ≤ mu ∧ mu < ND
      · rw [if_pos h2, if_pos (by omega)]
      · rw [if_neg h2, if_neg (by omega)]

/-- The lattice read from a header: `dims` in the first `ND` directions. -/
def setAll (ND : ℕ) (dims d : ℕ → ℕ) : ℕ → ℕ := fun mu => if mu < ND then dims mu else d mu

theorem step_dims (ND NC n : ℕ) (hND : 0 < ND) (dims : ℕ → ℕ) (hd : ∀ mu < ND, dims mu < 2 ^ 63)
    (l : List Str) (x : Xml) : xml_loop ND NC (n + 1) (chars "dims" :: dimsText ND dims :: l) x
      = .ok (true, { x with dims := setAll ND dims x.dims }) := by
  rw [xml_loop, if_neg (by decide), if_neg (by decide), if_neg (by decide), if_neg (by decide),
    if_neg (by decide), if_pos rfl]
  have hw := words_dimsText ND hND dims
  have hne : words (dimsText ND dims) ≠ [] := by rw [hw]; simp; omega
  have hs := set_dims_range ND dims hd ND 0 (by omega) x.dims
  rw [← List.range_eq_range', ← hw] at hs
  simp only [hne, if_false, hs, Out.bind]
  congr 3
  funext mu
  simp [setAll]

theorem sscanf_hex_plain (n : ℕ) (h : n < 2 ^ 32) :
    sscanf 16 32 (hexadecimal n) = .ok (some n) := by
  have := sscanf_hexadecimal n h
  have hd : ∃ d < 16, ∃ s, hexadecimal n = Nat.digitChar d :: s := by
    obtain ⟨c, s, hs⟩ := List.exists_cons_of_ne_nil (show hexadecimal n ≠ [] by
      rw [hexadecimal_eq]; simpa using digs_ne 16 n)
    obtain ⟨d, hd, rfl⟩ := hexadecimal_chars n c (by rw [hs]; exact List.mem_cons_self)
    exact ⟨d, hd, s, hs⟩
  obtain ⟨d, hd, s, hs⟩ := hd
  have hp := digitChar_plain d hd
  have e : (' ' :: hexadecimal n).dropWhile isspace = (hexadecimal n).dropWhile isspace := by
    rw [List.dropWhile_cons_of_pos (by decide)]
  unfold sscanf at this ⊢
  rw [e] at this
  exact this

theorem step_suma (ND NC n v : ℕ) (hv : v < 2 ^ 32) (l : List Str) (x : Xml) :
    xml_loop ND NC (n + 1) (chars "suma" :: hexadecimal v :: chars "/suma" :: l) x
      = xml_loop ND NC n l { x with checksum := BitVec.ofNat 32 v } := by
  rw [xml_loop, if_neg (by decide), if_neg (by decide), if_neg (by decide), if_neg (by decide),
    if_neg (by decide), if_neg (by decide), if_pos rfl]
  have hne : hexadecimal v ≠ chars "/suma" := by
    intro h
    obtain ⟨d, hd, e⟩ := hexadecimal_chars v '/' (by rw [h]; decide)
    exact (digitChar_ascii d hd).2.2.2.2.1 e.symm
  have : suma_loop x.checksum (hexadecimal v :: chars "/suma" :: l) = .ok (BitVec.ofNat 32 v, l) := by
    rw [suma_loop, if_neg hne, sscanf_hex_plain v hv]
    simp only [Out.bind]
    rw [suma_loop, if_pos rfl]
  rw [this]
  rfl

end GLU.IO
