import Verif.IO.HdrModel

/-! # C44 and C45: text headers -/

namespace GLU.IO

/-! ### C44 -/

theorem chunks_flatten (k room : ℕ) (cur text : Str) :
    (chunks k room cur text).flatten = cur ++ text := by
  induction text generalizing room cur with
  | nil => unfold chunks; split <;> simp_all
  | cons c cs ih =>
    unfold chunks
    split
    · rw [List.flatten_cons, ih]; simp
    · rw [ih]; simp

theorem chunks_line (k room : ℕ) (cur l rest : Str) (hl : '\n' ∉ l) (hr : l.length < room) :
    chunks k room cur (l ++ '\n' :: rest) = (cur ++ l ++ ['\n']) :: chunks k k [] rest := by
  induction l generalizing room cur with
  | nil => simp [chunks]
  | cons c l ih =>
    have hc : ¬ (c = '\n' ∨ room ≤ 1) := by
      rintro (rfl | h)
      · exact hl (by simp)
      · simp at hr; omega
    rw [List.cons_append, chunks, if_neg hc, ih _ _ (fun h => hl (by simp [h])) (by
      simp at hr; omega)]
    simp

/-- A line `get_header` can digest: a token without spaces, a space, anything, an equals sign and
at least one more character (normally the newline). -/
def Digestible (s : Str) : Prop :=
  ∃ t u v : Str, s = t ++ ' ' :: u ++ '=' :: v ∧ ' ' ∉ t ∧ '=' ∉ u ∧ v ≠ []

theorem takeWhile_ne {α : Type*} [DecidableEq α] (c : α) (t r : List α) (h : c ∉ t) :
    (t ++ c :: r).takeWhile (· ≠ c) = t ∧ (t ++ c :: r).dropWhile (· ≠ c) = c :: r := by
  induction t with
  | nil => simp
  | cons a t ih =>
    have ha : a ≠ c := fun e => h (by simp [e])
    have := ih fun e => h (by simp [e])
    rw [List.cons_append, List.takeWhile_cons_of_pos (by simpa using ha),
      List.dropWhile_cons_of_pos (by simpa using ha), this.1, this.2]
    exact ⟨rfl, rfl⟩

theorem split_at {α : Type*} [DecidableEq α] (c : α) (s : List α) (h : c ∈ s) :
    ∃ t r, s = t ++ c :: r ∧ c ∉ t := by
  induction s with
  | nil => cases h
  | cons a s ih =>
    by_cases ha : a = c
    · exact ⟨[], s, by simp [ha], by simp⟩
    · obtain ⟨t, r, e, ht⟩ := ih ((List.mem_cons.1 h).resolve_left (Ne.symm ha))
      exact ⟨a :: t, r, by simp [e], by simp [ht, Ne.symm ha]⟩

/-- The value of a line is what stands between the first equals sign after the token and the last
character. -/
theorem token_line_ok (t u v : Str) (ht : ' ' ∉ t) (hu : '=' ∉ u) (hv : v ≠ []) :
    token_line (t ++ ' ' :: u ++ '=' :: v) = .ok (t, v.dropLast) := by
  have e : t ++ ' ' :: u ++ '=' :: v = t ++ ' ' :: (u ++ '=' :: v) := by simp
  have h1 := takeWhile_ne ' ' t (u ++ '=' :: v) ht
  have h2 := takeWhile_ne '=' u v hu
  rw [token_line, e, if_pos (by simp), h1.1, h1.2]
  refine (if_pos (show '=' ∈ u ++ '=' :: v by simp)).trans ?_
  simp only [List.tail_cons, h2.2]
  rw [if_neg hv]

theorem token_line_safe (s : Str) : token_line s ≠ .ub ↔ Digestible s := by
  constructor
  · intro h
    unfold token_line at h
    split at h
    · rename_i hs
      obtain ⟨t, r, rfl, ht⟩ := split_at ' ' s hs
      have h1 := takeWhile_ne ' ' t r ht
      simp only [h1.2, List.tail_cons] at h
      split at h
      · rename_i hq
        obtain ⟨u, v, rfl, hu⟩ := split_at '=' r hq
        have h2 := takeWhile_ne '=' u v hu
        rw [h2.2, List.tail_cons] at h
        split at h
        · exact absurd rfl h
        · rename_i hv; exact ⟨t, u, v, by simp, ht, hu, hv⟩
      · exact absurd rfl h
    · exact absurd rfl h
  · rintro ⟨t, u, v, rfl, ht, hu, hv⟩
    rw [token_line_ok t u v ht hu hv]
    simp

/-- The lines between the first line and the line `END_HEADER`. -/
def body (text : Str) : List Str :=
  (fgets_lines text).tail.takeWhile fun l => cstr l ≠ endLine

theorem token_loop_safe (hdr : List (Str × Str)) (lines : List Str)
    (h48 : hdr.length ≤ MAX_TOKENS) :
    token_loop hdr lines ≠ .ub ↔
      (∀ l ∈ lines.takeWhile fun l => cstr l ≠ endLine, Digestible (cstr l)) ∧
      hdr.length + (lines.takeWhile fun l => cstr l ≠ endLine).length
        ≤ MAX_TOKENS := by
  induction lines generalizing hdr with
  | nil => simp [token_loop, h48]
  | cons l more ih =>
    rw [token_loop]
    by_cases hl : cstr l = endLine
    · rw [if_pos hl, List.takeWhile_cons_of_neg (by simp [hl])]
      simp [h48]
    · rw [if_neg hl, List.takeWhile_cons_of_pos (by simpa using hl)]
      by_cases hd : Digestible (cstr l)
      · obtain ⟨t, u, v, e, ht, hu, hv⟩ := hd
        have hok := token_line_ok t u v ht hu hv
        rw [← e] at hok
        rw [hok, Out.bind]
        by_cases hn : hdr.length < MAX_TOKENS
        · rw [if_pos hn, ih _ (by simp; omega)]
          simp only [List.forall_mem_cons, List.length_append, List.length_cons, List.length_nil]
          constructor
          · rintro ⟨h1, h2⟩; exact ⟨⟨⟨t, u, v, e, ht, hu, hv⟩, h1⟩, by omega⟩
          · rintro ⟨⟨_, h1⟩, h2⟩; exact ⟨h1, by omega⟩
        · rw [if_neg hn]
          simp only [ne_eq, not_true, List.length_cons, false_iff]
          rintro ⟨_, h⟩; omega
      · have hub : token_line (cstr l) = .ub := by
          by_contra h; exact hd ((token_line_safe _).1 h)
        rw [hub, Out.bind]
        simp only [ne_eq, not_true, List.forall_mem_cons, false_iff]
        exact fun h => hd h.1.1

/-- The claim holds exactly for these texts: reading a header is free of undefined behaviour if
and only if the first line is not `BEGIN_HEADER`, or there are at most 48 lines before `END_HEADER`
and each has a space and, after it, an equals sign followed by something. -/
theorem C44_safe_partial (text : Str) : get_header text ≠ .ub ↔
    ((fgets_lines text).head?.map cstr ≠ some beginLine ∨
      (body text).length ≤ 48 ∧ ∀ l ∈ body text, Digestible (cstr l)) := by
  unfold get_header body
  cases fgets_lines text with
  | nil => simp
  | cons l more =>
    simp only [List.head?_cons, Option.map_some, List.tail_cons]
    by_cases hl : cstr l = beginLine
    · rw [if_neg (not_not.2 hl), token_loop_safe [] more (by decide)]
      simp [hl, MAX_TOKENS, and_comm]
    · rw [if_pos hl]
      simp only [ne_eq, reduceCtorEq, not_false_eq_true, true_iff]
      exact Or.inl (by simpa using hl)

/-- The first line with the key decides. -/
theorem C44_first_match (hdr : List (Str × Str)) (s : Str) :
    (∀ v, get_string s hdr = some v ↔
      ∃ a b, hdr = a ++ (s, v) :: b ∧ ∀ w, (s, w) ∉ a) ∧
    (get_string s hdr = none ↔ ∀ v, (s, v) ∉ hdr) := by
  induction hdr with
  | nil => simp [get_string]
  | cons tv hdr ih =>
    obtain ⟨t, v⟩ := tv
    by_cases h : s = t
    · subst h
      constructor
      · intro v'
        simp only [get_string, if_true, Option.some.injEq]
        constructor
        · rintro rfl; exact ⟨[], hdr, rfl, by simp⟩
        · rintro ⟨a, b, e, hn⟩
          cases a with
          | nil => simp at e; exact e.1
          | cons x a =>
            simp only [List.cons_append, List.cons.injEq] at e
            exact absurd (by rw [← e.1]; exact List.mem_cons_self) (hn v)
      · simp only [get_string, if_true, reduceCtorEq, false_iff]
        intro hn; exact hn v List.mem_cons_self
    · constructor
      · intro v'
        rw [get_string, if_neg h, ih.1]
        constructor
        · rintro ⟨a, b, e, hn⟩
          exact ⟨(t, v) :: a, b, by simp [e], fun w => by simp [h, hn w]⟩
        · rintro ⟨a, b, e, hn⟩
          cases a with
          | nil => simp at e; exact absurd e.1.1.symm h
          | cons x a =>
            simp only [List.cons_append, List.cons.injEq] at e
            exact ⟨a, b, e.2, fun w hw => hn w (List.mem_cons_of_mem _ hw)⟩
      · rw [get_string, if_neg h, ih.2]
        simp [h]

/-- A well-formed line of a header. -/
structure WellFormed (t v : Str) : Prop where
  tok : ∀ c ∈ t, c ≠ ' ' ∧ c ≠ '\n' ∧ c ≠ '\x00'
  val : ∀ c ∈ v, c ≠ '\n' ∧ c ≠ '\x00'
  len : t.length + v.length ≤ 123

theorem cstr_clean (l : Str) (h : ∀ c ∈ l, c ≠ '\x00') : cstr l = l := by
  unfold cstr
  induction l with
  | nil => rfl
  | cons a l ih =>
    rw [List.takeWhile_cons_of_pos (by simpa using h a List.mem_cons_self),
      ih fun c hc => h c (List.mem_cons_of_mem _ hc)]

theorem mem_not_clean {c : Char} {l : Str} (h : ∀ x ∈ l, x ≠ c) : c ∉ l := fun hm => h c hm rfl

theorem fgets_field (t v rest : Str) (h : WellFormed t v) :
    fgets_lines (field t v ++ rest) = field t v :: fgets_lines rest := by
  have e : field t v ++ rest = (t ++ (chars " = ") ++ v) ++ '\n' :: rest := by simp [field]
  have hn : '\n' ∉ t ++ (chars " = ") ++ v := by
    have h1 := mem_not_clean fun x hx => (h.tok x hx).2.1
    have h2 := mem_not_clean fun x hx => (h.val x hx).1
    simp [h1, h2]
  have hl := h.len
  rw [fgets_lines, e, chunks_line _ _ _ _ _ hn (by simp [MAX_LINE_LENGTH]; omega)]
  rfl

theorem field_token (t v : Str) (h : WellFormed t v) :
    cstr (field t v) = field t v ∧ token_line (field t v) = .ok (t, ' ' :: v) ∧
      field t v ≠ endLine := by
  have hs : ' ' ∉ t := mem_not_clean fun x hx => (h.tok x hx).1
  refine ⟨cstr_clean _ fun c hc => ?_, ?_, ?_⟩
  · simp only [field, List.mem_append] at hc
    rcases hc with ((hc | hc) | hc) | hc
    · exact (h.tok c hc).2.2
    · revert hc; intro hc; fin_cases hc <;> decide
    · exact (h.val c hc).2
    · simp at hc; subst hc; decide
  · have := token_line_ok t [] (' ' :: (v ++ ['\n'])) hs (by simp) (by simp)
    have e : t ++ ' ' :: [] ++ '=' :: ' ' :: (v ++ ['\n']) = field t v := by simp [field]
    rw [e] at this
    rw [this]
    congr 2
    rw [show (' ' :: (v ++ ['\n'])) = (' ' :: v) ++ ['\n'] by simp, List.dropLast_concat]
  · intro e
    have : ' ' ∈ endLine := by rw [← e]; simp [field]
    revert this; decide

theorem token_loop_fields (fs : List (Str × Str)) (hf : ∀ f ∈ fs, WellFormed f.1 f.2)
    (hdr : List (Str × Str)) (hn : hdr.length + fs.length ≤ 48) (rest : Str) :
    token_loop hdr (fgets_lines ((fs.flatMap fun f => field f.1 f.2) ++ endLine ++ rest))
      = .ok (hdr ++ fs.map fun f => (f.1, ' ' :: f.2), rest) := by
  induction fs generalizing hdr with
  | nil =>
    have e : endLine ++ rest = (chars "END_HEADER") ++ '\n' :: rest := by simp [endLine]
    rw [List.flatMap_nil, List.nil_append, e, fgets_lines,
      chunks_line _ _ _ _ _ (by decide) (by decide), token_loop]
    have : cstr ([] ++ (chars "END_HEADER") ++ ['\n']) = endLine := by decide
    simp only [this, if_true, chunks_flatten]
    simp
  | cons f fs ih =>
    have h := hf f List.mem_cons_self
    rw [List.flatMap_cons, List.append_assoc, List.append_assoc, fgets_field _ _ _ h, token_loop]
    obtain ⟨h1, h2, h3⟩ := field_token f.1 f.2 h
    simp only [h1, h2, if_neg h3, Out.bind]
    simp only [List.length_cons] at hn
    rw [if_pos (by simp [MAX_TOKENS]; omega), ← List.append_assoc,
      ih (fun g hg => hf g (List.mem_cons_of_mem _ hg)) _ (by simp; omega)]
    simp

/-- A well-formed header is read, every value is delivered and the file is left at the data. -/
theorem C44_well_formed (fs : List (Str × Str)) (hf : ∀ f ∈ fs, WellFormed f.1 f.2)
    (hn : fs.length ≤ 48) (rest : Str) :
    get_header (beginLine ++ (fs.flatMap fun f => field f.1 f.2)
      ++ endLine ++ rest) = .ok (fs.map fun f => (f.1, ' ' :: f.2), rest) := by
  have e : beginLine ++ (fs.flatMap fun f => field f.1 f.2)
      ++ endLine ++ rest = (chars "BEGIN_HEADER") ++ '\n' ::
        ((fs.flatMap fun f => field f.1 f.2) ++ endLine ++ rest) := by simp [beginLine]
  have hl := token_loop_fields fs hf [] (by simpa using hn) rest
  rw [fgets_lines] at hl
  rw [get_header, e, fgets_lines, chunks_line _ _ _ _ _ (by decide) (by decide)]
  have : cstr ([] ++ (chars "BEGIN_HEADER") ++ ['\n']) = beginLine := by decide
  simp only [this, ne_eq, not_true, if_false]
  rw [hl]
  simp

/-- The claim fails: a line without a space, a line without an equals sign, a value cut off by
the end of the file, and 49 fields. -/
theorem C44_fails :
    get_header (chars "BEGIN_HEADER\nCHECKSUM\nEND_HEADER\n") = .ub ∧
    get_header (chars "BEGIN_HEADER\nCHECKSUM 1a\nEND_HEADER\n") = .ub ∧
    get_header (chars "BEGIN_HEADER\nCHECKSUM =") = .ub ∧
    get_header (beginLine ++ (List.replicate 49 (chars "A = 1\n")).flatten
      ++ endLine) = .ub := by
  refine ⟨by decide, by decide, by decide, ?_⟩
  decide +kernel

end GLU.IO
